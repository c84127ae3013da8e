/- C22: values at coordinate perturbations. -/
import Verif.Ft.Grad
import Verif.Ft.Prefix
import Verif.Ft.AlgProps

set_option linter.unusedSectionVars false

namespace C3.Ft
open Finset
variable {K U X : Type} [Field K]

theorem evalCore_ok {e : Ev K U X} {Q : Qma U} (hQ : Q.WF) (hs : Q.Small e) (x : X) {out : List K}
    (ho : Q.nrows * Q.ncols ≤ out.length) :
    ∃ l, evalArr e (Q.nrows * Q.ncols) Q.funcs x out = .ok l ∧ l.length = out.length ∧
      ∀ j < Q.ncols, ∀ i < Q.nrows, l.getD (j * Q.nrows + i) 0 = Q.val e x i j := by
  refine ⟨_, evalArr_ok hQ hs x ho, ?_, fun j hj i hi => evalArr_getD hQ x hi hj _⟩
  have : Q.funcs.length = Q.nrows * Q.ncols := hQ
  rw [List.length_append, List.length_map, List.length_drop, this]; omega

theorem movK_ok {n : Nat} {src dst : List K} (h1 : n ≤ src.length) (h2 : n ≤ dst.length) :
    movK n src dst = .ok ((List.range n).map (fun i => src.getD i 0) ++ dst.drop n) := by
  rw [movK, forN_fill (off := 0) (fun i => src.getD i 0) (by omega)]
  · simp
  · intro j hj b _
    rw [rd_getD 0 (by omega), bind_ok, Nat.zero_add]

section
variable {e : Ev K U X} {ft : FT K U} {x : List X}

/-- Sizes of the per-dimension buffers (as allocated at ft.c:1257-1274). -/
structure DdLen (mr n : Nat) (s : Dd K) : Prop where
  lc : n ≤ s.c.length
  lb : n ≤ s.b.length
  lf : n ≤ s.f.length
  c : ∀ k < n, mr * mr ≤ (s.c.getD k []).length
  b : ∀ k < n, mr ≤ (s.b.getD k []).length
  f : ∀ k < n, mr ≤ (s.f.getD k []).length

/-- Contents after the forward sweep over cores `< n`. -/
structure FwdInv (e : Ev K U X) (ft : FT K U) (x : List X) (mr n : Nat) (s : Dd K) : Prop where
  len : DdLen mr ft.dim s
  f : ∀ k < n, ∀ c < ft.rk (k + 1), (s.f.getD k []).getD c 0 = preL e ft x (k + 1) c
  c : ∀ k < n, ∀ Q xk, ft.cores[k]? = some Q → x[k]? = some xk → ∀ j < ft.rk (k + 1), ∀ i < ft.rk k,
    (s.c.getD k []).getD (j * ft.rk k + i) 0 = Q.val e xk i j

theorem len_set {L : List (List K)} {n m k : Nat} {v : List K} (hL : ∀ j < n, m ≤ (L.getD j []).length) (hv : m ≤ v.length)
    (hk : k < L.length) : ∀ j < n, m ≤ ((L.set k v).getD j []).length := by
  intro j hj
  by_cases h : j = k
  · subst h; rw [getD_set_self _ _ hk]; exact hv
  · rw [getD_set_ne _ _ (Ne.symm h)]; exact hL j hj

theorem pertFwd_ok {mr n : Nat} {s : Dd K} (h : ft.WF) (hsm : ∀ Q ∈ ft.cores, Qma.Small e Q) (hx : ft.dim ≤ x.length)
    (hm1 : 1 ≤ mr) (hmr : ∀ k ≤ ft.dim, ft.rk k ≤ mr) (hn : n < ft.dim) (hs : FwdInv e ft x mr n s) :
    ∃ s', pertFwd e ft x n s = .ok s' ∧ FwdInv e ft x mr (n + 1) s' ∧ s'.b = s.b := by
  obtain ⟨Q, hQ1, hQ, hW, hr, hc, hr1, hr2⟩ := h.get hn
  have hxn : x[n]? = some x[n] := List.getElem?_eq_getElem (by omega)
  have m1 := hmr n (by omega)
  have m2 := hmr (n + 1) (by omega)
  have hsq : ft.rk n * ft.rk (n + 1) ≤ mr * mr := Nat.mul_le_mul m1 m2
  have hmm : mr ≤ mr * mr := Nat.le_mul_of_pos_left _ hm1
  obtain ⟨⟨lc, lb, lf, cc, cb, cf⟩, If, Ic⟩ := hs
  have lfn := cf n hn
  have lcn := cc n hn
  have hsQ := hsm Q (List.mem_of_getElem? hQ)
  rw [pertFwd, hQ1, bind_ok, rd_of_getElem? hxn, bind_ok]
  by_cases h0 : n = 0
  · subst h0
    have hz : ft.rk 0 = 1 := h.rk_zero
    obtain ⟨l, e1, e2, e3⟩ := evalCore_ok (e := e) hW hsQ x[0] (out := s.f.getD 0 []) (by rw [hr, hc, hz]; omega)
    rw [hr, hc, hz] at e3
    rw [if_pos rfl, rd_getD [] (by omega), bind_ok, e1, bind_ok, hr2, bind_ok, rd_getD [] (by omega), bind_ok,
      movK_ok (by rw [e2]; simp only [Nat.zero_add] at m2 hsq ⊢; omega) (by simp only [Nat.zero_add] at m2 hsq ⊢; omega), bind_ok, wr_ok _ (by omega), bind_ok, wr_ok _ (by omega), bind_ok, pure_eq_ok]
    have e3' : ∀ c < ft.rk (0 + 1), l.getD c 0 = Q.val e x[0] 0 c := by
      intro c hcc
      have := e3 c hcc 0 (by omega)
      rwa [Nat.mul_one, Nat.add_zero] at this
    refine ⟨_, rfl, ⟨⟨by simpa using lc, lb, by simpa using lf, len_set cc (by rw [List.length_append, List.length_map, List.length_range, List.length_drop]; omega) (by omega), cb,
      len_set cf (by omega) (by omega)⟩, ?_, ?_⟩, rfl⟩
    · intro k hk c hcc
      obtain rfl : k = 0 := by omega
      rw [getD_set_self _ _ (by omega), e3' c hcc, preL_one h hx hQ hxn]
    · intro k hk Q' xk hQ' hxk j hj i hi
      obtain rfl : k = 0 := by omega
      rw [hQ, Option.some.injEq] at hQ'
      rw [hxn, Option.some.injEq] at hxk
      subst hQ' hxk
      obtain rfl : i = 0 := by omega
      rw [getD_set_self _ _ (by omega), hz, Nat.mul_one]
      exact (getD_map_range _ _ _ hj).trans (e3' j hj)
  · obtain ⟨l, e1, e2, e3⟩ := evalCore_ok (e := e) hW hsQ x[n] (out := s.c.getD n []) (by rw [hr, hc]; omega)
    rw [hr, hc] at e3
    have lfp := cf (n - 1) (by omega)
    rw [if_neg h0, rd_getD [] (by omega), bind_ok, e1, bind_ok, hr1, bind_ok, hr2, bind_ok, rd_getD [] (by omega), bind_ok,
      rd_getD [] (by omega), bind_ok, dgemvT_ok (by omega) (by omega) (by omega), bind_ok, wr_ok _ (by omega), bind_ok,
      wr_ok _ (by omega), bind_ok, pure_eq_ok]
    refine ⟨_, rfl, ⟨⟨by simpa using lc, lb, by simpa using lf, len_set cc (by omega) (by omega), cb,
      len_set cf (by simp only [List.length_append, List.length_map, List.length_range, List.length_drop]; omega) (by omega)⟩, ?_, ?_⟩, rfl⟩
    · intro k hk c hcc
      by_cases hkn : k = n
      · subst hkn
        rw [getD_set_self _ _ (by omega), getD_map_range _ _ _ hcc, preL_succ h hx hn hQ hxn]
        refine sum_congr rfl fun i hi => ?_
        rw [mem_range] at hi
        have hk1 : k - 1 + 1 = k := by omega
        have := If (k - 1) (by omega) i (by rw [hk1]; exact hi)
        rw [hk1] at this
        rw [e3 c hcc i hi, this]
      · rw [getD_set_ne _ _ (Ne.symm hkn)]; exact If k (by omega) c hcc
    · intro k hk Q' xk hQ' hxk j hj i hi
      by_cases hkn : k = n
      · subst hkn
        rw [hQ, Option.some.injEq] at hQ'
        rw [hxn, Option.some.injEq] at hxk
        subst hQ' hxk
        rw [getD_set_self _ _ (by omega), e3 j hj i hi]
      · rw [getD_set_ne _ _ (Ne.symm hkn)]; exact Ic k (by omega) Q' xk hQ' hxk j hj i hi

theorem pertBwd_ok {mr t : Nat} {s : Dd K} (h : ft.WF) (hsm : ∀ Q ∈ ft.cores, Qma.Small e Q) (hx : ft.dim ≤ x.length)
    (hm1 : 1 ≤ mr) (hmr : ∀ k ≤ ft.dim, ft.rk k ≤ mr) (ht : t < ft.dim)
    (hs : FwdInv e ft x mr ft.dim s ∧ ∀ k, ft.dim - t ≤ k → k < ft.dim → ∀ r < ft.rk k, (s.b.getD k []).getD r 0 = sufR e ft x k r) :
    ∃ s', pertBwd e ft x t s = .ok s' ∧ FwdInv e ft x mr ft.dim s' ∧
      ∀ k, ft.dim - (t + 1) ≤ k → k < ft.dim → ∀ r < ft.rk k, (s'.b.getD k []).getD r 0 = sufR e ft x k r := by
  obtain ⟨n, hn⟩ : ∃ n, ft.dim = n + 1 + t := ⟨ft.dim - 1 - t, by omega⟩
  have hnt : ft.dim - 1 - t = n := by omega
  have hnd : n < ft.dim := by omega
  obtain ⟨Q, hQ1, hQ, hW, hr, hc, hr1, hr2⟩ := h.get hnd
  have hxn : x[n]? = some x[n] := List.getElem?_eq_getElem (by omega)
  have m1 := hmr n (by omega)
  have m2 := hmr (n + 1) (by omega)
  have hsq : ft.rk n * ft.rk (n + 1) ≤ mr * mr := Nat.mul_le_mul m1 m2
  obtain ⟨⟨⟨lc, lb, lf, cc, cb, cf⟩, If, Ic⟩, Ib⟩ := hs
  have lbn := cb n hnd
  have lcn := cc n hnd
  simp only [pertBwd]
  rw [hnt]
  by_cases h0 : t = 0
  · subst h0
    have hl : ft.rk (n + 1) = 1 := by rw [show n + 1 = ft.dim by omega]; exact h.rk_last
    obtain ⟨l, e1, e2, e3⟩ := evalCore_ok (e := e) hW (hsm Q (List.mem_of_getElem? hQ)) x[n] (out := s.b.getD n [])
      (by rw [hr, hc, hl]; omega)
    rw [hr, hc, hl] at e3
    rw [if_pos rfl, hQ1, bind_ok, rd_of_getElem? hxn, bind_ok, rd_getD [] (by omega), bind_ok, e1, bind_ok, wr_ok _ (by omega),
      bind_ok, pure_eq_ok]
    refine ⟨_, rfl, ⟨⟨lc, by simpa using lb, lf, cc, len_set cb (by omega) (by omega), cf⟩, If, Ic⟩, ?_⟩
    intro k hk1 hk2 r hr'
    obtain rfl : k = n := by omega
    have := e3 0 (by omega) r hr'
    rw [Nat.zero_mul, Nat.zero_add] at this
    rw [getD_set_self _ _ (by omega), this, sufR_last h hx (by omega) hQ hxn]
  · have lbn1 := cb (n + 1) (by omega)
    rw [if_neg h0, hr1, bind_ok, hr2, bind_ok, rd_getD [] (by omega), bind_ok, rd_getD [] (by omega), bind_ok,
      rd_getD [] (by omega), bind_ok, dgemvN_ok (by omega) (by omega) (by omega), bind_ok, wr_ok _ (by omega),
      bind_ok, pure_eq_ok]
    refine ⟨_, rfl, ⟨⟨lc, by simpa using lb, lf, cc, len_set cb
      (by simp only [List.length_append, List.length_map, List.length_range, List.length_drop]; omega) (by omega), cf⟩, If, Ic⟩, ?_⟩
    intro k hk1 hk2 r hr'
    by_cases hkn : k = n
    · subst hkn
      rw [getD_set_self _ _ (by omega), getD_map_range _ _ _ hr', sufR_step hQ hxn, hc]
      refine sum_congr rfl fun j hj => ?_
      rw [mem_range] at hj
      rw [Ic k hnd Q _ hQ hxn j hj r hr', Ib (k + 1) (by omega) (by omega) j hj]
    · rw [getD_set_ne _ _ (Ne.symm hkn)]; exact Ib k (by omega) hk2 r hr'

theorem pertVal_ok {mr n : Nat} {s : Dd K} {t t3 : List K} {p : X} {Q : Qma U} (h : ft.WF) (hx : ft.dim ≤ x.length) (h2 : 2 ≤ ft.dim)
    (hmr : ∀ k ≤ ft.dim, ft.rk k ≤ mr) (hm1 : 1 ≤ mr) (hn : n < ft.dim)
    (hs : FwdInv e ft x mr ft.dim s) (hb : ∀ k < ft.dim, ∀ r < ft.rk k, (s.b.getD k []).getD r 0 = sufR e ft x k r)
    (hQ : ft.cores[n]? = some Q) (hl : mr * mr ≤ t.length) (hl3 : mr * mr ≤ t3.length)
    (ht : ∀ j < Q.ncols, ∀ i < Q.nrows, t.getD (j * Q.nrows + i) 0 = Q.val e p i j) :
    ∃ t3', pertVal ft s n t t3 = .ok (value e ft.cores (x.set n p), t3') ∧ t3'.length = t3.length := by
  obtain ⟨Q', -, hQ', hW, hr, hc, hr1, hr2⟩ := h.get hn
  rw [hQ, Option.some.injEq] at hQ'
  subst hQ'
  rw [hr, hc] at ht
  have m1 := hmr n (by omega)
  have m2 := hmr (n + 1) (by omega)
  have hsq : ft.rk n * ft.rk (n + 1) ≤ mr * mr := Nat.mul_le_mul m1 m2
  have hmm : mr ≤ mr * mr := Nat.le_mul_of_pos_left _ hm1
  obtain ⟨⟨lc, lb, lf, cc, cb, cf⟩, If, Ic⟩ := hs
  rw [value_set h hx hn hQ, pertVal]
  by_cases h0 : n = 0
  · subst h0
    have lb1 := cb 1 (by omega)
    rw [if_pos rfl, hr2, bind_ok, rd_getD [] (by omega), bind_ok,
      ddot_ok (fun i hi => by omega) (fun i hi => by rw [Nat.zero_add] at hi m2; omega), bind_ok, pure_eq_ok]
    refine ⟨_, ?_, rfl⟩
    congr 2
    rw [h.rk_zero, sum_range_one]
    have : preL e ft x 0 0 = 1 := by simp [preL, pre]
    rw [this, one_mul]
    refine sum_congr rfl fun c hcc => ?_
    rw [mem_range] at hcc
    have e1 := ht c hcc 0 (by rw [h.rk_zero]; omega)
    rw [h.rk_zero, Nat.mul_one, Nat.add_zero] at e1
    rw [Nat.mul_one, e1, hb 1 (by omega) c hcc]
  · rw [if_neg h0]
    have hk1 : n - 1 + 1 = n := by omega
    by_cases hl' : n = ft.dim - 1
    · have e2 : ft.dim - 2 = n - 1 := by omega
      have lfn := cf (n - 1) (by omega)
      have hnd : n + 1 = ft.dim := by omega
      rw [if_pos hl', hr1, bind_ok, e2, rd_getD [] (by omega), bind_ok, ddot_ok (fun i hi => by omega) (fun i hi => by omega),
        bind_ok, pure_eq_ok]
      refine ⟨_, ?_, rfl⟩
      congr 2
      refine sum_congr rfl fun i hi => ?_
      rw [mem_range] at hi
      rw [hnd, h.rk_last, sum_range_one, sufR_end h hx, if_pos rfl]
      have e3 := ht 0 (by rw [hnd, h.rk_last]; omega) i hi
      have e4 := If (n - 1) (by omega) i (by rw [hk1]; exact hi)
      rw [hk1] at e4
      rw [Nat.zero_mul, Nat.zero_add] at e3
      simp only [Nat.mul_one] at *
      rw [e3, e4]; ring
    · have lfn := cf (n - 1) (by omega)
      have lbn := cb (n + 1) (by omega)
      rw [if_neg hl', hr1, bind_ok, hr2, bind_ok, rd_getD [] (by omega), bind_ok, dgemvN_ok (by omega) (by omega) (by omega),
        bind_ok, rd_getD [] (by omega), bind_ok,
        ddot_ok (fun i hi => by rw [List.length_append, List.length_map, List.length_range]; omega) (fun i hi => by omega),
        bind_ok, pure_eq_ok]
      refine ⟨(List.range (ft.rk n)).map (fun i => ∑ j ∈ range (ft.rk (n + 1)), t.getD (j * ft.rk n + i) 0 * (s.b.getD (n + 1) []).getD j 0)
        ++ t3.drop (ft.rk n), ?_, by rw [List.length_append, List.length_map, List.length_range, List.length_drop]; omega⟩
      congr 2
      refine sum_congr rfl fun i hi => ?_
      rw [mem_range] at hi
      have e4 := If (n - 1) (by omega) i (by rw [hk1]; exact hi)
      rw [hk1] at e4
      rw [Nat.mul_one, getD_map_range _ _ _ hi, e4, mul_comm]
      congr 1
      refine sum_congr rfl fun c hcc => ?_
      rw [mem_range] at hcc
      rw [ht c hcc i hi, hb (n + 1) (by omega) c hcc]

theorem preEval_ok (hsc : ft.Scratch) {mr : Nat} (hm : maxrank ft = .ok mr) :
    ∃ sc, preEval ft = .ok sc ∧ mr * mr ≤ sc.t1.length ∧ mr * mr ≤ sc.t2.length ∧ mr * mr ≤ sc.t3.length ∧ sc.onsol = 1 := by
  rw [preEval, hm, bind_ok, pure_eq_ok]
  exact ⟨_, rfl, (spaceFor_len hsc.s1 _).1, (spaceFor_len hsc.s2 _).1, (spaceFor_len hsc.s3 _).1, rfl⟩

/-- C22. For a train of dimension at least two, `function_train_eval_co_perturb` returns the value at `x`, and slots `2i`,
`2i+1` receive the values at `x` with coordinate `i` replaced by `pert[2i]`, `pert[2i+1]`. The per-dimension buffers may hold
anything, as long as they have the sizes of their allocation. -/
theorem coPerturb_value_partial {mr : Nat} (hm : maxrank ft = .ok mr) {dd : Dd K} (h : ft.WF) (hsc : ft.Scratch)
    (hsm : ∀ Q ∈ ft.cores, Qma.Small e Q) (hx : ft.dim ≤ x.length) (h2 : 2 ≤ ft.dim) (hdd : DdLen mr ft.dim dd)
    {pert : List X} (hp : 2 * ft.dim ≤ pert.length) {vals : List K} (hv : 2 * ft.dim ≤ vals.length) :
    ∃ vals', coPerturb e ft dd x pert vals = .ok (value e ft.cores x, vals') ∧ vals'.length = vals.length ∧
      ∀ i < 2 * ft.dim, ∃ p, pert[i]? = some p ∧ vals'[i]? = some (value e ft.cores (x.set (i / 2) p)) := by
  obtain ⟨mr', hm', hm1, hmr⟩ := rk_le_maxrank h
  obtain rfl : mr' = mr := by rw [hm] at hm'; exact (Except.ok.inj hm').symm
  obtain ⟨sc, hsc1, l1, l2, l3, -⟩ := preEval_ok hsc hm
  obtain ⟨s1, a1, a2⟩ := forN_spec (n := ft.dim) (s := dd) (body := pertFwd e ft x) (I := fun n s => FwdInv e ft x mr' n s)
    ⟨hdd, by omega, by omega⟩ (fun n hn s hs => by
      obtain ⟨s', b1, b2, -⟩ := pertFwd_ok h hsm hx hm1 hmr hn hs
      exact ⟨s', b1, b2⟩)
  obtain ⟨s2, b1, b2, b3⟩ := forN_spec (n := ft.dim) (s := s1) (body := pertBwd e ft x)
    (I := fun t s => FwdInv e ft x mr' ft.dim s ∧ ∀ k, ft.dim - t ≤ k → k < ft.dim → ∀ r < ft.rk k, (s.b.getD k []).getD r 0 = sufR e ft x k r)
    ⟨a2, by omega⟩ (fun t ht s hs => pertBwd_ok h hsm hx hm1 hmr ht hs)
  have b3' : ∀ k < ft.dim, ∀ r < ft.rk k, (s2.b.getD k []).getD r 0 = sufR e ft x k r := fun k hk => b3 k (by omega) hk
  obtain ⟨p, c1, c2, c3, c4, c5, c6⟩ := forN_spec (n := ft.dim) (s := (sc, vals)) (body := pertStep e ft pert s2)
    (I := fun n (p : Scr K × List K) => mr' * mr' ≤ p.1.t1.length ∧ mr' * mr' ≤ p.1.t2.length ∧ mr' * mr' ≤ p.1.t3.length ∧
      p.2.length = vals.length ∧ ∀ i < 2 * n, ∃ q, pert[i]? = some q ∧ p.2[i]? = some (value e ft.cores (x.set (i / 2) q)))
    ⟨l1, l2, l3, rfl, by omega⟩ (by
    rintro n hn ⟨sc, vs⟩ ⟨k1, k2, k3, k4, k5⟩
    obtain ⟨Q, hQ1, hQ, hW, hr, hc, hr1, hr2⟩ := h.get hn
    have hsq : Q.nrows * Q.ncols ≤ mr' * mr' := by
      rw [hr, hc]; exact Nat.mul_le_mul (hmr n (by omega)) (hmr (n + 1) (by omega))
    have hsQ := hsm Q (List.mem_of_getElem? hQ)
    have hp1 : 2 * n < pert.length := by omega
    have hp2 : 2 * n + 1 < pert.length := by omega
    dsimp only at k1 k2 k3 k4 k5
    obtain ⟨t1, f1, f2, f3⟩ := evalCore_ok (e := e) hW hsQ pert[2 * n] (out := sc.t1) (by omega)
    obtain ⟨t2, g1, g2, g3⟩ := evalCore_ok (e := e) hW hsQ pert[2 * n + 1] (out := sc.t2) (by omega)
    obtain ⟨t3, v1, v2⟩ := pertVal_ok h hx h2 hmr hm1 hn b2 b3' hQ (t := t1) (t3 := sc.t3) (by omega) k3 f3
    obtain ⟨t3', w1, w2⟩ := pertVal_ok h hx h2 hmr hm1 hn b2 b3' hQ (t := t2) (t3 := t3) (by omega) (by omega) g3
    have hv1 : 2 * n < vs.length := by omega
    have hv2 : 2 * n + 1 < vs.length := by omega
    refine ⟨_, by rw [pertStep, hQ1, bind_ok, rd_ok hp1, bind_ok, f1, bind_ok, rd_ok hp2, bind_ok, g1, bind_ok, v1, bind_ok,
      wr_ok _ hv1, bind_ok, w1, bind_ok, wr_ok _ (by rw [List.length_set]; exact hv2), bind_ok, pure_eq_ok], ?_⟩
    refine ⟨by rw [f2]; exact k1, by rw [g2]; exact k2, by rw [w2, v2]; exact k3, by simp [k4], ?_⟩
    intro i hi
    by_cases hi1 : i = 2 * n + 1
    · subst hi1
      refine ⟨_, List.getElem?_eq_getElem hp2, ?_⟩
      have e1 : (2 * n + 1) / 2 = n := by omega
      rw [e1, List.getElem?_set_self (by rw [List.length_set]; exact hv2)]
    · by_cases hi2 : i = 2 * n
      · subst hi2
        refine ⟨_, List.getElem?_eq_getElem hp1, ?_⟩
        have e1 : 2 * n / 2 = n := by omega
        rw [e1, List.getElem?_set_ne (by omega), List.getElem?_set_self hv1]
      · obtain ⟨q, q1, q2⟩ := k5 i (by omega)
        exact ⟨q, q1, by rw [List.getElem?_set_ne (Ne.symm hi1), List.getElem?_set_ne (Ne.symm hi2), q2]⟩)
  refine ⟨p.2, ?_, c5, c6⟩
  have hlast := h.rk_last
  have hz := h.rk_zero
  have hD : ft.dim - 1 + 1 = ft.dim := by omega
  have hf := b2.f (ft.dim - 1) (by omega) 0 (by rw [hD, hlast]; omega)
  rw [hD, ← value_last h hx] at hf
  have hlf := b2.len.f (ft.dim - 1) (by omega)
  have hlf' := b2.len.lf
  rw [coPerturb, rd_of_getElem? h.rank_zero, bind_ok, cassert_of (decide_eq_true rfl), bind_ok, rd_of_getElem? (h.rk_get (Nat.le_refl _)),
    bind_ok, cassert_of (decide_eq_true hlast), bind_ok, hsc1, bind_ok, a1, bind_ok, b1, bind_ok, c1, bind_ok,
    rd_getD [] (by omega), bind_ok, rd_getD 0 (by omega), bind_ok, hf, pure_eq_ok]

end

/-- With one dimension the routine reads `bprod[1]`, past the end of an array of one pointer. -/
theorem coPerturb_dim1_counterexample :
    coPerturb fnEv ⟨1, [1, 1], [⟨1, 1, [fun x => x]⟩], none, none, none⟩ ⟨[[0]], [[0]], [[0]]⟩ [3] [2, 4] [0, 0] = .error .oob := by
  rfl

/-- Non-vacuity: `x + y` at `(3, 4)` with perturbations, stale buffers. -/
example : ∃ vals, coPerturb fnEv fnFt ⟨[[7, 7, 7, 7], [7, 7, 7, 7]], [[9, 9], [9, 9]], [[5, 5], [5, 5]]⟩ [3, 4] [2, 5, 1, 6] [0, 0, 0, 0]
    = .ok (7, vals) ∧ vals[0]? = some 6 ∧ vals[3]? = some 9 := by
  have hm : maxrank fnFt = .ok 2 := rfl
  obtain ⟨vals, h1, -, h3⟩ := coPerturb_value_partial (e := fnEv) (x := [3, 4]) (pert := [2, 5, 1, 6]) (vals := [0, 0, 0, 0]) hm
    (dd := ⟨[[7, 7, 7, 7], [7, 7, 7, 7]], [[9, 9], [9, 9]], [[5, 5], [5, 5]]⟩) fnFt_ok.wf
    ⟨by rintro _ ⟨⟩, by rintro _ ⟨⟩, by rintro _ ⟨⟩⟩
    (fun Q hQ => by simp [fnFt] at hQ; rcases hQ with rfl | rfl <;> simp [Qma.Small])
    (by decide) (by decide) ⟨by decide, by decide, by decide, by decide, by decide, by decide⟩ (by decide) (by decide)
  refine ⟨vals, ?_, ?_, ?_⟩
  · rw [h1, fnFt_value]; norm_num
  · obtain ⟨q, q1, q2⟩ := h3 0 (by decide)
    simp only [List.getElem?_cons_zero, Option.some.injEq] at q1
    subst q1
    rw [q2]; show some (value fnEv fnFt.cores [2, 4]) = _
    rw [fnFt_value]; norm_num
  · obtain ⟨q, q1, q2⟩ := h3 3 (by decide)
    simp at q1
    subst q1
    rw [q2]; show some (value fnEv fnFt.cores [3, 6]) = _
    rw [fnFt_value]; norm_num

end C3.Ft
