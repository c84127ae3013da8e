/- C23: evaluation along a fiber of node indices; evaluation up to a core. -/
import Verif.Ft.Grad
import Verif.Ft.Prefix
import Verif.Ft.PertProps

set_option linter.unusedSectionVars false

namespace C3.Ft
open Finset
variable {K U X : Type} [Field K]

theorem forN_ext {α : Type} {n : Nat} {f g : Nat → α → C α} (h : ∀ i < n, ∀ s, f i s = g i s) (s : α) : forN n f s = forN n g s := by
  induction n with
  | zero => rfl
  | succ n ih =>
    rw [forN_succ, forN_succ, ih (fun i hi => h i (by omega))]
    congr 1
    funext s
    exact h n (by omega) s

section
variable {e : Ev K U X} {ft : FT K U} {x : List X}

theorem evalAt_ok {Q : Qma U} (hQ : Q.WF) (y : X) {out : List K} (ho : Q.nrows * Q.ncols ≤ out.length) :
    ∃ l, evalAt e (Q.nrows * Q.ncols) Q.funcs y 0 out = .ok l ∧ l.length = out.length ∧
      ∀ j < Q.ncols, ∀ i < Q.nrows, l.getD (j * Q.nrows + i) 0 = Q.val e y i j := by
  have hl : Q.funcs.length = Q.nrows * Q.ncols := hQ
  refine ⟨_, forN_fill (off := 0) (fun k => (Q.funcs.map (fun f => e.ev f y)).getD k 0) (by omega) ?_, ?_, ?_⟩
  · intro i hi b _
    rw [rd_ok (by omega), bind_ok]
    congr 1
    simp [List.getElem?_eq_getElem (show i < Q.funcs.length by omega)]
  · simp; omega
  · intro j hj i hi
    rw [List.take_zero, List.nil_append, getD_map_range _ _ _ (cm_idx_lt hi hj), map_getD_val]

/-- All locations of the varying core. -/
theorem tensor_ok {Q : Qma U} (hQ : Q.WF) {N : Nat} {ind : List X} (hi : N ≤ ind.length) :
    ∃ T, forN N (fun jj t => do
      let xj ← rd ind jj
      evalAt e (Q.nrows * Q.ncols) Q.funcs xj (jj * (Q.nrows * Q.ncols)) t) (List.replicate (Q.nrows * Q.ncols * N) 0) = .ok T ∧
      T.length = Q.nrows * Q.ncols * N ∧
      ∀ jj, (h : jj < N) → ∀ c < Q.ncols, ∀ i < Q.nrows,
        T.getD (jj * (Q.nrows * Q.ncols) + (c * Q.nrows + i)) 0 = Q.val e (ind[jj]'(by omega)) i c := by
  have hl : Q.funcs.length = Q.nrows * Q.ncols := hQ
  let g : Nat → Nat → K := fun k jj => match ind[jj]? with
    | some y => (Q.funcs.map (fun f => e.ev f y)).getD k 0
    | none => 0
  refine ⟨cm (Q.nrows * Q.ncols) N g, ?_, by simp, ?_⟩
  · rw [← forN_fill_cm (a := List.replicate (Q.nrows * Q.ncols * N) 0) (body := fun jj ii out => do
      let xj ← rd ind jj
      let f ← rd Q.funcs ii
      wr out (jj * (Q.nrows * Q.ncols) + ii) (e.ev f xj)) g (by simp) (by
      intro jj hj i hi' b _
      rw [rd_ok (by omega), bind_ok, rd_ok (by omega), bind_ok]
      congr 1
      simp [g, List.getElem?_eq_getElem (show jj < ind.length by omega), List.getElem?_eq_getElem (show i < Q.funcs.length by omega)])]
    refine forN_ext (fun jj hj s => ?_) _
    rw [rd_ok (by omega), bind_ok, evalAt]
    refine forN_ext (fun i _ s => ?_) _
    rw [bind_ok]
  · intro jj hj c hc i hi'
    rw [getD_cm _ _ (cm_idx_lt hi' hc) hj]
    simp only [g, List.getElem?_eq_getElem (show jj < ind.length by omega)]
    exact map_getD_val _ _ _

/-- Invariant of the two sweeps over fixed cores: the live buffer holds `v`. -/
structure FibInv (mr n : Nat) (v : Nat → K) (s : Scr K) : Prop where
  l1 : mr * mr ≤ s.t1.length
  l2 : mr * mr ≤ s.t2.length
  l3 : mr * mr ≤ s.t3.length
  val : ∀ r < n, (if s.onsol = 1 then s.t1 else s.t3).getD r 0 = v r

theorem fibLeft_ok {mr ii : Nat} {s : Scr K} (h : ft.WF) (hx : ft.dim ≤ x.length) (hm1 : 1 ≤ mr)
    (hmr : ∀ k ≤ ft.dim, ft.rk k ≤ mr) (hi : ii < ft.dim) (hs : FibInv mr (ft.rk ii) (preL e ft x ii) s) :
    ∃ s', fibLeft e ft x ii s = .ok s' ∧ FibInv mr (ft.rk (ii + 1)) (preL e ft x (ii + 1)) s' := by
  obtain ⟨Q, hQ1, hQ, hW, hr, hc, hr1, hr2⟩ := h.get hi
  have hxn : x[ii]? = some x[ii] := List.getElem?_eq_getElem (by omega)
  obtain ⟨l1, l2, l3, hv⟩ := hs
  have m1 := hmr ii (by omega)
  have m2 := hmr (ii + 1) (by omega)
  have hsq : ft.rk ii * ft.rk (ii + 1) ≤ mr * mr := Nat.mul_le_mul m1 m2
  have hmm : mr ≤ mr * mr := Nat.le_mul_of_pos_left _ hm1
  obtain ⟨l, e1, e2, e3⟩ := evalAt_ok (e := e) hW x[ii] (out := s.t2) (by rw [hr, hc]; omega)
  rw [hr, hc] at e3
  rw [fibLeft, hQ1, bind_ok, rd_of_getElem? hxn, bind_ok, e1, bind_ok]
  have key : ∀ (y : List K) (rest : List K), (∀ r < ft.rk ii, y.getD r 0 = preL e ft x ii r) → ∀ c < ft.rk (ii + 1),
      ((List.range (ft.rk (ii + 1))).map (fun j => ∑ i ∈ range (ft.rk ii), l.getD (j * ft.rk ii + i) 0 * y.getD i 0) ++ rest).getD c 0
        = preL e ft x (ii + 1) c := by
    intro y rest hy c hcc
    rw [getD_map_range _ _ _ hcc, preL_succ h hx hi hQ hxn]
    refine sum_congr rfl fun i hi' => ?_
    rw [mem_range] at hi'
    rw [e3 c hcc i hi', hy i hi']
  by_cases hon : s.onsol = 1
  · rw [if_pos hon] at hv
    rw [if_pos hon, hr1, bind_ok, hr2, bind_ok, dgemvT_ok (by omega) (by omega) (by omega), bind_ok, pure_eq_ok]
    refine ⟨_, rfl, l1, (by rw [e2]; exact l2), ?_, ?_⟩
    · simp only [List.length_append, List.length_map, List.length_range, List.length_drop]; omega
    · exact key s.t1 _ hv
  · rw [if_neg hon] at hv
    rw [if_neg hon, hr, hc, dgemvT_ok (by omega) (by omega) (by omega), bind_ok, pure_eq_ok]
    refine ⟨_, rfl, ?_, (by rw [e2]; exact l2), l3, ?_⟩
    · simp only [List.length_append, List.length_map, List.length_range, List.length_drop]; omega
    · exact key s.t3 _ hv

theorem fibRight_ok {mr n t : Nat} {s : Scr K} (h : ft.WF) (hx : ft.dim ≤ x.length) (hm1 : 1 ≤ mr)
    (hmr : ∀ k ≤ ft.dim, ft.rk k ≤ mr) (hn : ft.dim - 2 - t = n) (hi : n < ft.dim)
    (hs : FibInv mr (ft.rk (n + 1)) (sufR e ft x (n + 1)) s) :
    ∃ s', fibRight e ft x t s = .ok s' ∧ FibInv mr (ft.rk n) (sufR e ft x n) s' := by
  obtain ⟨Q, hQ1, hQ, hW, hr, hc, hr1, hr2⟩ := h.get hi
  have hxn : x[n]? = some x[n] := List.getElem?_eq_getElem (by omega)
  obtain ⟨l1, l2, l3, hv⟩ := hs
  have m1 := hmr n (by omega)
  have m2 := hmr (n + 1) (by omega)
  have hsq : ft.rk n * ft.rk (n + 1) ≤ mr * mr := Nat.mul_le_mul m1 m2
  have hmm : mr ≤ mr * mr := Nat.le_mul_of_pos_left _ hm1
  obtain ⟨l, e1, e2, e3⟩ := evalAt_ok (e := e) hW x[n] (out := s.t2) (by rw [hr, hc]; omega)
  rw [hr, hc] at e3
  rw [fibRight, hn, hQ1, bind_ok, rd_of_getElem? hxn, bind_ok, e1, bind_ok]
  have key : ∀ (y : List K) (rest : List K), (∀ r < ft.rk (n + 1), y.getD r 0 = sufR e ft x (n + 1) r) → ∀ r < ft.rk n,
      ((List.range (ft.rk n)).map (fun i => ∑ j ∈ range (ft.rk (n + 1)), l.getD (j * ft.rk n + i) 0 * y.getD j 0) ++ rest).getD r 0
        = sufR e ft x n r := by
    intro y rest hy r hrr
    rw [getD_map_range _ _ _ hrr, sufR_step hQ hxn, hc]
    refine sum_congr rfl fun j hj => ?_
    rw [mem_range] at hj
    rw [e3 j hj r hrr, hy j hj]
  by_cases hon : s.onsol = 1
  · rw [if_pos hon] at hv
    rw [if_pos hon, hr, hc, dgemvN_ok (by omega) (by omega) (by omega), bind_ok, pure_eq_ok]
    refine ⟨_, rfl, l1, (by rw [e2]; exact l2), ?_, ?_⟩
    · simp only [List.length_append, List.length_map, List.length_range, List.length_drop]; omega
    · exact key s.t1 _ hv
  · rw [if_neg hon] at hv
    rw [if_neg hon, hr, hc, dgemvN_ok (by omega) (by omega) (by omega), bind_ok, pure_eq_ok]
    refine ⟨_, rfl, ?_, (by rw [e2]; exact l2), l3, ?_⟩
    · simp only [List.length_append, List.length_map, List.length_range, List.length_drop]; omega
    · exact key s.t3 _ hv

theorem fibMat_ok {mr N v : Nat} {s : Scr K} {Q : Qma U} {ind : List X} {T : List K} (h : ft.WF) (hx : ft.dim ≤ x.length)
    (hm1 : 1 ≤ mr) (hmr : ∀ k ≤ ft.dim, ft.rk k ≤ mr) (hv : v < ft.dim) (hQ : ft.cores[v]? = some Q) (hN : N ≤ ind.length)
    (hT : T.length = Q.nrows * Q.ncols * N)
    (hT' : ∀ jj, (h : jj < N) → ∀ c < Q.ncols, ∀ i < Q.nrows,
        T.getD (jj * (Q.nrows * Q.ncols) + (c * Q.nrows + i)) 0 = Q.val e (ind[jj]'(by omega)) i c)
    (l1 : mr * mr ≤ s.t1.length) (l2 : mr * mr ≤ s.t2.length) (l3 : mr * mr ≤ s.t3.length) :
    ∃ m s', fibMat e ft x N v Q T s = .ok (m, s') ∧ m.length = ft.rk (v + 1) * N ∧ mr * mr ≤ s'.t1.length ∧
      mr * mr ≤ s'.t2.length ∧ mr * mr ≤ s'.t3.length ∧
      ∀ jj, (h : jj < N) → ∀ c < ft.rk (v + 1), m.getD (jj * ft.rk (v + 1) + c) 0
        = ∑ r ∈ range (ft.rk v), Q.val e (ind[jj]'(by omega)) r c * preL e ft x v r := by
  obtain ⟨Q', -, hQ', hW, hr, hc, hr1, hr2⟩ := h.get hv
  rw [hQ, Option.some.injEq] at hQ'
  subst hQ'
  rw [hr, hc] at hT hT'
  rw [fibMat]
  by_cases h0 : v = 0
  · subst h0
    have hz : ft.rk 0 = 1 := h.rk_zero
    rw [hz, Nat.one_mul] at hT
    rw [if_pos rfl, hr, hc, cassert_of (decide_eq_true hz), bind_ok, movK_ok (by omega) (by simp), bind_ok, pure_eq_ok]
    refine ⟨_, _, rfl, by simp, l1, l2, l3, ?_⟩
    intro jj hj c hcc
    have e1 := hT' jj hj c hcc 0 (by omega)
    rw [hz, Nat.one_mul, Nat.mul_one] at e1
    rw [getD_map_range _ _ _ (cm_idx_lt hcc hj), hz, sum_range_one]
    exact e1.trans (by simp [preL, pre])
  · obtain ⟨Q0, hQ01, hQ0, hW0, hr0, hc0, -, -⟩ := h.get (k := 0) (by omega)
    have hx0 : x[0]? = some x[0] := List.getElem?_eq_getElem (by omega)
    have hz : ft.rk 0 = 1 := h.rk_zero
    have m1 := hmr 1 (by omega)
    have mv := hmr v (by omega)
    have hmm : mr ≤ mr * mr := Nat.le_mul_of_pos_left _ hm1
    rw [Nat.zero_add] at hc0
    obtain ⟨t1, e1, e2, e3⟩ := evalAt_ok (e := e) hW0 x[0] (out := s.t1) (by rw [hr0, hc0, hz]; omega)
    rw [hr0, hc0, hz] at e3
    obtain ⟨s', f1, f2⟩ := forR_spec (a := 1) (b := v) (body := fibLeft e ft x) (s := { s with t1 := t1, onsol := 1 })
      (I := fun ii s => FibInv mr (ft.rk ii) (preL e ft x ii) s) (by omega)
      ⟨by rw [e2]; exact l1, l2, l3, by
        intro r hr'
        have := e3 r hr' 0 (by omega)
        rw [Nat.mul_one, Nat.add_zero] at this
        rw [preL_one h hx hQ0 hx0]
        exact this⟩
      (fun ii _ hii s hs => fibLeft_ok h hx hm1 hmr (by omega) hs)
    have hml : ft.rk v ≤ (if s'.onsol = 1 then s'.t1 else s'.t3).length := by
      have a := f2.l1; have b := f2.l3
      split <;> omega
    rw [if_neg h0, hQ01, bind_ok, rd_of_getElem? hx0, bind_ok, e1, bind_ok, f1, bind_ok, hr, hc]
    obtain ⟨L, hL⟩ : ∃ L, L = (if s'.onsol = 1 then s'.t1 else s'.t3) := ⟨_, rfl⟩
    have hLv := f2.val
    rw [← hL] at hml hLv ⊢
    have hmat := forN_fill_cm (n := ft.rk (v + 1)) (m := N) (a := List.replicate (ft.rk (v + 1) * N) 0) (body := fun jj j y => do
        let s ← forN (ft.rk v) (fun i s => do
          let a ← rd (T.drop (jj * (ft.rk v * ft.rk (v + 1)))) (j * ft.rk v + i)
          let b ← rd L i
          pure (s + a * b)) 0
        wr y (jj * ft.rk (v + 1) + j) s)
      (fun c jj => ∑ i ∈ range (ft.rk v), T.getD (jj * (ft.rk v * ft.rk (v + 1)) + (c * ft.rk v + i)) 0 * L.getD i 0) (by simp) (by
        intro jj hj c hcc b _
        rw [forN_sum (fun i => T.getD (jj * (ft.rk v * ft.rk (v + 1)) + (c * ft.rk v + i)) 0 * L.getD i 0), bind_ok, zero_add]
        intro i hi s
        have hlt := cm_idx_lt (cm_idx_lt hi hcc) hj
        rw [rd_getD 0 (by rw [List.length_drop]; omega), bind_ok, rd_getD 0 (by omega), bind_ok, getD_drop, pure_eq_ok])
    have hmat' : forN N (fun jj m => dgemvTAt (ft.rk v) (ft.rk (v + 1)) (T.drop (jj * (ft.rk v * ft.rk (v + 1)))) L
        (jj * ft.rk (v + 1)) m) (List.replicate (ft.rk (v + 1) * N) 0) = _ := hmat
    rw [hmat', bind_ok, pure_eq_ok]
    refine ⟨_, _, rfl, by simp, f2.l1, f2.l2, f2.l3, ?_⟩
    intro jj hj c hcc
    rw [getD_cm _ _ hcc hj]
    refine sum_congr rfl fun i hi => ?_
    rw [mem_range] at hi
    rw [hT' jj hj c hcc i hi, hLv i hi]

/-- C23. `function_train_eval_fiber_ind` writes to `out[j]` the value of the train at the fixed nodes with coordinate
`dim_vary` replaced by node `ind[j]`; every dimension, every varying coordinate, every number of nodes. -/
theorem fiberInd_value {N v : Nat} {ind : List X} {out : List K} (h : ft.WF) (hsc : ft.Scratch) (hx : ft.dim ≤ x.length)
    (hv : v < ft.dim) (hN : N ≤ ind.length) (ho : N ≤ out.length) :
    fiberInd e ft x N ind v out
      = .ok ((ind.take N).map (fun y => value e ft.cores (x.set v y)) ++ out.drop N) := by
  obtain ⟨mr, hm, hm1, hmr⟩ := rk_le_maxrank h
  obtain ⟨sc, hsc1, l1, l2, l3, -⟩ := preEval_ok hsc hm
  obtain ⟨Q, hQ1, hQ, hW, hr, hc, hr1, hr2⟩ := h.get hv
  obtain ⟨T, hT1, hT2, hT3⟩ := tensor_ok (e := e) hW hN
  obtain ⟨m, s, hm2, hml, k1, k2, k3, hmv⟩ := fibMat_ok (e := e) h hx hm1 hmr hv hQ hN hT2 hT3 l1 l2 l3
  have hlast := h.rk_last
  have hmm : mr ≤ mr * mr := Nat.le_mul_of_pos_left _ hm1
  have hval : ∀ jj, (hj : jj < N) → value e ft.cores (x.set v (ind[jj]'(by omega)))
      = ∑ c ∈ range (ft.rk (v + 1)), m.getD (jj * ft.rk (v + 1) + c) 0 * sufR e ft x (v + 1) c := by
    intro jj hj
    rw [value_set h hx hv hQ]
    simp only [mul_sum]
    rw [sum_comm]
    refine sum_congr rfl fun c hcc => ?_
    rw [hmv jj hj c (mem_range.1 hcc), sum_mul]
    exact sum_congr rfl fun r _ => by ring
  have hlist : ∀ g : Nat → K, (∀ jj, (hj : jj < N) → g jj = value e ft.cores (x.set v (ind[jj]'(by omega)))) →
      (List.range N).map g = (ind.take N).map (fun y => value e ft.cores (x.set v y)) := by
    intro g hg
    apply List.ext_getElem
    · simp; omega
    · intro i h1 h2
      simp only [List.length_map, List.length_range] at h1
      simp [hg i h1]
  rw [fiberInd, rd_of_getElem? h.rank_zero, bind_ok, cassert_of (decide_eq_true rfl), bind_ok, rd_of_getElem? (h.rk_get (Nat.le_refl _)),
    bind_ok, cassert_of (decide_eq_true hlast), bind_ok, hsc1, bind_ok, hQ1, bind_ok, hT1, bind_ok, hm2, bind_ok, fibOut]
  dsimp only
  by_cases hl : v = ft.dim - 1
  · have hd : v + 1 = ft.dim := by omega
    rw [hd, hlast] at hval hml
    rw [if_pos hl, movK_ok (by omega) ho]
    congr 2
    refine hlist _ fun jj hj => ?_
    rw [hval jj hj, sum_range_one, sufR_end h hx, if_pos rfl, Nat.mul_one, Nat.add_zero, mul_one]
  · obtain ⟨Ql, hQl1, hQl, hWl, hrl, hcl, -, -⟩ := h.get (k := ft.dim - 1) (by omega)
    have hd1 : ft.dim - 1 + 1 = ft.dim := by omega
    rw [hd1, hlast] at hcl
    have hxl : x[ft.dim - 1]? = some (x[ft.dim - 1]'(by omega)) := List.getElem?_eq_getElem (by omega)
    have ml := hmr (ft.dim - 1) (by omega)
    have mv := hmr (v + 1) (by omega)
    obtain ⟨t1, e1, e2, e3⟩ := evalAt_ok (e := e) hWl (x[ft.dim - 1]'(by omega)) (out := s.t1) (by rw [hrl, hcl]; omega)
    rw [hrl, hcl] at e3
    obtain ⟨s', f1, f2⟩ := forN_spec (n := ft.dim - 2 - v) (body := fibRight e ft x) (s := { s with t1 := t1, onsol := 1 })
      (I := fun t s => FibInv mr (ft.rk (ft.dim - 1 - t)) (sufR e ft x (ft.dim - 1 - t)) s)
      ⟨by rw [e2]; exact k1, k2, k3, by
        intro r hr'
        have := e3 0 (by omega) r hr'
        rw [Nat.zero_mul, Nat.zero_add] at this
        rw [Nat.sub_zero, sufR_last h hx hd1 hQl hxl]
        exact this⟩
      (fun t ht s hs => by
        have q1 : ft.dim - 1 - t = ft.dim - 2 - t + 1 := by omega
        have q2 : ft.dim - 1 - (t + 1) = ft.dim - 2 - t := by omega
        rw [q1] at hs
        rw [q2]
        exact fibRight_ok h hx hm1 hmr rfl (by omega) hs)
    have q3 : ft.dim - 1 - (ft.dim - 2 - v) = v + 1 := by omega
    rw [q3] at f2
    have hml' : ft.rk (v + 1) ≤ (if s'.onsol = 1 then s'.t1 else s'.t3).length := by
      have a := f2.l1; have b := f2.l3
      split <;> omega
    rw [if_neg hl, hQl1, bind_ok, rd_of_getElem? hxl, bind_ok, e1, bind_ok, f1, bind_ok, hc, dgemvT_ok (by omega) hml' ho]
    congr 2
    refine hlist _ fun jj hj => ?_
    rw [hval jj hj]
    exact sum_congr rfl fun c hcc => by rw [f2.val c (mem_range.1 hcc)]

end

/-- Non-vacuity: `x + y` along the second coordinate. -/
example : fiberInd fnEv fnFt [3, 0] 3 [1, 2, 5] 1 [0, 0, 0, 9] = .ok [4, 5, 8, 9] := by
  rw [fiberInd_value fnFt_ok.wf ⟨by rintro _ ⟨⟩, by rintro _ ⟨⟩, by rintro _ ⟨⟩⟩ (by decide) (by decide) (by decide) (by decide)]
  simp only [List.take, List.map_cons, List.map_nil, List.set, fnFt_value]
  norm_num

/-! ### C52: evaluation up to a core -/

/-- C52 for core 0: the row of the first core is returned with its length. The claim is false for later cores, see the
counterexample. -/
theorem evalUpTo_first_partial {e : Ev K U X} {ft : FT K U} {x : List X} {out : List K} (h : ft.WF) (hsc : ft.Scratch)
    (hsm : ∀ Q ∈ ft.cores, Qma.Small e Q) (hx : ft.dim ≤ x.length) (ho : ft.rk 1 ≤ out.length) :
    evalUpTo e ft 0 x out
      = .ok ((List.range (ft.rk 1)).map (fun c => (pre (mats e ft.cores x) 1).2 c) ++ out.drop (ft.rk 1), ft.rk 1) := by
  obtain ⟨mr, hm, hm1, hmr⟩ := rk_le_maxrank h
  obtain ⟨sc, hsc1, l1, l2, l3, hon⟩ := preEval_ok hsc hm
  have hd : 0 < ft.dim := by rw [h.dim]; exact h.len_pos
  obtain ⟨Q, hQ1, hQ, hW, hr, hc, hr1, hr2⟩ := h.get hd
  have hx0 : x[0]? = some x[0] := List.getElem?_eq_getElem (by omega)
  have hz := h.rk_zero
  have hlast := h.rk_last
  rw [Nat.zero_add] at hc
  have hmm : mr ≤ mr * mr := Nat.le_mul_of_pos_left _ hm1
  have m1 := hmr 1 (by omega)
  obtain ⟨l, e1, e2, e3⟩ := evalCore_ok (e := e) hW (hsm Q (List.mem_of_getElem? hQ)) x[0] (out := sc.t1) (by rw [hr, hc, hz]; omega)
  rw [hr, hc, hz] at e3
  rw [evalUpTo, rd_of_getElem? h.rank_zero, bind_ok, cassert_of (decide_eq_true rfl), bind_ok, rd_of_getElem? (h.rk_get (Nat.le_refl _)),
    bind_ok, cassert_of (decide_eq_true hlast), bind_ok, hsc1, bind_ok, hQ1, bind_ok, rd_of_getElem? hx0, bind_ok, e1, bind_ok]
  show ((movK Q.ncols (if sc.onsol = 2 then sc.t3 else l) out) >>= fun o => pure (o, Q.ncols)) = _
  rw [hon, if_neg (by decide), hc, movK_ok (by omega) ho, bind_ok, pure_eq_ok]
  congr 2
  refine congrArg (· ++ _) (List.map_congr_left fun c hcc => ?_)
  have := e3 c (List.mem_range.1 hcc) 0 (by omega)
  rw [Nat.mul_one, Nat.add_zero] at this
  rw [this]
  exact (preL_one h hx hQ hx0 c).symm

/-- For `core = 1` the routine stops before core 1: it returns `3` for `x + y` at `(3, 4)`, where the product of cores 0
and 1 is `7`. -/
theorem evalUpTo_counterexample : evalUpTo fnEv fnFt 1 [3, 4] [0] = .ok ([3], 1) ∧
    (pre (mats fnEv fnFt.cores [3, 4]) 2).1 = 1 ∧ (pre (mats fnEv fnFt.cores [3, 4]) 2).2 0 = 7 := by
  refine ⟨rfl, rfl, ?_⟩
  have := chain_pre (Ms := mats fnEv fnFt.cores [3, 4]) (k := 2) (Nat.le_refl _)
  have hv := fnFt_value 3 4
  rw [value, this] at hv
  have h1 : (pre (mats fnEv fnFt.cores [3, 4]) 2).1 = 1 := rfl
  rw [h1, sum_range_one] at hv
  have h2 : chain ((mats fnEv fnFt.cores [3, 4]).drop 2) 0 = 1 := rfl
  rw [h2, mul_one] at hv
  rw [hv]; norm_num

example : evalUpTo fnEv fnFt 0 [3, 4] [0, 0] = .ok ([3, 1], 2) := by
  rw [evalUpTo_first_partial fnFt_ok.wf ⟨by rintro _ ⟨⟩, by rintro _ ⟨⟩, by rintro _ ⟨⟩⟩
    (fun Q hQ => by simp [fnFt] at hQ; rcases hQ with rfl | rfl <;> simp [Qma.Small]) (by decide) (by decide)]
  show Except.ok ((List.range 2).map _ ++ [0, 0].drop 2, 2) = _
  simp [List.range_succ, pre, mats, fnFt, fnEv, Qma.val]

end C3.Ft
