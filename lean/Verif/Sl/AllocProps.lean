/-
C143: parameterised trains built around an existing train.
-/
import Verif.Sl.Alloc
import Verif.Sl.Fwd
import Verif.Ft.ParamProps
import Verif.Ft.Lemmas
import Mathlib.Tactic.Ring
import Mathlib.Tactic.Linarith

namespace C3.Sl
open C3.Ft

variable {K : Type} [Field K]

/-! ### One function -/

/-- Polynomials are the functions that can be padded. -/
def IsPoly : PFun K → Bool
  | .poly _ _ _ => true
  | _ => false

/-- What a function becomes: a polynomial with too few coefficients is extended by zeros. -/
def ext (n : Nat) (f g : PFun K) : Prop :=
  if numParams f < n ∧ IsPoly f = true then IsPoly g = true ∧ params g = params f ++ List.replicate (n - numParams f) 0 ∧ numParams g = n
  else g = f

theorem forN_setZero {m : Nat} : ∀ (k : Nat) (c : List K), m + k ≤ c.length →
    forN k (fun i c => wr c (m + i) 0) c = .ok (c.take m ++ List.replicate k 0 ++ c.drop (m + k)) := by
  intro k c h
  rw [forN_fill (fun _ => (0 : K)) h]
  · simp [List.map_const']
  · intro i hi s hs
    rfl

theorem padPoly_ok {m a n : Nat} {c : List K} (hw : (PFun.poly m a c).WF) (hm : m < n) :
    ∃ c' a', padPoly m a c n = .ok (.poly n a' c') ∧ (PFun.poly n a' c').WF ∧ c'.take n = c.take m ++ List.replicate (n - m) 0 := by
  simp only [PFun.WF] at hw
  by_cases ha : a < n
  · refine ⟨c.take m ++ List.replicate (n - m) 0, n, ?_, ?_, ?_⟩
    · rw [padPoly, if_pos ha]
      have := movTo_ok (n := m) (soff := 0) (doff := 0) (src := c) (dst := List.replicate n (0 : K)) (by omega) (by simp; omega)
      simp only [movTo, Nat.zero_add, List.take_zero, List.nil_append, List.drop_zero, List.drop_replicate] at this
      rw [this, bind_ok]
    · simp only [PFun.WF, List.length_append, List.length_take, List.length_replicate]; omega
    · rw [List.take_of_length_le]
      simp only [List.length_append, List.length_take, List.length_replicate]; omega
  · refine ⟨c.take m ++ List.replicate (n - m) 0 ++ c.drop n, a, ?_, ?_, ?_⟩
    · rw [padPoly, if_neg ha, forR, forN_setZero _ _ (by omega), bind_ok, show m + (n - m) = n by omega]
    · simp only [PFun.WF, List.length_append, List.length_take, List.length_replicate, List.length_drop]; omega
    · rw [List.take_append_of_le_length (by simp only [List.length_append, List.length_take, List.length_replicate]; omega),
        List.take_of_length_le (by simp only [List.length_append, List.length_take, List.length_replicate]; omega)]

theorem padFun_ok {n : Nat} {f : PFun K} (hw : f.WF) (h : numParams f < n) :
    ∃ g, padFun f n = .ok g ∧ g.WF ∧ ext n f g := by
  cases f with
  | poly m a c =>
    obtain ⟨c', a', h1, h2, h3⟩ := padPoly_ok hw h
    refine ⟨_, h1, h2, ?_⟩
    rw [ext, if_pos ⟨h, rfl⟩]
    exact ⟨rfl, h3, rfl⟩
  | _ => exact ⟨_, rfl, hw, by rw [ext, if_neg (fun h => absurd h.2 (by simp [IsPoly]))]⟩

theorem ext_self {n : Nat} {f : PFun K} (h : ¬ numParams f < n) : ext n f f := by
  rw [ext, if_neg (fun q => h q.1)]

theorem alPad_ok {n R row col : Nat} {f : PFun K} {fs : List (PFun K)} (hw : f.WF) (hl : col * R + row < fs.length)
    (hf : fs[col * R + row]? = some f) :
    ∃ g, alPad n R row col f fs = .ok (fs.set (col * R + row) g) ∧ g.WF ∧ ext n f g := by
  by_cases h : numParams f < n
  · obtain ⟨g, h1, h2, h3⟩ := padFun_ok hw h
    exact ⟨g, by rw [alPad, if_pos h, h1, bind_ok, wr_ok (a := fs) _ hl], h2, h3⟩
  · refine ⟨f, ?_, hw, ext_self h⟩
    rw [alPad, if_neg h]
    congr 1
    apply List.ext_getElem?
    intro i
    by_cases hi : col * R + row = i
    · subst hi; rw [List.getElem?_set_self hl, hf]
    · rw [List.getElem?_set_ne hi]

/-! ### Loops that succeed or end the program -/

theorem forN_or {σ : Type} {body : Nat → σ → C σ} {I : Nat → σ → Prop} {E : Prop} {e : Err} :
    ∀ (n : Nat) (s : σ), I 0 s → (∀ i, i < n → ∀ s, I i s → (∃ s', body i s = .ok s' ∧ I (i + 1) s') ∨ (body i s = .error e ∧ E)) →
      (∃ s', forN n body s = .ok s' ∧ I n s') ∨ (forN n body s = .error e ∧ E) := by
  intro n s h0 hstep
  have key : ∀ m, m ≤ n → (∃ s', forN m body s = .ok s' ∧ I m s') ∨ (forN m body s = .error e ∧ E) := by
    intro m
    induction m with
    | zero => exact fun _ => .inl ⟨s, forN_zero _ _, h0⟩
    | succ m ih =>
      intro hm
      rcases ih (by omega) with ⟨s', h1, h2⟩ | ⟨h1, h2⟩
      · rcases hstep m (by omega) s' h2 with ⟨s'', k1, k2⟩ | ⟨k1, k2⟩
        · exact .inl ⟨s'', by rw [forN_succ, h1, ebind_ok, k1], k2⟩
        · exact .inr ⟨by rw [forN_succ, h1, ebind_ok, k1], k2⟩
      · exact .inr ⟨by rw [forN_succ, h1]; rfl, h2⟩
  exact key n le_rfl

/-! ### One core -/

/-- The state after `k` functions of a core with functions `F0`, starting with `s0`. -/
structure CInv (n : Nat) (F0 : List (PFun K)) (s0 : ASt K) (k : Nat) (s : ASt K) : Prop where
  len : s.funcs.length = F0.length
  done : ∀ i, i < k → ∃ f g, F0[i]? = some f ∧ s.funcs[i]? = some g ∧ numParams f ≤ n ∧ g.WF ∧ ext n f g
  rest : ∀ i, k ≤ i → s.funcs[i]? = F0[i]?
  nlen : s.npu.length = s0.npu.length
  npu : ∀ u, u < k → s.npu[s0.onind + u]? = some n
  old : ∀ v, v < s0.onind → s.npu[v]? = s0.npu[v]?
  mx : s.mx = if k = 0 then s0.mx else max s0.mx n
  on : s.onind = s0.onind + k

theorem alFun_or {n R row col : Nat} {F0 : List (PFun K)} {s0 : ASt K} (hw : ∀ f ∈ F0, f.WF) (hl : col * R + row < F0.length)
    (hr : s0.onind + F0.length ≤ s0.npu.length) {s : ASt K} (h : CInv n F0 s0 (col * R + row) s) :
    (∃ s', alFun n R row col s = .ok s' ∧ CInv n F0 s0 (col * R + row + 1) s') ∨
      (alFun n R row col s = .error .exit ∧ ∃ f ∈ F0, n < numParams f) := by
  set k := col * R + row with hk
  have hf : F0[k]? = some F0[k] := List.getElem?_eq_getElem hl
  have hf' : s.funcs[k]? = some F0[k] := by rw [h.rest k le_rfl, hf]
  have hm : F0[k] ∈ F0 := List.getElem_mem hl
  have hrd : rd s.funcs (row + col * R) = .ok F0[k] := rd_of_getElem? (by rw [show row + col * R = k by omega, hf'])
  by_cases hn : n < numParams F0[k]
  · refine .inr ⟨?_, _, hm, hn⟩
    rw [alFun, hrd, bind_ok, if_pos hn]
  · left
    have hsl : k < s.funcs.length := by rw [h.len]; exact hl
    obtain ⟨g, g1, g2, g3⟩ := alPad_ok (n := n) (R := R) (row := row) (col := col) (hw _ hm) hsl hf'
    have hon : s.onind < s.npu.length := by rw [h.on, h.nlen]; omega
    refine ⟨⟨s.funcs.set k g, s.npu.set s.onind n, if s.mx < n then n else s.mx, s.onind + 1⟩, ?_, ?_⟩
    · rw [alFun, hrd, bind_ok, if_neg hn, g1, bind_ok, wr_ok (a := s.npu) _ hon, bind_ok,
        rd_of_getElem? (List.getElem?_set_self hon), bind_ok]
    · constructor
      · simpa using h.len
      · intro i hi
        by_cases hik : k = i
        · subst hik
          exact ⟨_, g, hf, List.getElem?_set_self hsl, by omega, g2, g3⟩
        · obtain ⟨f, g', q1, q2, q3⟩ := h.done i (by omega)
          exact ⟨f, g', q1, by rw [List.getElem?_set_ne hik]; exact q2, q3⟩
      · intro i hi
        rw [List.getElem?_set_ne (by omega)]
        exact h.rest i (by omega)
      · simpa using h.nlen
      · intro u hu
        by_cases hik : k = u
        · subst hik
          rw [h.on, List.getElem?_set_self (by rw [← h.on]; exact hon)]
        · rw [h.on, List.getElem?_set_ne (by omega)]
          exact h.npu u (by omega)
      · intro v hv
        rw [h.on, List.getElem?_set_ne (by omega)]
        exact h.old v hv
      · have := h.mx
        show (if s.mx < n then n else s.mx) = if k + 1 = 0 then s0.mx else max s0.mx n
        rw [if_neg (Nat.succ_ne_zero k), Nat.max_def]
        by_cases h0 : k = 0
        · rw [if_pos h0] at this
          rw [this]; split_ifs <;> omega
        · rw [if_neg h0, Nat.max_def] at this
          rw [this]; split_ifs <;> omega
      · show s.onind + 1 = _
        rw [h.on]; omega

theorem alCore_or {n R C' : Nat} {F0 : List (PFun K)} {s0 : ASt K} (hw : ∀ f ∈ F0, f.WF) (hl : F0.length = R * C')
    (hf : s0.funcs = F0) (hr : s0.onind + F0.length ≤ s0.npu.length) :
    (∃ s', alCore n R R C' s0 = .ok s' ∧ CInv n F0 s0 (R * C') s') ∨
      (alCore n R R C' s0 = .error .exit ∧ ∃ f ∈ F0, n < numParams f) := by
  have := forN_or (body := fun col s => forN R (fun row s => alFun n R row col s) s) (I := fun col s => CInv n F0 s0 (col * R) s)
    (E := ∃ f ∈ F0, n < numParams f) (e := .exit) C' s0
    ⟨by rw [hf], fun i hi => absurd hi (by omega), fun i _ => by rw [hf], rfl, fun u hu => absurd hu (by omega), fun _ _ => rfl,
      by simp, by simp⟩
    (by
      intro col hc s hs
      have hb : col * R + R ≤ F0.length := by
        rw [hl]
        calc col * R + R = (col + 1) * R := by ring
          _ ≤ C' * R := Nat.mul_le_mul_right _ hc
          _ = R * C' := Nat.mul_comm _ _
      have := forN_or (body := fun row s => alFun n R row col s) (I := fun row s => CInv n F0 s0 (col * R + row) s)
        (E := ∃ f ∈ F0, n < numParams f) (e := .exit) R s hs
        (fun row hrow s hs => alFun_or hw (by omega) hr hs)
      rwa [show col * R + R = (col + 1) * R by ring] at this)
  rwa [Nat.mul_comm C' R] at this

/-! ### All cores -/

variable {ft : FT K (PFun K)} {sh : List Nat}

/-- The ranks as a function. -/
def rkOf (ft : FT K (PFun K)) (k : Nat) : Nat := ft.ranks.getD k 0

theorem alCount_ok (hs : sh.length = ft.dim) (hr : ft.ranks.length = ft.dim + 1) :
    ∃ npc, alCount ft.dim sh ft.ranks =
        .ok (npc, ∑ k ∈ Finset.range ft.dim, rkOf ft k * rkOf ft (k + 1) * sh.getD k 0, uo (rkOf ft) ft.dim) ∧
      npc.length = ft.dim ∧ ∀ k, k < ft.dim → npc[k]? = some (rkOf ft k * rkOf ft (k + 1) * sh.getD k 0) := by
  obtain ⟨⟨a, b, c⟩, h1, h2, h3, h4, h5⟩ := forN_spec (body := fun jj (s : List Nat × Nat × Nat) => (do
      let n ← rd sh jj
      let r0 ← rd ft.ranks jj
      let r1 ← rd ft.ranks (jj + 1)
      let npc ← wr s.1 jj (r0 * r1 * n)
      let v ← rd npc jj
      .ok (npc, s.2.1 + v, s.2.2 + r0 * r1) : C (List Nat × Nat × Nat)))
    (I := fun j s => s.1.length = ft.dim ∧ (∀ k, k < j → s.1[k]? = some (rkOf ft k * rkOf ft (k + 1) * sh.getD k 0)) ∧
      s.2.1 = ∑ k ∈ Finset.range j, rkOf ft k * rkOf ft (k + 1) * sh.getD k 0 ∧ s.2.2 = uo (rkOf ft) j)
    (s := (List.replicate ft.dim 0, 0, 0)) (n := ft.dim) ⟨by simp, fun k hk => absurd hk (by omega), by simp, by simp [uo]⟩
    (by
      rintro j hj ⟨l, t, u⟩ ⟨e1, e2, e3, e4⟩
      dsimp only at e1 e2 e3 e4 ⊢
      have hjl : j < l.length := by omega
      refine ⟨(l.set j (rkOf ft j * rkOf ft (j + 1) * sh.getD j 0), t + rkOf ft j * rkOf ft (j + 1) * sh.getD j 0,
        u + rkOf ft j * rkOf ft (j + 1)), ?_, by simpa using e1, fun k hk => ?_, ?_, ?_⟩
      · rw [rd_getD 0 (show j < sh.length by omega), bind_ok, rd_getD 0 (show j < ft.ranks.length by omega), bind_ok,
          rd_getD 0 (show j + 1 < ft.ranks.length by omega), bind_ok, wr_ok (a := l) _ hjl, bind_ok,
          rd_of_getElem? (List.getElem?_set_self hjl), bind_ok]
        rfl
      · by_cases hkj : j = k
        · subst hkj; exact List.getElem?_set_self hjl
        · rw [List.getElem?_set_ne hkj]; exact e2 k (by omega)
      · dsimp only; rw [Finset.sum_range_succ, e3]
      · dsimp only; rw [e4, uo, uo, Finset.sum_range_succ])
  dsimp only at h2 h3 h4 h5
  exact ⟨a, by rw [alCount, h1, h4, h5], h2, h3⟩

/-- A core and what it becomes. -/
def CoreExt (n : Nat) (Q Q' : Qma (PFun K)) : Prop :=
  Q'.nrows = Q.nrows ∧ Q'.ncols = Q.ncols ∧ Q'.funcs.length = Q.funcs.length ∧
    ∀ i, i < Q.funcs.length → ∃ f g, Q.funcs[i]? = some f ∧ Q'.funcs[i]? = some g ∧ numParams f ≤ n ∧ g.WF ∧ ext n f g

/-- The state after `j` cores. -/
structure LInv (ft : FT K (PFun K)) (sh : List Nat) (j : Nat) (s : ALp K) : Prop where
  len : s.cores.length = ft.cores.length
  done : ∀ i, i < j → ∃ Q Q', ft.cores[i]? = some Q ∧ s.cores[i]? = some Q' ∧ CoreExt (sh.getD i 0) Q Q'
  rest : ∀ i, j ≤ i → s.cores[i]? = ft.cores[i]?
  nlen : s.npu.length = uo (rkOf ft) ft.dim
  npu : ∀ i, i < j → ∀ u, u < rkOf ft i * rkOf ft (i + 1) → s.npu[uo (rkOf ft) i + u]? = some (sh.getD i 0)
  mx : (∀ i, i < j → 0 < rkOf ft i * rkOf ft (i + 1) → sh.getD i 0 ≤ s.mx) ∧
    (s.mx = 0 ∨ ∃ i, i < j ∧ sh.getD i 0 = s.mx)
  on : s.onind = uo (rkOf ft) j

theorem rank_row (h : ft.WF) {j : Nat} (hj : j < ft.cores.length) : rkOf ft j = ft.cores[j].nrows := by
  rw [rkOf, List.getD_eq_getElem?_getD, h.ranks_get hj]; rfl

theorem rank_col (h : ft.WF) {j : Nat} (hj : j < ft.cores.length) : rkOf ft (j + 1) = ft.cores[j].ncols := by
  rw [rkOf, List.getD_eq_getElem?_getD, h.ranks_get' hj]; rfl

theorem alStep_or (h : ft.WF) (hw : FW ft) (hs : sh.length = ft.dim) {j : Nat} (hj : j < ft.dim) {s : ALp K} (hI : LInv ft sh j s) :
    (∃ s', alStep sh ft.ranks j s = .ok s' ∧ LInv ft sh (j + 1) s') ∨
      (alStep sh ft.ranks j s = .error .exit ∧ ∃ k Q, ft.cores[k]? = some Q ∧ ∃ f ∈ Q.funcs, sh.getD k 0 < numParams f) := by
  have hjc : j < ft.cores.length := by rw [← h.dim]; exact hj
  set Q := ft.cores[j] with hQ
  have hQ? : ft.cores[j]? = some Q := List.getElem?_eq_getElem hjc
  have hq : QW Q := hw.2 Q (List.getElem_mem hjc)
  have hwf : Q.funcs.length = Q.nrows * Q.ncols := hq.1
  have r0 := rank_row h hjc
  have r1 := rank_col h hjc
  have hu : uo (rkOf ft) (j + 1) = uo (rkOf ft) j + Q.nrows * Q.ncols := by
    rw [uo_succ, r0, r1]
  have hroom : uo (rkOf ft) j + Q.funcs.length ≤ s.npu.length := by
    rw [hI.nlen, hwf, ← hu]; exact uo_mono _ (by omega)
  have hscore : rd s.cores j = .ok Q := rd_of_getElem? (by rw [hI.rest j le_rfl, hQ?])
  have hpre : alStep sh ft.ranks j s = (do
      let t ← alCore (sh.getD j 0) Q.nrows Q.nrows Q.ncols ⟨Q.funcs, s.npu, s.mx, s.onind⟩
      let cs ← wr s.cores j { Q with funcs := t.funcs }
      .ok ⟨cs, t.npu, t.mx, t.onind⟩) := by
    rw [alStep, rd_getD 0 (show j < sh.length by omega), bind_ok, rd_of_getElem? (h.ranks_get hjc), bind_ok,
      rd_of_getElem? (h.ranks_get' hjc), bind_ok, hscore, bind_ok]
  rw [hpre]
  rcases alCore_or (n := sh.getD j 0) (R := Q.nrows) (C' := Q.ncols) (F0 := Q.funcs) (s0 := ⟨Q.funcs, s.npu, s.mx, s.onind⟩) hq.2 hwf rfl
    (by dsimp only; rw [hI.on]; exact hroom) with ⟨t, t1, t2⟩ | ⟨t1, t2⟩
  · left
    have hsl : j < s.cores.length := by rw [hI.len]; exact hjc
    refine ⟨_, by rw [t1, bind_ok, wr_ok (a := s.cores) _ hsl, bind_ok], ?_⟩
    have ton := t2.on
    have tnpu := t2.npu
    have told := t2.old
    have tmx := t2.mx
    dsimp only at ton tnpu told tmx
    rw [hI.on] at ton tnpu told
    constructor
    · simpa using hI.len
    · intro i hi
      by_cases hij : j = i
      · subst hij
        refine ⟨Q, _, hQ?, List.getElem?_set_self hsl, rfl, rfl, t2.len, fun i hi => t2.done i (by rw [← hwf]; exact hi)⟩
      · obtain ⟨A, B, q1, q2, q3⟩ := hI.done i (by omega)
        exact ⟨A, B, q1, by rw [List.getElem?_set_ne hij]; exact q2, q3⟩
    · intro i hi
      dsimp only
      rw [List.getElem?_set_ne (by omega)]
      exact hI.rest i (by omega)
    · exact t2.nlen.trans hI.nlen
    · intro i hi u hu'
      dsimp only
      by_cases hij : i = j
      · subst hij
        exact tnpu u (by rw [← r0, ← r1]; exact hu')
      · have hlt := uo_mono (rkOf ft) (show i + 1 ≤ j by omega)
        rw [uo_succ] at hlt
        rw [told _ (by omega)]
        exact hI.npu i (by omega) u hu'
    · dsimp only
      rw [tmx]
      obtain ⟨m1, m2⟩ := hI.mx
      by_cases hz : Q.nrows * Q.ncols = 0
      · rw [if_pos hz]
        refine ⟨fun i hi hp => ?_, m2.imp_right (fun ⟨i, hi, e⟩ => ⟨i, by omega, e⟩)⟩
        by_cases hij : i = j
        · subst hij; rw [r0, r1] at hp; exact absurd hz (Nat.pos_iff_ne_zero.1 hp)
        · exact m1 i (by omega) hp
      · rw [if_neg hz]
        refine ⟨fun i hi hp => ?_, ?_⟩
        · by_cases hij : i = j
          · subst hij; exact le_max_right _ _
          · exact (m1 i (by omega) hp).trans (le_max_left _ _)
        · rcases le_total s.mx (sh.getD j 0) with hle | hle
          · exact .inr ⟨j, by omega, (max_eq_right hle).symm⟩
          · rw [max_eq_left hle]
            exact m2.imp_right (fun ⟨i, hi, e⟩ => ⟨i, by omega, e⟩)
    · exact ton.trans hu.symm
  · right
    exact ⟨by rw [t1, bind_error], j, Q, hQ?, t2⟩

/-! ### Number of parameters -/

theorem ext_num {n : Nat} {f g : PFun K} (h : ext n f g) (hf : numParams f ≤ n) :
    numParams g ≤ n ∧ (numParams g = n ↔ numParams f = n ∨ IsPoly f = true) := by
  rw [ext] at h
  split_ifs at h with hc
  · exact ⟨h.2.2.le, ⟨fun _ => .inr hc.2, fun _ => h.2.2⟩⟩
  · subst h
    refine ⟨hf, ⟨.inl, fun q => q.elim id (fun hp => ?_)⟩⟩
    by_contra hne
    exact hc ⟨by omega, hp⟩

theorem sum_le_len {n : Nat} : ∀ l : List Nat, (∀ x ∈ l, x ≤ n) → l.sum ≤ l.length * n ∧ (l.sum = l.length * n ↔ ∀ x ∈ l, x = n) := by
  intro l
  induction l with
  | nil => intro _; simp
  | cons a l ih =>
    intro h
    obtain ⟨i1, i2⟩ := ih (fun x hx => h x (by simp [hx]))
    have ha := h a (by simp)
    rw [List.sum_cons, List.length_cons, Nat.add_mul, one_mul]
    refine ⟨by omega, ⟨fun e x hx => ?_, fun e => ?_⟩⟩
    · have e1 : a = n := by omega
      have e2 : l.sum = l.length * n := by omega
      rcases List.mem_cons.1 hx with rfl | hx
      · exact e1
      · exact i2.1 e2 x hx
    · rw [e a (by simp), i2.2 (fun x hx => e x (by simp [hx]))]; omega

theorem CoreExt.qw {n : Nat} {Q Q' : Qma (PFun K)} (h : CoreExt n Q Q') (hq : QW Q) : QW Q' := by
  obtain ⟨h1, h2, h3, h4⟩ := h
  refine ⟨by rw [Qma.WF, h3, h1, h2]; exact hq.1, fun g hg => ?_⟩
  obtain ⟨i, hi, rfl⟩ := List.getElem_of_mem hg
  obtain ⟨f, g', _, q2, _, q4, _⟩ := h4 i (by rw [← h3]; exact hi)
  rw [List.getElem?_eq_getElem hi] at q2
  rw [Option.some.inj q2]; exact q4

theorem CoreExt.num {n : Nat} {Q Q' : Qma (PFun K)} (h : CoreExt n Q Q') (hq : QW Q) :
    qnum Q' ≤ Q.nrows * Q.ncols * n ∧
      (qnum Q' = Q.nrows * Q.ncols * n ↔ ∀ f ∈ Q.funcs, numParams f = n ∨ IsPoly f = true) := by
  have hq' := h.qw hq
  obtain ⟨h1, h2, h3, h4⟩ := h
  have hl : (Q'.funcs.map numParams).length = Q.nrows * Q.ncols := by rw [List.length_map, h3]; exact hq.1
  obtain ⟨s1, s2⟩ := sum_le_len (n := n) (Q'.funcs.map numParams) (by
    intro x hx
    obtain ⟨g, hg, rfl⟩ := List.mem_map.1 hx
    obtain ⟨i, hi, rfl⟩ := List.getElem_of_mem hg
    obtain ⟨f, g', _, q2, q3, _, q5⟩ := h4 i (by rw [← h3]; exact hi)
    rw [List.getElem?_eq_getElem hi] at q2
    rw [Option.some.inj q2]; exact (ext_num q5 q3).1)
  rw [hl, ← qnum_take hq'] at s1 s2
  refine ⟨s1, s2.trans ⟨fun e f hf => ?_, fun e x hx => ?_⟩⟩
  · obtain ⟨i, hi, rfl⟩ := List.getElem_of_mem hf
    obtain ⟨f', g, q1, q2, q3, _, q5⟩ := h4 i hi
    rw [List.getElem?_eq_getElem hi] at q1
    rw [Option.some.inj q1]
    exact (ext_num q5 q3).2.1 (e _ (List.mem_map.2 ⟨g, List.mem_of_getElem? q2, rfl⟩))
  · obtain ⟨g, hg, rfl⟩ := List.mem_map.1 hx
    obtain ⟨i, hi, rfl⟩ := List.getElem_of_mem hg
    obtain ⟨f, g', q1, q2, q3, _, q5⟩ := h4 i (by rw [← h3]; exact hi)
    rw [List.getElem?_eq_getElem hi] at q2
    rw [Option.some.inj q2]
    exact (ext_num q5 q3).2.2 (e f (List.mem_of_getElem? q1))

theorem flat_len (l : List (Qma (PFun K))) :
    (l.flatMap qparams).length = ∑ k ∈ Finset.range l.length, ((l[k]?).map qnum).getD 0 := by
  induction l with
  | nil => rfl
  | cons Q l ih =>
    rw [List.flatMap_cons, List.length_append, ih, List.length_cons, Finset.sum_range_succ']
    simp [qnum, Nat.add_comm]

theorem ftparams_len (h : ft.WF) (hw : FW ft) {s : ALp K} (hI : LInv ft sh ft.dim s) :
    (s.cores.flatMap qparams).length ≤ ∑ k ∈ Finset.range ft.dim, rkOf ft k * rkOf ft (k + 1) * sh.getD k 0 ∧
      ((s.cores.flatMap qparams).length = ∑ k ∈ Finset.range ft.dim, rkOf ft k * rkOf ft (k + 1) * sh.getD k 0 ↔
        ∀ k Q, ft.cores[k]? = some Q → ∀ f ∈ Q.funcs, numParams f = sh.getD k 0 ∨ IsPoly f = true) := by
  have core : ∀ k, k < ft.dim → ∃ Q, ft.cores[k]? = some Q ∧
      ((s.cores[k]?).map qnum).getD 0 ≤ rkOf ft k * rkOf ft (k + 1) * sh.getD k 0 ∧
      (((s.cores[k]?).map qnum).getD 0 = rkOf ft k * rkOf ft (k + 1) * sh.getD k 0 ↔
        ∀ f ∈ Q.funcs, numParams f = sh.getD k 0 ∨ IsPoly f = true) := by
    intro k hk
    obtain ⟨Q, Q', q1, q2, q3⟩ := hI.done k hk
    have hkc : k < ft.cores.length := by rw [← h.dim]; exact hk
    have hQ : Q = ft.cores[k] := by rw [List.getElem?_eq_getElem hkc] at q1; exact (Option.some.inj q1).symm
    have hn := q3.num (hw.2 Q (List.mem_of_getElem? q1))
    rw [rank_row h hkc, rank_col h hkc, ← hQ, q2]
    exact ⟨Q, q1, hn⟩
  rw [flat_len, hI.len, ← h.dim]
  refine ⟨Finset.sum_le_sum (fun k hk => ?_), ⟨fun e k Q hQ => ?_, fun e => Finset.sum_congr rfl (fun k hk => ?_)⟩⟩
  · obtain ⟨Q, _, q2, _⟩ := core k (Finset.mem_range.1 hk)
    exact q2
  · have hk : k < ft.dim := by
      rw [h.dim]
      by_contra hge
      rw [List.getElem?_eq_none (by omega)] at hQ
      cases hQ
    have := (Finset.sum_eq_sum_iff_of_le (fun k hk => by
      obtain ⟨Q, _, q2, _⟩ := core k (Finset.mem_range.1 hk)
      exact q2)).1 e k (Finset.mem_range.2 hk)
    obtain ⟨Q', q1, _, q3⟩ := core k hk
    rw [hQ] at q1
    rw [Option.some.inj q1]
    exact q3.1 this
  · obtain ⟨Q, q1, _, q3⟩ := core k (Finset.mem_range.1 hk)
    exact q3.2 (e k Q q1)

/-! ### The construction -/

theorem po_uo {np : Nat → Nat} {r : Nat → Nat} {sh : List Nat} {d : Nat}
    (h : ∀ k, k < d → ∀ u, u < r k * r (k + 1) → np (uo r k + u) = sh.getD k 0) :
    ∀ j, j ≤ d → po np (uo r j) = ∑ k ∈ Finset.range j, r k * r (k + 1) * sh.getD k 0 := by
  intro j
  induction j with
  | zero => intro _; simp [uo, po]
  | succ j ih =>
    intro hj
    rw [uo_succ, po, Finset.sum_range_add, Finset.sum_range_succ, ← ih (by omega), po]
    congr 1
    rw [Finset.sum_congr rfl (fun u hu => h j (by omega) u (Finset.mem_range.1 hu)), Finset.sum_const, Finset.card_range, nsmul_eq_mul, Nat.cast_id]

theorem loop_or (h : ft.WF) (hw : FW ft) (hs : sh.length = ft.dim) :
    (∃ s, forN ft.dim (alStep sh ft.ranks) ⟨ft.cores, List.replicate (uo (rkOf ft) ft.dim) 0, 0, 0⟩ = .ok s ∧ LInv ft sh ft.dim s) ∨
      (forN ft.dim (alStep sh ft.ranks) ⟨ft.cores, List.replicate (uo (rkOf ft) ft.dim) 0, 0, 0⟩ = .error .exit ∧
        ∃ k Q, ft.cores[k]? = some Q ∧ ∃ f ∈ Q.funcs, sh.getD k 0 < numParams f) :=
  forN_or (I := fun j s => LInv ft sh j s) _ _
    ⟨rfl, fun i hi => absurd hi (by omega), fun _ _ => rfl, by simp, fun i hi => absurd hi (by omega),
      ⟨fun i hi => absurd hi (by omega), .inl rfl⟩, by simp [uo]⟩
    (fun j hj s hI => alStep_or h hw hs hj hI)

/-- **C143** A parameterisation around an existing train, for options that ask for at least the parameters that the functions have, with
equality where a function is not a polynomial: the call succeeds and the tables are those of a parameterised train of the same ranks
(`Lay`), with the number asked for in every function of a dimension; every function keeps its parameters, followed by zeros; the stored
vector is the vector of parameters of the new train. -/
theorem allocWith_ok (h : ft.WF) (hw : FW ft) (hs : sh.length = ft.dim)
    (hn : ∀ k Q, ft.cores[k]? = some Q → ∀ f ∈ Q.funcs, numParams f ≤ sh.getD k 0 ∧ (numParams f = sh.getD k 0 ∨ IsPoly f = true)) :
    ∃ P np, allocWith (some ft) (some sh) = .ok P ∧ Lay P.F (rkOf ft) np ∧ P.F.dim = ft.dim ∧
      (∀ k, k < ft.dim → ∀ u, u < rkOf ft k * rkOf ft (k + 1) → np (uo (rkOf ft) k + u) = sh.getD k 0) ∧
      P.ft = { ft with cores := P.ft.cores } ∧ P.F.cores = P.ft.cores.map (·.funcs) ∧ P.ft.cores.length = ft.cores.length ∧
      (∀ k, k < ft.dim → ∃ Q Q', ft.cores[k]? = some Q ∧ P.ft.cores[k]? = some Q' ∧ CoreExt (sh.getD k 0) Q Q') ∧
      P.F.params = ftparams P.ft ∧ P.F.params.length = P.F.nparams ∧
      (∀ i, i < ft.dim → 0 < rkOf ft i * rkOf ft (i + 1) → sh.getD i 0 ≤ P.mx) ∧ (P.mx = 0 ∨ ∃ i, i < ft.dim ∧ sh.getD i 0 = P.mx) := by
  obtain ⟨npc, c1, c2, c3⟩ := alCount_ok hs h.ranks_len
  rcases loop_or h hw hs with ⟨s, s1, hI⟩ | ⟨_, k, Q, hQ, f, hf, hlt⟩
  · obtain ⟨_, p2⟩ := ftparams_len h hw hI
    have hlen := p2.2 (fun k Q hQ f hf => (hn k Q hQ f hf).2)
    have hfw : FW { ft with cores := s.cores } := by
      refine ⟨?_, fun Q' hQ' => ?_⟩
      · show ft.dim = s.cores.length
        rw [hI.len, h.dim]
      · obtain ⟨i, hi, rfl⟩ := List.getElem_of_mem hQ'
        obtain ⟨Q, Q'', q1, q2, q3⟩ := hI.done i (by rw [h.dim, ← hI.len]; exact hi)
        rw [List.getElem?_eq_getElem hi] at q2
        rw [Option.some.inj q2]
        exact q3.qw (hw.2 Q (List.mem_of_getElem? q1))
    have hg := get_params_layout hfw (buf := List.replicate (∑ k ∈ Finset.range ft.dim, rkOf ft k * rkOf ft (k + 1) * sh.getD k 0) 0)
      (by rw [List.length_replicate]; exact hlen.le)
    have hl' : (ftparams { ft with cores := s.cores }).length =
      ∑ k ∈ Finset.range ft.dim, rkOf ft k * rkOf ft (k + 1) * sh.getD k 0 := hlen
    rw [List.drop_of_length_le (by rw [List.length_replicate]; exact hl'.ge), List.append_nil] at hg
    have hnp : ∀ k, k < ft.dim → ∀ u, u < rkOf ft k * rkOf ft (k + 1) → s.npu.getD (uo (rkOf ft) k + u) 0 = sh.getD k 0 := by
      intro k hk u hu
      rw [List.getD_eq_getElem?_getD, hI.npu k hk u hu]; rfl
    have hpo := po_uo (np := fun u => s.npu.getD u 0) hnp
    refine ⟨⟨⟨ft.dim, ft.ranks, s.npu, npc, ∑ k ∈ Finset.range ft.dim, rkOf ft k * rkOf ft (k + 1) * sh.getD k 0,
      ftparams { ft with cores := s.cores }, s.cores.map (·.funcs)⟩, s.mx, { ft with cores := s.cores }⟩, fun u => s.npu.getD u 0,
      ?_, ?_, rfl, hnp, rfl, rfl, hI.len, hI.done, rfl, hl', hI.mx⟩
    · rw [allocWith, c1, bind_ok]
      dsimp only
      rw [s1, bind_ok, hg, bind_ok]
      dsimp only
      rw [if_neg (by rw [hl']; exact not_not.2 rfl)]
    · constructor
      · show 0 < ft.dim
        rw [h.dim]; exact List.length_pos_iff.2 h.pos
      · intro k hk
        have : k < ft.ranks.length := by rw [h.ranks_len]; exact Nat.lt_succ_of_le hk
        show ft.ranks[k]? = some (ft.ranks.getD k 0)
        rw [List.getD_eq_getElem?_getD, List.getElem?_eq_getElem this]; rfl
      · intro u hu
        have : u < s.npu.length := by rw [hI.nlen]; exact hu
        show s.npu[u]? = some (s.npu.getD u 0)
        rw [List.getD_eq_getElem?_getD, List.getElem?_eq_getElem this]; rfl
      · intro k hk
        show npc[k]? = _
        rw [c3 k hk, hpo (k + 1) hk, hpo k (Nat.le_of_lt hk), Finset.sum_range_succ]
        congr 1; omega
      · show ft.ranks.getD 0 0 = 1
        rw [List.getD_eq_getElem?_getD, h.rank_zero]; rfl
      · show ft.ranks.getD ft.dim 0 = 1
        rw [List.getD_eq_getElem?_getD, h.dim, h.rank_last]; rfl
      · exact (hpo ft.dim le_rfl).symm
  · exact absurd (hn k Q hQ f hf).1 (by omega)

/-- **C143** Otherwise the program ends: a function with more parameters than the options ask for, or one with fewer that is not a
polynomial (the padding of the other classes does nothing but print). -/
theorem allocWith_refused (h : ft.WF) (hw : FW ft) (hs : sh.length = ft.dim) {k : Nat} {Q : Qma (PFun K)} (hQ : ft.cores[k]? = some Q)
    {f : PFun K} (hf : f ∈ Q.funcs) (hb : sh.getD k 0 < numParams f ∨ (numParams f < sh.getD k 0 ∧ IsPoly f = false)) :
    allocWith (some ft) (some sh) = .error .exit := by
  obtain ⟨npc, c1, c2, c3⟩ := alCount_ok hs h.ranks_len
  rcases loop_or h hw hs with ⟨s, s1, hI⟩ | ⟨s1, _⟩
  · obtain ⟨p1, p2⟩ := ftparams_len h hw hI
    have hfw : FW { ft with cores := s.cores } := by
      refine ⟨?_, fun Q' hQ' => ?_⟩
      · show ft.dim = s.cores.length
        rw [hI.len, h.dim]
      · obtain ⟨i, hi, rfl⟩ := List.getElem_of_mem hQ'
        obtain ⟨Q, Q'', q1, q2, q3⟩ := hI.done i (by rw [h.dim, ← hI.len]; exact hi)
        rw [List.getElem?_eq_getElem hi] at q2
        rw [Option.some.inj q2]
        exact q3.qw (hw.2 Q (List.mem_of_getElem? q1))
    have hg := get_params_layout hfw (buf := List.replicate (∑ k ∈ Finset.range ft.dim, rkOf ft k * rkOf ft (k + 1) * sh.getD k 0) 0)
      (by rw [List.length_replicate]; exact p1)
    have hkd : k < ft.dim := by
      rw [h.dim]
      by_contra hge
      rw [List.getElem?_eq_none (by omega)] at hQ
      cases hQ
    have hne : (ftparams { ft with cores := s.cores }).length ≠
        ∑ k ∈ Finset.range ft.dim, rkOf ft k * rkOf ft (k + 1) * sh.getD k 0 := by
      intro e
      rcases hb with hb | ⟨hb, hp⟩
      · obtain ⟨Q0, Q', q1, _, _, _, _, q4⟩ := hI.done k hkd
        rw [hQ] at q1
        obtain rfl := Option.some.inj q1
        obtain ⟨i, hi, rfl⟩ := List.getElem_of_mem hf
        obtain ⟨f', g, r1, _, r3, _⟩ := q4 i hi
        rw [List.getElem?_eq_getElem hi] at r1
        rw [← Option.some.inj r1] at r3
        omega
      · rcases p2.1 e k Q hQ f hf with q | q
        · omega
        · rw [hp] at q; cases q
    rw [allocWith, c1, bind_ok]
    dsimp only
    rw [s1, bind_ok, hg, bind_ok]
    dsimp only
    rw [if_pos hne]
  · rw [allocWith, c1, bind_ok]
    dsimp only
    rw [s1, bind_error]

/-- **C143** Missing arguments end the program. -/
theorem allocWith_null (sh : Option (List Nat)) (f : Option (FT K (PFun K))) :
    allocWith none sh = (.error .exit : C (APar K)) ∧ allocWith f none = (.error .exit : C (APar K)) := by
  cases f <;> exact ⟨rfl, rfl⟩

/-- **C143** Padding does not change the function: for every evaluation in which a polynomial is the sum of its parameters times a
basis, the new train has the values of the old one. -/
theorem padded_value {X : Type} {e : Ev K (PFun K) X} {φ : Nat → X → K}
    (he : ∀ f, IsPoly f = true → f.WF → ∀ x, e.ev f x = ∑ i ∈ Finset.range (numParams f), (params f).getD i 0 * φ i x)
    (hw : FW ft) {cs : List (Qma (PFun K))} (hl : cs.length = ft.cores.length)
    (hc : ∀ k, k < ft.dim → ∃ Q Q', ft.cores[k]? = some Q ∧ cs[k]? = some Q' ∧ CoreExt (sh.getD k 0) Q Q') (x : List X) :
    value e cs x = value e ft.cores x := by
  have hev : ∀ n f g, f.WF → g.WF → ext n f g → ∀ x, e.ev g x = e.ev f x := by
    intro n f g hf hg hx x
    rw [ext] at hx
    split_ifs at hx with hcond
    · obtain ⟨g1, g2, g3⟩ := hx
      rw [he g g1 hg, he f hcond.2 hf, g3, g2]
      obtain ⟨d, rfl⟩ := Nat.exists_eq_add_of_lt hcond.1
      have hpl := params_length hf
      rw [show numParams f + d + 1 = numParams f + (d + 1) by omega, Finset.sum_range_add]
      have z : ∑ i ∈ Finset.range (d + 1), (params f ++ List.replicate (numParams f + (d + 1) - numParams f) 0).getD (numParams f + i) 0 *
          φ (numParams f + i) x = 0 := by
        apply Finset.sum_eq_zero
        intro i hi
        rw [List.getD_eq_getElem?_getD, List.getElem?_append_right (by omega), List.getElem?_replicate]
        split_ifs <;> simp
      rw [z, add_zero]
      apply Finset.sum_congr rfl
      intro i hi
      rw [List.getD_eq_getElem?_getD, List.getElem?_append_left (by rw [hpl]; exact Finset.mem_range.1 hi), ← List.getD_eq_getElem?_getD]
    · rw [hx]
  have hm : mats e cs x = mats e ft.cores x := by
    apply List.ext_getElem?
    intro i
    rw [mats, mats, List.getElem?_zipWith, List.getElem?_zipWith]
    by_cases hi : i < ft.dim
    · obtain ⟨Q, Q', q1, q2, q3, q4, q5, q6⟩ := hc i hi
      rw [q1, q2]
      cases x[i]? with
      | none => rfl
      | some xi =>
        simp only [Option.some.injEq]
        refine Prod.ext q4 ?_
        funext a b
        show Qma.val e Q' xi a b = Qma.val e Q xi a b
        rw [Qma.val, Qma.val, q3]
        by_cases hx : b * Q.nrows + a < Q.funcs.length
        · obtain ⟨f, g, r1, r2, _, r4, r5⟩ := q6 _ hx
          rw [r1, r2]
          simp only [Option.map_some, Option.getD_some]
          exact hev _ f g ((hw.2 Q (List.mem_of_getElem? q1)).2 f (List.mem_of_getElem? r1)) r4 r5 xi
        · rw [List.getElem?_eq_none (by omega), List.getElem?_eq_none (by omega)]
    · have hd := hw.1
      rw [List.getElem?_eq_none (show cs.length ≤ i by omega), List.getElem?_eq_none (show ft.cores.length ≤ i by omega)]
  rw [value, value, hm]

/-! ### Reading parameters -/

variable {U : Type}

/-- **C143** Single parameters. -/
theorem getParam_value {F : FTP K U} (hl : F.params.length = F.nparams) (i : Nat) :
    getParam F i = if i < F.nparams then .ok (F.params.getD i 0) else .error .exit := by
  by_cases h : i < F.nparams
  · rw [getParam, if_pos (by omega), if_pos h, if_pos h, rd_getD 0 (by omega)]
  · rw [getParam, if_neg h, if_neg h]
    split_ifs <;> rfl

/-- **C143** The first parameters: never more than there are, and the rest of the buffer is not touched. -/
theorem getParamsN_value {F : FTP K U} (hl : F.params.length = F.nparams) (h0 : 0 < F.nparams) (n : Nat) {out : List K}
    (ho : min n F.nparams ≤ out.length) :
    getParamsN F n out = .ok (min n F.nparams, F.params.take n ++ out.drop (min n F.nparams)) := by
  have key : ∀ m, m ≤ F.nparams → m ≤ out.length →
      forN m (fun i o => (do
        let v ← rd F.params i
        wr o i v : C (List K))) out = .ok (F.params.take m ++ out.drop m) := by
    intro m hm hmo
    have := movTo_ok (n := m) (soff := 0) (doff := 0) (src := F.params) (dst := out) (by omega) (by omega)
    simpa only [movTo, Nat.zero_add, List.take_zero, List.nil_append, List.drop_zero] using this
  by_cases h : n ≤ F.nparams
  · rw [Nat.min_eq_left h] at ho ⊢
    rw [getParamsN, if_neg (by omega), if_pos h, key n h ho, bind_ok]
  · rw [Nat.min_eq_right (by omega)] at ho ⊢
    rw [getParamsN, if_neg (by omega), if_neg h, key _ le_rfl ho, bind_ok, List.take_of_length_le (by omega),
      List.take_of_length_le (l := F.params) (i := n) (by omega)]

/-! ### Examples -/

/-- Two dimensions, rank 2, polynomials with one to three coefficients. -/
def exTrain : FT ℚ (PFun ℚ) :=
  ⟨2, [1, 2, 1], [⟨1, 2, [.poly 1 3 [5, 7, 7], .poly 2 2 [1, 2]]⟩, ⟨2, 1, [.poly 3 3 [1, 2, 3], .poly 1 1 [4]]⟩], none, none, none⟩

example : ∃ P, allocWith (some exTrain) (some [2, 3]) = .ok P ∧ P.F.params = [5, 0, 1, 2, 1, 2, 3, 4, 0, 0] ∧ P.F.nparams = 10 ∧
    P.F.npu = [2, 2, 3, 3] ∧ P.F.npc = [4, 6] ∧ P.mx = 3 := ⟨_, rfl, by decide +kernel⟩

theorem exTrain_wf : exTrain.WF :=
  ⟨rfl, by simp [exTrain], rfl, .cons ⟨1, 2, _⟩ _ rfl (.cons ⟨2, 1, _⟩ _ rfl (.nil 1))⟩

theorem exTrain_fw : FW exTrain := by
  refine ⟨rfl, fun Q hQ => ?_⟩
  simp only [exTrain, List.mem_cons, List.not_mem_nil, or_false] at hQ
  rcases hQ with rfl | rfl
  · exact ⟨rfl, by simp [PFun.WF]⟩
  · exact ⟨rfl, by simp [PFun.WF]⟩

example : ∃ P np, allocWith (some exTrain) (some [2, 3]) = .ok P ∧ Lay P.F (rkOf exTrain) np := by
  obtain ⟨P, np, h1, h2, _⟩ := allocWith_ok exTrain_wf exTrain_fw (sh := [2, 3]) rfl (by
    intro k Q hQ
    match k with
    | 0 => obtain rfl := Option.some.inj hQ; simp [numParams, IsPoly]
    | 1 => obtain rfl := Option.some.inj hQ; simp [numParams, IsPoly]
    | k + 2 => simp [exTrain] at hQ)
  exact ⟨P, np, h1, h2⟩

/-- Nodal functions are refused when the options ask for more nodes. -/
example : allocWith (some (⟨1, [1, 1], [⟨1, 1, [.elem true 2 [0, 1] [3, 4]]⟩], none, none, none⟩ : FT ℚ (PFun ℚ))) (some [3]) =
    .error .exit := rfl

end C3.Sl
