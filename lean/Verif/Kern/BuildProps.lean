/-
C95: building kernel expansions and setting and reading their parameters.
-/
import Verif.Kern.Props

namespace C3.Kern

open Finset

/-- Copying an array into a longer one of equal elements. -/
theorem copy_list {α : Type} (src : List α) {n m : Nat} (hn : n ≤ src.length) (hm : n ≤ m) (z : α) {body : Nat → List α → C (List α)}
    (hb : ∀ i < n, ∀ d : List α, body i d = match src[i]? with | none => .error .oob | some v => wr d i v) :
    forN n body (List.replicate m z) = .ok (src.take n ++ List.replicate (m - n) z) := by
  obtain ⟨b, h1, h2, h3, h4⟩ := forN_scatter (n := n) (a := List.replicate m z) (body := body) (fun i => i) (fun i => src.getD i z)
    (fun i hi => by simp; omega) (fun i _ j _ e => e)
    (by
      intro i hi b _ _ _
      rw [hb i hi, List.getElem?_eq_getElem (by omega)]
      simp [show i < src.length by omega])
  rw [h1]
  congr 1
  apply List.ext_getElem?
  intro p
  by_cases hp : p < n
  · rw [h3 p hp, List.getElem?_append_left (by simp; omega), List.getElem?_take_of_lt hp]
    simp [show p < src.length by omega]
  · rw [h4 p (fun i hi => by omega), List.getElem?_append_right (by simp; omega)]
    simp only [List.getElem?_replicate, List.length_take, Nat.min_eq_left hn]
    split <;> split <;> first | rfl | omega

theorem rd_match {α : Type} (src : List α) (i : Nat) (f : α → C (List α)) :
    (rd src i >>= f) = match src[i]? with | none => .error .oob | some v => f v := by
  cases e : src[i]? with
  | none => rw [rd_oob (List.getElem?_eq_none_iff.1 e)]; rfl
  | some v => rw [rd_of_getElem? e, bind_ok]

theorem kcopy_ok {k : Kern} (h : k.params.length = k.nparams) : kcopy k = .ok k := by
  unfold kcopy
  rw [copy_list k.params h.ge le_rfl 0 (fun i _ d => rd_match k.params i _), bind_ok, pure_eq_ok]
  obtain ⟨t, n, p⟩ := k
  dsimp only at h ⊢
  subst h
  simp

theorem copyKernels_ok {n m : Nat} {src : List (Option Kern)} (hn : n ≤ src.length) (hm : n ≤ m)
    (h : ∀ (i : Nat) (k : Kern), src[i]? = some (some k) → k.params.length = k.nparams) :
    copyKernels n m src = .ok (src.take n ++ List.replicate (m - n) none) := by
  unfold copyKernels
  refine copy_list src hn hm none ?_
  intro i hi d
  rw [rd_match]
  have e : src[i]? = some src[i] := List.getElem?_eq_getElem (by omega)
  rw [e]
  dsimp only
  cases hk : src[i] with
  | none => rfl
  | some k =>
    rw [hk] at e
    rw [kcopyOpt, kcopy_ok (h i k e), bind_ok]; rfl

/-- C95: a copy has the same content. -/
theorem copy_ok {ke : KE} (h : Good ke) (big : ℝ) : copy big ke = .ok ke := by
  unfold copy alloc
  rw [cassert, if_pos (decide_eq_true h.pos), bind_ok, pure_eq_ok, bind_ok]
  rw [copy_list ke.coeff h.hc.ge le_rfl 0 (fun i _ d => rd_match ke.coeff i _), bind_ok, copyKernels_ok h.hk.ge le_rfl h.all, bind_ok, pure_eq_ok]
  obtain ⟨na, nk, c, k, lb, ub, inc⟩ := ke
  have h1 : c.length = na := h.hc
  have h2 : k.length = na := h.hk
  dsimp only
  rw [List.take_of_length_le h1.le, List.take_of_length_le h2.le]
  simp

theorem alloc_ok (big : ℝ) {n : Nat} (h : 0 < n) : alloc big n = .ok ⟨n, 0, List.replicate n 0, List.replicate n none, -big, big, 0⟩ := by
  unfold alloc
  rw [cassert, if_pos (decide_eq_true h), bind_ok, pure_eq_ok]

theorem grow_ok {ke : KE} (h : Good ke) : grow ke =
    .ok { ke with coeff := ke.coeff ++ List.replicate ke.nalloc 0, kernels := ke.kernels ++ List.replicate ke.nalloc none, nalloc := 2 * ke.nalloc } := by
  unfold grow
  rw [copy_list ke.coeff h.hc.ge (by omega) 0 (fun i _ d => rd_match ke.coeff i _), bind_ok, copyKernels_ok h.hk.ge le_rfl h.all, bind_ok,
    List.take_of_length_le h.hk.le, Nat.sub_self, List.replicate_zero, List.append_nil, copyKernels_ok h.hk.ge (by omega) h.all, bind_ok,
    List.take_of_length_le h.hk.le, List.take_of_length_le h.hc.le, pure_eq_ok, show 2 * ke.nalloc - ke.nalloc = ke.nalloc by omega]

theorem grow_good {ke : KE} (h : Good ke) :
    Good { ke with coeff := ke.coeff ++ List.replicate ke.nalloc 0, kernels := ke.kernels ++ List.replicate ke.nalloc none, nalloc := 2 * ke.nalloc } := by
  have h1 := h.pos
  have h2 := h.hc
  have h3 := h.hk
  have h4 := h.hn
  refine ⟨by dsimp only; omega, by simp [h2]; omega, by simp [h3]; omega, by dsimp only; omega, ?_, ?_⟩
  · intro i hi
    obtain ⟨s, w, c, hw, e⟩ := h.each i hi
    exact ⟨s, w, c, hw, by dsimp only at hi ⊢; rw [List.getElem?_append_left (by omega), e]⟩
  · intro i k hk
    dsimp only at hk
    by_cases c : i < ke.kernels.length
    · rw [List.getElem?_append_left c] at hk
      exact h.all i k hk
    · rw [List.getElem?_append_right (by omega), List.getElem?_replicate] at hk
      split at hk <;> cases hk

theorem put_ok {ke : KE} (h : Good ke) (hn : ke.nk < ke.nalloc) (v : ℝ) {s w c : ℝ} (hw : 0 < w) :
    put ke v ⟨.gauss, 3, [s, w, c]⟩ =
      .ok { ke with coeff := ke.coeff.set ke.nk v, kernels := ke.kernels.set ke.nk (some ⟨.gauss, 3, [s, w, c]⟩), nk := ke.nk + 1 } ∧
    Good { ke with coeff := ke.coeff.set ke.nk v, kernels := ke.kernels.set ke.nk (some ⟨.gauss, 3, [s, w, c]⟩), nk := ke.nk + 1 } := by
  have h2 := h.hc
  have h3 := h.hk
  constructor
  · unfold put
    rw [wr_ok _ (by omega), bind_ok, kcopy_ok (by rfl), bind_ok, wr_ok _ (by omega), bind_ok, pure_eq_ok]
  · refine ⟨h.pos, by simp [h2], by simp [h3], hn, ?_, ?_⟩
    · intro i hi
      dsimp only at hi ⊢
      by_cases e : ke.nk = i
      · subst e
        exact ⟨s, w, c, hw, by rw [List.getElem?_set_self (by omega)]⟩
      · obtain ⟨s', w', c', hw', e'⟩ := h.each i (by omega)
        exact ⟨s', w', c', hw', by rw [List.getElem?_set_ne e, e']⟩
    · intro i k hk
      dsimp only at hk
      by_cases e : ke.nk = i
      · subst e
        rw [List.getElem?_set_self (by omega)] at hk
        cases hk; rfl
      · rw [List.getElem?_set_ne e] at hk
        exact h.all i k hk

theorem kn_congr {k k' : KE} {i j : Nat} (h : k.kernels[i]? = k'.kernels[j]?) : k.s i = k'.s j ∧ k.w i = k'.w j ∧ k.c i = k'.c j := by
  have : k.kn i = k'.kn j := by rw [KE.kn, KE.kn, List.getD_eq_getElem?_getD, List.getD_eq_getElem?_getD, h]
  simp only [KE.s, KE.w, KE.c, this, and_self]

theorem kn_of {k : KE} {i : Nat} {s w c : ℝ} (h : k.kernels[i]? = some (some ⟨.gauss, 3, [s, w, c]⟩)) : k.s i = s ∧ k.w i = w ∧ k.c i = c := by
  have : k.kn i = ⟨.gauss, 3, [s, w, c]⟩ := by rw [KE.kn, List.getD_eq_getElem?_getD, h]; rfl
  simp [KE.s, KE.w, KE.c, this]

/-- C95: adding a kernel appends it, whether or not the space has to be doubled. -/
theorem add_ok {ke : KE} (h : Good ke) (v : ℝ) {s w c : ℝ} (hw : 0 < w) : ∃ ke', add ke v ⟨.gauss, 3, [s, w, c]⟩ = .ok ke' ∧ Good ke' ∧
    ke'.nk = ke.nk + 1 ∧ ke'.lb = ke.lb ∧ ke'.ub = ke.ub ∧ ke'.incl = ke.incl ∧
    (∀ i < ke.nk, ke'.a i = ke.a i ∧ ke'.s i = ke.s i ∧ ke'.w i = ke.w i ∧ ke'.c i = ke.c i) ∧
    ke'.a ke.nk = v ∧ ke'.s ke.nk = s ∧ ke'.w ke.nk = w ∧ ke'.c ke.nk = c := by
  have key : ∀ k : KE, Good k → k.nk < k.nalloc → ∃ ke', put k v ⟨.gauss, 3, [s, w, c]⟩ = .ok ke' ∧ Good ke' ∧
      ke'.nk = k.nk + 1 ∧ ke'.lb = k.lb ∧ ke'.ub = k.ub ∧ ke'.incl = k.incl ∧
      (∀ i < k.nk, ke'.a i = k.a i ∧ ke'.s i = k.s i ∧ ke'.w i = k.w i ∧ ke'.c i = k.c i) ∧
      ke'.a k.nk = v ∧ ke'.s k.nk = s ∧ ke'.w k.nk = w ∧ ke'.c k.nk = c := by
    intro k hk hn
    obtain ⟨p1, p2⟩ := put_ok hk hn v (s := s) (c := c) hw
    have h2 := hk.hc
    have h3 := hk.hk
    refine ⟨_, p1, p2, rfl, rfl, rfl, rfl, ?_, ?_, kn_of (by dsimp only; rw [List.getElem?_set_self (by omega)])⟩
    · intro i hi
      refine ⟨?_, kn_congr (by dsimp only; rw [List.getElem?_set_ne (by omega)])⟩
      simp only [KE.a]
      rw [List.getD_eq_getElem?_getD, List.getElem?_set_ne (by omega), ← List.getD_eq_getElem?_getD]
    · simp only [KE.a]
      rw [List.getD_eq_getElem?_getD, List.getElem?_set_self (by omega)]; rfl
  unfold add
  by_cases hn : ke.nk = ke.nalloc
  · rw [if_pos hn, if_neg h.pos.ne', grow_ok h, bind_ok]
    have hp := h.pos
    have h2 := h.hc
    have h3 := h.hk
    obtain ⟨ke', k1, k2, k3, k4, k5, k6, k7, k8⟩ := key _ (grow_good h) (by dsimp only; omega)
    refine ⟨ke', k1, k2, k3, k4, k5, k6, fun i hi => ?_, k8⟩
    obtain ⟨a1, a2, a3, a4⟩ := k7 i hi
    obtain ⟨b2, b3, b4⟩ := kn_congr (k := { ke with
      coeff := ke.coeff ++ List.replicate ke.nalloc 0, kernels := ke.kernels ++ List.replicate ke.nalloc none, nalloc := 2 * ke.nalloc }) (k' := ke)
      (i := i) (j := i) (by dsimp only; rw [List.getElem?_append_left (by omega)])
    refine ⟨a1.trans ?_, a2.trans b2, a3.trans b3, a4.trans b4⟩
    simp only [KE.a]
    rw [List.getD_eq_getElem?_getD, List.getElem?_append_left (by omega), ← List.getD_eq_getElem?_getD]
  · rw [if_neg hn]
    exact key ke h (by have := h.hn; omega)

theorem gsum_congr {n : Nat} {a s w c a' s' w' c' : Nat → ℝ} (h : ∀ i < n, a i = a' i ∧ s i = s' i ∧ w i = w' i ∧ c i = c' i) (x : ℝ) :
    gsum n a s w c x = gsum n a' s' w' c' x := by
  refine sum_congr rfl fun i hi => ?_
  obtain ⟨h1, h2, h3, h4⟩ := h i (mem_range.1 hi)
  rw [h1, h2, h3, h4]

/-- C95: adding a kernel adds its multiple to the function. -/
theorem add_fn {ke : KE} (h : Good ke) (v : ℝ) {s w c : ℝ} (hw : 0 < w) : ∃ ke', add ke v ⟨.gauss, 3, [s, w, c]⟩ = .ok ke' ∧ Good ke' ∧
    ∀ x, ke'.fn x = ke.fn x + v * gk s w c x := by
  obtain ⟨ke', h1, h2, h3, -, -, -, h7, h8, h9, h10, h11⟩ := add_ok h v (s := s) (c := c) hw
  refine ⟨ke', h1, h2, fun x => ?_⟩
  rw [KE.fn, KE.fn, h3, gsum, sum_range_succ, h8, h9, h10, h11]
  congr 1
  exact gsum_congr h7 x

/-- Options of a Gaussian family: as many centres as announced, a width different from zero. -/
structure OGood (o : Opts) (s wd : ℝ) : Prop where
  ty : o.type = .gauss
  ot : o.other = [s, wd]
  wd0 : wd ≠ 0
  cen : o.nnodes ≤ o.centers.length

/-- C95: the initial expansion has one kernel with coefficient zero for every centre. -/
theorem init_ok {o : Opts} {s wd : ℝ} (h : OGood o s wd) (big : ℝ) : ∃ ke, init big o = .ok ke ∧ Good ke ∧ ke.nk = o.nnodes ∧ ke.lb = o.lb ∧
    ke.ub = o.ub ∧ ke.incl = (o.adapt % 2 ^ 64).toNat ∧ ∀ i < o.nnodes, ke.a i = 0 ∧ ke.s i = s ∧ ke.w i = wd * wd ∧ ke.c i = o.centers.getD i 0 := by
  have hw : 0 < wd * wd := by have := mul_self_pos.2 h.wd0; exact this
  unfold init
  rw [alloc_ok big one_pos, bind_ok]
  obtain ⟨ke, h1, h2, h3, h4⟩ := forN_spec (n := o.nnodes) (body := initStep o)
    (I := fun n ke => Good ke ∧ ke.nk = n ∧ ∀ i < n, ke.a i = 0 ∧ ke.s i = s ∧ ke.w i = wd * wd ∧ ke.c i = o.centers.getD i 0)
    (s := ⟨1, 0, List.replicate 1 0, List.replicate 1 none, -big, big, 0⟩)
    ⟨⟨one_pos, rfl, rfl, Nat.zero_le _, by intro i hi; exact absurd hi (Nat.not_lt_zero _), by
      intro i k hk
      rcases i with _ | i <;> cases hk⟩, rfl, by omega⟩
    (by
      rintro i hi ke ⟨i1, i2, i3⟩
      obtain ⟨ke', a1, a2, a3, -, -, -, a7, a8, a9, a10, a11⟩ := add_ok i1 0 (s := s) (c := o.centers.getD i 0) hw
      refine ⟨ke', ?_, a2, by omega, ?_⟩
      · have := h.cen
        unfold initStep
        rw [h.ty]
        dsimp only
        rw [h.ot, show rd [s, wd] 0 = .ok s from rfl, bind_ok, show rd [s, wd] 1 = .ok wd from rfl, bind_ok, rd_getD 0 (by omega), bind_ok]
        exact a1
      · intro j hj
        rcases Nat.lt_succ_iff_lt_or_eq.1 hj with c | c
        · obtain ⟨b1, b2, b3, b4⟩ := a7 j (by omega)
          obtain ⟨c1, c2, c3, c4⟩ := i3 j c
          exact ⟨b1.trans c1, b2.trans c2, b3.trans c3, b4.trans c4⟩
        · rw [c, ← i2]
          exact ⟨a8, a9, a10, by rw [i2] at a11 ⊢; exact a11⟩)
  rw [h1, bind_ok, pure_eq_ok]
  exact ⟨_, rfl, ⟨h2.pos, h2.hc, h2.hk, h2.hn, h2.each, h2.all⟩, h3, rfl, rfl, rfl, h4⟩

theorem setCoeff_ok {n : Nat} {p c : List ℝ} (hp : n ≤ p.length) (hc : n ≤ c.length) : ∃ c', setCoeff n p c = .ok c' ∧ c'.length = c.length ∧
    (∀ i < n, c'.getD i 0 = p.getD i 0) ∧ ∀ i, n ≤ i → c'[i]? = c[i]? := by
  obtain ⟨b, h1, h2, h3, h4⟩ := forN_scatter (n := n) (a := c) (body := fun i d => do
      let v ← rd p i
      wr d i v) (fun i => i) (fun i => p.getD i 0) (fun i hi => by omega) (fun i _ j _ e => e)
    (by
      intro i hi b _ _ _
      rw [rd_getD 0 (by omega), bind_ok])
  refine ⟨b, h1, h2, fun i hi => ?_, fun i hi => h4 i (fun j hj => by omega)⟩
  rw [List.getD_eq_getElem?_getD, h3 i hi]; rfl

/-- C95: new coefficients; everything else is kept. -/
theorem updateParams_coeff {ke : KE} (h : Good ke) {p : List ℝ} (hp : ke.nk ≤ p.length) : ∃ ke', updateParams ke ke.nk p = .ok ke' ∧ Good ke' ∧
    ke'.nk = ke.nk ∧ ke'.lb = ke.lb ∧ ke'.ub = ke.ub ∧ ke'.incl = ke.incl ∧ (∀ i < ke.nk, ke'.a i = p.getD i 0) ∧
    ke'.s = ke.s ∧ ke'.w = ke.w ∧ ke'.c = ke.c := by
  obtain ⟨c', c1, c2, c3, -⟩ := setCoeff_ok (c := ke.coeff) hp (by have := h.hn; have := h.hc; omega)
  refine ⟨{ ke with coeff := c' }, ?_, ⟨h.pos, c2.trans h.hc, h.hk, h.hn, h.each, h.all⟩, rfl, rfl, rfl, rfl, c3, rfl, rfl, rfl⟩
  unfold updateParams
  by_cases e : ke.incl = 0
  · rw [if_pos e, cassert, if_pos (decide_eq_true rfl), bind_ok, c1, bind_ok, pure_eq_ok]
  · rw [if_neg e, if_pos rfl, c1, bind_ok, pure_eq_ok]

/-- C95: with adaptive centres: new coefficients and centres. -/
theorem updateParams_centers {ke : KE} (h : Good ke) (hi : ke.incl ≠ 0) (hn : 0 < ke.nk) {p : List ℝ} (hp : 2 * ke.nk ≤ p.length) :
    ∃ ke', updateParams ke (2 * ke.nk) p = .ok ke' ∧ Good ke' ∧ ke'.nk = ke.nk ∧ ke'.lb = ke.lb ∧ ke'.ub = ke.ub ∧ ke'.incl = ke.incl ∧
      ∀ i < ke.nk, ke'.a i = p.getD i 0 ∧ ke'.s i = ke.s i ∧ ke'.w i = ke.w i ∧ ke'.c i = p.getD (i + ke.nk) 0 := by
  have hkl := h.hk
  have hnl := h.hn
  have hd : 2 * ke.nk / 2 = ke.nk := by omega
  obtain ⟨c', c1, c2, c3, -⟩ := setCoeff_ok (n := ke.nk) (p := p) (c := ke.coeff) (by omega) (by have := h.hc; omega)
  obtain ⟨ks, k1, k2, k3, k4⟩ := forN_scatter (n := ke.nk) (a := ke.kernels) (body := fun ii ks => do
      let k ← Kern.kat ks ii
      let v ← rd p (ii + ke.nk)
      let k ← updateCenter k v
      wr ks ii (some k)) (fun i => i) (fun i => some ⟨.gauss, 3, [ke.s i, ke.w i, p.getD (i + ke.nk) 0]⟩) (fun i hi => by omega)
    (fun i _ j _ e => e)
    (by
      intro i hi b _ hu _
      have e := hu i (fun k hk => by omega)
      have : Kern.kat b i = .ok ⟨.gauss, 3, [ke.s i, ke.w i, ke.c i]⟩ := by
        rw [Kern.kat, rd_of_getElem? (e.trans (h.kat hi).1), bind_ok]; rfl
      rw [this, bind_ok, rd_getD 0 (by omega), bind_ok]; rfl)
  refine ⟨{ ke with nk := ke.nk, coeff := c', kernels := ks }, ?_, ⟨h.pos, c2.trans h.hc, k2.trans h.hk, h.hn, ?_, ?_⟩, rfl, rfl, rfl, rfl, ?_⟩
  · unfold updateParams
    rw [if_neg hi, if_neg (by omega), hd, cassert, if_pos (decide_eq_true (by omega)), bind_ok, c1, bind_ok, k1, bind_ok, pure_eq_ok]
  · intro i hi
    exact ⟨_, _, _, (h.kat hi).2.2, k3 i hi⟩
  · intro i k hk
    dsimp only at hk
    by_cases c : i < ke.nk
    · rw [k3 i c] at hk
      cases hk; rfl
    · rw [k4 i (fun j hj => by omega)] at hk
      exact h.all i k hk
  · intro i hi
    exact ⟨c3 i hi, kn_of (k3 i hi)⟩

/-- C95: an expansion created with fixed centres has the given coefficients. -/
theorem createWith_fixed {o : Opts} {s wd : ℝ} (h : OGood o s wd) (ha : o.adapt = 0) (hr : o.nreg = o.nnodes) (big : ℝ) {p : List ℝ}
    (hp : o.nnodes ≤ p.length) : ∃ ke, createWith big o o.nnodes p = .ok ke ∧ Good ke ∧ ke.nk = o.nnodes ∧ ke.lb = o.lb ∧ ke.ub = o.ub ∧ ke.incl = 0 ∧
      (∀ i < o.nnodes, ke.a i = p.getD i 0 ∧ ke.s i = s ∧ ke.w i = wd * wd ∧ ke.c i = o.centers.getD i 0) ∧
      ∀ x, ke.fn x = ∑ i ∈ range o.nnodes, p.getD i 0 * gk s (wd * wd) (o.centers.getD i 0) x := by
  obtain ⟨k, k1, k2, k3, k4, k5, k6, k7⟩ := init_ok h big
  obtain ⟨ke, h1, h2, h3, h4, h5, h6, h7, h8, h9, h10⟩ := updateParams_coeff k2 (p := p) (by omega)
  have key : ∀ i < o.nnodes, ke.a i = p.getD i 0 ∧ ke.s i = s ∧ ke.w i = wd * wd ∧ ke.c i = o.centers.getD i 0 := by
    intro i hi
    obtain ⟨-, b2, b3, b4⟩ := k7 i hi
    exact ⟨h7 i (by omega), by rw [h8, b2], by rw [h9, b3], by rw [h10, b4]⟩
  refine ⟨ke, ?_, h2, by omega, h4.trans k4, h5.trans k5, ?_, key, fun x => ?_⟩
  · unfold createWith
    rw [cassert, if_pos (decide_eq_true hr), bind_ok, k1, bind_ok, ← k3]
    exact h1
  · rw [h6, k6, ha]; rfl
  · rw [KE.fn, h3, k3, gsum]
    refine sum_congr rfl fun i hi => ?_
    obtain ⟨b1, b2, b3, b4⟩ := key i (mem_range.1 hi)
    rw [b1, b2, b3, b4]

/-- C95: an expansion created with adaptive centres has the given coefficients and centres. -/
theorem createWith_adapt {o : Opts} {s wd : ℝ} (h : OGood o s wd) (ha : o.adapt = 1) (hr : o.nreg = 2 * o.nnodes) (hn : 0 < o.nnodes) (big : ℝ)
    {p : List ℝ} (hp : 2 * o.nnodes ≤ p.length) : ∃ ke, createWith big o (2 * o.nnodes) p = .ok ke ∧ Good ke ∧ ke.nk = o.nnodes ∧ ke.lb = o.lb ∧
      ke.ub = o.ub ∧ ke.incl = 1 ∧
      (∀ i < o.nnodes, ke.a i = p.getD i 0 ∧ ke.s i = s ∧ ke.w i = wd * wd ∧ ke.c i = p.getD (i + o.nnodes) 0) ∧
      ∀ x, ke.fn x = ∑ i ∈ range o.nnodes, p.getD i 0 * gk s (wd * wd) (p.getD (i + o.nnodes) 0) x := by
  obtain ⟨k, k1, k2, k3, k4, k5, k6, k7⟩ := init_ok h big
  have hi : k.incl = 1 := by rw [k6, ha]; rfl
  obtain ⟨ke, h1, h2, h3, h4, h5, h6, h7⟩ := updateParams_centers k2 (by omega) (by omega) (p := p) (by omega)
  have key : ∀ i < o.nnodes, ke.a i = p.getD i 0 ∧ ke.s i = s ∧ ke.w i = wd * wd ∧ ke.c i = p.getD (i + o.nnodes) 0 := by
    intro i hi
    obtain ⟨-, b2, b3, b4⟩ := k7 i hi
    obtain ⟨c1, c2, c3, c4⟩ := h7 i (by omega)
    exact ⟨c1, by rw [c2, b2], by rw [c3, b3], by rw [c4, k3]⟩
  refine ⟨ke, ?_, h2, by omega, h4.trans k4, h5.trans k5, h6.trans hi, key, fun x => ?_⟩
  · unfold createWith
    rw [cassert, if_pos (decide_eq_true hr), bind_ok, k1, bind_ok, ← k3]
    exact h1
  · rw [KE.fn, h3, k3, gsum]
    refine sum_congr rfl fun i hi => ?_
    obtain ⟨b1, b2, b3, b4⟩ := key i (mem_range.1 hi)
    rw [b1, b2, b3, b4]

/-- C95: the parameters read are the coefficients and, with adaptive centres, the centres. -/
theorem getParams_ok {ke : KE} (h : Good ke) {p : List ℝ} (hp : numParams ke ≤ p.length) : ∃ q, getParams ke p = .ok (numParams ke, q) ∧
    q.length = p.length ∧ (∀ i < ke.nk, q.getD i 0 = ke.a i) ∧ (ke.incl ≠ 0 → ∀ i < ke.nk, q.getD (i + ke.nk) 0 = ke.c i) ∧
    ∀ j, numParams ke ≤ j → q[j]? = p[j]? := by
  have hn := h.hn
  have hc := h.hc
  unfold numParams at hp ⊢
  obtain ⟨b, h1, h2, h3, h4⟩ := setCoeff_ok (n := ke.nk) (p := ke.coeff) (c := p) (by omega) (by split at hp <;> omega)
  unfold getParams
  unfold setCoeff at h1
  rw [h1, bind_ok]
  by_cases e : ke.incl = 0
  · rw [if_pos e, if_pos e, pure_eq_ok]
    exact ⟨b, rfl, h2, h3, fun h => absurd e h, h4⟩
  · rw [if_neg e] at hp
    rw [if_neg e, if_neg e]
    obtain ⟨d, d1, d2, d3, d4⟩ := forN_scatter (n := ke.nk) (a := b) (body := fun ii p => do
        let k ← Kern.kat ke.kernels ii
        let c ← getCenter k
        wr p (ii + ke.nk) c) (fun i => i + ke.nk) (fun i => ke.c i) (fun i hi => by omega) (fun i _ j _ e => by omega)
      (by
        intro i hi b _ _ _
        rw [(h.kat hi).2.1, bind_ok]; rfl)
    rw [d1, bind_ok, pure_eq_ok]
    refine ⟨d, rfl, d2.trans h2, fun i hi => ?_, fun _ i hi => ?_, fun j hj => ?_⟩
    · rw [List.getD_eq_getElem?_getD, d4 i (fun k hk => by omega), ← List.getD_eq_getElem?_getD, h3 i hi]; rfl
    · rw [List.getD_eq_getElem?_getD, d3 i hi]; rfl
    · rw [d4 j (fun k hk => by omega), h4 j (by omega)]

/-- C95: creating an expansion with parameters and reading the parameters returns them, with fixed or adaptive centres. -/
theorem params_roundtrip {o : Opts} {s wd : ℝ} (h : OGood o s wd) (ha : o.adapt = 0 ∧ o.nreg = o.nnodes ∨ o.adapt = 1 ∧ o.nreg = 2 * o.nnodes)
    (hn : 0 < o.nnodes) (big : ℝ) {p q : List ℝ} (hp : p.length = o.nreg) (hq : q.length = o.nreg) :
    ∃ ke, createWith big o o.nreg p = .ok ke ∧ getParams ke q = .ok (o.nreg, p) := by
  rcases ha with ⟨a1, a2⟩ | ⟨a1, a2⟩
  · obtain ⟨ke, k1, k2, k3, -, -, k6, k7, -⟩ := createWith_fixed h a1 a2 big (p := p) (by omega)
    have hnp : numParams ke = o.nreg := by rw [numParams, if_pos k6]; omega
    obtain ⟨r, r1, r2, r3, r4, r5⟩ := getParams_ok k2 (p := q) (by omega)
    refine ⟨ke, by rw [a2]; exact k1, ?_⟩
    rw [r1, hnp]
    congr 2
    apply List.ext_getElem?
    intro i
    by_cases hi : i < o.nnodes
    · have := r3 i (by omega)
      rw [(k7 i hi).1] at this
      simpa [show i < r.length by omega, show i < p.length by omega] using this
    · rw [List.getElem?_eq_none (by omega), List.getElem?_eq_none (by omega)]
  · obtain ⟨ke, k1, k2, k3, -, -, k6, k7, -⟩ := createWith_adapt h a1 a2 hn big (p := p) (by omega)
    have hnp : numParams ke = o.nreg := by rw [numParams, if_neg (by omega)]; omega
    obtain ⟨r, r1, r2, r3, r4, r5⟩ := getParams_ok k2 (p := q) (by omega)
    refine ⟨ke, by rw [a2]; exact k1, ?_⟩
    rw [r1, hnp]
    congr 2
    apply List.ext_getElem?
    intro i
    by_cases hi : i < o.nnodes
    · have := r3 i (by omega)
      rw [(k7 i hi).1] at this
      simpa [show i < r.length by omega, show i < p.length by omega] using this
    · by_cases hi2 : i < o.nreg
      · have := r4 (by omega) (i - o.nnodes) (by omega)
        rw [(k7 (i - o.nnodes) (by omega)).2.2.2, k3, show i - o.nnodes + o.nnodes = i by omega] at this
        simpa [show i < r.length by omega, show i < p.length by omega] using this
      · rw [List.getElem?_eq_none (by omega), List.getElem?_eq_none (by omega)]

/-- C95: the options for Gaussians: practical bounds are the extreme centres. -/
theorem optsGauss_ok {big : ℝ} {cs : List ℝ} (hb : ∀ c ∈ cs, -big ≤ c ∧ c ≤ big) (scale : ℝ) {width : ℝ} (hw : width ≠ 0) (hn : cs ≠ []) :
    ∃ o, optsGauss big cs.length cs scale width = .ok o ∧ OGood o scale width ∧ o.nnodes = cs.length ∧ o.centers = cs ∧ o.nreg = cs.length ∧ o.adapt = 0 ∧
      o.lb = -big ∧ o.ub = big ∧ o.pracLb ∈ cs ∧ o.pracUb ∈ cs ∧ ∀ c ∈ cs, o.pracLb ≤ c ∧ c ≤ o.pracUb := by
  have hpos := List.length_pos_iff.2 hn
  have hmem : ∀ i, i < cs.length → cs.getD i 0 ∈ cs := fun i hi => by rw [getD_lt hi]; exact List.getElem_mem hi
  obtain ⟨⟨lo, hi⟩, h1, h2, h3, h4⟩ := forN_spec (n := cs.length) (body := fun ii (s : ℝ × ℝ) => do
      let v ← rd cs ii
      pure (if v < s.1 then v else s.1, if v > s.2 then v else s.2))
    (I := fun i s => (∀ j < i, s.1 ≤ cs.getD j 0 ∧ cs.getD j 0 ≤ s.2) ∧ (s.1 ∈ cs ∨ s.1 = big) ∧ (s.2 ∈ cs ∨ s.2 = -big)) (s := (big, -big))
    ⟨by omega, .inr rfl, .inr rfl⟩
    (by
      rintro i hi ⟨lo, up⟩ ⟨i1, i2, i3⟩
      refine ⟨_, by rw [rd_getD 0 hi, bind_ok, pure_eq_ok], ?_, ?_, ?_⟩
      · intro j hj
        dsimp only at i1 ⊢
        rcases Nat.lt_succ_iff_lt_or_eq.1 hj with c | c
        · obtain ⟨u, v⟩ := i1 j c
          constructor <;> split <;> linarith
        · rw [c]
          constructor <;> split <;> linarith
      · dsimp only at i2 ⊢
        split
        · exact .inl (hmem i hi)
        · exact i2
      · dsimp only at i3 ⊢
        split
        · exact .inl (hmem i hi)
        · exact i3)
  dsimp only at h2 h3 h4
  have hc := copy_list cs (n := cs.length) (m := cs.length) le_rfl le_rfl 0 (fun i _ d => rd_match cs i _)
  simp only [List.take_length, Nat.sub_self, List.replicate_zero, List.append_nil] at hc
  unfold optsGauss
  rw [hc, bind_ok, h1, bind_ok, pure_eq_ok]
  have hall : ∀ c ∈ cs, lo ≤ c ∧ c ≤ hi := by
    intro c hc
    obtain ⟨j, hj, e⟩ := List.getElem_of_mem hc
    have := h2 j hj
    rwa [getD_lt hj, e] at this
  have h0 := hall _ (hmem 0 hpos)
  have b0 := hb _ (hmem 0 hpos)
  refine ⟨_, rfl, ⟨rfl, rfl, hw, le_rfl⟩, rfl, rfl, rfl, rfl, rfl, rfl, ?_, ?_, hall⟩
  · rcases h3 with c | c
    · exact c
    · have : cs.getD 0 0 = lo := by linarith [c, h0.1, b0.2]
      exact this ▸ hmem 0 hpos
  · rcases h4 with c | c
    · exact c
    · have : cs.getD 0 0 = hi := by linarith [c, h0.2, b0.1]
      exact this ▸ hmem 0 hpos

/-- The hypotheses can be met, and give options to which `params_roundtrip` applies. -/
example : ∃ o, optsGauss 100 2 [3, 5] 1 2 = .ok o ∧ OGood o 1 2 ∧ o.adapt = 0 ∧ o.nreg = o.nnodes := by
  obtain ⟨o, h1, h2, h3, -, h5, h6, -⟩ := optsGauss_ok (big := 100) (cs := [3, 5]) (by simp; norm_num) 1 (width := 2) (by norm_num) (by simp)
  exact ⟨o, h1, h2, h6, by rw [h3, h5]⟩

/-- C95: a new number of parameters: equally spaced centres between the practical bounds. -/
theorem setNparams_ok {big : ℝ} {o : Opts} {s wd : ℝ} (h : OGood o s wd) (hl : o.pracLb < big) (hu : -big < o.pracUb) {n np : Nat} (hn : 0 < n)
    (ha : o.adapt = 0 ∧ np = n ∨ o.adapt = 1 ∧ np = 2 * n) :
    ∃ o', setNparams big o np = .ok o' ∧ OGood o' s wd ∧ o'.nnodes = n ∧ o'.nreg = np ∧ o'.adapt = o.adapt ∧ o'.lb = o.lb ∧ o'.ub = o.ub ∧
      o'.centers.length = n ∧ o'.centers.getD (n - 1) 0 = o.pracUb ∧
      ∀ i : Nat, i < n - 1 → o'.centers.getD i 0 = o.pracLb + i * ((o.pracUb - o.pracLb) / (n - 1 : ℕ)) := by
  obtain ⟨b, h1, h2, h3, h4⟩ := forN_scatter (n := n - 1) (a := List.replicate n (0 : ℝ)) (body := fun ii a =>
      wr a ii (ii * ((o.pracUb - o.pracLb) / (n - 1 : ℕ)) + o.pracLb)) (fun i => i)
    (fun i => (i : ℝ) * ((o.pracUb - o.pracLb) / (n - 1 : ℕ)) + o.pracLb) (fun i hi => by simp; omega) (fun i _ j _ e => e)
    (fun i hi b _ _ _ => rfl)
  have hb : b.length = n := by simpa using h2
  have hlin : linspace o.pracLb o.pracUb n = .ok (b.set (n - 1) o.pracUb) := by
    unfold linspace
    rw [if_neg hn.ne', h1, bind_ok, wr_ok _ (by omega)]
  refine ⟨{ o with nreg := np, nnodes := n, centers := b.set (n - 1) o.pracUb }, ?_, ⟨h.ty, h.ot, h.wd0, by simp [hb]⟩, rfl, rfl, rfl, rfl, rfl,
    by simp [hb], ?_, ?_⟩
  · unfold setNparams
    have e : nnodesOf o np = .ok n := by
      unfold nnodesOf
      rcases ha with ⟨a1, a2⟩ | ⟨a1, a2⟩
      · rw [if_pos a1, a2]; rfl
      · rw [if_neg (by omega), if_neg (by omega), a2, show 2 * n / 2 = n by omega]; rfl
    rw [e, bind_ok, cassert, if_pos (decide_eq_true hl), bind_ok, cassert, if_pos (decide_eq_true hu), bind_ok, hlin, bind_ok, pure_eq_ok]
  · dsimp only
    rw [List.getD_eq_getElem?_getD, List.getElem?_set_self (by omega)]; rfl
  · intro i hi
    dsimp only
    rw [List.getD_eq_getElem?_getD, List.getElem?_set_ne (by omega), h3 i hi]
    simp only [Option.getD_some]
    ring

/-- C95: an odd number of parameters with adaptive centres ends the program, zero parameters are written out of bounds. -/
theorem setNparams_zero_counterexample {big : ℝ} {o : Opts} (hl : o.pracLb < big) (hu : -big < o.pracUb) :
    setNparams big o 0 = .error .oob ∧ (o.adapt ≠ 0 → setNparams big o 3 = .error .exit) := by
  constructor
  · unfold setNparams
    have e : nnodesOf o 0 = .ok 0 := by
      unfold nnodesOf
      split <;> rfl
    rw [e, bind_ok, cassert, if_pos (decide_eq_true hl), bind_ok, cassert, if_pos (decide_eq_true hu), bind_ok]; rfl
  · intro h
    unfold setNparams nnodesOf
    rw [if_neg h]; rfl

/-- C95: switching adaptive centres on and off again leaves the doubled number of parameters in the options; no expansion can then be created. -/
theorem adapt_off_counterexample {o : Opts} {s wd : ℝ} (h : OGood o s wd) (hn : 0 < o.nnodes) (big : ℝ) (dim : Nat) (p : List ℝ) :
    createWith big (setAdapt (setAdapt o 1) 0) dim p = .error .assertFail := by
  have hg : OGood (setAdapt (setAdapt o 1) 0) s wd := ⟨h.ty, h.ot, h.wd0, h.cen⟩
  unfold createWith
  by_cases e : (setAdapt (setAdapt o 1) 0).nreg = dim
  · rw [cassert, if_pos (decide_eq_true e), bind_ok]
    obtain ⟨k, k1, k2, k3, -, -, k6, -⟩ := init_ok hg big
    rw [k1, bind_ok]
    unfold updateParams
    have e2 : dim = 2 * o.nnodes := by rw [← e]; rfl
    have k3' : k.nk = o.nnodes := k3
    rw [if_pos (by rw [k6]; rfl), cassert, if_neg (by simp; omega)]; rfl
  · rw [cassert, if_neg (by simpa using e)]; rfl

/-- C95: with adaptive centres a parameter vector of the wrong size is not rejected: the assertion is an assignment, and the number of kernels of the
expansion changes. Here three parameters for two kernels silently remove the second kernel. -/
theorem updateParams_size_counterexample : updateParams { exKE with incl := 1 } 3 [5, 6, 7] =
    .ok ⟨2, 1, [5, 2], [some ⟨.gauss, 3, [1, 1 * 1, 6]⟩, some (gaussian 1 1 1)], -1, 1, 1⟩ := by
  rfl

/-- C95: a vector that is too long is written beyond the arrays. -/
theorem updateParams_long_counterexample : updateParams { exKE with incl := 1 } 6 [5, 6, 7, 8, 9, 10] = .error .oob := by
  rfl

end C3.Kern
