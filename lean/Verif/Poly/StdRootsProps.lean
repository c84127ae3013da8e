import Verif.Poly.RootsProps

/-! C121: real roots of polynomials in the monomial basis. -/

namespace C3.Poly
open Finset

/-! ### Specification -/

/-- LAPACK `dgeev`: for every matrix the routine returns real and imaginary parts of the eigenvalues. -/
def IsEigG (eig : Nat → List ℝ → C (List (ℝ × ℝ))) : Prop :=
  ∀ N b, N * N ≤ b.length → ∃ l, eig N b = .ok l ∧ ∀ z : ℂ, (z.re, z.im) ∈ l ↔ Matrix.det (z • (1 : Matrix (Fin N) (Fin N) ℂ) - bufMat N b) = 0

/-- The polynomial. -/
noncomputable def StdPoly.poly (p : StdPoly ℝ) : Polynomial ℝ := ∑ k ∈ range p.num, .C (p.coeff.getD k 0) * .X ^ k

/-- The complex roots that count: imaginary part below the tolerance, real part in the domain. -/
structure StdRootList (p : StdPoly ℝ) (ti td : ℝ) (l : List ℝ) : Prop where
  inside : ∀ y ∈ l, p.lb ≤ y ∧ y ≤ p.ub
  kept : p.poly ≠ 0 → ∀ z : ℂ, Polynomial.aeval z p.poly = 0 → |z.im| < ti → p.lb ≤ z.re → z.re ≤ p.ub → z.re ∈ l
  sound : ∀ y ∈ l, ∃ z : ℂ, Polynomial.aeval z p.poly = 0 ∧ |z.im| < ti ∧ |z.re - y| ≤ td

/-! ### The matrix -/

/-- A buffer that starts with a square matrix. -/
def HasG (N : Nat) (b : List ℝ) (E : Nat → Nat → ℝ) : Prop := N * N ≤ b.length ∧ ∀ i < N, ∀ j < N, b.getD (i + j * N) 0 = E i j

theorem HasG.wr {N : Nat} {b : List ℝ} {E : Nat → Nat → ℝ} (h : HasG N b E) {a c : Nat} (ha : a < N) (hc : c < N) (v : ℝ) {k : Nat} (hk : k = a + c * N) :
    ∃ b', wr b k v = .ok b' ∧ HasG N b' (fun i j => if i = a ∧ j = c then v else E i j) := by
  subst hk
  have hl : a + c * N < b.length := lt_of_lt_of_le (cmLt ha hc) h.1
  refine ⟨b.set (a + c * N) v, wr_ok v hl, by rw [List.length_set]; exact h.1, fun i hi j hj => ?_⟩
  rw [getD_setAt b v hl]
  dsimp only
  by_cases hh : i = a ∧ j = c
  · rw [if_pos ((cmIdx hi ha).2 hh), if_pos hh]
  · rw [if_neg (fun e => hh ((cmIdx hi ha).1 e)), if_neg hh, h.2 i hi j hj]

theorem stdComp_ok {num n : Nat} {c : List ℝ} (hn : 2 ≤ n) (hm : n < num) (hl : num ≤ c.length) (hc : c.getD n 0 ≠ 0) :
    ∃ b, stdComp num c n = .ok b ∧ HasG n b (fun i j => cmpE n (fun _ => 1) (fun _ => 0) (fun k => c.getD k 0 / c.getD n 0) j i) := by
  have rdc : ∀ k, k ≤ n → rd c k = .ok (c.getD k 0) := fun k hk => by
    rw [rd_of_getElem? (List.getElem?_eq_getElem (by omega)), List.getD_eq_getElem?_getD, List.getElem?_eq_getElem (show k < c.length by omega)]; rfl
  have z0 : HasG n (List.replicate ((num - 1) * (num - 1)) (0 : ℝ)) (fun _ _ => 0) := ⟨by
    rw [List.length_replicate]; exact Nat.mul_le_mul (by omega) (by omega), fun i hi j hj => by
    rw [List.getD_eq_getElem?_getD, List.getElem?_replicate]; split <;> rfl⟩
  obtain ⟨b0, e0, h0⟩ := z0.wr (a := n - 1) (c := 0) (by omega) (by omega) (-c.getD 0 0 / c.getD n 0) (k := n - 1) (by omega)
  obtain ⟨b, eb, hb⟩ := forR_spec (a := 1) (b := n) (body := fun ii b => do
      let b ← C3.wr b (ii * n + ii - 1) 1
      let ci ← rd c ii
      let q ← Lin.dv (-ci) (c.getD n 0)
      C3.wr b (ii * n + n - 1) q) (s := b0)
    (I := fun k b => HasG n b (fun i j => if j < k then (if i + 1 = j then 1 else 0) + (if i = n - 1 then -c.getD j 0 / c.getD n 0 else 0) else 0)) (by omega)
    ⟨h0.1, fun i hi j hj => by
      rw [h0.2 i hi j hj]
      dsimp only
      by_cases hj0 : j = 0
      · subst hj0
        rw [if_pos (show 0 < 1 by omega), if_neg (show ¬ i + 1 = 0 by omega), zero_add]
        by_cases hi' : i = n - 1
        · rw [if_pos ⟨hi', rfl⟩, if_pos hi']
        · rw [if_neg (fun h => hi' h.1), if_neg hi']
      · rw [if_neg (fun h => hj0 h.2), if_neg (by omega)]⟩
    (by
      intro k h1 h2 s hs
      obtain ⟨b1, e1, g1⟩ := hs.wr (a := k - 1) (c := k) (by omega) h2 1 (k := k * n + k - 1) (by omega)
      obtain ⟨b2, e2, g2⟩ := g1.wr (a := n - 1) (c := k) (by omega) h2 (-c.getD k 0 / c.getD n 0) (k := k * n + n - 1) (by omega)
      refine ⟨b2, ?_, g2.1, fun i hi j hj => ?_⟩
      · rw [e1, bind_ok, rdc k (by omega), bind_ok, Lin.dv_ok hc, bind_ok, e2]
      · rw [g2.2 i hi j hj]
        dsimp only
        rcases lt_trichotomy j k with h | h | h
        · rw [if_neg (show ¬ (i = n - 1 ∧ j = k) by omega), if_neg (show ¬ (i = k - 1 ∧ j = k) by omega), if_pos h, if_pos (show j < k + 1 by omega)]
        · subst h
          rw [if_pos (show j < j + 1 by omega)]
          by_cases hi' : i = n - 1
          · rw [if_pos ⟨hi', rfl⟩, if_neg (show ¬ i + 1 = j by omega), if_pos hi', zero_add]
          · rw [if_neg (fun h => hi' h.1), if_neg hi', add_zero]
            by_cases h3 : i + 1 = j
            · rw [if_pos ⟨by omega, rfl⟩, if_pos h3]
            · rw [if_neg (by omega), if_neg h3, if_neg (by omega)]
        · rw [if_neg (by omega), if_neg (by omega), if_neg (by omega), if_neg (by omega)])
  refine ⟨b, ?_, hb.1, fun i hi j hj => ?_⟩
  · rw [stdComp, rdc 0 (by omega), bind_ok, rdc n le_rfl, bind_ok, Lin.dv_ok hc, bind_ok, e0, bind_ok, eb]
  · rw [hb.2 i hi j hj]
    dsimp only
    rw [if_pos hj, cmpE]
    by_cases h1 : i + 1 = j
    · rw [if_pos h1, if_pos (show j = i + 1 by omega), if_neg (show ¬ j + 1 = i by omega), if_neg (show ¬ i = n - 1 by omega), if_neg (show ¬ i = n - 1 by omega)]; ring
    · rw [if_neg h1, if_neg (show ¬ j = i + 1 by omega)]
      split <;> split <;> ring

/-- Eigenvalues of the matrix are the complex roots of the polynomial without its dropped terms. -/
theorem std_eig_iff {n : Nat} {c : List ℝ} {b : List ℝ} (hn : 2 ≤ n) (hc : c.getD n 0 ≠ 0)
    (hb : HasG n b (fun i j => cmpE n (fun _ => 1) (fun _ => 0) (fun k => c.getD k 0 / c.getD n 0) j i)) (z : ℂ) :
    Matrix.det (z • (1 : Matrix (Fin n) (Fin n) ℂ) - bufMat n b) = 0 ↔ ∑ k ∈ range (n + 1), ((c.getD k 0 : ℝ) : ℂ) * z ^ k = 0 := by
  have e1 : (z • (1 : Matrix (Fin n) (Fin n) ℂ) - bufMat n b).transpose = z • (1 : Matrix (Fin n) (Fin n) ℂ) -
      Matrix.of fun i j : Fin n => cmpE n (fun _ => (1 : ℂ)) (fun _ => 0) (fun k => ((c.getD k 0 : ℝ) : ℂ) / (c.getD n 0 : ℝ)) i j := by
    rw [Matrix.transpose_sub, Matrix.transpose_smul, Matrix.transpose_one]
    congr 1
    ext i j
    rw [Matrix.transpose_apply, bufMat, Matrix.of_apply, Matrix.of_apply, hb.2 j j.2 i i.2]
    simp only [cmpE]
    split_ifs <;> push_cast <;> rfl
  rw [← Matrix.det_transpose, e1, comrade hn _ _ _ (fun n => z ^ n) z (pow_zero z) rfl (pow_one z) (fun n => by ring) (fun _ => one_ne_zero)]
  have hcn : ((c.getD n 0 : ℝ) : ℂ) ≠ 0 := by exact_mod_cast hc
  rw [sum_range_succ]
  have e2 : ∑ k ∈ range n, ((c.getD k 0 : ℝ) : ℂ) * z ^ k + ((c.getD n 0 : ℝ) : ℂ) * z ^ n =
      ((c.getD n 0 : ℝ) : ℂ) * (z ^ n + ∑ i ∈ range n, ((c.getD i 0 : ℝ) : ℂ) / (c.getD n 0 : ℝ) * z ^ i) := by
    rw [mul_add, mul_sum, add_comm]
    congr 1
    exact sum_congr rfl fun i _ => by rw [← mul_assoc, mul_div_cancel₀ _ hcn]
  rw [e2, mul_eq_zero, or_iff_right hcn]

theorem stdTrim_ok {thr : ℝ} {c : List ℝ} : ∀ n, 2 ≤ n → n < c.length → ∃ m, stdTrim thr c n = .ok m ∧ 1 ≤ m ∧ m ≤ n ∧ (∀ k, m < k → k ≤ n → |c.getD k 0| < thr) ∧
    (m = 1 ∨ thr ≤ |c.getD m 0|) := by
  intro n
  induction n with
  | zero => intro h; omega
  | succ n ih =>
    intro h2 hl
    have er : rd c (n + 1) = .ok (c.getD (n + 1) 0) := by
      rw [rd_of_getElem? (List.getElem?_eq_getElem hl), List.getD_eq_getElem?_getD, List.getElem?_eq_getElem hl]; rfl
    rw [stdTrim, er, bind_ok]
    by_cases hs : |c.getD (n + 1) 0| < thr
    · rw [if_pos hs]
      by_cases h1 : n = 1
      · rw [if_pos h1]
        refine ⟨1, rfl, le_rfl, by omega, fun k hk hk' => ?_, Or.inl rfl⟩
        rw [show k = n + 1 by omega]; exact hs
      · rw [if_neg h1]
        obtain ⟨m, em, m1, m2, m3, m4⟩ := ih (by omega) (by omega)
        refine ⟨m, em, m1, by omega, fun k hk hk' => ?_, m4⟩
        rcases Nat.lt_or_ge n k with h | h
        · rw [show k = n + 1 by omega]; exact hs
        · exact m3 k hk h
    · rw [if_neg hs]
      exact ⟨n + 1, rfl, by omega, le_rfl, fun k hk hk' => by omega, Or.inr (not_lt.1 hs)⟩

theorem poly_aeval (p : StdPoly ℝ) (z : ℂ) : Polynomial.aeval z p.poly = ∑ k ∈ range p.num, ((p.coeff.getD k 0 : ℝ) : ℂ) * z ^ k := by
  rw [StdPoly.poly, map_sum]
  exact sum_congr rfl fun k _ => by simp

theorem poly_ne {p : StdPoly ℝ} (h : p.poly ≠ 0) : ∃ k < p.num, p.coeff.getD k 0 ≠ 0 := by
  by_contra hh
  push Not at hh
  exact h (by rw [StdPoly.poly]; exact sum_eq_zero fun k hk => by rw [hh k (mem_range.1 hk), Polynomial.C_0, zero_mul])

theorem stdLinear_ok {p : StdPoly ℝ} {ti td : ℝ} (hti : 0 < ti) (htd : 0 ≤ td) (h2 : 2 ≤ p.num) (hl : p.num ≤ p.coeff.length) (hz : ∀ k, 2 ≤ k → k < p.num → p.coeff.getD k 0 = 0)
    (he : p.coeff.getD 0 0 + p.coeff.getD 1 0 * p.lb ≠ 0 ∧ p.coeff.getD 0 0 + p.coeff.getD 1 0 * p.ub ≠ 0 ∨ p.coeff.getD 1 0 = 0) :
    ∃ l, stdLinear p = .ok l ∧ StdRootList p ti td l := by
  have rdc : ∀ k, k < p.num → rd p.coeff k = .ok (p.coeff.getD k 0) := fun k hk => by
    rw [rd_of_getElem? (List.getElem?_eq_getElem (by omega)), List.getD_eq_getElem?_getD, List.getElem?_eq_getElem (show k < p.coeff.length by omega)]; rfl
  set c0 := p.coeff.getD 0 0 with hc0
  set c1 := p.coeff.getD 1 0 with hc1
  have hp : ∀ z : ℂ, Polynomial.aeval z p.poly = (c0 : ℂ) + c1 * z := fun z => by
    rw [poly_aeval, show p.num = p.num - 2 + 1 + 1 by omega, sum_range_succ', sum_range_succ', sum_eq_zero]
    · rw [hc0, hc1]; push_cast; ring
    · intro k hk
      rw [mem_range] at hk
      rw [hz (k + 1 + 1) (by omega) (by omega), Complex.ofReal_zero, zero_mul]
  rw [stdLinear, rdc 0 (by omega), bind_ok, rdc 1 (by omega), bind_ok]
  refine ⟨_, rfl, ?_⟩
  by_cases hc : c1 = 0
  · rw [if_pos hc]
    refine ⟨fun y hy => by simp at hy, fun hne z hz0 _ _ _ => ?_, fun y hy => by simp at hy⟩
    exfalso
    rw [hp, hc, Complex.ofReal_zero, zero_mul, add_zero] at hz0
    have h0 : c0 = 0 := by exact_mod_cast hz0
    obtain ⟨k, hk, hk'⟩ := poly_ne hne
    match k, hk, hk' with
    | 0, _, hk' => exact hk' h0
    | 1, _, hk' => exact hk' hc
    | k + 2, hk, hk' => exact hk' (hz (k + 2) (by omega) hk)
  · rw [if_neg hc]
    have hcc : (c1 : ℂ) ≠ 0 := by exact_mod_cast hc
    have root : ∀ z : ℂ, Polynomial.aeval z p.poly = 0 ↔ z = ((-c0 / c1 : ℝ) : ℂ) := fun z => by
      rw [hp]; push_cast; rw [eq_div_iff hcc]
      constructor
      · intro h; linear_combination h
      · intro h; linear_combination h
    have he' := he.resolve_right hc
    by_cases hb : p.lb < -c0 / c1 ∧ -c0 / c1 < p.ub
    · rw [if_pos hb]
      refine ⟨fun y hy => by rw [List.mem_singleton] at hy; rw [hy]; exact ⟨hb.1.le, hb.2.le⟩, fun _ z hz0 _ _ _ => ?_, fun y hy => ?_⟩
      · rw [root] at hz0
        rw [hz0, Complex.ofReal_re]; exact List.mem_singleton.2 rfl
      · rw [List.mem_singleton] at hy
        refine ⟨((-c0 / c1 : ℝ) : ℂ), (root _).2 rfl, by rw [Complex.ofReal_im, abs_zero]; exact hti, by rw [Complex.ofReal_re, hy, sub_self, abs_zero]; exact htd⟩
    · rw [if_neg hb]
      refine ⟨fun y hy => by simp at hy, fun _ z hz0 _ h3 h4 => ?_, fun y hy => by simp at hy⟩
      exfalso
      rw [root] at hz0
      rw [hz0, Complex.ofReal_re] at h3 h4
      refine hb ⟨lt_of_le_of_ne h3 fun h => he'.1 ?_, lt_of_le_of_ne h4 fun h => he'.2 ?_⟩
      · rw [h]; field_simp; ring
      · rw [← h]; field_simp; ring

theorem stdClamp_near {lb ub td a : ℝ} (h : lb ≤ ub) (ht : 0 ≤ td) (h1 : lb - td < a) (h2 : a < ub + td) : lb ≤ stdClamp lb ub a ∧ stdClamp lb ub a ≤ ub ∧ |a - stdClamp lb ub a| ≤ td := by
  unfold stdClamp
  dsimp only
  rw [abs_le]
  split_ifs <;> refine ⟨?_, ?_, ?_, ?_⟩ <;> linarith

theorem stdClamp_id {lb ub a : ℝ} (h1 : lb ≤ a) (h2 : a ≤ ub) : stdClamp lb ub a = a := by
  unfold stdClamp
  dsimp only
  rw [if_neg (not_lt.2 h1), if_neg (not_lt.2 h2)]

/-- C121: the roots of a polynomial in the monomial basis: every root with small imaginary part and real part in the domain is listed, each
member of the list is near such a root. Missing for the full claim: coefficients from the second on are zero or at least the threshold; a linear
polynomial has no root at an end of the domain; members need not be real roots. -/
theorem std_roots_partial {eig : Nat → List ℝ → C (List (ℝ × ℝ))} (he : IsEigG eig) {thr ti td : ℝ} (ht : 0 < thr) (hti : 0 < ti) (htd : 0 < td) {p : StdPoly ℝ} (hd : p.lb ≤ p.ub)
    (h1 : 1 ≤ p.num) (hl : p.num ≤ p.coeff.length) (hs : ∀ k, 2 ≤ k → k < p.num → p.coeff.getD k 0 = 0 ∨ thr ≤ |p.coeff.getD k 0|)
    (hlin : (∀ k, 2 ≤ k → k < p.num → p.coeff.getD k 0 = 0) →
      p.coeff.getD 0 0 + p.coeff.getD 1 0 * p.lb ≠ 0 ∧ p.coeff.getD 0 0 + p.coeff.getD 1 0 * p.ub ≠ 0 ∨ p.coeff.getD 1 0 = 0) :
    ∃ l, stdRoots thr ti td eig p = .ok l ∧ StdRootList p ti td l := by
  by_cases n1 : p.num = 1
  · refine ⟨[], by rw [stdRoots, if_pos n1]; rfl, fun y hy => by simp at hy, fun hne z hz0 _ _ _ => ?_, fun y hy => by simp at hy⟩
    exfalso
    rw [poly_aeval, n1, sum_range_one, pow_zero, mul_one] at hz0
    obtain ⟨k, hk, hk'⟩ := poly_ne hne
    rw [show k = 0 by omega] at hk'
    exact hk' (by exact_mod_cast hz0)
  · by_cases n2 : p.num = 2
    · rw [stdRoots, if_neg n1, if_pos n2]
      exact stdLinear_ok hti htd.le (by omega) hl (fun k hk hk' => by omega) (hlin fun k hk hk' => by omega)
    · obtain ⟨m, em, m1, m2, m3, m4⟩ := stdTrim_ok (thr := thr) (c := p.coeff) (p.num - 1) (by omega) (by omega)
      have hz : ∀ k, m < k → k < p.num → 2 ≤ k → p.coeff.getD k 0 = 0 := fun k hk hk' h2 => (hs k h2 hk').resolve_right fun h =>
        absurd (m3 k hk (by omega)) (not_lt.2 h)
      have start : stdRoots thr ti td eig p = (if m = 1 then stdLinear p
          else if m = 0 then pure []
          else do
            let b ← stdComp p.num p.coeff m
            let l ← eig m b
            pure (l.filterMap fun z => if |z.2| < ti ∧ p.lb - td < z.1 ∧ z.1 < p.ub + td then
              some (stdClamp p.lb p.ub z.1) else none)) := by
        rw [stdRoots, if_neg n1, if_neg n2, em, bind_ok]
      by_cases hm : m = 1
      · rw [start, if_pos hm]
        have hz' : ∀ k, 2 ≤ k → k < p.num → p.coeff.getD k 0 = 0 := fun k hk hk' => hz k (by omega) hk' hk
        exact stdLinear_ok hti htd.le (by omega) hl hz' (hlin hz')
      · have hc : p.coeff.getD m 0 ≠ 0 := fun h => by
          have := m4.resolve_left hm
          rw [h, abs_zero] at this
          linarith
        obtain ⟨b, eb, hb⟩ := stdComp_ok (num := p.num) (n := m) (c := p.coeff) (by omega) (by omega) hl hc
        obtain ⟨l, el, hll⟩ := he m b hb.1
        have hmem : ∀ z : ℂ, (z.re, z.im) ∈ l ↔ Polynomial.aeval z p.poly = 0 := fun z => by
          rw [hll, std_eig_iff (by omega) hc hb, poly_aeval]
          have : ∑ k ∈ range (m + 1), ((p.coeff.getD k 0 : ℝ) : ℂ) * z ^ k = ∑ k ∈ range p.num, ((p.coeff.getD k 0 : ℝ) : ℂ) * z ^ k :=
            sum_subset (range_subset_range.2 (by omega)) fun k hk hk' => by
              rw [mem_range] at hk hk'
              rw [hz k (by omega) hk (by omega), Complex.ofReal_zero, zero_mul]
          rw [this]
        have hres : ∀ y, y ∈ l.filterMap (fun z => if |z.2| < ti ∧ p.lb - td < z.1 ∧ z.1 < p.ub + td then some (stdClamp p.lb p.ub z.1) else none) ↔
            ∃ a c, (a, c) ∈ l ∧ |c| < ti ∧ p.lb - td < a ∧ a < p.ub + td ∧ stdClamp p.lb p.ub a = y := fun y => by
          rw [List.mem_filterMap]
          constructor
          · rintro ⟨⟨a, c⟩, g1, g2⟩
            dsimp only at g2
            split at g2
            · rename_i g3
              exact ⟨a, c, g1, g3.1, g3.2.1, g3.2.2, Option.some.inj g2⟩
            · cases g2
          · rintro ⟨a, c, g1, g2, g3, g4, g5⟩
            exact ⟨(a, c), g1, by dsimp only; rw [if_pos ⟨g2, g3, g4⟩, g5]⟩
        refine ⟨_, by rw [start, if_neg hm, if_neg (by omega), eb, bind_ok, el, bind_ok]; rfl, fun y hy => ?_, fun _ z hz0 g1 g2 g3 => ?_, fun y hy => ?_⟩
        · obtain ⟨a, c, -, -, g3, g4, rfl⟩ := (hres y).1 hy
          have := stdClamp_near hd htd.le g3 g4
          exact ⟨this.1, this.2.1⟩
        · exact (hres _).2 ⟨z.re, z.im, (hmem z).2 hz0, g1, by linarith, by linarith, stdClamp_id g2 g3⟩
        · obtain ⟨a, c, g1, g2, g3, g4, rfl⟩ := (hres y).1 hy
          exact ⟨⟨a, c⟩, (hmem ⟨a, c⟩).1 g1, g2, (stdClamp_near hd htd.le g3 g4).2.2⟩

/-- A linear polynomial with its root at an end of the domain: no root is returned. -/
theorem std_end_counterexample (thr ti td : ℚ) (eig : Nat → List ℚ → C (List (ℚ × ℚ))) :
    stdRoots thr ti td eig ⟨2, 0, 1, [0, 1]⟩ = .ok [] := by
  have : stdLinear (⟨2, 0, 1, [0, 1]⟩ : StdPoly ℚ) = .ok [] := by decide +kernel
  exact this

/-- A polynomial with a small leading coefficient: `-4 + t x^2` with `t` below the threshold is taken for a constant; its root `2/sqrt(t)` in the
domain `[0, 3/t]` is lost. -/
theorem std_small_counterexample {thr : ℝ} (ht : 0 < thr) (ht1 : thr ≤ 1) (ti td : ℝ) (eig : Nat → List ℝ → C (List (ℝ × ℝ))) :
    ∃ (p : StdPoly ℝ) (x : ℝ), p.num = 3 ∧ p.coeff.length = 3 ∧ p.lb ≤ x ∧ x ≤ p.ub ∧ p.poly.eval x = 0 ∧ stdRoots thr ti td eig p = .ok [] := by
  obtain ⟨t, h0, h1, h2⟩ : ∃ t : ℝ, 0 < t ∧ t * t < thr ∧ t ≤ 1 := ⟨thr / 2, by linarith, by nlinarith, by linarith⟩
  refine ⟨⟨3, 0, 2 / t, [-4, 0, t * t]⟩, 2 / t, rfl, rfl, by show 0 ≤ 2 / t; positivity, le_rfl, ?_, ?_⟩
  · simp [StdPoly.poly, sum_range_succ]
    field_simp
    norm_num
  · have : |t * t| < thr := by rw [abs_of_pos (by positivity)]; exact h1
    rw [stdRoots, if_neg (by norm_num), if_neg (by norm_num)]
    show (stdTrim thr [-4, 0, t * t] 2 >>= _) = _
    have e : stdTrim thr [-4, 0, t * t] 2 = .ok 1 := by
      show ((rd [-4, 0, t * t] 2 : C ℝ) >>= _) = _
      rw [show (rd [-4, 0, t * t] 2 : C ℝ) = .ok (t * t) from rfl, bind_ok, if_pos this, if_pos rfl]
      rfl
    rw [e, bind_ok, if_pos rfl, stdLinear]
    show (Except.ok (if (0 : ℝ) = 0 then [] else _) : C (List ℝ)) = _
    rw [if_pos rfl]

theorem exists_isEigG : ∃ eig, IsEigG eig := by
  refine ⟨fun N b => .ok (((bufMat N b).charpoly.roots.toList).map fun z => (z.re, z.im)), fun N b _ => ⟨_, rfl, fun z => ?_⟩⟩
  have e : Matrix.det (z • (1 : Matrix (Fin N) (Fin N) ℂ) - bufMat N b) = (bufMat N b).charpoly.eval z := by
    rw [Matrix.eval_charpoly]; congr 2; ext i j; simp [Matrix.scalar_apply, Matrix.diagonal_apply, Matrix.one_apply]
  rw [e, List.mem_map]
  constructor
  · rintro ⟨w, h1, h2⟩
    rw [Multiset.mem_toList, Polynomial.mem_roots (Matrix.charpoly_monic _).ne_zero] at h1
    have : w = z := Complex.ext (Prod.mk.inj h2).1 (Prod.mk.inj h2).2
    rw [← this]; exact h1
  · intro h
    exact ⟨z, by rw [Multiset.mem_toList, Polynomial.mem_roots (Matrix.charpoly_monic _).ne_zero]; exact h, rfl⟩

/-- `(x - 1)(x - 2)(x + 5)` on `[0, 3]`: both roots in the domain are listed. -/
example : ∃ (eig : Nat → List ℝ → C (List (ℝ × ℝ))) (l : List ℝ), stdRoots (1 / 10) (1 / 10) (1 / 10) eig ⟨4, 0, 3, [10, -13, 2, 1]⟩ = .ok l ∧ (1 : ℝ) ∈ l ∧ (2 : ℝ) ∈ l := by
  obtain ⟨eig, he⟩ := exists_isEigG
  obtain ⟨l, e, h⟩ := std_roots_partial he (thr := 1 / 10) (ti := 1 / 10) (td := 1 / 10) (p := ⟨4, 0, 3, [10, -13, 2, 1]⟩) (by norm_num) (by norm_num) (by norm_num)
    (by norm_num) (by norm_num) (by simp) (fun k h1 h2 => by
      have : k < 4 := h2
      refine Or.inr ?_
      interval_cases k
      · show (1 / 10 : ℝ) ≤ |2|; norm_num
      · show (1 / 10 : ℝ) ≤ |1|; norm_num)
    (fun h => absurd (h 3 (by norm_num) (by norm_num)) (by norm_num))
  have hne : (⟨4, 0, 3, [10, -13, 2, 1]⟩ : StdPoly ℝ).poly ≠ 0 := fun hh => by
    have := congrArg (Polynomial.eval 0) hh
    simp [StdPoly.poly, sum_range_succ] at this
  have key : ∀ x : ℝ, 0 ≤ x → x ≤ 3 → 10 - 13 * x + 2 * x ^ 2 + x ^ 3 = 0 → x ∈ l := fun x h1 h2 h3 => by
    have := h.kept hne (x : ℂ) (by
      rw [poly_aeval]
      simp only [sum_range_succ, range_zero, sum_empty]
      have : ((10 - 13 * x + 2 * x ^ 2 + x ^ 3 : ℝ) : ℂ) = 0 := by rw [h3]; rfl
      push_cast at this
      simp
      linear_combination this) (by rw [Complex.ofReal_im, abs_zero]; norm_num) (by rw [Complex.ofReal_re]; exact h1) (by rw [Complex.ofReal_re]; exact h2)
    rwa [Complex.ofReal_re] at this
  exact ⟨eig, l, e, key 1 (by norm_num) (by norm_num) (by norm_num), key 2 (by norm_num) (by norm_num) (by norm_num)⟩

end C3.Poly
