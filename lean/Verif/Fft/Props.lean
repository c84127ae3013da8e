/-
C89: fast Fourier transforms.
-/
import Verif.Fft.Model
import Mathlib.RingTheory.RootsOfUnity.Complex
import Mathlib.Algebra.Order.BigOperators.Ring.Finset

namespace C3.Fft

open Finset
open Complex (I exp)

/-! ### Specification -/

/-- The discrete Fourier transform of the numbers `x 0, ..., x (N-1)`. -/
noncomputable def dft (N : Nat) (x : Nat → ℂ) (k : Nat) : ℂ := ∑ j ∈ range N, exp (-2 * Real.pi * I * (k * j) / N) * x j

/-- The inverse transform. -/
noncomputable def idft (N : Nat) (X : Nat → ℂ) (j : Nat) : ℂ := (∑ k ∈ range N, exp (2 * Real.pi * I * (j * k) / N) * X k) / N

/-! ### Loops -/

theorem forN_accum {n p : Nat} {body : Nat → List ℂ → C (List ℂ)} {X : List ℂ} (g : Nat → ℂ) (hp : p < X.length)
    (hb : ∀ i < n, ∀ b : List ℂ, b.length = X.length → body i b = wr b p (b.getD p 0 + g i)) :
    forN n body X = .ok (X.set p (X.getD p 0 + ∑ i ∈ range n, g i)) := by
  obtain ⟨b, h1, h2⟩ := forN_spec (n := n) (body := body) (s := X)
    (I := fun k b => b = X.set p (X.getD p 0 + ∑ i ∈ range k, g i))
    (by
      rw [range_zero, sum_empty, add_zero]
      apply List.ext_getElem?
      intro i
      by_cases e : p = i
      · subst e; rw [List.getElem?_set_self hp]; simp [hp]
      · rw [List.getElem?_set_ne e])
    (by
      intro i hi b hbb
      subst hbb
      rw [hb i hi _ (by simp), wr_ok _ (by simpa using hp)]
      refine ⟨_, rfl, ?_⟩
      rw [List.set_set, sum_range_succ]
      congr 1
      simp [hp]; ring)
  rw [h1, h2]

/-- What a transform with given strides has to do to the output array. -/
def Filled (N : Nat) (F : Nat → ℂ) (X : List ℂ) (oX sX : Nat) (X' : List ℂ) : Prop :=
  X'.length = X.length ∧ (∀ i < N, X'[oX + i * sX]? = some (F i)) ∧ ∀ p, (∀ i < N, oX + i * sX ≠ p) → X'[p]? = X[p]?

theorem fftSlow_ok {N : Nat} {x X : List ℂ} {ox sx oX sX : Nat} (hs : 0 < sX) (hx : ∀ j < N, ox + j * sx < x.length)
    (hX : ∀ j < N, oX + j * sX < X.length) :
    ∃ X', fftSlow N x ox sx X oX sX = .ok X' ∧ Filled N (dft N fun j => x.getD (ox + j * sx) 0) X oX sX X' := by
  unfold fftSlow
  obtain ⟨b, h1, h2, h3, h4⟩ := forN_scatter (n := N) (a := X) (body := fun ii X => do
      let X ← wr X (oX + ii * sX) 0
      forN N (fun jj X => do
        let a ← rd X (oX + ii * sX)
        let v ← rd x (ox + jj * sx)
        wr X (oX + ii * sX) (a + ex ii jj N * v)) X)
    (fun i => oX + i * sX) (dft N fun j => x.getD (ox + j * sx) 0) hX
    (by intro i _ j _ e; exact Nat.eq_of_mul_eq_mul_right hs (Nat.add_left_cancel e))
    (by
      intro i hi b hb _ _
      have hp : oX + i * sX < b.length := by rw [hb]; exact hX i hi
      rw [wr_ok _ hp, bind_ok, forN_accum (fun j => ex i j N * x.getD (ox + j * sx) 0) (by simpa using hp), wr_ok _ hp, List.set_set]
      · congr 2
        simp only [dft, ex]
        have : (b.set (oX + i * sX) 0).getD (oX + i * sX) 0 = (0 : ℂ) := by simp [hp]
        rw [this, zero_add]
        exact sum_congr rfl fun j _ => by rw [mul_assoc (-2 * (Real.pi : ℂ) * I)]
      · intro j hj c hc
        rw [rd_getD 0 (by rw [hc]; simpa using hp), bind_ok, rd_getD 0 (hx j hj), bind_ok])
  exact ⟨b, h1, h2, h3, h4⟩

/-! ### The recursion -/

theorem twid_mul {M : Nat} (hM : 0 < M) (k j : Nat) :
    exp (-2 * Real.pi * I * (k * (2 * j : ℕ)) / (2 * M : ℕ)) = exp (-2 * Real.pi * I * (k * j) / M) := by
  congr 1
  have : (M : ℂ) ≠ 0 := Nat.cast_ne_zero.2 hM.ne'
  push_cast
  field_simp

theorem twid_odd {M : Nat} (hM : 0 < M) (k j : Nat) :
    exp (-2 * Real.pi * I * (k * (2 * j + 1 : ℕ)) / (2 * M : ℕ)) = twiddle k (2 * M) * exp (-2 * Real.pi * I * (k * j) / M) := by
  rw [twiddle, ← Complex.exp_add]
  congr 1
  have : (M : ℂ) ≠ 0 := Nat.cast_ne_zero.2 hM.ne'
  push_cast
  field_simp
  ring

theorem sum_even_odd (M : Nat) (g : Nat → ℂ) : ∑ j ∈ range (2 * M), g j = ∑ j ∈ range M, g (2 * j) + ∑ j ∈ range M, g (2 * j + 1) := by
  induction M with
  | zero => simp
  | succ M ih =>
    rw [show 2 * (M + 1) = 2 * M + 1 + 1 by ring, sum_range_succ, sum_range_succ, ih, sum_range_succ, sum_range_succ]
    ring

/-- The radix two step. -/
theorem dft_step {M : Nat} (hM : 0 < M) (x : Nat → ℂ) (k : Nat) :
    dft (2 * M) x k = dft M (fun j => x (2 * j)) k + twiddle k (2 * M) * dft M (fun j => x (2 * j + 1)) k := by
  rw [dft, sum_even_odd, dft, dft, mul_sum]
  congr 1
  · exact sum_congr rfl fun j _ => by rw [twid_mul hM]
  · exact sum_congr rfl fun j _ => by rw [twid_odd hM]; ring

/-- The transform is periodic. -/
theorem dft_period {M : Nat} (hM : 0 < M) (x : Nat → ℂ) (k : Nat) : dft M x (k + M) = dft M x k := by
  refine sum_congr rfl fun j _ => ?_
  congr 1
  rw [Complex.exp_eq_exp_iff_exists_int]
  refine ⟨-j, ?_⟩
  have : (M : ℂ) ≠ 0 := Nat.cast_ne_zero.2 hM.ne'
  push_cast
  field_simp
  ring

theorem twiddle_half {M : Nat} (hM : 0 < M) (k : Nat) : twiddle (k + M) (2 * M) = -twiddle k (2 * M) := by
  have : (M : ℂ) ≠ 0 := Nat.cast_ne_zero.2 hM.ne'
  rw [twiddle, twiddle, show -2 * (Real.pi : ℂ) * I * ((k + M : ℕ) : ℂ) / ((2 * M : ℕ) : ℂ) =
    -2 * Real.pi * I * k / (2 * M : ℕ) - Real.pi * I by push_cast; field_simp; ring, Complex.exp_sub, Complex.exp_pi_mul_I]
  ring

theorem split_ok {M sX oX : Nat} {X : List ℂ} (hX : ∀ j < 2 * M, oX + j * sX < X.length) :
    split M sX X oX = .ok ((List.range M).map (fun i => X.getD (oX + 2 * i * sX) 0),
      (List.range M).map (fun i => X.getD (oX + (2 * i + 1) * sX) 0)) := by
  unfold split
  obtain ⟨s, h1, h2, h3, h4⟩ := forN_spec (n := M) (s := (List.replicate M (0 : ℂ), List.replicate M (0 : ℂ)))
    (body := fun ii (eo : List ℂ × List ℂ) => do
      let a ← rd X (oX + ii * 2 * sX)
      let b ← rd X (oX + (ii * 2 * sX + sX))
      let e ← wr eo.1 ii a
      let o ← wr eo.2 ii b
      pure (e, o))
    (I := fun k s => s.1.length = M ∧ s.2.length = M ∧ ∀ i < k, s.1[i]? = some (X.getD (oX + 2 * i * sX) 0) ∧
      s.2[i]? = some (X.getD (oX + (2 * i + 1) * sX) 0)) ⟨by simp, by simp, by simp⟩
    (by
      rintro i hi ⟨e, o⟩ ⟨h1, h2, h3⟩
      dsimp only at h1 h2 h3 ⊢
      rw [rd_getD 0 (by have := hX (2 * i) (by omega); rwa [mul_comm i 2]), bind_ok,
        rd_getD 0 (by have := hX (2 * i + 1) (by omega); rw [mul_comm i 2]; rwa [add_mul, one_mul] at this), bind_ok,
        wr_ok _ (by omega), bind_ok, wr_ok _ (by omega), bind_ok]
      refine ⟨_, rfl, by simpa using h1, by simpa using h2, ?_⟩
      intro j hj
      dsimp only
      by_cases c : i = j
      · subst c
        rw [List.getElem?_set_self (by omega), List.getElem?_set_self (by omega), mul_comm i 2, add_mul, one_mul]
        exact ⟨rfl, rfl⟩
      · rw [List.getElem?_set_ne c, List.getElem?_set_ne c]
        exact h3 j (by omega))
  rw [h1]
  congr 1
  refine Prod.ext ?_ ?_
  · apply List.ext_getElem?
    intro j
    by_cases c : j < M
    · rw [(h4 j c).1, List.getElem?_map, List.getElem?_range c]; rfl
    · rw [List.getElem?_eq_none (by omega), List.getElem?_eq_none (by simpa using c)]
  · apply List.ext_getElem?
    intro j
    by_cases c : j < M
    · rw [(h4 j c).2, List.getElem?_map, List.getElem?_range c]; rfl
    · rw [List.getElem?_eq_none (by omega), List.getElem?_eq_none (by simpa using c)]

theorem join_ok {M sX oX : Nat} {E O X : List ℂ} (hs : 0 < sX) (hE : E.length = M) (hO : O.length = M)
    (hX : ∀ j < 2 * M, oX + j * sX < X.length) :
    ∃ X', join (2 * M) sX E O X oX = .ok X' ∧ X'.length = X.length ∧
      (∀ i < M, X'[oX + i * sX]? = some (E.getD i 0 + twiddle i (2 * M) * O.getD i 0)) ∧
      (∀ i < M, X'[oX + (i + M) * sX]? = some (E.getD i 0 - twiddle i (2 * M) * O.getD i 0)) ∧
      ∀ p, (∀ i < 2 * M, oX + i * sX ≠ p) → X'[p]? = X[p]? := by
  unfold join
  have inj : ∀ {i j : Nat}, i ≠ j → oX + i * sX ≠ oX + j * sX := fun h e =>
    h (Nat.eq_of_mul_eq_mul_right hs (Nat.add_left_cancel e))
  rw [Nat.mul_div_cancel_left M (by norm_num)]
  obtain ⟨X', h1, h2⟩ := forN_spec (n := M) (s := X)
    (body := fun ii X => do
      let a ← rd E ii
      let b ← rd O ii
      let X ← wr X (oX + ii * sX) (a + twiddle ii (2 * M) * b)
      wr X (oX + (ii * sX + M * sX)) (a - twiddle ii (2 * M) * b))
    (I := fun k X' => X'.length = X.length ∧
      (∀ i < k, X'[oX + i * sX]? = some (E.getD i 0 + twiddle i (2 * M) * O.getD i 0)) ∧
      (∀ i < k, X'[oX + (i + M) * sX]? = some (E.getD i 0 - twiddle i (2 * M) * O.getD i 0)) ∧
      ∀ p, (∀ i < 2 * M, oX + i * sX ≠ p) → X'[p]? = X[p]?) ⟨rfl, by simp, by simp, fun _ _ => rfl⟩
    (by
      rintro i hi Y ⟨h1, h2, h3, h4⟩
      rw [← add_mul]
      have b1 : oX + i * sX < Y.length := by rw [h1]; exact hX i (by omega)
      have b2 : oX + (i + M) * sX < Y.length := by rw [h1]; exact hX (i + M) (by omega)
      rw [rd_getD 0 (by omega), bind_ok, rd_getD 0 (by omega), bind_ok, wr_ok _ b1, bind_ok, wr_ok _ (by simpa using b2)]
      refine ⟨_, rfl, by simpa using h1, ?_, ?_, ?_⟩
      · intro j hj
        rw [List.getElem?_set_ne (inj (by omega))]
        by_cases c : i = j
        · subst c; rw [List.getElem?_set_self b1]
        · rw [List.getElem?_set_ne (inj c)]; exact h2 j (by omega)
      · intro j hj
        by_cases c : i = j
        · subst c; rw [List.getElem?_set_self (by simpa using b2)]
        · rw [List.getElem?_set_ne (inj (by omega)), List.getElem?_set_ne (inj (by omega))]; exact h3 j (by omega)
      · intro p hp
        rw [List.getElem?_set_ne (hp _ (by omega)), List.getElem?_set_ne (hp _ (by omega))]
        exact h4 p hp)
  exact ⟨X', h1, h2.1, h2.2.1, h2.2.2.1, h2.2.2.2⟩

/-- C89: for a power of two, `fft_base` writes the discrete Fourier transform of the strided input to the strided output and changes nothing
else. -/
theorem fftBase_ok (k : Nat) {x : List ℂ} : ∀ {X : List ℂ} {ox sx oX sX : Nat}, 0 < sX → (∀ j < 2 ^ k, ox + j * sx < x.length) →
    (∀ j < 2 ^ k, oX + j * sX < X.length) →
    ∃ X', fftBase (2 ^ k) x ox sx X oX sX = .ok X' ∧ Filled (2 ^ k) (dft (2 ^ k) fun j => x.getD (ox + j * sx) 0) X oX sX X' := by
  induction k with
  | zero =>
    intro X ox sx oX sX hs hx hX
    rw [fftBase, if_pos (by norm_num)]
    exact fftSlow_ok hs hx hX
  | succ k ih =>
    intro X ox sx oX sX hs hx hX
    by_cases hk : k = 0
    · subst hk
      rw [fftBase, if_pos (by norm_num)]
      exact fftSlow_ok hs hx hX
    · have hM : 0 < 2 ^ k := by positivity
      have h2 : 2 ≤ 2 ^ k := by
        calc 2 = 2 ^ 1 := rfl
          _ ≤ 2 ^ k := Nat.pow_le_pow_right (by norm_num) (by omega)
      have eN : 2 ^ (k + 1) = 2 * 2 ^ k := by rw [pow_succ]; ring
      rw [eN] at hx hX ⊢
      set M := 2 ^ k with hMd
      rw [fftBase, if_neg (by omega), Nat.mul_div_cancel_left M (by norm_num)]
      obtain ⟨X1, e1, l1, f1, u1⟩ := ih (X := X) (ox := ox) (sx := 2 * sx) (oX := oX) (sX := 2 * sX) (by omega)
        (fun j hj => by have := hx (2 * j) (by omega); rwa [show j * (2 * sx) = 2 * j * sx by ring])
        (fun j hj => by have := hX (2 * j) (by omega); rwa [show j * (2 * sX) = 2 * j * sX by ring])
      obtain ⟨X2, e2, l2, f2, u2⟩ := ih (X := X1) (ox := ox + sx) (sx := 2 * sx) (oX := oX + sX) (sX := 2 * sX) (by omega)
        (fun j hj => by have := hx (2 * j + 1) (by omega); rwa [show ox + sx + j * (2 * sx) = ox + (2 * j + 1) * sx by ring])
        (fun j hj => by rw [l1]; have := hX (2 * j + 1) (by omega); rwa [show oX + sX + j * (2 * sX) = oX + (2 * j + 1) * sX by ring])
      have hX2 : ∀ j < 2 * M, oX + j * sX < X2.length := by rw [l2, l1]; exact hX
      obtain ⟨X3, e3, l3, f3, f3', u3⟩ := join_ok (X := X2) (oX := oX) (E := (List.range M).map (fun i => X2.getD (oX + 2 * i * sX) 0))
        (O := (List.range M).map (fun i => X2.getD (oX + (2 * i + 1) * sX) 0)) hs (by simp) (by simp) hX2
      rw [e1, bind_ok, e2, bind_ok, split_ok hX2, bind_ok]
      refine ⟨X3, e3, by rw [l3, l2, l1], ?_, ?_⟩
      · have hev : ∀ i < M, X2.getD (oX + 2 * i * sX) 0 = dft M (fun j => x.getD (ox + (2 * j) * sx) 0) i := by
          intro i hi
          rw [List.getD_eq_getElem?_getD, show oX + 2 * i * sX = oX + i * (2 * sX) by ring, u2 _ ?_, f1 i hi]
          · simp only [Option.getD_some]
            congr 1; funext j; congr 2; ring
          · intro j hj e
            have e' : (2 * j + 1) * sX = 2 * i * sX := by nlinarith
            have := Nat.eq_of_mul_eq_mul_right hs e'
            omega
        have hod : ∀ i < M, X2.getD (oX + (2 * i + 1) * sX) 0 = dft M (fun j => x.getD (ox + (2 * j + 1) * sx) 0) i := by
          intro i hi
          rw [List.getD_eq_getElem?_getD, show oX + (2 * i + 1) * sX = oX + sX + i * (2 * sX) by ring, f2 i hi]
          simp only [Option.getD_some]
          congr 1; funext j; congr 1; ring
        have gE : ∀ i < M, ((List.range M).map (fun i => X2.getD (oX + 2 * i * sX) 0)).getD i 0 =
            dft M (fun j => x.getD (ox + (2 * j) * sx) 0) i := by
          intro i hi
          rw [List.getD_eq_getElem?_getD, List.getElem?_map, List.getElem?_range hi]; exact hev i hi
        have gO : ∀ i < M, ((List.range M).map (fun i => X2.getD (oX + (2 * i + 1) * sX) 0)).getD i 0 =
            dft M (fun j => x.getD (ox + (2 * j + 1) * sx) 0) i := by
          intro i hi
          rw [List.getD_eq_getElem?_getD, List.getElem?_map, List.getElem?_range hi]; exact hod i hi
        intro i hi
        by_cases c : i < M
        · rw [f3 i c, gE i c, gO i c, dft_step hM]
        · obtain ⟨j, rfl⟩ : ∃ j, i = j + M := ⟨i - M, by omega⟩
          have hj : j < M := by omega
          rw [f3' j hj, gE j hj, gO j hj, dft_step hM, dft_period hM, dft_period hM, twiddle_half hM]
          congr 1; ring
      · intro p hp
        rw [u3 p hp, u2 p, u1 p]
        · intro i hi; have := hp (2 * i) (by omega); rwa [show i * (2 * sX) = 2 * i * sX by ring]
        · intro i hi; have := hp (2 * i + 1) (by omega); rwa [show oX + sX + i * (2 * sX) = oX + (2 * i + 1) * sX by ring]

/-! ### Inversion -/

theorem exp_ne_one {N j l : Nat} (hj : j < N) (hl : l < N) (h : j ≠ l) : exp (2 * Real.pi * I * ((j : ℂ) - l) / N) ≠ 1 := by
  rw [Ne, Complex.exp_eq_one_iff]
  rintro ⟨n, e⟩
  have hN : (N : ℂ) ≠ 0 := Nat.cast_ne_zero.2 (by omega)
  have h2 : (2 * Real.pi * I : ℂ) ≠ 0 := Complex.two_pi_I_ne_zero
  have e' : ((j : ℂ) - l) = n * N := by
    field_simp at e
    have := mul_left_cancel₀ h2 (show (2 * Real.pi * I : ℂ) * ((j : ℂ) - l) = 2 * Real.pi * I * (n * N) by linear_combination (2 * Real.pi * I) * e)
    exact this
  have e2 : (j : ℤ) - l = n * N := by exact_mod_cast e'
  rcases lt_trichotomy n 0 with h3 | h3 | h3
  · nlinarith
  · subst h3; omega
  · nlinarith

/-- The characters are orthogonal. -/
theorem ortho {N j l : Nat} (hj : j < N) (hl : l < N) :
    ∑ k ∈ range N, exp (2 * Real.pi * I * (k * ((j : ℂ) - l)) / N) = if j = l then (N : ℂ) else 0 := by
  have hN : (N : ℂ) ≠ 0 := Nat.cast_ne_zero.2 (by omega)
  have hp : ∀ k : Nat, exp (2 * Real.pi * I * (k * ((j : ℂ) - l)) / N) = exp (2 * Real.pi * I * ((j : ℂ) - l) / N) ^ k := by
    intro k
    rw [← Complex.exp_nat_mul]; congr 1; ring
  simp only [hp]
  by_cases c : j = l
  · subst c; simp
  · rw [if_neg c]
    have h1 := geom_sum_mul (exp (2 * Real.pi * I * ((j : ℂ) - l) / N)) N
    have h2 : exp (2 * Real.pi * I * ((j : ℂ) - l) / N) ^ N = 1 := by
      rw [← Complex.exp_nat_mul, Complex.exp_eq_one_iff]
      refine ⟨(j : ℤ) - l, ?_⟩
      push_cast
      field_simp
    rw [h2, sub_self] at h1
    exact (mul_eq_zero.1 h1).resolve_right (sub_ne_zero.2 (exp_ne_one hj hl c))

/-- C89: the inverse transform undoes the transform. -/
theorem idft_dft {N : Nat} (x : Nat → ℂ) {l : Nat} (hl : l < N) : idft N (dft N x) l = x l := by
  have hN : (N : ℂ) ≠ 0 := Nat.cast_ne_zero.2 (by omega)
  rw [idft, div_eq_iff hN]
  simp only [dft, mul_sum]
  rw [sum_comm]
  have : ∀ j ∈ range N, ∑ k ∈ range N, exp (2 * Real.pi * I * (l * k) / N) * (exp (-2 * Real.pi * I * (k * j) / N) * x j) =
      (if l = j then (N : ℂ) else 0) * x j := by
    intro j hj
    rw [← ortho hl (mem_range.1 hj), sum_mul]
    refine sum_congr rfl fun k _ => ?_
    rw [← mul_assoc, ← Complex.exp_add]
    congr 2; ring
  rw [sum_congr rfl this]
  simp [hl, mul_comm]

/-- C89: and conversely. -/
theorem dft_idft {N : Nat} (X : Nat → ℂ) {l : Nat} (hl : l < N) : dft N (idft N X) l = X l := by
  have hN : (N : ℂ) ≠ 0 := Nat.cast_ne_zero.2 (by omega)
  have : dft N (idft N X) l * N = X l * N := by
    simp only [dft, idft, sum_mul]
    have : ∀ j ∈ range N, exp (-2 * Real.pi * I * (l * j) / N) * ((∑ k ∈ range N, exp (2 * Real.pi * I * (j * k) / N) * X k) / N) * N =
        ∑ k ∈ range N, exp (2 * Real.pi * I * (j * ((k : ℂ) - l)) / N) * X k := by
      intro j _
      rw [mul_assoc, div_mul_cancel₀ _ hN, mul_sum]
      refine sum_congr rfl fun k _ => ?_
      rw [← mul_assoc, ← Complex.exp_add]
      congr 2; ring
    rw [sum_congr rfl this, sum_comm]
    simp only [← sum_mul]
    rw [sum_congr rfl fun k hk => by rw [ortho (mem_range.1 hk) hl]]
    simp [hl, mul_comm]
  exact mul_right_cancel₀ hN this

theorem conj_exp (z : ℝ) : (starRingEnd ℂ) (exp (z * I)) = exp (-z * I) := by
  rw [← Complex.exp_conj]; simp

/-- The inverse transform is the conjugate of the transform of the conjugates. -/
theorem idft_conj (N : Nat) (x : Nat → ℂ) (k : Nat) :
    idft N x k = (starRingEnd ℂ) (dft N (fun j => (starRingEnd ℂ) (x j)) k) / N := by
  rw [idft, dft, map_sum]
  congr 1
  refine sum_congr rfl fun j _ => ?_
  rw [map_mul, Complex.conj_conj, ← Complex.exp_conj]
  congr 2
  simp [Complex.conj_ofNat]

/-- C89: the transform preserves the sum of squares up to the factor `N`. -/
theorem parseval (N : Nat) (x : Nat → ℂ) :
    ∑ k ∈ range N, Complex.normSq (dft N x k) = N * ∑ j ∈ range N, Complex.normSq (x j) := by
  have h : ∑ k ∈ range N, dft N x k * (starRingEnd ℂ) (dft N x k) = N * ∑ j ∈ range N, x j * (starRingEnd ℂ) (x j) := by
    rcases Nat.eq_zero_or_pos N with rfl | hN
    · simp
    have hN' : (N : ℂ) ≠ 0 := Nat.cast_ne_zero.2 hN.ne'
    have h1 : ∀ j ∈ range N, (starRingEnd ℂ) (x j) * N =
        ∑ k ∈ range N, exp (-2 * Real.pi * I * (j * k) / N) * (starRingEnd ℂ) (dft N x k) := by
      intro j hj
      conv_lhs => rw [← idft_dft x (mem_range.1 hj)]
      rw [idft, map_div₀, map_natCast, div_mul_cancel₀ _ hN', map_sum]
      refine sum_congr rfl fun k _ => ?_
      rw [map_mul, ← Complex.exp_conj]
      congr 2
      simp [Complex.conj_ofNat]
    have h2 : (N : ℂ) * ∑ j ∈ range N, x j * (starRingEnd ℂ) (x j) =
        ∑ j ∈ range N, ∑ k ∈ range N, x j * (exp (-2 * Real.pi * I * (j * k) / N) * (starRingEnd ℂ) (dft N x k)) := by
      rw [mul_comm, sum_mul]
      exact sum_congr rfl fun j hj => by rw [mul_assoc, h1 j hj, mul_sum]
    rw [h2, sum_comm]
    refine sum_congr rfl fun k _ => ?_
    generalize (starRingEnd ℂ) (dft N x k) = z
    rw [dft, sum_mul]
    refine sum_congr rfl fun j _ => ?_
    rw [mul_comm (k : ℂ) j]; ring
  have h2 : ∀ z : ℂ, z * (starRingEnd ℂ) z = (Complex.normSq z : ℂ) := Complex.mul_conj
  simp only [h2] at h
  exact_mod_cast h

/-! ### Powers of two -/

/-- C89: the bit trick recognizes exactly the powers of two. -/
theorem isPow2_iff (x : BitVec 64) : isPow2 x = true ↔ ∃ k, x.toNat = 2 ^ k := by
  have e : ~~~x + 1 = -x := (BitVec.neg_eq_not_add x).symm
  rw [isPow2, e, Bool.and_eq_true, bne_iff_ne, beq_iff_eq]
  by_cases h0 : x = 0
  · subst h0
    refine ⟨fun h => absurd rfl h.1, ?_⟩
    rintro ⟨k, hk⟩
    have : 0 < 2 ^ k := by positivity
    simp at hk
    omega
  · have hn : x.toNat ≠ 0 := fun h => h0 (BitVec.eq_of_toNat_eq (by simpa using h))
    have h1 : (∃ k, x.toNat = 2 ^ k) ↔ x.toNat &&& (x.toNat - 1) = 0 := (Nat.and_sub_one_eq_zero_iff_isPowerOfTwo hn).symm
    rw [h1]
    have hlt := x.isLt
    have h2 : (-x).toNat = 2 ^ 64 - (x.toNat - 1 + 1) := by
      rw [BitVec.toNat_neg, Nat.mod_eq_of_lt (by omega)]; omega
    constructor
    · rintro ⟨-, h⟩
      apply Nat.eq_of_testBit_eq
      intro i
      have := congrArg (fun y : BitVec 64 => y.toNat.testBit i) h
      simp only [BitVec.toNat_and, Nat.testBit_and, h2] at this
      rw [Nat.testBit_two_pow_sub_succ (by omega)] at this
      rw [Nat.testBit_and, Nat.zero_testBit]
      revert this
      cases x.toNat.testBit i <;> cases (x.toNat - 1).testBit i <;> simp
    · intro h
      refine ⟨h0, BitVec.eq_of_toNat_eq ?_⟩
      apply Nat.eq_of_testBit_eq
      intro i
      have := congrArg (fun y : Nat => y.testBit i) h
      simp only [Nat.testBit_and, Nat.zero_testBit] at this
      rw [BitVec.toNat_and, Nat.testBit_and, h2, Nat.testBit_two_pow_sub_succ (by omega)]
      by_cases hi : i < 64
      · revert this
        cases x.toNat.testBit i <;> cases (x.toNat - 1).testBit i <;> simp [hi]
      · have : x.toNat.testBit i = false := Nat.testBit_lt_two_pow (lt_of_lt_of_le hlt (Nat.pow_le_pow_right (by norm_num) (by omega)))
        simp [this]

/-- C89: so does the loop. -/
theorem is2_iff (x : Nat) : is2 x = true ↔ ∃ k, x = 2 ^ k := by
  induction x using Nat.strong_induction_on with
  | _ x ih =>
    rw [is2]
    split
    · rename_i h
      rw [ih (x / 2) (by omega)]
      constructor
      · rintro ⟨k, e⟩; exact ⟨k + 1, by rw [pow_succ]; omega⟩
      · rintro ⟨k, e⟩
        cases k with
        | zero => omega
        | succ k => exact ⟨k, by rw [pow_succ] at e; omega⟩
    · rename_i h
      rw [beq_iff_eq]
      constructor
      · intro e; exact ⟨0, by simpa using e⟩
      · rintro ⟨k, e⟩
        cases k with
        | zero => simpa using e
        | succ k =>
          have : 0 < 2 ^ k := by positivity
          rw [pow_succ] at e
          omega

/-! ### The transforms users call -/

/-- C89: `fft` writes the discrete Fourier transform if the size is a power of two, and otherwise reports an error and leaves the output alone. -/
theorem fft_ok (N : BitVec 64) {x X : List ℂ} (hx : N.toNat ≤ x.length) (hX : N.toNat ≤ X.length) :
    (∀ k, N.toNat = 2 ^ k → ∃ X', fft N x 1 X 1 = .ok (0, X') ∧ X'.length = X.length ∧
      (∀ i < N.toNat, X'[i]? = some (dft N.toNat (fun j => x.getD j 0) i)) ∧ ∀ p, N.toNat ≤ p → X'[p]? = X[p]?) ∧
    ((¬ ∃ k, N.toNat = 2 ^ k) → fft N x 1 X 1 = .ok (1, X)) := by
  constructor
  · intro k hk
    obtain ⟨X', h1, h2, h3, h4⟩ := fftBase_ok k (x := x) (X := X) (ox := 0) (sx := 1) (oX := 0) (sX := 1) (by norm_num)
      (fun j hj => by omega) (fun j hj => by omega)
    refine ⟨X', ?_, h2, ?_, ?_⟩
    · simp only [fft, cassert, beq_self_eq_true, if_true, pure_eq_ok, bind_ok]
      rw [if_pos ((isPow2_iff N).2 ⟨k, hk⟩), hk, h1]; rfl
    · rw [hk]
      intro i hi
      have := h3 i hi
      simpa only [Nat.zero_add, Nat.mul_one] using this
    · intro p hp
      exact h4 p (fun i hi => by omega)
  · intro h
    simp only [fft, cassert, beq_self_eq_true, if_true, pure_eq_ok, bind_ok]
    rw [if_neg (fun e => h ((isPow2_iff N).1 e))]

theorem conjLoop_ok {N : Nat} {x : List ℂ} (hx : N ≤ x.length) :
    ∃ y, forN N (fun ii x => do
        let v ← rd x (ii * 1)
        wr x ii (starRingEnd ℂ v)) x = .ok y ∧ y.length = x.length ∧ (∀ i < N, y[i]? = some ((starRingEnd ℂ) (x.getD i 0))) ∧
      ∀ p, N ≤ p → y[p]? = x[p]? := by
  obtain ⟨b, h1, h2, h3, h4⟩ := forN_scatter (n := N) (a := x) (body := fun ii x => do
      let v ← rd x (ii * 1)
      wr x ii (starRingEnd ℂ v)) (fun i => i) (fun i => (starRingEnd ℂ) (x.getD i 0)) (fun i hi => by omega) (fun i _ j _ e => e)
    (by
      intro i hi b hb hu _
      have e := hu i (fun k hk => by omega)
      rw [Nat.mul_one, rd_getD 0 (by omega), bind_ok, List.getD_eq_getElem?_getD, e, ← List.getD_eq_getElem?_getD])
  exact ⟨b, h1, h2, h3, fun p hp => h4 p (fun i hi => by omega)⟩

/-- C89: `ifft` writes the inverse transform if the size is a power of two; its input array, overwritten in between, is restored. -/
theorem ifft_ok (N : BitVec 64) {x X : List ℂ} (hx : N.toNat ≤ x.length) (hX : N.toNat ≤ X.length) :
    (∀ k, N.toNat = 2 ^ k → ∃ X', ifft N x 1 X 1 = .ok (0, x, X') ∧ X'.length = X.length ∧
      (∀ i < N.toNat, X'[i]? = some (idft N.toNat (fun j => x.getD j 0) i)) ∧ ∀ p, N.toNat ≤ p → X'[p]? = X[p]?) ∧
    ((¬ ∃ k, N.toNat = 2 ^ k) → ifft N x 1 X 1 = .ok (1, x, X)) := by
  constructor
  · intro k hk
    obtain ⟨y, g1, g2, g3, g4⟩ := conjLoop_ok hx
    obtain ⟨X1, h1, h2, h3, h4⟩ := fftBase_ok k (x := y) (X := X) (ox := 0) (sx := 1) (oX := 0) (sX := 1) (by norm_num)
      (fun j hj => by omega) (fun j hj => by omega)
    rw [← hk] at h1 h3 h4
    have hval : ∀ i, dft N.toNat (fun j => y.getD (0 + j * 1) 0) i = dft N.toNat (fun j => (starRingEnd ℂ) (x.getD j 0)) i := by
      intro i
      refine sum_congr rfl fun j hj => ?_
      dsimp only
      rw [Nat.zero_add, Nat.mul_one, List.getD_eq_getElem?_getD, g3 j (mem_range.1 hj)]; rfl
    obtain ⟨⟨x', X'⟩, e, i1, i2, i3, i4, i5, i6⟩ := forN_spec (n := N.toNat) (s := (y, X1))
      (body := fun ii (s : List ℂ × List ℂ) => do
        let v ← rd s.1 (ii * 1)
        let x ← wr s.1 (ii * 1) (starRingEnd ℂ v)
        let a ← rd s.2 (ii * 1)
        let X ← wr s.2 (ii * 1) (starRingEnd ℂ a)
        let a ← rd X (ii * 1)
        let X ← wr X (ii * 1) (a / N.toNat)
        pure (x, X))
      (I := fun k s => s.1.length = y.length ∧ s.2.length = X1.length ∧ (∀ i < k, s.1[i]? = some (x.getD i 0)) ∧
        (∀ i, k ≤ i → s.1[i]? = y[i]?) ∧ (∀ i < k, s.2[i]? = some (idft N.toNat (fun j => x.getD j 0) i)) ∧
        (∀ i, k ≤ i → s.2[i]? = X1[i]?)) ⟨rfl, rfl, by simp, fun _ _ => rfl, by simp, fun _ _ => rfl⟩
      (by
        rintro i hi ⟨a, b⟩ ⟨i1, i2, i3, i4, i5, i6⟩
        dsimp only at i1 i2 i3 i4 i5 i6 ⊢
        rw [Nat.mul_one, rd_getD 0 (by omega), bind_ok, wr_ok _ (by omega), bind_ok, rd_getD 0 (by omega), bind_ok, wr_ok _ (by omega),
          bind_ok, rd_getD 0 (by simp; omega), bind_ok, wr_ok _ (by simp; omega), bind_ok]
        have ha : a.getD i 0 = (starRingEnd ℂ) (x.getD i 0) := by
          rw [List.getD_eq_getElem?_getD, i4 i le_rfl, g3 i hi]; rfl
        have hb : b.getD i 0 = dft N.toNat (fun j => (starRingEnd ℂ) (x.getD j 0)) i := by
          have := h3 i hi
          rw [Nat.zero_add, Nat.mul_one] at this
          rw [List.getD_eq_getElem?_getD, i6 i le_rfl, this, ← hval]; rfl
        refine ⟨_, rfl, by simpa using i1, by simpa using i2, ?_, ?_, ?_, ?_⟩
        · intro j hj
          dsimp only
          by_cases c : i = j
          · subst c; rw [List.getElem?_set_self (by omega), ha, Complex.conj_conj]
          · rw [List.getElem?_set_ne c]; exact i3 j (by omega)
        · intro j hj
          dsimp only
          rw [List.getElem?_set_ne (by omega)]; exact i4 j (by omega)
        · intro j hj
          dsimp only
          rw [List.set_set]
          by_cases c : i = j
          · subst c
            rw [List.getElem?_set_self (by omega), idft_conj, ← hb]
            congr 2
            rw [List.getD_eq_getElem?_getD, List.getElem?_set_self (by omega)]; rfl
          · rw [List.getElem?_set_ne c]; exact i5 j (by omega)
        · intro j hj
          dsimp only
          rw [List.set_set, List.getElem?_set_ne (by omega)]; exact i6 j (by omega))
    dsimp only at i1 i2 i3 i4 i5 i6
    have ex : x' = x := by
      apply List.ext_getElem?
      intro i
      by_cases c : i < N.toNat
      · rw [i3 i c]; simp [show i < x.length by omega]
      · rw [i4 i (by omega), g4 i (by omega)]
    subst ex
    refine ⟨X', ?_, by rw [i2, h2], i5, ?_⟩
    · simp only [ifft, cassert, beq_self_eq_true, if_true, pure_eq_ok, bind_ok]
      rw [if_pos ((isPow2_iff N).2 ⟨k, hk⟩), ifftBase, g1, bind_ok, h1, bind_ok, e]; rfl
    · intro p hp
      rw [i6 p hp]
      exact h4 p (fun i hi => by omega)
  · intro h
    simp only [ifft, cassert, beq_self_eq_true, if_true, pure_eq_ok, bind_ok]
    rw [if_neg (fun e => h ((isPow2_iff N).1 e))]

/-- C89: transforming back and forth returns the data. -/
theorem fft_ifft (N : BitVec 64) {k : Nat} (hk : N.toNat = 2 ^ k) {x X Y : List ℂ} (hx : x.length = N.toNat) (hX : X.length = N.toNat)
    (hY : Y.length = N.toNat) : ∃ X', fft N x 1 X 1 = .ok (0, X') ∧ ifft N X' 1 Y 1 = .ok (0, X', x) := by
  obtain ⟨X', h1, h2, h3, -⟩ := (fft_ok N (x := x) (X := X) (by omega) (by omega)).1 k hk
  obtain ⟨Y', g1, g2, g3, -⟩ := (ifft_ok N (x := X') (X := Y) (by omega) (by omega)).1 k hk
  refine ⟨X', h1, ?_⟩
  have : Y' = x := by
    apply List.ext_getElem?
    intro i
    by_cases c : i < N.toNat
    · rw [g3 i c]
      have e : idft N.toNat (fun j => X'.getD j 0) i = idft N.toNat (dft N.toNat fun j => x.getD j 0) i := by
        rw [idft, idft]
        congr 1
        refine sum_congr rfl fun j hj => ?_
        rw [List.getD_eq_getElem?_getD, h3 j (mem_range.1 hj)]; rfl
      rw [e, idft_dft _ c]
      simp [show i < x.length by omega]
    · rw [List.getElem?_eq_none (by omega), List.getElem?_eq_none (by omega)]
  rw [g1, this]

/-- C89: the quadratic inverse transform computes the inverse transform for every size. -/
theorem ifftSlow_ok {N : Nat} {x X : List ℂ} {ox sx oX sX : Nat} (hs : 0 < sX) (hx : ∀ j < N, ox + j * sx < x.length)
    (hX : ∀ j < N, oX + j * sX < X.length) :
    ∃ X', ifftSlow N x ox sx X oX sX = .ok X' ∧ Filled N (idft N fun j => x.getD (ox + j * sx) 0) X oX sX X' := by
  unfold ifftSlow
  obtain ⟨b, h1, h2, h3, h4⟩ := forN_scatter (n := N) (a := X) (body := fun ii X => do
      let X ← wr X (oX + ii * sX) 0
      let X ← forN N (fun jj X => do
        let a ← rd X (oX + ii * sX)
        let v ← rd x (ox + jj * sx)
        wr X (oX + ii * sX) (a + exi ii jj N * v)) X
      let a ← rd X (oX + ii * sX)
      wr X (oX + ii * sX) (a / N))
    (fun i => oX + i * sX) (idft N fun j => x.getD (ox + j * sx) 0) hX
    (by intro i _ j _ e; exact Nat.eq_of_mul_eq_mul_right hs (Nat.add_left_cancel e))
    (by
      intro i hi b hb _ _
      have hp : oX + i * sX < b.length := by rw [hb]; exact hX i hi
      rw [wr_ok _ hp, bind_ok, forN_accum (fun j => exi i j N * x.getD (ox + j * sx) 0) (by simpa using hp), bind_ok,
        rd_getD 0 (by simpa using hp), bind_ok, wr_ok _ (by simpa using hp), wr_ok _ hp, List.set_set, List.set_set]
      · congr 2
        have : (b.set (oX + i * sX) 0).getD (oX + i * sX) 0 = (0 : ℂ) := by simp [hp]
        rw [this, zero_add, List.getD_eq_getElem?_getD, List.getElem?_set_self (by simpa using hp), idft]
        simp only [exi, Option.getD_some]
        congr 1
        exact sum_congr rfl fun j _ => by rw [mul_assoc (2 * (Real.pi : ℂ) * I)]
      · intro j hj c hc
        rw [rd_getD 0 (by rw [hc]; simpa using hp), bind_ok, rd_getD 0 (hx j hj), bind_ok])
  exact ⟨b, h1, h2, h3, h4⟩

/-- The hypotheses can be met: four numbers. -/
example : (4 : BitVec 64).toNat = 2 ^ 2 ∧ ∃ X', fft 4 [1, 2, 3, I] 1 [0, 0, 0, 0] 1 = .ok (0, X') ∧
    ifft 4 X' 1 [0, 0, 0, 0] 1 = .ok (0, X', [1, 2, 3, I]) :=
  ⟨rfl, fft_ifft 4 (k := 2) rfl rfl rfl rfl⟩

/-- C89: sizes that are not powers of two are refused by `fft` but not by `fft_base`, which then returns wrong numbers: with three equal numbers
the last one is never read. -/
theorem fftBase_three_counterexample : ∃ X', fftBase 3 [1, 1, 1] 0 1 [0, 0, 0] 0 1 = .ok X' ∧ X'[0]? ≠ some (dft 3 (fun j => [1, 1, 1].getD j 0) 0) := by
  have s1 : ∀ (X : List ℂ) (ox oX : Nat), ox < 3 → oX < X.length →
      fftBase 1 [1, 1, 1] ox 2 X oX 2 = .ok (X.set oX 1) := by
    intro X ox oX h1 h2
    rw [fftBase, if_pos (by norm_num)]
    obtain ⟨X', e, l, f, u⟩ := fftSlow_ok (N := 1) (x := [1, 1, 1]) (X := X) (ox := ox) (sx := 2) (oX := oX) (sX := 2) (by norm_num)
      (fun j hj => by simp; omega) (fun j hj => by omega)
    rw [e]; congr 1
    apply List.ext_getElem?
    intro i
    by_cases c : oX = i
    · subst c
      have := f 0 (by norm_num)
      simp only [Nat.zero_mul, Nat.add_zero] at this
      rw [this, List.getElem?_set_self h2]
      congr 1
      simp only [dft, sum_range_one]
      interval_cases ox <;> simp
    · rw [List.getElem?_set_ne c]; exact u i (fun j hj => by simpa [show j = 0 by omega] using c)
  rw [fftBase, if_neg (by norm_num), show 3 / 2 = 1 from rfl, Nat.mul_one, s1 _ _ _ (by norm_num) (by simp), bind_ok,
    s1 _ _ _ (by norm_num) (by simp), bind_ok]
  have h2 : split 1 1 ((([0, 0, 0] : List ℂ).set 0 1).set (0 + 1) 1) 0 = .ok ([1], [1]) := by
    rw [split_ok (by intro j hj; simp; omega)]; simp
  rw [h2, bind_ok]
  refine ⟨[2, 0, 0], ?_, ?_⟩
  · simp [join, forN_succ, forN, rd, wr, twiddle]; norm_num
  · simp only [dft]
    norm_num [sum_range_succ]

end C3.Fft
