/-
C91: Fourier expansions from function values.
-/
import Verif.Fft.FourierProps
import Verif.Fft.Cheb

namespace C3.Fourier

open Finset
open Complex (I exp)
open C3.Poly (SMap)
open C3.Lin (dv dv_ok)
open C3.Fft (dft idft)

/-! ### Specification: trigonometric polynomials -/

/-- The exponential of frequency `k`. -/
noncomputable def ek (k : ℤ) (t : ℝ) : ℂ := exp (I * k * t)

/-- Trigonometric polynomials of degree at most `M`. -/
def Trig (M : Nat) : Submodule ℂ (ℝ → ℂ) := Submodule.span ℂ {g | ∃ k : ℤ, |k| ≤ M ∧ g = ek k}

/-- A real function is a trigonometric polynomial of degree at most `M` in the variable `t`. -/
def IsTrig (M : Nat) (g : ℝ → ℝ) : Prop := (fun t => (g t : ℂ)) ∈ Trig M

theorem ek_mem {M : Nat} {k : ℤ} (h : |k| ≤ M) : ek k ∈ Trig M := Submodule.subset_span ⟨k, h, rfl⟩

theorem Trig_mono {M N : Nat} (h : M ≤ N) : Trig M ≤ Trig N :=
  Submodule.span_mono fun _ ⟨k, hk, e⟩ => ⟨k, le_trans hk (by exact_mod_cast h), e⟩

theorem Trig_mul {p q : Nat} {g h : ℝ → ℂ} (hg : g ∈ Trig p) (hh : h ∈ Trig q) : g * h ∈ Trig (p + q) := by
  have := Submodule.mul_mem_mul hg hh
  rw [Trig, Trig, Submodule.span_mul_span] at this
  refine Submodule.span_mono ?_ this
  rintro _ ⟨_, ⟨k, hk, rfl⟩, _, ⟨l, hl, rfl⟩, rfl⟩
  refine ⟨k + l, le_trans (abs_add_le k l) (by push_cast; omega), ?_⟩
  funext t
  change exp _ * exp _ = exp _
  rw [← Complex.exp_add]
  congr 1
  push_cast
  ring

theorem ek_cos (k : Nat) (t : ℝ) : ek k t + ek (-k) t = 2 * Real.cos (k * t) := by
  rw [ek, ek, show I * ((k : ℤ) : ℂ) * t = ((k * t : ℝ) : ℂ) * I by push_cast; ring,
    show I * ((-(k : ℤ) : ℤ) : ℂ) * t = ((-(k * t) : ℝ) : ℂ) * I by push_cast; ring, Complex.exp_mul_I, Complex.exp_mul_I]
  push_cast
  rw [Complex.cos_neg, Complex.sin_neg]
  ring

theorem ek_sin (k : Nat) (t : ℝ) : ek k t - ek (-k) t = 2 * Real.sin (k * t) * I := by
  rw [ek, ek, show I * ((k : ℤ) : ℂ) * t = ((k * t : ℝ) : ℂ) * I by push_cast; ring,
    show I * ((-(k : ℤ) : ℤ) : ℂ) * t = ((-(k * t) : ℝ) : ℂ) * I by push_cast; ring, Complex.exp_mul_I, Complex.exp_mul_I]
  push_cast
  rw [Complex.cos_neg, Complex.sin_neg]
  ring

/-- A trigonometric sum without terms above degree `p` is a trigonometric polynomial of that degree. -/
theorem trig_isTrig {c : Nat → ℂ} {n p : Nat} (h : ∀ k, p < k → k < n → c k = 0) : IsTrig p (trig c n) := by
  have e : (fun t => ((trig c n t : ℝ) : ℂ)) = ((c 0).re : ℂ) • ek 0 + ∑ k ∈ Ico 1 n,
      (c k • ek k + (starRingEnd ℂ) (c k) • ek (-k)) := by
    funext t
    rw [Pi.add_apply, Finset.sum_apply, trig]
    push_cast
    congr 1
    · simp [ek]
    · refine sum_congr rfl fun k _ => ?_
      have h1 := ek_cos k t
      have h2 := ek_sin k t
      have hc : c k = (c k).re + (c k).im * I := (Complex.re_add_im _).symm
      have hc' : (starRingEnd ℂ) (c k) = (c k).re - (c k).im * I := by
        apply Complex.ext <;> simp
      change _ = c k * ek k t + (starRingEnd ℂ) (c k) * ek (-k) t
      rw [hc']
      nth_rewrite 3 [hc]
      push_cast at h1 h2
      linear_combination (-((c k).re : ℂ)) * h1 - ((c k).im : ℂ) * I * h2 - 2 * ((c k).im : ℂ) * Complex.sin (k * t) * Complex.I_sq
  rw [IsTrig, e]
  refine Submodule.add_mem _ (Submodule.smul_mem _ _ (ek_mem (by simp))) (Submodule.sum_mem _ fun k hk => ?_)
  by_cases hp : p < k
  · rw [h k hp (mem_Ico.1 hk).2]; simp
  · refine Submodule.add_mem _ (Submodule.smul_mem _ _ (ek_mem ?_)) (Submodule.smul_mem _ _ (ek_mem ?_))
    · rw [abs_of_nonneg (by omega)]; omega
    · rw [abs_neg, abs_of_nonneg (by omega)]; omega

/-! ### The discrete transform -/

theorem dft_real_flip {N : Nat} (hN : 1 ≤ N) (x : Nat → ℝ) {k : Nat} (hk : k ≤ N) :
    dft N (fun j => (x j : ℂ)) (N - k) = (starRingEnd ℂ) (dft N (fun j => (x j : ℂ)) k) := by
  rw [dft, dft, map_sum]
  refine sum_congr rfl fun j _ => ?_
  have hne : (N : ℂ) ≠ 0 := Nat.cast_ne_zero.2 (by omega)
  rw [map_mul, Complex.conj_ofReal, ← Complex.exp_conj]
  congr 1
  rw [Complex.exp_eq_exp_iff_exists_int]
  refine ⟨-j, ?_⟩
  rw [Nat.cast_sub hk]
  simp only [map_div₀, map_mul, map_neg, Complex.conj_I, Complex.conj_ofReal, Complex.conj_ofNat, map_natCast]
  push_cast
  field_simp
  ring

theorem dft_ek {N r : Nat} {l q : ℤ} (hr : r < N) (hl : l = r + N * q) {k : Nat} (hk : k < N) :
    dft N (fun j => ek l (2 * Real.pi / N * j)) k = if r = k then (N : ℂ) else 0 := by
  have hne : (N : ℂ) ≠ 0 := Nat.cast_ne_zero.2 (by omega)
  rw [← C3.Fft.ortho hr hk, dft]
  refine sum_congr rfl fun j _ => ?_
  rw [ek, ← Complex.exp_add, Complex.exp_eq_exp_iff_exists_int]
  refine ⟨q * j, ?_⟩
  rw [hl]
  push_cast
  field_simp
  ring

theorem dft_add (N : Nat) (x y : Nat → ℂ) (k : Nat) : dft N (fun j => x j + y j) k = dft N x k + dft N y k := by
  rw [dft, dft, dft, ← sum_add_distrib]; exact sum_congr rfl fun j _ => by ring

theorem dft_smul (N : Nat) (a : ℂ) (x : Nat → ℂ) (k : Nat) : dft N (fun j => a * x j) k = a * dft N x k := by
  rw [dft, dft, mul_sum]; exact sum_congr rfl fun j _ => by ring

theorem dft_zero (N : Nat) (k : Nat) : dft N (fun _ => 0) k = 0 := by rw [dft]; simp

/-- A trigonometric polynomial of degree below `M` is recovered from its values at `2M` equidistant points. -/
theorem recon {M : Nat} (hM : 1 ≤ M) {g : ℝ → ℂ} (hg : g ∈ Trig (M - 1)) :
    dft (2 * M) (fun j => g (2 * Real.pi / (2 * M : ℕ) * j)) M = 0 ∧ ∀ t, g t =
      ∑ k ∈ range M, dft (2 * M) (fun j => g (2 * Real.pi / (2 * M : ℕ) * j)) k / (2 * M : ℕ) * ek k t +
      ∑ k ∈ Ico 1 M, dft (2 * M) (fun j => g (2 * Real.pi / (2 * M : ℕ) * j)) (2 * M - k) / (2 * M : ℕ) * ek (-k) t := by
  have hne : ((2 * M : ℕ) : ℂ) ≠ 0 := Nat.cast_ne_zero.2 (by omega)
  induction hg using Submodule.span_induction with
  | mem g hg =>
    obtain ⟨l, hl, rfl⟩ := hg
    have hl' := abs_le.1 hl
    rcases lt_or_ge l 0 with h0 | h0
    · obtain ⟨a, rfl⟩ : ∃ a : Nat, l = -a := ⟨(-l).toNat, by omega⟩
      have hr : 2 * M - a < 2 * M := by omega
      have hq : (-(a : ℤ)) = ((2 * M - a : ℕ) : ℤ) + (2 * M : ℕ) * (-1) := by
        have : a ≤ 2 * M := by omega
        rw [Nat.cast_sub this]; ring
      constructor
      · rw [dft_ek hr hq (by omega), if_neg (by omega)]
      · intro t
        rw [sum_eq_zero, zero_add, sum_eq_single a]
        · rw [dft_ek hr hq (by omega), if_pos rfl, div_self hne, one_mul]
        · intro k hk hka
          have := mem_Ico.1 hk
          rw [dft_ek hr hq (by omega), if_neg (by omega)]; simp
        · intro h
          exact absurd (mem_Ico.2 ⟨by omega, by omega⟩) h
        · intro k hk
          have := mem_range.1 hk
          rw [dft_ek hr hq (by omega), if_neg (by omega)]; simp
    · obtain ⟨a, rfl⟩ : ∃ a : Nat, l = a := ⟨l.toNat, by omega⟩
      have hr : a < 2 * M := by omega
      have hq : (a : ℤ) = (a : ℤ) + (2 * M : ℕ) * 0 := by ring
      constructor
      · rw [dft_ek hr hq (by omega), if_neg (by omega)]
      · intro t
        rw [add_comm, sum_eq_zero, zero_add, sum_eq_single a]
        · rw [dft_ek hr hq (by omega), if_pos rfl, div_self hne, one_mul]
        · intro k hk hka
          have := mem_range.1 hk
          rw [dft_ek hr hq (by omega), if_neg (by omega)]; simp
        · intro h
          exact absurd (mem_range.2 (by omega)) h
        · intro k hk
          have := mem_Ico.1 hk
          rw [dft_ek hr hq (by omega), if_neg (by omega)]; simp
  | zero =>
    constructor
    · exact dft_zero _ _
    · intro t
      have : ∀ k, dft (2 * M) (fun _ => 0) k = 0 := fun k => dft_zero _ _
      simp [this]
  | add x y _ _ hx hy =>
    have : ∀ k, dft (2 * M) (fun j => (x + y) (2 * Real.pi / (2 * M : ℕ) * j)) k = dft (2 * M) (fun j => x (2 * Real.pi / (2 * M : ℕ) * j)) k +
      dft (2 * M) (fun j => y (2 * Real.pi / (2 * M : ℕ) * j)) k := fun k => dft_add _ _ _ _
    constructor
    · rw [this, hx.1, hy.1, add_zero]
    · intro t
      rw [Pi.add_apply, hx.2 t, hy.2 t, add_add_add_comm, ← sum_add_distrib, ← sum_add_distrib]
      congr 1 <;> exact sum_congr rfl fun k _ => by rw [this]; ring
  | smul a x _ hx =>
    have : ∀ k, dft (2 * M) (fun j => (a • x) (2 * Real.pi / (2 * M : ℕ) * j)) k = a * dft (2 * M) (fun j => x (2 * Real.pi / (2 * M : ℕ) * j)) k :=
      fun k => dft_smul _ _ _ _
    constructor
    · rw [this, hx.1, mul_zero]
    · intro t
      rw [_root_.Pi.smul_apply, smul_eq_mul, hx.2 t, mul_add, mul_sum, mul_sum]
      congr 1 <;> exact sum_congr rfl fun k _ => by rw [this]; ring

/-- For a real trigonometric polynomial of degree below `M` the sum with the computed coefficients is the polynomial. -/
theorem trig_recon {M : Nat} (hM : 1 ≤ M) {g : ℝ → ℝ} (hg : IsTrig (M - 1) g) {c : Nat → ℂ}
    (hc : ∀ k < M + 1, c k = dft (2 * M) (fun j => (g (2 * Real.pi / (2 * M : ℕ) * j) : ℂ)) k / (2 * M : ℕ)) (t : ℝ) :
    trig c (M + 1) t = g t := by
  obtain ⟨h1, h2⟩ := recon hM hg
  have h3 := h2 t
  have hcM : c M = 0 := by rw [hc M (by omega), h1, zero_div]
  have hr : ∀ k ∈ range M, dft (2 * M) (fun j => (g (2 * Real.pi / (2 * M : ℕ) * j) : ℂ)) k / (2 * M : ℕ) * ek k t = c k * ek k t := by
    intro k hk
    rw [hc k (by have := mem_range.1 hk; omega)]
  have hs : ∀ k ∈ Ico 1 M, dft (2 * M) (fun j => (g (2 * Real.pi / (2 * M : ℕ) * j) : ℂ)) (2 * M - k) / (2 * M : ℕ) * ek (-k) t =
      (starRingEnd ℂ) (c k) * ek (-k) t := by
    intro k hk
    have := mem_Ico.1 hk
    rw [hc k (by omega), dft_real_flip (by omega) (fun j => g (2 * Real.pi / (2 * M : ℕ) * j)) (by omega), map_div₀, map_natCast]
  rw [sum_congr rfl hr, sum_congr rfl hs, range_eq_Ico, sum_eq_sum_Ico_succ_bot (by omega), zero_add, add_assoc, ← sum_add_distrib] at h3
  have h4 := congrArg Complex.re h3
  rw [Complex.ofReal_re, Complex.add_re, Complex.re_sum] at h4
  rw [h4, trig, sum_Ico_succ_top hM, hcM]
  simp only [Complex.zero_re, Complex.zero_im, zero_mul, sub_zero, mul_zero, add_zero]
  congr 1
  · simp [ek]
  · refine sum_congr rfl fun k _ => ?_
    rw [ek, ek, show I * ((k : ℤ) : ℂ) * t = ((k * t : ℝ) : ℂ) * I by push_cast; ring,
      show I * ((-(k : ℤ) : ℤ) : ℂ) * t = ((-(k * t) : ℝ) : ℂ) * I by push_cast; ring, Complex.add_re, Complex.mul_re, Complex.mul_re,
      Complex.exp_ofReal_mul_I_re, Complex.exp_ofReal_mul_I_re, Complex.exp_ofReal_mul_I_im, Complex.exp_ofReal_mul_I_im, Real.cos_neg, Real.sin_neg,
      Complex.conj_re, Complex.conj_im]
    ring

/-- At the points themselves the sum differs from the data by the alternating mean. -/
theorem trig_nodes {M : Nat} (hM : 1 ≤ M) (y : Nat → ℝ) {c : Nat → ℂ} (hc : ∀ k < M + 1, c k = dft (2 * M) (fun j => (y j : ℂ)) k / (2 * M : ℕ))
    {j : Nat} (hj : j < 2 * M) :
    trig c (M + 1) (2 * Real.pi / (2 * M : ℕ) * j) = y j + (-1) ^ j * ((∑ l ∈ range (2 * M), (-1) ^ l * y l) / (2 * M : ℕ)) := by
  have hne : ((2 * M : ℕ) : ℂ) ≠ 0 := Nat.cast_ne_zero.2 (by omega)
  have hneR : ((2 * M : ℕ) : ℝ) ≠ 0 := Nat.cast_ne_zero.2 (by omega)
  have hMR : (M : ℝ) ≠ 0 := Nat.cast_ne_zero.2 (by omega)
  set X : Nat → ℂ := dft (2 * M) (fun j => (y j : ℂ)) with hX
  set t : ℝ := 2 * Real.pi / (2 * M : ℕ) * j with ht
  set h : Nat → ℝ := fun k => (X k).re * Real.cos (k * t) - (X k).im * Real.sin (k * t) with hh
  have hexp : ∀ k : Nat, (exp (2 * Real.pi * I * (j * k) / (2 * M : ℕ)) * X k).re = h k := by
    intro k
    rw [show 2 * (Real.pi : ℂ) * I * (j * k) / (2 * M : ℕ) = ((k * t : ℝ) : ℂ) * I by rw [ht]; push_cast; ring, Complex.mul_re,
      Complex.exp_ofReal_mul_I_re, Complex.exp_ofReal_mul_I_im, hh]
    ring
  have hper : ∀ k ≤ 2 * M, h (2 * M - k) = h k := by
    intro k hk
    have hX' : X (2 * M - k) = (starRingEnd ℂ) (X k) := dft_real_flip (by omega) y hk
    rw [hh]
    dsimp only
    rw [hX', Nat.cast_sub hk, Complex.conj_re, Complex.conj_im, sub_mul,
      show ((2 * M : ℕ) : ℝ) * t = j * (2 * Real.pi) by rw [ht]; field_simp, Real.cos_nat_mul_two_pi_sub, Real.sin_nat_mul_two_pi_sub]
    ring
  have hinv : ((2 * M : ℕ) : ℝ) * y j = ∑ k ∈ range (2 * M), h k := by
    have e := C3.Fft.idft_dft (N := 2 * M) (fun j => (y j : ℂ)) hj
    rw [idft, div_eq_iff hne] at e
    have e2 := congrArg Complex.re e
    rw [Complex.re_sum, sum_congr rfl (fun k _ => hexp k), ← Complex.ofReal_natCast, ← Complex.ofReal_mul, Complex.ofReal_re] at e2
    rw [e2]; ring
  rw [C3.Fft.sum_even h hper] at hinv
  have hck : ∀ k < M + 1, (c k).re * Real.cos (k * t) - (c k).im * Real.sin (k * t) = h k / (2 * M : ℕ) := by
    intro k hk
    rw [hc k hk, ← Complex.ofReal_natCast, Complex.div_ofReal_re, Complex.div_ofReal_im, hh]
    ring
  have hXM : h M = (-1) ^ j * ∑ l ∈ range (2 * M), (-1) ^ l * y l := by
    have e : ∀ j : Nat, (M : ℝ) * (2 * Real.pi / (2 * M : ℕ) * j) = j * Real.pi := by intro j; push_cast; field_simp
    have hXre : X M = ((∑ l ∈ range (2 * M), (-1) ^ l * y l : ℝ) : ℂ) := by
      rw [hX, dft]
      push_cast
      refine sum_congr rfl fun l _ => ?_
      congr 1
      rw [show -2 * (Real.pi : ℂ) * I * (M * l) / (2 * M) = l * (-(Real.pi * I)) by
        have : (M : ℂ) ≠ 0 := Nat.cast_ne_zero.2 (by omega)
        field_simp, Complex.exp_nat_mul, Complex.exp_neg, Complex.exp_pi_mul_I]
      norm_num
    rw [hh]
    dsimp only
    rw [hXre, Complex.ofReal_re, Complex.ofReal_im, zero_mul, sub_zero, ht, e, Real.cos_nat_mul_pi]
    ring
  rw [trig, sum_congr rfl (fun k hk => by rw [hck k (mem_Ico.1 hk).2])]
  have hc0 : (c 0).re = h 0 / (2 * M : ℕ) := by
    have := hck 0 (by omega)
    simpa using this
  have hs : ∑ k ∈ Ico 1 (M + 1), 2 * (h k / ((2 * M : ℕ) : ℝ)) = (2 * ∑ k ∈ Ico 1 (M + 1), h k) / (2 * M : ℕ) := by
    rw [mul_sum, div_eq_mul_inv, sum_mul]
    exact sum_congr rfl fun k _ => by rw [div_eq_mul_inv]; ring
  have hr : ∑ k ∈ range M, h k = h 0 + ∑ k ∈ Ico 1 M, h k := by
    rw [range_eq_Ico, sum_eq_sum_Ico_succ_bot (by omega)]
  rw [hs, sum_Ico_succ_top hM, hc0, ← mul_div_assoc, ← hXM]
  rw [hr] at hinv
  field_simp
  linarith

/-! ### The approximation -/

theorem points_ok (f : Fe) (n : Nat) : points f n = .ok ((List.range n).map fun i : Nat => f.map.inv (2 * Real.pi / n * i)) := by
  unfold points
  dsimp only
  rw [forN_fill_all (fun i : Nat => 2 * Real.pi / n * (i : ℝ)) (by simp) (fun i _ b _ => rfl), bind_ok]
  refine forN_fill_all (fun i : Nat => f.map.inv (2 * Real.pi / n * (i : ℝ))) (by simp) ?_
  intro i hi b _
  rw [rd_getD 0 (by simpa using hi), bind_ok]
  simp [hi]

theorem size_ok {num : Nat} (h1 : 1 ≤ num) (h2 : num < 2 ^ 63) : ((BitVec.ofNat 64 num - 1) * 2).toNat = 2 * (num - 1) := by
  rw [BitVec.toNat_mul, BitVec.toNat_sub, BitVec.toNat_ofNat]
  simp
  omega

theorem approxVec_ok {f : Fe} (h : Good f) (hsz : f.num < 2 ^ 63) {m : Nat} (hm : 2 * (f.num - 1) = 2 ^ m) {fw : List ℝ → C (Nat × List ℝ)} {g : ℝ → ℝ}
    (hf : ∀ xs, fw xs = .ok (0, xs.map g)) :
    ∃ p, approxVec f fw = .ok (0, p) ∧ Good p ∧ p.num = f.num ∧ p.lb = f.lb ∧ p.ub = f.ub ∧ p.map = f.map ∧
      ∀ k < f.num, p.co k = dft (2 * (f.num - 1)) (fun j => (g (f.map.inv (2 * Real.pi / (2 * (f.num - 1) : ℕ) * j)) : ℂ)) k / (2 * (f.num - 1) : ℕ) := by
  have hp := h.pos
  have hle := h.le
  have hsN := size_ok hp hsz
  set N := 2 * (f.num - 1) with hN
  have h2N : 2 ≤ N := by
    rcases Nat.eq_zero_or_pos m with rfl | hm0
    · omega
    · rw [hm]; calc 2 = 2 ^ 1 := rfl
        _ ≤ 2 ^ m := Nat.pow_le_pow_right (by norm_num) hm0
  set Y : Nat → ℝ := fun j => g (f.map.inv (2 * Real.pi / (N : ℕ) * j)) with hY
  obtain ⟨X, x1, x2, x3, -⟩ := (C3.Fft.fft_ok ((BitVec.ofNat 64 f.num - 1) * 2) (x := (List.range N).map fun j => (Y j : ℂ))
    (X := List.replicate N 0) (by rw [hsN]; simp) (by rw [hsN]; simp)).1 m (by rw [hsN, hm])
  rw [hsN] at x3
  have hXl : X.length = N := by rw [x2]; simp
  have hXk : ∀ k < N, X.getD k 0 = dft N (fun j => (Y j : ℂ)) k := by
    intro k hk
    rw [List.getD_eq_getElem?_getD, x3 k hk, Option.getD_some]
    refine sum_congr rfl fun j hj => ?_
    congr 1
    dsimp only
    rw [List.getD_eq_getElem?_getD, List.getElem?_map, List.getElem?_range (mem_range.1 hj)]; rfl
  obtain ⟨c, c1, c2, c3⟩ := forR_spec (a := 1) (b := f.num) (s := f.cc.set 0 (X.getD 0 0 / (N : ℕ)))
    (body := fun ii c => do
      let a ← rd X ii
      wr c ii (a / (N : ℕ)))
    (I := fun m c => c.length = f.cc.length ∧ ∀ k < m, c.getD k 0 = X.getD k 0 / (N : ℕ)) hp
    ⟨by simp, by intro k hk; obtain rfl : k = 0 := by omega
                 rw [List.getD_eq_getElem?_getD, List.getElem?_set_self (by omega)]; rfl⟩
    (by
      rintro i hi1 hi2 c ⟨c1, c2⟩
      rw [rd_getD 0 (by omega), bind_ok, wr_ok _ (by omega)]
      refine ⟨_, rfl, by simpa using c1, ?_⟩
      intro k hk
      by_cases e : i = k
      · subst e; rw [List.getD_eq_getElem?_getD, List.getElem?_set_self (by omega)]; rfl
      · rw [List.getD_eq_getElem?_getD, List.getElem?_set_ne e, ← List.getD_eq_getElem?_getD]; exact c2 k (by omega))
  refine ⟨{ f with cc := c }, ?_, ⟨hp, by dsimp only; omega, by dsimp only; rw [c2]; exact h.na, h.kr⟩, rfl, rfl, rfl, rfl, ?_⟩
  · unfold approxVec
    dsimp only
    rw [hsN, points_ok, bind_ok, hf, bind_ok]
    dsimp only
    rw [if_neg (by simp)]
    rw [forN_fill_all (fun j => (Y j : ℂ)) (by simp) (fun i hi b _ => by
      rw [rd_getD 0 (by simpa using hi), bind_ok]; simp [hi, hY]), bind_ok, x1, bind_ok]
    dsimp only
    rw [if_neg (by simp), rd_getD 0 (by omega), bind_ok, wr_ok _ (by omega), bind_ok, max_eq_right hp, c1, bind_ok]
    rfl
  · intro k hk
    change c.getD k 0 = _
    rw [c3 k hk, hXk k (by omega)]

/-- C91: a trigonometric polynomial of degree less than `num_poly - 1` is represented exactly. -/
theorem approx_exact {f : Fe} (h : Good f) (hd : Dom f) (hsz : f.num < 2 ^ 63) {m : Nat} (hm : 2 * (f.num - 1) = 2 ^ m)
    {fw : List ℝ → C (Nat × List ℝ)} {g : ℝ → ℝ} (hf : ∀ xs, fw xs = .ok (0, xs.map g))
    (hg : IsTrig (f.num - 2) fun t => g (f.map.inv t)) : ∃ p, approxVec f fw = .ok (0, p) ∧ Good p ∧ p.lb = f.lb ∧ p.ub = f.ub ∧
      p.map = f.map ∧ p.num = f.num ∧ ∀ x, p.fn x = g x := by
  obtain ⟨p, h1, h2, h3, h4, h5, h6, h7⟩ := approxVec_ok h hsz hm hf
  refine ⟨p, h1, h2, h4, h5, h6, h3, fun x => ?_⟩
  have hp := h.pos
  have h2' : 2 ≤ f.num := by
    by_contra hc
    have : f.num = 1 := by omega
    rw [this] at hm
    have : 0 < 2 ^ m := by positivity
    omega
  have e := trig_recon (M := f.num - 1) (by omega) (g := fun t => g (f.map.inv t)) (by rwa [show f.num - 1 - 1 = f.num - 2 by omega]) (c := p.co)
    (fun k hk => h7 k (by omega)) (f.map.slope * x + f.map.off)
  rw [Fe.fn, h3, h6]
  rw [show f.num - 1 + 1 = f.num by omega] at e
  rw [e]
  congr 1
  have := hd.ne
  rw [SMap.inv, hd.inv, hd.io]
  field_simp
  ring

/-- In general the expansion does not interpolate: at the evaluation points it differs from the function by the alternating mean of the function
values, because the coefficient of the highest frequency is counted twice. -/
theorem approx_nodes_actual {f : Fe} (h : Good f) (hd : Dom f) (hsz : f.num < 2 ^ 63) {m : Nat} (hm : 2 * (f.num - 1) = 2 ^ m)
    {fw : List ℝ → C (Nat × List ℝ)} {g : ℝ → ℝ} (hf : ∀ xs, fw xs = .ok (0, xs.map g)) :
    ∃ p, approxVec f fw = .ok (0, p) ∧ ∀ j : Nat, j < 2 ^ m → p.fn (f.map.inv (2 * Real.pi / (2 ^ m : ℕ) * j)) =
      g (f.map.inv (2 * Real.pi / (2 ^ m : ℕ) * j)) +
        (-1) ^ j * ((∑ l ∈ range (2 ^ m), (-1) ^ l * g (f.map.inv (2 * Real.pi / (2 ^ m : ℕ) * l))) / (2 ^ m : ℕ)) := by
  obtain ⟨p, h1, h2, h3, h4, h5, h6, h7⟩ := approxVec_ok h hsz hm hf
  refine ⟨p, h1, ?_⟩
  have hp := h.pos
  have h2' : 2 ≤ f.num := by
    by_contra hc
    have : f.num = 1 := by omega
    rw [this] at hm
    have : 0 < 2 ^ m := by positivity
    omega
  intro j hj
  rw [← hm] at hj ⊢
  have e := trig_nodes (M := f.num - 1) (by omega) (fun j => g (f.map.inv (2 * Real.pi / (2 * (f.num - 1) : ℕ) * j))) (c := p.co)
    (fun k hk => h7 k (by omega)) hj
  rw [show f.num - 1 + 1 = f.num by omega] at e
  rw [Fe.fn, h3, h6, hd.inv_map, e]

/-- C91: when twice the degree is not a power of two the code is 1 and nothing is changed. -/
theorem approx_refused {f : Fe} (h : Good f) (hsz : f.num < 2 ^ 63) (hm : ¬∃ m, 2 * (f.num - 1) = 2 ^ m) {fw : List ℝ → C (Nat × List ℝ)} {g : ℝ → ℝ}
    (hf : ∀ xs, fw xs = .ok (0, xs.map g)) : approxVec f fw = .ok (1, f) := by
  have hsN := size_ok h.pos hsz
  unfold approxVec
  dsimp only
  rw [hsN, points_ok, bind_ok, hf, bind_ok]
  dsimp only
  rw [if_neg (by simp)]
  rw [forN_fill_all (fun j : Nat => (g (f.map.inv (2 * Real.pi / (2 * (f.num - 1) : ℕ) * j)) : ℂ)) (by simp) (fun i hi b _ => by
    rw [rd_getD 0 (by simpa using hi), bind_ok]; simp [hi]), bind_ok,
    (C3.Fft.fft_ok ((BitVec.ofNat 64 f.num - 1) * 2) (x := _) (X := _) (by rw [hsN]; simp) (by rw [hsN]; simp)).2 (by rw [hsN]; exact hm), bind_ok]
  dsimp only
  rw [if_pos (by simp)]
  rfl

/-- With the default number of coefficients, 8, there are 14 points; 14 is not a power of two, the code 1 is dropped by the caller and every function
is approximated by zero. -/
theorem approxAdapt_default_counterexample {lb ub : ℝ} (h : lb ≠ ub) {fw : List ℝ → C (Nat × List ℝ)} {g : ℝ → ℝ}
    (hf : ∀ xs, fw xs = .ok (0, xs.map g)) : ∃ p, approxAdapt 8 lb ub fw = .ok p ∧ ∀ x, p.fn x = 0 := by
  obtain ⟨f, h1, h2, -, -, h5, h6, h7, -⟩ := init_ok 8 h
  refine ⟨f, ?_, fun x => init_fn h5 x⟩
  unfold approxAdapt
  rw [h1, bind_ok, approx_refused (h6 (by norm_num)) (by rw [h2]; norm_num) ?_ hf]; · rfl
  rw [h2]
  rintro ⟨m, hm⟩
  rcases Nat.lt_or_ge m 4 with c | c
  · interval_cases m <;> omega
  · have : 2 ^ 4 ≤ 2 ^ m := Nat.pow_le_pow_right (by norm_num) c
    omega

/-- The highest frequency is doubled: with three coefficients `cos(2 t)` is approximated by a function with the value 2 at 0. -/
theorem approx_top_counterexample : ∃ f p, init 3 0 (2 * Real.pi) = .ok f ∧
    approxVec f (fun xs => .ok (0, xs.map fun x => Real.cos (2 * x))) = .ok (0, p) ∧ p.fn 0 = 2 := by
  have hpi := Real.pi_pos
  obtain ⟨f, h1, h2, h3, h4, h5, h6, h7, -⟩ := init_ok 3 (show (0 : ℝ) ≠ 2 * Real.pi by positivity)
  obtain ⟨p, p1, p2⟩ := approx_nodes_actual (h6 (by norm_num)) h7 (by rw [h2]; norm_num) (m := 2) (by rw [h2]; norm_num)
    (fw := fun xs => .ok (0, xs.map fun x => Real.cos (2 * x))) (g := fun x => Real.cos (2 * x)) (fun xs => rfl)
  refine ⟨f, p, h1, p1, ?_⟩
  have lo := h7.lo
  have hi := h7.hi
  rw [h3, mul_zero, zero_add] at lo
  rw [h4, lo, add_zero] at hi
  have hs : f.map.slope = 1 := by
    have : 2 * Real.pi ≠ 0 := by positivity
    exact mul_right_cancel₀ this (by rw [hi, one_mul])
  have hinv : ∀ t, f.map.inv t = t := by
    intro t; rw [SMap.inv, h7.inv, h7.io, hs, lo]; simp
  have e := p2 0 (by norm_num)
  rw [show range (2 ^ 2) = range (0 + 1 + 1 + 1 + 1) from rfl] at e
  simp only [hinv, sum_range_succ, sum_range_zero, Nat.zero_add, Nat.reduceAdd] at e
  have c1 : Real.cos (2 * (2 * Real.pi / ((2 ^ 2 : ℕ) : ℝ) * (1 : ℕ))) = -1 := by
    rw [show 2 * (2 * Real.pi / ((2 ^ 2 : ℕ) : ℝ) * (1 : ℕ)) = Real.pi by push_cast; ring, Real.cos_pi]
  have c2 : Real.cos (2 * (2 * Real.pi / ((2 ^ 2 : ℕ) : ℝ) * (2 : ℕ))) = 1 := by
    rw [show 2 * (2 * Real.pi / ((2 ^ 2 : ℕ) : ℝ) * (2 : ℕ)) = 2 * Real.pi by push_cast; ring, Real.cos_two_pi]
  have c3 : Real.cos (2 * (2 * Real.pi / ((2 ^ 2 : ℕ) : ℝ) * (3 : ℕ))) = -1 := by
    rw [show 2 * (2 * Real.pi / ((2 ^ 2 : ℕ) : ℝ) * (3 : ℕ)) = Real.pi + 2 * Real.pi by push_cast; ring, Real.cos_add_two_pi, Real.cos_pi]
  rw [c1, c2, c3] at e
  simp at e
  rw [e]
  norm_num

/-- The hypotheses of the exactness theorem can be met: `cos t` with three coefficients. -/
example : IsTrig (3 - 2) Real.cos := by
  have := trig_isTrig (c := fun k => if k = 1 then (1 / 2 : ℂ) else 0) (n := 2) (p := 1) (by intro k h1 h2; omega)
  have e : trig (fun k => if k = 1 then (1 / 2 : ℂ) else 0) 2 = Real.cos := by
    funext t; simp [trig]
  rwa [e] at this

end C3.Fourier
