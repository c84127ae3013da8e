/-
IEEE-754 binary64 as exact rationals: which rationals are finite doubles, and what "rounded to nearest" means.
Signed zeros are identified; infinities and NaN are outside the model.
-/
import Mathlib.Data.Rat.Floor
import Mathlib.Data.Int.Log
import Mathlib.Data.Set.Finite.Basic
import Mathlib.Data.Set.Finite.Lattice
import Mathlib.Data.Set.Finite.Lemmas
import Mathlib.Order.Interval.Finset.Basic
import Mathlib.Order.Interval.Set.Infinite
import Mathlib.Data.Int.Interval
import Mathlib.Data.Set.Card
import Mathlib.Tactic.Linarith
import Mathlib.Tactic.NormNum
import Mathlib.Tactic.Ring
import Mathlib.Tactic.FieldSimp
import Mathlib.Tactic.Positivity

namespace C3

/-- `r` is the value of a finite binary64 number. -/
def Dbl (r : ℚ) : Prop := ∃ m e : ℤ, |m| < 2 ^ 53 ∧ -1074 ≤ e ∧ e ≤ 971 ∧ r = m * 2 ^ e

/-- `rnd` rounds every rational to a nearest finite double (ties are free). Overflow to infinity is not modelled:
the theorems below only round values in range. -/
structure RoundNearest (rnd : ℚ → ℚ) : Prop where
  dbl : ∀ r, Dbl (rnd r)
  nearest : ∀ r d, Dbl d → |rnd r - r| ≤ |d - r|

theorem dbl_finite : Set.Finite {r : ℚ | Dbl r} := by
  have : {r : ℚ | Dbl r} ⊆ (fun p : ℤ × ℤ => (p.1 : ℚ) * 2 ^ p.2) '' (Set.Icc (-2^53) (2^53) ×ˢ Set.Icc (-1074) 971) := by
    rintro r ⟨m, e, hm, h1, h2, rfl⟩
    refine ⟨(m, e), ⟨⟨?_, ?_⟩, h1, h2⟩, rfl⟩
    · exact (abs_lt.1 hm).1.le
    · exact (abs_lt.1 hm).2.le
  exact Set.Finite.subset (((Set.finite_Icc _ _).prod (Set.finite_Icc _ _)).image _) this

theorem dbl_zero : Dbl 0 := ⟨0, 0, by norm_num, by norm_num, by norm_num, by norm_num⟩

/-- The definition is satisfiable: a round-to-nearest function exists. -/
theorem roundNearest_exists : ∃ rnd, RoundNearest rnd := by
  have h : ∀ r : ℚ, ∃ y, Dbl y ∧ ∀ d, Dbl d → |y - r| ≤ |d - r| := by
    intro r
    obtain ⟨y, hy, hmin⟩ := Set.exists_min_image {r : ℚ | Dbl r} (fun d => |d - r|) dbl_finite ⟨0, dbl_zero⟩
    exact ⟨y, hy, hmin⟩
  choose rnd h1 h2 using h
  exact ⟨rnd, h1, h2⟩

/-- Exactly representable results are not changed by rounding. -/
theorem RoundNearest.exact {rnd : ℚ → ℚ} (h : RoundNearest rnd) {r : ℚ} (hr : Dbl r) : rnd r = r := by
  have := h.nearest r r hr
  simp only [sub_self, abs_zero] at this
  have := abs_nonpos_iff.1 this
  linarith

theorem Dbl.neg {r : ℚ} (h : Dbl r) : Dbl (-r) := by
  obtain ⟨m, e, hm, h1, h2, rfl⟩ := h
  exact ⟨-m, e, by simpa using hm, h1, h2, by push_cast; ring⟩

theorem Dbl.abs {r : ℚ} (h : Dbl r) : Dbl |r| := by
  rcases abs_choice r with h' | h' <;> rw [h']
  · exact h
  · exact h.neg

/-- Doubles of magnitude at least 2^62 are multiples of 2^10. -/
theorem Dbl.multiple {r : ℚ} (h : Dbl r) (hr : 2 ^ 62 ≤ r) : ∃ k : ℤ, r = k * 2 ^ 10 := by
  obtain ⟨m, e, hm, h1, h2, rfl⟩ := h
  have hpos : (0:ℚ) < 2 ^ e := zpow_pos (by norm_num) _
  have hm' : (m : ℚ) < 2 ^ 53 := by exact_mod_cast (abs_lt.1 hm).2
  have he : 10 ≤ e := by
    by_contra hlt
    have h9 : e ≤ 9 := by omega
    have : (2:ℚ) ^ e ≤ 2 ^ (9:ℤ) := zpow_le_zpow_right₀ (by norm_num) h9
    have h3 : (m:ℚ) * 2 ^ e < 2 ^ 53 * 2 ^ e := mul_lt_mul_of_pos_right hm' hpos
    have h4 : (2:ℚ) ^ 53 * 2 ^ e ≤ 2 ^ 53 * 2 ^ (9:ℤ) := mul_le_mul_of_nonneg_left this (by positivity)
    have h5 : (2:ℚ) ^ 53 * 2 ^ (9:ℤ) = 2 ^ 62 := by norm_num
    linarith
  obtain ⟨n, rfl⟩ : ∃ n : ℕ, e = 10 + n := ⟨(e - 10).toNat, by omega⟩
  refine ⟨m * 2 ^ n, ?_⟩
  push_cast
  rw [zpow_add₀ (by norm_num), zpow_natCast]
  norm_num
  ring

/-- `2^63 - 2` (the `long long` constant FRAC_MAX-1 converted to `double`) rounds to `2^63`. -/
theorem RoundNearest.fracMax {rnd : ℚ → ℚ} (h : RoundNearest rnd) : rnd (2 ^ 63 - 2) = 2 ^ 63 := by
  have hd : Dbl (2 ^ 63) := ⟨2 ^ 52, 11, by norm_num, by norm_num, by norm_num, by norm_num⟩
  have hn := h.nearest (2 ^ 63 - 2) _ hd
  have hn' : |rnd (2 ^ 63 - 2) - (2 ^ 63 - 2)| ≤ 2 := le_trans hn (by norm_num)
  obtain ⟨hlo, hhi⟩ := abs_le.1 hn'
  obtain ⟨k, hk⟩ := (h.dbl (2 ^ 63 - 2)).multiple (by linarith)
  rw [hk] at hlo hhi ⊢
  have h1 : (k:ℚ) ≤ 2 ^ 53 := by linarith
  have h2 : (2:ℚ) ^ 53 - 1 < k := by linarith
  have h1' : k ≤ 2 ^ 53 := by exact_mod_cast h1
  have h2' : 2 ^ 53 - 1 < k := by exact_mod_cast h2
  have : k = 2 ^ 53 := by omega
  rw [this]; norm_num

/-- C library `frexp`: `x = f * 2^e` with `1/2 ≤ |f| < 1`, and `(0,0)` for zero. -/
def frexp (x : ℚ) : ℚ × ℤ :=
  if x = 0 then (0, 0) else (x / 2 ^ (Int.log 2 |x| + 1), Int.log 2 |x| + 1)

theorem frexp_spec {x : ℚ} (hx : x ≠ 0) :
    (frexp x).1 * 2 ^ (frexp x).2 = x ∧ 1 / 2 ≤ |(frexp x).1| ∧ |(frexp x).1| < 1 := by
  have hp : 0 < |x| := abs_pos.2 hx
  have h1 := Int.zpow_log_le_self (b := 2) (by norm_num) hp
  have h2 := Int.lt_zpow_succ_log_self (b := 2) (by norm_num) |x|
  push_cast at h1 h2
  have hz : (0:ℚ) < 2 ^ (Int.log 2 |x| + 1) := zpow_pos (by norm_num) _
  simp only [frexp, hx, if_false]
  refine ⟨by field_simp, ?_, ?_⟩
  · rw [abs_div, abs_of_pos hz, le_div_iff₀ hz, zpow_add_one₀ (by norm_num)]
    linarith
  · rw [abs_div, abs_of_pos hz, div_lt_one hz]; exact h2

/-- The fraction of a double has 53 bits. -/
theorem frexp_dbl {x : ℚ} (hx : x ≠ 0) (h : Dbl x) :
    ∃ M : ℤ, 2 ^ 52 ≤ M ∧ M < 2 ^ 53 ∧ |(frexp x).1| = M * 2 ^ (-53 : ℤ) ∧
      -1074 < (frexp x).2 ∧ (frexp x).2 ≤ 1024 := by
  obtain ⟨hmul, hlo, hhi⟩ := frexp_spec hx
  set f := (frexp x).1
  set k := (frexp x).2
  obtain ⟨m, e, hm, h1, h2, hxe⟩ := h
  have hkp : (0:ℚ) < 2 ^ k := zpow_pos (by norm_num) _
  have hep : (0:ℚ) < 2 ^ e := zpow_pos (by norm_num) _
  have hax : |x| = |f| * 2 ^ k := by rw [← hmul, abs_mul, abs_of_pos hkp]
  have hax2 : |x| = (|m| : ℤ) * 2 ^ e := by rw [hxe, abs_mul, abs_of_pos hep]; push_cast; rfl
  have hmq : ((|m| : ℤ) : ℚ) < 2 ^ 53 := by exact_mod_cast hm
  have hm0 : (1:ℤ) ≤ |m| := by
    rcases Int.lt_or_le 0 |m| with h | h
    · exact h
    · have : m = 0 := abs_nonpos_iff.1 h
      exact absurd (by rw [hxe, this]; simp) hx
  have hmq1 : (1:ℚ) ≤ ((|m| : ℤ) : ℚ) := by exact_mod_cast hm0
  have hfm : |f| * 2 ^ (53:ℤ) = (|m| : ℤ) * 2 ^ (e - k + 53) := by
    have : |f| = (|m| : ℤ) * 2 ^ e / 2 ^ k := by rw [← hax2, hax]; field_simp
    rw [this, zpow_add₀ (by norm_num), zpow_sub₀ (by norm_num)]; ring
  have hge : 0 ≤ e - k + 53 := by
    by_contra hlt
    have hle : e - k + 53 ≤ -1 := by omega
    have h3 : (2:ℚ) ^ (e - k + 53) ≤ 2 ^ (-1:ℤ) := zpow_le_zpow_right₀ (by norm_num) hle
    have h4 : (2:ℚ) ^ (e - k + 53) ≤ 1 / 2 := by simpa using h3
    have h5 : |f| * 2 ^ (53:ℤ) < 2 ^ 53 * (1/2) := by
      rw [hfm]
      exact mul_lt_mul hmq h4 (zpow_pos (by norm_num) _) (by norm_num)
    have h6 : (1/2:ℚ) * 2 ^ (53:ℤ) ≤ |f| * 2 ^ (53:ℤ) := mul_le_mul_of_nonneg_right hlo (by positivity)
    norm_num at h5 h6
    linarith
  obtain ⟨n, hn⟩ : ∃ n : ℕ, e - k + 53 = n := ⟨(e - k + 53).toNat, by omega⟩
  have hM : |f| * 2 ^ (53:ℤ) = ((|m| * 2 ^ n : ℤ) : ℚ) := by
    rw [hfm, hn, zpow_natCast]; push_cast; rfl
  refine ⟨|m| * 2 ^ n, ?_, ?_, ?_, ?_, ?_⟩
  · have : (2:ℚ) ^ 52 ≤ ((|m| * 2 ^ n : ℤ) : ℚ) := by
      rw [← hM]; norm_num at hlo ⊢; linarith
    exact_mod_cast this
  · have : ((|m| * 2 ^ n : ℤ) : ℚ) < 2 ^ 53 := by
      rw [← hM]; norm_num; linarith
    exact_mod_cast this
  · rw [← hM, mul_assoc, ← zpow_add₀ (by norm_num)]; norm_num
  · by_contra hc
    have hc : k ≤ -1074 := by omega
    have h3 : |x| < 2 ^ k := by rw [hax]; nlinarith
    have h4 : (2:ℚ) ^ k ≤ 2 ^ (-1074:ℤ) := zpow_le_zpow_right₀ (by norm_num) hc
    have h5 : (2:ℚ) ^ (-1074:ℤ) ≤ 2 ^ e := zpow_le_zpow_right₀ (by norm_num) h1
    have h6 : (2:ℚ) ^ e ≤ |x| := by rw [hax2]; nlinarith
    linarith
  · have : k - 1 < 53 + e := by
      by_contra hc
      have hc : 53 + e ≤ k - 1 := by omega
      have h3 : (2:ℚ) ^ (53 + e) ≤ 2 ^ (k - 1) := zpow_le_zpow_right₀ (by norm_num) hc
      have h4 : |x| < 2 ^ (53 + e) := by
        rw [hax2, zpow_add₀ (by norm_num)]
        have : ((2:ℚ) ^ (53:ℤ)) = 2 ^ 53 := by norm_num
        rw [this]; exact mul_lt_mul_of_pos_right hmq hep
      have h5 : (2:ℚ) ^ (k - 1) ≤ |x| := by
        rw [hax, zpow_sub_one₀ (by norm_num)]; nlinarith
      linarith
    omega

end C3
