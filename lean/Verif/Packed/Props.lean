/-
C46: packed doubles are lossless. Holds for every finite double and every round-to-nearest arithmetic.
-/
import Verif.Packed.Model
import Verif.Serial.Lemmas

namespace C3.Packed
open C3.Serial

theorem dbl_of {A e : ℤ} (h0 : 0 ≤ A) (h : A < 2 ^ 53) (h1 : -1074 ≤ e) (h2 : e ≤ 971) : Dbl ((A:ℚ) * 2 ^ e) :=
  ⟨A, e, by rw [abs_of_nonneg h0]; exact h, h1, h2, rfl⟩

/-- What `pack` stores for a nonzero double. -/
theorem pack_nonzero {rnd : ℚ → ℚ} (hr : RoundNearest rnd) {x : ℚ} (hx : Dbl x) (h0 : x ≠ 0) :
    ∃ A : ℤ, 0 ≤ A ∧ A < 2 ^ 52 ∧ |(frexp x).1| = (A + 2 ^ 52) * 2 ^ (-53 : ℤ) ∧
      pack rnd x = .ok ((frexp x).2, if x < 0 then -(1 + A * 2 ^ 11) else 1 + A * 2 ^ 11) := by
  obtain ⟨M, hM1, hM2, hf, _, _⟩ := frexp_dbl h0 hx
  refine ⟨M - 2 ^ 52, by omega, by omega, by rw [hf]; push_cast; ring, ?_⟩
  generalize hA : M - 2 ^ 52 = A
  have hA0 : 0 ≤ A := by omega
  have hA1 : A < 2 ^ 52 := by omega
  have hMA : M = A + 2 ^ 52 := by omega
  have e1 : |(frexp x).1| - 1 / 2 = (A:ℚ) * 2 ^ (-53:ℤ) := by
    rw [hf, hMA]; push_cast; norm_num; ring
  have r1 : rnd (|(frexp x).1| - 1 / 2) = (A:ℚ) * 2 ^ (-53:ℤ) := by
    rw [e1]; exact hr.exact (dbl_of hA0 (by omega) (by norm_num) (by norm_num))
  have r2 : rnd ((A:ℚ) * 2 ^ (-53:ℤ) * 2) = (A:ℚ) * 2 ^ (-52:ℤ) := by
    have : (A:ℚ) * 2 ^ (-53:ℤ) * 2 = (A:ℚ) * 2 ^ (-52:ℤ) := by norm_num; ring
    rw [this]; exact hr.exact (dbl_of hA0 (by omega) (by norm_num) (by norm_num))
  have r3 : rnd ((fracMaxM1 : ℤ) : ℚ) = 2 ^ 63 := by
    have : ((fracMaxM1 : ℤ) : ℚ) = 2 ^ 63 - 2 := by simp [fracMaxM1]; norm_num
    rw [this]; exact hr.fracMax
  have r4 : rnd ((A:ℚ) * 2 ^ (-52:ℤ) * 2 ^ 63) = ((A * 2 ^ 11 : ℤ) : ℚ) := by
    have : (A:ℚ) * 2 ^ (-52:ℤ) * 2 ^ 63 = (A:ℚ) * 2 ^ (11:ℤ) := by norm_num; ring
    rw [this, hr.exact (dbl_of hA0 (by omega) (by norm_num) (by norm_num))]; push_cast; norm_num
  have hnn : ¬ ((A:ℚ) * 2 ^ (-53:ℤ) < 0) := by
    have : (0:ℚ) ≤ A := by exact_mod_cast hA0
    have h2 : (0:ℚ) < 2 ^ (-53:ℤ) := zpow_pos (by norm_num) _
    exact not_lt.2 (mul_nonneg this h2.le)
  have t1 : toLongLong (((A * 2 ^ 11 : ℤ) : ℚ)) = .ok (A * 2 ^ 11) := by
    have : (0:ℚ) ≤ ((A * 2 ^ 11 : ℤ) : ℚ) := by exact_mod_cast (by positivity : (0:ℤ) ≤ A * 2 ^ 11)
    simp only [toLongLong, this, if_true, Int.floor_intCast]
    rw [if_pos (by constructor <;> omega)]
  have t2 : inLL (1 + A * 2 ^ 11) = .ok (1 + A * 2 ^ 11) := by
    rw [inLL, if_pos (by constructor <;> omega)]
  have t3 : inLL (-(1 + A * 2 ^ 11)) = .ok (-(1 + A * 2 ^ 11)) := by
    rw [inLL, if_pos (by constructor <;> omega)]
  simp only [pack, r1, r2, r3, r4, hnn, if_false, t1, t2, bind_ok, pure_eq_ok]
  split
  · rw [t3, bind_ok]
  · rfl

/-- C46 (values): unpacking a packed finite double restores it, in any round-to-nearest arithmetic, without
undefined behaviour. -/
theorem unpack_pack {rnd : ℚ → ℚ} (hr : RoundNearest rnd) {x : ℚ} (hx : Dbl x) :
    (pack rnd x >>= unpack rnd) = .ok x := by
  by_cases h0 : x = 0
  · subst h0
    have h1 : rnd (|(frexp 0).1| - 1 / 2) = -1 / 2 := by
      have : |(frexp 0).1| - 1 / 2 = ((-1:ℤ):ℚ) * 2 ^ (-1:ℤ) := by simp [frexp]
      rw [this, hr.exact ⟨-1, -1, by norm_num, by norm_num, by norm_num, rfl⟩]; norm_num
    simp only [pack, h1]
    rw [if_pos (by norm_num)]
    simp [unpack]
  · obtain ⟨A, hA0, hA1, hf, hp⟩ := pack_nonzero hr hx h0
    obtain ⟨hmul, hlo, hhi⟩ := frexp_spec h0
    have r3 : rnd ((fracMaxM1 : ℤ) : ℚ) = 2 ^ 63 := by
      have : ((fracMaxM1 : ℤ) : ℚ) = 2 ^ 63 - 2 := by simp [fracMaxM1]; norm_num
      rw [this]; exact hr.fracMax
    have u1 : inLL (1 + A * 2 ^ 11) = .ok (1 + A * 2 ^ 11) := by
      rw [inLL, if_pos (by constructor <;> omega)]
    have u2 : inLL (1 + A * 2 ^ 11 - 1) = .ok (A * 2 ^ 11) := by
      rw [inLL, if_pos (by constructor <;> omega)]; congr 1; ring
    have q1 : rnd ((A * 2 ^ 11 : ℤ) : ℚ) = (A:ℚ) * 2 ^ (11:ℤ) := by
      have : ((A * 2 ^ 11 : ℤ) : ℚ) = (A:ℚ) * 2 ^ (11:ℤ) := by push_cast; norm_num
      rw [this]; exact hr.exact (dbl_of hA0 (by omega) (by norm_num) (by norm_num))
    have q2 : rnd ((A:ℚ) * 2 ^ (11:ℤ) / 2 ^ 63) = (A:ℚ) * 2 ^ (-52:ℤ) := by
      have : (A:ℚ) * 2 ^ (11:ℤ) / 2 ^ 63 = (A:ℚ) * 2 ^ (-52:ℤ) := by norm_num; ring
      rw [this]; exact hr.exact (dbl_of hA0 (by omega) (by norm_num) (by norm_num))
    have q3 : rnd ((A:ℚ) * 2 ^ (-52:ℤ) / 2) = (A:ℚ) * 2 ^ (-53:ℤ) := by
      have : (A:ℚ) * 2 ^ (-52:ℤ) / 2 = (A:ℚ) * 2 ^ (-53:ℤ) := by norm_num; ring
      rw [this]; exact hr.exact (dbl_of hA0 (by omega) (by norm_num) (by norm_num))
    have q4 : rnd ((A:ℚ) * 2 ^ (-53:ℤ) + 1 / 2) = |(frexp x).1| := by
      have : (A:ℚ) * 2 ^ (-53:ℤ) + 1 / 2 = ((A + 2 ^ 52 : ℤ):ℚ) * 2 ^ (-53:ℤ) := by push_cast; norm_num; ring
      rw [this, hr.exact (dbl_of (by omega) (by omega) (by norm_num) (by norm_num)), hf]; push_cast; rfl
    have hax : |(frexp x).1| * 2 ^ (frexp x).2 = |x| := by
      rw [← abs_of_pos (show (0:ℚ) < 2 ^ (frexp x).2 from zpow_pos (by norm_num) _), ← abs_mul, hmul]
    have q5 : rnd (|(frexp x).1| * 2 ^ (frexp x).2) = |x| := by rw [hax]; exact hr.exact hx.abs
    rw [hp, bind_ok]
    have hfp : (0:ℤ) < 1 + A * 2 ^ 11 := by omega
    by_cases hneg : x < 0
    · simp only [unpack, hneg, if_true]
      rw [if_neg (by omega), abs_neg, abs_of_pos hfp, u1, bind_ok, u2, bind_ok]
      simp only [q1, r3, q2, q3, q4, q5]
      rw [if_pos (by omega), abs_of_neg hneg]; simp
    · simp only [unpack, hneg, if_false]
      rw [if_neg (by omega), abs_of_pos hfp, u1, bind_ok, u2, bind_ok]
      simp only [q1, r3, q2, q3, q4, q5]
      rw [if_neg (by omega), abs_of_nonneg (not_lt.1 hneg)]; simp

/-- Non-trivial instance: -5 * 2^-1074 is a (subnormal) double, and a round-to-nearest function exists. -/
example : ∃ rnd, RoundNearest rnd ∧ (pack rnd (-5 * 2 ^ (-1074:ℤ)) >>= unpack rnd) = .ok (-5 * 2 ^ (-1074:ℤ)) := by
  obtain ⟨rnd, hr⟩ := roundNearest_exists
  exact ⟨rnd, hr, unpack_pack hr ⟨-5, -1074, by norm_num, by norm_num, by norm_num, by norm_num⟩⟩

/-- Packing stays inside the ranges of the C fields. -/
theorem pack_range {rnd : ℚ → ℚ} (hr : RoundNearest rnd) {x : ℚ} (hx : Dbl x) :
    ∃ e f, pack rnd x = .ok (e, f) ∧ -2 ^ 31 ≤ e ∧ e < 2 ^ 31 ∧ -2 ^ 63 ≤ f ∧ f < 2 ^ 63 := by
  by_cases h0 : x = 0
  · subst h0
    have h1 : rnd (|(frexp 0).1| - 1 / 2) = -1 / 2 := by
      have : |(frexp 0).1| - 1 / 2 = ((-1:ℤ):ℚ) * 2 ^ (-1:ℤ) := by simp [frexp]
      rw [this, hr.exact ⟨-1, -1, by norm_num, by norm_num, by norm_num, rfl⟩]; norm_num
    refine ⟨0, 0, ?_, by norm_num, by norm_num, by norm_num, by norm_num⟩
    simp only [pack, h1]
    rw [if_pos (by norm_num)]; simp [frexp]
  · obtain ⟨M, _, _, _, he1, he2⟩ := frexp_dbl h0 hx
    obtain ⟨A, hA0, hA1, _, hp⟩ := pack_nonzero hr hx h0
    refine ⟨_, _, hp, by omega, by omega, ?_, ?_⟩ <;> split <;> omega

/-- C46 (bytes): the 12-byte encoding of any finite double reads back as the same double, whatever bytes follow. -/
theorem packed_roundtrip {rnd : ℚ → ℚ} (hr : RoundNearest rnd) {x : ℚ} (hx : Dbl x) (rest : Bytes) :
    ∃ b, serPacked rnd x = .ok b ∧ b.length = 12 ∧ dePacked rnd (b ++ rest) = .ok (x, rest) := by
  obtain ⟨e, f, hp, h1, h2, h3, h4⟩ := pack_range hr hx
  have hu := unpack_pack hr hx
  rw [hp, bind_ok] at hu
  refine ⟨_, by rw [serPacked, hp, bind_ok, pure_eq_ok], by simp, ?_⟩
  have a : (BitVec.ofNat 32 (BitVec.ofInt 32 e).toNat).toInt = e := by
    rw [BitVec.ofNat_toNat, BitVec.setWidth_eq, BitVec.toInt_ofInt]
    exact Int.bmod_eq_of_le (by omega) (by omega)
  have b : (BitVec.ofNat 64 (BitVec.ofInt 64 f).toNat).toInt = f := by
    rw [BitVec.ofNat_toNat, BitVec.setWidth_eq, BitVec.toInt_ofInt]
    exact Int.bmod_eq_of_le (by omega) (by omega)
  have c : decLE (encLE 4 (BitVec.ofInt 32 e).toNat) = (BitVec.ofInt 32 e).toNat := by
    rw [decLE_encLE]; exact Nat.mod_eq_of_lt (by have := (BitVec.ofInt 32 e).isLt; norm_num; omega)
  have d : decLE (encLE 8 (BitVec.ofInt 64 f).toNat) = (BitVec.ofInt 64 f).toNat := by
    rw [decLE_encLE]; exact Nat.mod_eq_of_lt (by have := (BitVec.ofInt 64 f).isLt; norm_num; omega)
  rw [dePacked, List.append_assoc, takeB_append (by simp), bind_ok]
  simp only []
  rw [takeB_append (by simp), bind_ok]
  simp only [c, d, a, b, hu, bind_ok, pure_eq_ok]

/-- C46 (streams): reading the packed stream of an array gives its entries in order. -/
theorem packed_array_roundtrip {rnd : ℚ → ℚ} (hr : RoundNearest rnd) (xs : List ℚ) (hx : ∀ x ∈ xs, Dbl x)
    (rest : Bytes) :
    ∃ b, serArrPacked rnd xs = .ok b ∧ b.length = 12 * xs.length ∧
      repeatDe (dePacked rnd) xs.length (b ++ rest) = .ok (xs, rest) := by
  induction xs with
  | nil => exact ⟨[], rfl, rfl, rfl⟩
  | cons x xs ih =>
    obtain ⟨r, hr1, hl, hr2⟩ := ih (fun y hy => hx y (List.mem_cons_of_mem _ hy))
    obtain ⟨b, hb1, hbl, hb2⟩ := packed_roundtrip hr (hx x (by simp)) (r ++ rest)
    refine ⟨b ++ r, by simp [serArrPacked, hb1, hr1], by simp [hbl, hl]; ring, ?_⟩
    simp only [List.length_cons, repeatDe, List.append_assoc, hb2, bind_ok, hr2, pure_eq_ok]

example : ∃ rnd, RoundNearest rnd ∧ ∀ x ∈ [(1:ℚ), -3 / 4], Dbl x := by
  obtain ⟨rnd, hr⟩ := roundNearest_exists
  refine ⟨rnd, hr, ?_⟩
  intro x hx
  simp only [List.mem_cons, List.not_mem_nil, or_false] at hx
  rcases hx with rfl | rfl
  · exact ⟨1, 0, by norm_num, by norm_num, by norm_num, by norm_num⟩
  · exact ⟨-3, -2, by norm_num, by norm_num, by norm_num, by norm_num⟩

end C3.Packed
