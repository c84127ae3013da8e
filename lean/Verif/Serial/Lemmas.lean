/- Helper lemmas for the serialization theorems. -/
import Verif.Serial.Model
import Mathlib.Tactic.Ring

namespace C3.Serial

@[simp] theorem encLE_length (k v : Nat) : (encLE k v).length = k := by
  induction k generalizing v with
  | zero => rfl
  | succ k ih => simp [encLE, ih]

theorem decLE_encLE (k v : Nat) : decLE (encLE k v) = v % 256 ^ k := by
  induction k generalizing v with
  | zero => simp [encLE, decLE, Nat.mod_one]
  | succ k ih =>
    simp only [encLE, decLE, ih]
    have h1 : (UInt8.ofNat (v % 256)).toNat = v % 256 := by simp
    rw [h1, pow_succ, mul_comm (256 ^ k) 256, Nat.mod_mul]

theorem takeB_append {k : Nat} {b rest : Bytes} (h : b.length = k) :
    takeB k (b ++ rest) = .ok (b, rest) := by
  subst h; simp [takeB]

@[simp] theorem serInt_length (v : W32) : (serInt v).length = 4 := by simp [serInt]
@[simp] theorem serSize_length (v : Nat) : (serSize v).length = 8 := by simp [serSize]
@[simp] theorem serDouble_length (v : W64) : (serDouble v).length = 8 := by simp [serDouble]

theorem deInt_serInt (v : W32) (rest : Bytes) : deInt (serInt v ++ rest) = .ok (v, rest) := by
  unfold deInt
  rw [takeB_append (by simp)]
  simp only [bind_ok, pure_eq_ok, serInt, decLE_encLE]
  congr 2
  apply BitVec.eq_of_toNat_eq
  simp
  exact v.isLt

theorem deSize_serSize {v : Nat} (h : v < 2 ^ 64) (rest : Bytes) :
    deSize (serSize v ++ rest) = .ok (v, rest) := by
  unfold deSize
  rw [takeB_append (by simp)]
  simp only [bind_ok, pure_eq_ok, serSize, decLE_encLE]
  congr 2
  norm_num at h ⊢
  omega

theorem deDouble_serDouble (v : W64) (rest : Bytes) :
    deDouble (serDouble v ++ rest) = .ok (v, rest) := by
  unfold deDouble
  rw [takeB_append (by simp)]
  simp only [bind_ok, pure_eq_ok, serDouble, decLE_encLE]
  congr 2
  apply BitVec.eq_of_toNat_eq
  simp
  exact v.isLt

theorem image_length (v : List W64) : (image v).length = 8 * v.length := by
  induction v with
  | nil => rfl
  | cons a v ih => simp [image] at ih ⊢; omega

theorem unimage_image (v : List W64) : unimage v.length (image v) = v := by
  induction v with
  | nil => rfl
  | cons a v ih =>
    have hi : image (a :: v) = serDouble a ++ image v := by simp [image]
    have h := deDouble_serDouble a (image v)
    rw [List.length_cons, unimage, hi]
    rw [List.take_left' (serDouble_length a), List.drop_left' (serDouble_length a), ih]
    congr 1
    apply BitVec.eq_of_toNat_eq
    simp [serDouble, decLE_encLE]
    exact a.isLt

/-- Bytes written for a well-sized array. -/
theorem serDoublep_eq {v : List W64} (h : v.length < 2 ^ 61) :
    serDoublep v v.length = .ok (serSize v.length ++ image v) := by
  have hm : v.length * 8 % 2 ^ 64 = v.length * 8 := Nat.mod_eq_of_lt (by omega)
  unfold serDoublep
  simp only [hm]
  rw [if_pos (by omega), List.take_of_length_le (by rw [image_length]; omega)]

theorem deDoublep_image {v : List W64} (h : v.length < 2 ^ 61) (rest : Bytes) :
    deDoublep (serSize v.length ++ (image v ++ rest)) = .ok ((v, v.length), rest) := by
  have hm : v.length * 8 % 2 ^ 64 = v.length * 8 := Nat.mod_eq_of_lt (by omega)
  unfold deDoublep
  rw [deSize_serSize (by omega)]
  simp only [bind_ok, hm]
  rw [takeB_append (by rw [image_length]; omega)]
  simp [unimage_image]

/-- Generic round-trip statement for one object. -/
def RoundTrips {α : Type} (ser : α → C Bytes) (size : α → C Nat) (de : Bytes → C (α × Bytes))
    (x : α) : Prop :=
  ∃ b, ser x = .ok b ∧ size x = .ok b.length ∧ ∀ rest, de (b ++ rest) = .ok (x, rest)

theorem repeat_rt {α : Type} {ser : α → C Bytes} {size : α → C Nat} {de : Bytes → C (α × Bytes)}
    (xs : List α) (h : ∀ x ∈ xs, RoundTrips ser size de x) :
    ∃ b, repeatSer ser xs.length xs = .ok b ∧ repeatSize size xs.length xs = .ok b.length ∧
      ∀ rest, repeatDe de xs.length (b ++ rest) = .ok (xs, rest) := by
  induction xs with
  | nil => exact ⟨[], rfl, rfl, fun rest => rfl⟩
  | cons x xs ih =>
    obtain ⟨b, hs, hz, hd⟩ := h x (by simp)
    obtain ⟨bs, hss, hzs, hds⟩ := ih (fun y hy => h y (by simp [hy]))
    refine ⟨b ++ bs, ?_, ?_, ?_⟩
    · simp [repeatSer, hs, hss]
    · simp [repeatSize, hz, hzs]
    · intro rest
      simp [repeatDe, List.append_assoc, hd, hds]


theorem deMapping_serMapping {p : SpaceMapping} (h : p.map = .linear) (rest : Bytes) :
    deMapping (serMapping p ++ rest) = .ok (p, rest) := by
  obtain ⟨m, s, a, b, c, d⟩ := p
  simp only at h
  subst h
  simp [deMapping, serMapping, deInt_serInt, deDouble_serDouble]

@[simp] theorem serMapping_length (p : SpaceMapping) : (serMapping p).length = 40 := by
  simp [serMapping]

theorem polyOfCode_code {t : PolyType} (h : t ≠ .standard) : polyOfCode t.code = some t := by
  cases t <;> first | decide | exact absurd rfl h

theorem complex_rt (z : W64 × W64) :
    RoundTrips serComplex (fun _ => .ok 16) deComplex z := by
  refine ⟨_, rfl, by simp, fun rest => ?_⟩
  simp [deComplex, deDouble_serDouble]

theorem repeatSize_const {α : Type} (k : Nat) (xs : List α) :
    repeatSize (fun _ => .ok k) xs.length xs = .ok (xs.length * k) := by
  induction xs with
  | nil => simp [repeatSize]
  | cons x xs ih => simp [repeatSize, ih]; ring

end C3.Serial
