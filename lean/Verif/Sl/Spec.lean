/-
Specification of a function train with abstract univariate values, as a polynomial in these values,
and of the layout of univariate functions and parameters.
-/
import Mathlib.Algebra.BigOperators.Intervals
import Mathlib.Algebra.BigOperators.Ring.Finset
import Mathlib.Algebra.Order.BigOperators.Group.Finset
import Mathlib.Tactic.Ring

namespace C3.Sl

variable {K : Type} [CommRing K]

/-- Position of the first univariate function of core `k`. -/
def uo (r : Nat → Nat) (k : Nat) : Nat := ∑ m ∈ Finset.range k, r m * r (m + 1)

/-- Offset of the parameters of univariate function `u`. -/
def po (np : Nat → Nat) (u : Nat) : Nat := ∑ v ∈ Finset.range u, np v

/-- Offset in the workspace of the product of the first `k + 1` cores. -/
def mo (r : Nat → Nat) (k : Nat) : Nat := ∑ m ∈ Finset.range k, r (m + 1)

/-- Entry `c` of the row vector that is the product of the first `k` cores; `e u` is the value of
the univariate function `u`. -/
def lft (r : Nat → Nat) (e : Nat → K) : Nat → Nat → K
  | 0, c => if c = 0 then 1 else 0
  | k + 1, c => ∑ i ∈ Finset.range (r k), lft r e k i * e (uo r k + (i + c * r k))

/-- Entry `i` of the column vector that is the product of the last `n` of `d` cores. -/
def rgt (r : Nat → Nat) (e : Nat → K) (d : Nat) : Nat → Nat → K
  | 0, i => if i = 0 then 1 else 0
  | n + 1, i => ∑ c ∈ Finset.range (r (d - n)),
      e (uo r (d - (n + 1)) + (i + c * r (d - (n + 1)))) * rgt r e d n c

/-- Value of the function train of `d` cores. -/
def trainVal (r : Nat → Nat) (e : Nat → K) (d : Nat) : K := lft r e d 0

theorem uo_succ (r : Nat → Nat) (k : Nat) : uo r (k + 1) = uo r k + r k * r (k + 1) := by
  simp [uo, Finset.sum_range_succ]
theorem po_succ (np : Nat → Nat) (u : Nat) : po np (u + 1) = po np u + np u := by
  simp [po, Finset.sum_range_succ]
theorem mo_succ (r : Nat → Nat) (k : Nat) : mo r (k + 1) = mo r k + r (k + 1) := by
  simp [mo, Finset.sum_range_succ]

theorem uo_mono (r : Nat → Nat) {a b : Nat} (h : a ≤ b) : uo r a ≤ uo r b := by
  unfold uo; exact Finset.sum_le_sum_of_subset (by simpa using h)
theorem po_mono (r : Nat → Nat) {a b : Nat} (h : a ≤ b) : po r a ≤ po r b := by
  unfold po; exact Finset.sum_le_sum_of_subset (by simpa using h)
theorem mo_mono (r : Nat → Nat) {a b : Nat} (h : a ≤ b) : mo r a ≤ mo r b := by
  unfold mo; exact Finset.sum_le_sum_of_subset (by simpa using h)

theorem idx_lt {i j a b : Nat} (hi : i < a) (hj : j < b) : i + j * a < a * b := by
  calc i + j * a < a + j * a := by omega
    _ = (j + 1) * a := by ring
    _ ≤ b * a := Nat.mul_le_mul_right _ hj
    _ = a * b := by ring

theorem idx_inj {i j i' j' a : Nat} (hi : i < a) (hi' : i' < a)
    (h : i + j * a = i' + j' * a) : i = i' ∧ j = j' := by
  have h1 : (i + j * a) % a = i := by rw [Nat.add_mul_mod_self_right, Nat.mod_eq_of_lt hi]
  have h2 : (i' + j' * a) % a = i' := by rw [Nat.add_mul_mod_self_right, Nat.mod_eq_of_lt hi']
  have hii : i = i' := by rw [← h1, ← h2, h]
  refine ⟨hii, ?_⟩
  subst hii
  have : j * a = j' * a := by omega
  exact Nat.eq_of_mul_eq_mul_right (by omega) this

/-- The left product only depends on the cores to the left. -/
theorem lft_congr (r : Nat → Nat) (e e' : Nat → K) :
    ∀ k, (∀ u, u < uo r k → e u = e' u) → ∀ c, c < r k → lft r e k c = lft r e' k c := by
  intro k
  induction k with
  | zero => intros; rfl
  | succ k ih =>
    intro h c hc
    simp only [lft]
    refine Finset.sum_congr rfl (fun i hi => ?_)
    have hi' := Finset.mem_range.1 hi
    rw [ih (fun u hu => h u (by rw [uo_succ]; omega)) i hi',
      h _ (by rw [uo_succ]; have := idx_lt hi' hc; omega)]

/-- The right product only depends on the cores to the right. -/
theorem rgt_congr (r : Nat → Nat) (e e' : Nat → K) (d : Nat) :
    ∀ n, n ≤ d → (∀ u, uo r (d - n) ≤ u → e u = e' u) → ∀ c, rgt r e d n c = rgt r e' d n c := by
  intro n
  induction n with
  | zero => intros; rfl
  | succ n ih =>
    intro hn h c
    simp only [rgt]
    refine Finset.sum_congr rfl (fun i hi => ?_)
    rw [ih (by omega) (fun u hu => h u (le_trans (uo_mono r (by omega)) hu)) i,
      h _ (by omega)]

/-- Splitting the train at any core boundary gives the same value. -/
theorem lft_rgt (r : Nat → Nat) (e : Nat → K) (d : Nat) (hd : r d = 1) :
    ∀ n, n ≤ d → ∑ i ∈ Finset.range (r (d - n)), lft r e (d - n) i * rgt r e d n i
      = trainVal r e d := by
  intro n
  induction n with
  | zero => intro _; simp [hd, rgt, trainVal]
  | succ n ih =>
    intro hn
    rw [← ih (by omega)]
    obtain ⟨k, hk⟩ : ∃ k, d - n = k + 1 := ⟨d - n - 1, by omega⟩
    have hk' : d - (n + 1) = k := by omega
    rw [hk', hk]
    simp only [lft, rgt, hk, hk', Finset.mul_sum, Finset.sum_mul]
    rw [Finset.sum_comm]
    refine Finset.sum_congr rfl (fun a _ => Finset.sum_congr rfl (fun b _ => by ring))

/-- The value of the train as a bilinear expression in core `k`. -/
theorem value_core (r : Nat → Nat) (e : Nat → K) (d k : Nat) (hd : r d = 1) (hk : k < d) :
    trainVal r e d = ∑ i ∈ Finset.range (r k), ∑ j ∈ Finset.range (r (k + 1)),
      lft r e k i * e (uo r k + (i + j * r k)) * rgt r e d (d - (k + 1)) j := by
  have h := lft_rgt r e d hd (d - (k + 1)) (by omega)
  have h1 : d - (d - (k + 1)) = k + 1 := by omega
  rw [h1] at h
  rw [← h]
  simp only [lft, Finset.sum_mul]
  rw [Finset.sum_comm]

/-- Changing the value of one univariate function changes the value of the train linearly, with the
product of the left and right products as slope. -/
theorem value_update (r : Nat → Nat) (e : Nat → K) (d k i j : Nat) (t : K) (hd : r d = 1)
    (hk : k < d) (hi : i < r k) (hj : j < r (k + 1)) :
    trainVal r (Function.update e (uo r k + (i + j * r k)) t) d
      = trainVal r e d
        + lft r e k i * (t - e (uo r k + (i + j * r k))) * rgt r e d (d - (k + 1)) j := by
  set e' := Function.update e (uo r k + (i + j * r k)) t with he'
  have hne : ∀ u, u ≠ uo r k + (i + j * r k) → e' u = e u := fun u hu => by
    rw [he', Function.update_of_ne hu]
  have hL : ∀ c, c < r k → lft r e' k c = lft r e k c :=
    lft_congr r _ _ k (fun u hu => hne u (by omega))
  have hR : ∀ c, rgt r e' d (d - (k + 1)) c = rgt r e d (d - (k + 1)) c :=
    rgt_congr r _ _ d _ (by omega) (fun u hu => hne u (by
      have h1 : d - (d - (k + 1)) = k + 1 := by omega
      rw [h1, uo_succ] at hu
      have := idx_lt hi hj
      omega))
  rw [value_core r e' d k hd hk, value_core r e d k hd hk, ← sub_eq_iff_eq_add']
  rw [← Finset.sum_sub_distrib]
  rw [Finset.sum_eq_single i]
  · rw [← Finset.sum_sub_distrib, Finset.sum_eq_single j]
    · rw [hL i hi, hR j, he', Function.update_self]; ring
    · intro b hb hbj
      rw [hL i hi, hR b, hne _ (fun h => hbj (idx_inj hi hi (Nat.add_left_cancel h)).2)]; ring
    · intro h; exact absurd (Finset.mem_range.2 hj) h
  · intro a ha hai
    have ha' := Finset.mem_range.1 ha
    rw [← Finset.sum_sub_distrib]
    refine Finset.sum_eq_zero (fun b hb => ?_)
    rw [hL a ha', hR b, hne _ (fun h => hai (idx_inj ha' hi (Nat.add_left_cancel h)).1)]; ring
  · intro h; exact absurd (Finset.mem_range.2 hi) h

end C3.Sl
