/-
Lemmas for `Verif/Pw/JumpProps.lean`.
-/
import Verif.Pw.Jump
import Mathlib.LinearAlgebra.Lagrange
import Mathlib.Data.Nat.Choose.Sum
import Mathlib.Algebra.Order.BigOperators.Ring.Finset
import Mathlib.Tactic.Ring
import Mathlib.Tactic.IntervalCases
import Mathlib.Tactic.LinearCombination
import Mathlib.Tactic.FieldSimp
import Mathlib.Tactic.Linarith
import Mathlib.Tactic.Positivity

namespace C3.Jmp

open Finset

variable {K : Type} [Field K] [LinearOrder K] [IsStrictOrderedRing K]

/-- The annihilation weight. -/
def wt (t : Nat → K) (n l : Nat) : K := ((n - 1).factorial : K) / ∏ j ∈ (range n).erase l, (t l - t j)

/-- The normalisation at `x`. -/
def den (x : K) (t : Nat → K) (n : Nat) : K := ∑ i ∈ range n, if x < t i then wt t n i else 0

theorem factTab_get {m : Nat} (h : m ≤ 8) : factTab[m]? = some m.factorial := by
  interval_cases m <;> rfl

theorem evalCoeff_ok {t : List K} {τ : Nat → K} {off n l : Nat} (hn : 0 < n) (hn9 : n ≤ 9) (hl : l < n)
    (ht : ∀ i < n, t[off + i]? = some (τ i)) (inj : ∀ i < n, ∀ j < n, τ i = τ j → i = j) :
    evalCoeff l t off n = .ok (wt τ n l) := by
  unfold evalCoeff
  rw [cassert_of (by simp; omega), bind_ok, rd_of_getElem? (factTab_get (by omega)), bind_ok]
  obtain ⟨s', e, hs⟩ := forN_spec (n := n) (s := (((n - 1).factorial : Nat) : K))
    (body := fun ii (out : K) => if ii = l then .ok out else do
      let a ← rd t (off + l)
      let b ← rd t (off + ii)
      if a - b = 0 then .error .ub else .ok (out / (a - b)))
    (I := fun k s => s = ((n - 1).factorial : K) / ∏ j ∈ (range k).erase l, (τ l - τ j)) (by simp) (by
      intro k hk s hs
      by_cases hkl : k = l
      · refine ⟨s, if_pos hkl, ?_⟩
        rw [hs, range_add_one, hkl, erase_insert (by simp), erase_eq_of_notMem (by simp)]
      · have hne : τ l - τ k ≠ 0 := fun h0 => hkl (inj l hl k hk (sub_eq_zero.1 h0)).symm
        refine ⟨s / (τ l - τ k), ?_, ?_⟩
        · simp only [if_neg hkl]
          rw [rd_of_getElem? (ht l hl), bind_ok, rd_of_getElem? (ht k hk), bind_ok, if_neg hne]
        · rw [hs, range_add_one, erase_insert_of_ne hkl, prod_insert (by simp), div_div, mul_comm])
  rw [e, hs]; rfl

theorem evalJump_eq {eps x : K} {t v : List K} {τ ν : Nat → K} {off n : Nat} (he : 0 < eps) (hn : 0 < n) (hn9 : n ≤ 9)
    (ht : ∀ i < n, t[off + i]? = some (τ i)) (hv : ∀ i < n, v[off + i]? = some (ν i))
    (inj : ∀ i < n, ∀ j < n, τ i = τ j → i = j) :
    evalJump eps x t off v n
      = if eps ≤ |den x τ n| then .ok ((∑ i ∈ range n, wt τ n i * ν i) / den x τ n) else .error .assertFail := by
  unfold evalJump
  obtain ⟨s', e, h1, h2⟩ := forN_spec (n := n) (s := ((0 : K), (0 : K)))
    (body := fun ii (s : K × K) => do
      let c ← evalCoeff ii t off n
      let a ← rd t (off + ii)
      let y ← rd v (off + ii)
      .ok (if x < a then s.1 + c else s.1, s.2 + c * y))
    (I := fun k s => s.1 = (∑ i ∈ range k, if x < τ i then wt τ n i else 0) ∧ s.2 = ∑ i ∈ range k, wt τ n i * ν i) (by simp) (by
      intro k hk s ⟨a1, a2⟩
      refine ⟨(if x < τ k then s.1 + wt τ n k else s.1, s.2 + wt τ n k * ν k), ?_, ?_, ?_⟩
      · rw [evalCoeff_ok hn hn9 hk ht inj, bind_ok, rd_of_getElem? (ht k hk), bind_ok, rd_of_getElem? (hv k hk), bind_ok]
      · simp only [sum_range_succ]; rw [a1]; split_ifs <;> simp
      · simp only [sum_range_succ]; rw [a2])
  rw [e, bind_ok]
  have hden : s'.1 = den x τ n := h1
  rw [hden]
  by_cases hd : eps ≤ |den x τ n|
  · have hne : den x τ n ≠ 0 := fun h0 => by rw [h0, abs_zero] at hd; exact absurd hd (not_le.2 he)
    rw [cassert_of (by simpa using hd), bind_ok, if_neg hne, h2, if_pos hd]
  · rw [if_neg hd, decide_eq_false hd]; rfl

theorem evalJump_ok {eps x : K} {t v : List K} {τ ν : Nat → K} {off n : Nat} (he : 0 < eps) (hn : 0 < n) (hn9 : n ≤ 9)
    (ht : ∀ i < n, t[off + i]? = some (τ i)) (hv : ∀ i < n, v[off + i]? = some (ν i))
    (inj : ∀ i < n, ∀ j < n, τ i = τ j → i = j) (hd : eps ≤ |den x τ n|) :
    evalJump eps x t off v n = .ok ((∑ i ∈ range n, wt τ n i * ν i) / den x τ n) := by
  rw [evalJump_eq he hn hn9 ht hv inj, if_pos hd]

theorem annih {τ : Nat → K} {n : Nat} (inj : ∀ i < n, ∀ j < n, τ i = τ j → i = j) (P : Polynomial K)
    (hP : P.degree < ((n - 1 : Nat) : WithBot Nat)) : ∑ i ∈ range n, wt τ n i * P.eval (τ i) = 0 := by
  have hi : Set.InjOn τ (range n : Finset Nat) := fun i hi j hj h => inj i (by simpa using hi) j (by simpa using hj) h
  have h := Lagrange.coeff_eq_sum hi (P := P) (by
    rw [card_range]; exact lt_of_lt_of_le hP (by exact_mod_cast Nat.sub_le n 1))
  rw [card_range, Polynomial.coeff_eq_zero_of_degree_lt hP] at h
  have : ∑ i ∈ range n, wt τ n i * P.eval (τ i)
      = ((n - 1).factorial : K) * ∑ i ∈ range n, P.eval (τ i) / ∏ j ∈ (range n).erase i, (τ i - τ j) := by
    rw [mul_sum]; refine sum_congr rfl fun i _ => ?_
    unfold wt; ring
  rw [this, ← h, mul_zero]

theorem jump_exact {x : K} {τ ν : Nat → K} {n : Nat} (inj : ∀ i < n, ∀ j < n, τ i = τ j → i = j) (P : Polynomial K) (a : K)
    (hP : P.degree < ((n - 1 : Nat) : WithBot Nat)) (hv : ∀ i < n, ν i = P.eval (τ i) + if x < τ i then a else 0) :
    ∑ i ∈ range n, wt τ n i * ν i = a * den x τ n := by
  have : ∑ i ∈ range n, wt τ n i * ν i = ∑ i ∈ range n, wt τ n i * P.eval (τ i) + a * den x τ n := by
    unfold den
    rw [mul_sum, ← sum_add_distrib]; refine sum_congr rfl fun i hi => ?_
    rw [hv i (by simpa using hi)]; split_ifs <;> ring
  rw [this, annih inj P hP, zero_add]

theorem facLow (i : Nat) : ∏ j ∈ range i, ((i : K) - j) = (i.factorial : K) := by
  induction i with
  | zero => simp
  | succ i ih =>
    rw [prod_range_succ', Nat.factorial_succ]
    have : ∏ k ∈ range i, (((i + 1 : Nat) : K) - ((k + 1 : Nat) : K)) = ∏ k ∈ range i, ((i : K) - k) :=
      prod_congr rfl fun k _ => by push_cast; ring
    rw [this, ih]; push_cast; ring

theorem facHigh (i d : Nat) : ∏ j ∈ range d, ((i : K) - ((i + 1 + j : Nat) : K)) = (-1) ^ d * (d.factorial : K) := by
  induction d with
  | zero => simp
  | succ d ih => rw [prod_range_succ, ih, Nat.factorial_succ]; push_cast; ring

theorem prodErase {m i : Nat} (h : i ≤ m) :
    ∏ j ∈ (range (m + 1)).erase i, ((i : K) - j) = (i.factorial : K) * ((-1) ^ (m - i) * ((m - i).factorial : K)) := by
  have e1 : ∏ j ∈ (range (m + 1)).erase i, ((i : K) - j) = ∏ j ∈ (range (m + 1)).erase i, (if j = i then 1 else (i : K) - j) :=
    prod_congr rfl fun j hj => by rw [if_neg (ne_of_mem_erase hj)]
  rw [e1, prod_erase _ (by simp), show m + 1 = (i + 1) + (m - i) by omega, prod_range_add, prod_range_succ, if_pos rfl, mul_one, ← facLow i, ← facHigh i (m - i)]
  congr 1
  · exact prod_congr rfl fun j hj => if_neg (by have := mem_range.1 hj; omega)
  · exact prod_congr rfl fun j _ => if_neg (by omega)

theorem wt_equi {a h : K} (hh : 0 < h) {m i : Nat} (hi : i ≤ m) :
    wt (fun j => a + (j : K) * h) (m + 1) i = (-1) ^ m * ((-1) ^ i * (m.choose i : K)) / h ^ m := by
  unfold wt
  have e : ∏ j ∈ (range (m + 1)).erase i, (a + (i : K) * h - (a + (j : K) * h))
      = (∏ j ∈ (range (m + 1)).erase i, ((i : K) - j)) * h ^ m := by
    rw [show h ^ m = ∏ _j ∈ (range (m + 1)).erase i, h by
      rw [prod_const, card_erase_of_mem (mem_range.2 (by omega)), card_range, Nat.add_sub_cancel], ← prod_mul_distrib]
    exact prod_congr rfl fun j _ => by ring
  rw [e, prodErase hi, Nat.add_sub_cancel]
  have hc : (m.factorial : K) = (m.choose i : K) * (i.factorial : K) * ((m - i).factorial : K) := by
    exact_mod_cast (Nat.choose_mul_factorial_mul_factorial hi).symm
  have h1 : (i.factorial : K) ≠ 0 := by exact_mod_cast Nat.factorial_ne_zero i
  have h2 : ((m - i).factorial : K) ≠ 0 := by exact_mod_cast Nat.factorial_ne_zero (m - i)
  have h3 : h ^ m ≠ 0 := pow_ne_zero _ hh.ne'
  have h4 : ((-1 : K)) ^ (m - i) ≠ 0 := pow_ne_zero _ (by norm_num)
  have h5 : ((-1 : K)) ^ m * (-1) ^ i = (-1) ^ (m - i) := by
    rw [← pow_add, show m + i = (m - i) + 2 * i by omega, pow_add, pow_mul]; simp
  have h6 : ((-1 : K)) ^ (m - i) * (-1) ^ (m - i) = 1 := by rw [← mul_pow]; simp
  rw [hc, ← mul_assoc ((-1 : K) ^ m), h5, div_eq_div_iff (mul_ne_zero (mul_ne_zero h1 (mul_ne_zero h4 h2)) h3) h3]
  linear_combination (-(m.choose i : K) * (i.factorial : K) * ((m - i).factorial : K) * h ^ m) * h6

theorem den_equi {a h x : K} (hh : 0 < h) {m p : Nat} (hp : 0 < p) (hpm : p ≤ m)
    (hx : ∀ i < m + 1, (x < a + (i : K) * h ↔ p ≤ i)) :
    |den x (fun j => a + (j : K) * h) (m + 1)| = ((m - 1).choose (p - 1) : K) / h ^ m := by
  have inj : ∀ i < m + 1, ∀ j < m + 1, (fun j : Nat => a + (j : K) * h) i = (fun j : Nat => a + (j : K) * h) j → i = j := by
    intro i _ j _ e
    have e' : (i : K) * h = (j : K) * h := by simpa using e
    exact_mod_cast mul_right_cancel₀ hh.ne' e'
  have h0 := annih inj (1 : Polynomial K) (by
    rw [Polynomial.degree_one, Nat.add_sub_cancel]; exact_mod_cast (show 0 < m by omega))
  simp only [Polynomial.eval_one, mul_one] at h0
  have e1 : den x (fun j => a + (j : K) * h) (m + 1)
      = - ∑ i ∈ range (m + 1), if i < p then wt (fun j => a + (j : K) * h) (m + 1) i else 0 := by
    rw [eq_neg_iff_add_eq_zero]
    unfold den
    rw [← sum_add_distrib]
    refine (sum_congr rfl fun i hi => ?_).trans h0
    have := hx i (mem_range.1 hi)
    by_cases c : p ≤ i
    · rw [if_pos (this.2 c), if_neg (by omega), add_zero]
    · rw [if_neg (fun k => c (this.1 k)), if_pos (by omega), zero_add]
  have e2 : (∑ i ∈ range (m + 1), if i < p then wt (fun j => a + (j : K) * h) (m + 1) i else 0)
      = ∑ i ∈ range ((p - 1) + 1), wt (fun j => a + (j : K) * h) (m + 1) i := by
    rw [← sum_filter]
    refine sum_congr ?_ fun _ _ => rfl
    ext i; simp only [mem_filter, mem_range]; omega
  have e3 : ∑ i ∈ range ((p - 1) + 1), wt (fun j => a + (j : K) * h) (m + 1) i
      = (-1) ^ m / h ^ m * ∑ i ∈ range ((p - 1) + 1), (-1) ^ i * (m.choose i : K) := by
    rw [mul_sum]
    refine sum_congr rfl fun i hi => ?_
    have := mem_range.1 hi
    rw [wt_equi hh (by omega)]; ring
  have e4 : ∑ i ∈ range ((p - 1) + 1), (-1) ^ i * (m.choose i : K) = (-1) ^ (p - 1) * ((m - 1).choose (p - 1) : K) := by
    have := @Int.alternating_sum_range_choose_eq_choose (m - 1) (p - 1)
    rw [show m - 1 + 1 = m by omega] at this
    exact_mod_cast congrArg (fun z : Int => (z : K)) this
  rw [e1, e2, e3, e4, abs_neg, abs_mul, abs_mul, abs_div, abs_pow, abs_pow, abs_pow, abs_neg, abs_one, one_pow, one_pow, one_mul,
    abs_of_pos hh, Nat.abs_cast]
  ring

theorem scan_ok {x : K} {t : List K} {τ : Nat → K} {N : Nat} (ht : ∀ i < N, t[i]? = some (τ i)) (c : Nat) (hc : c < N)
    (hlo : ∀ i < c, τ i < x) (hhi : ¬ τ c < x) : ∀ (d i k : Nat), i + d = c → d < k → scan x t k i = .ok c := by
  intro d
  induction d with
  | zero =>
    intro i k hi hk
    obtain ⟨k, rfl⟩ := Nat.exists_eq_succ_of_ne_zero (show k ≠ 0 by omega)
    have : i = c := by omega
    subst this
    rw [scan, rd_of_getElem? (ht i hc), bind_ok, if_neg hhi]
  | succ d ih =>
    intro i k hi hk
    obtain ⟨k, rfl⟩ := Nat.exists_eq_succ_of_ne_zero (show k ≠ 0 by omega)
    rw [scan, rd_of_getElem? (ht i (by omega)), bind_ok, if_pos (hlo i (by omega)), ih (i + 1) k (by omega) (by omega)]

theorem getStencil_ok {x : K} {t : List K} {τ : Nat → K} {N nst c : Nat} (hN : t.length = N) (ht : ∀ i < N, t[i]? = some (τ i))
    (hc : c + 1 < N) (hlo : ∀ i ≤ c, τ i < x) (hhi : ∀ i, c < i → i < N → x < τ i) (h2 : 2 ≤ nst) (hn : nst ≤ N) :
    ∃ st, getStencil x nst t N = .ok st ∧ st ≤ c ∧ c + 2 ≤ st + nst ∧ st + nst ≤ N := by
  unfold getStencil
  rw [cassert_of (by simpa using hn), bind_ok, rd_of_getElem? (ht 0 (by omega)), bind_ok,
    cassert_of (by simpa using hlo 0 (by omega)), bind_ok, rd_of_getElem? (ht (N - 1) (by omega)), bind_ok,
    cassert_of (by simpa using hhi (N - 1) (by omega) (by omega)), bind_ok,
    scan_ok ht (c + 1) hc (fun i hi => hlo i (by omega)) (not_lt.2 (hhi (c + 1) (by omega) hc).le) (c + 1) 0 (t.length + 1)
      (by omega) (by omega), bind_ok]
  by_cases h1 : c + 1 = 1
  · exact ⟨0, if_pos h1, by omega, by omega, by omega⟩
  · rw [if_neg h1]
    by_cases h3 : c + 1 = N - 1
    · exact ⟨N - nst, if_pos h3, by omega, by omega, by omega⟩
    · rw [if_neg h3]
      obtain ⟨s, e, a1, a2, a3, a4⟩ := forN_spec (n := nst - 2) (s := ((c + 1 - 1, c + 1) : Nat × Nat))
        (body := fun _ s => grow x t N s)
        (I := fun k s => s.1 ≤ c ∧ c + 1 ≤ s.2 ∧ s.2 < N ∧ s.2 = s.1 + 1 + k) ⟨by simp, by simp, by simpa using hc, by simp⟩ (by
          intro k hk s ⟨b1, b2, b3, b4⟩
          unfold grow
          by_cases g1 : s.1 = 0
          · exact ⟨(s.1, s.2 + 1), if_pos g1, b1, by simp only []; omega, by simp only []; omega, by simp only []; omega⟩
          · rw [if_neg g1]
            by_cases g2 : s.2 = N - 1
            · exact ⟨(s.1 - 1, s.2), if_pos g2, by simp only []; omega, b2, b3, by simp only []; omega⟩
            · rw [if_neg g2, rd_of_getElem? (ht (s.2 + 1) (by omega)), bind_ok, rd_of_getElem? (ht (s.1 - 1) (by omega)), bind_ok]
              split_ifs
              · exact ⟨(s.1, s.2 + 1), rfl, b1, by simp only []; omega, by simp only []; omega, by simp only []; omega⟩
              · exact ⟨(s.1 - 1, s.2), rfl, by simp only []; omega, b2, b3, by simp only []; omega⟩)
      exact ⟨s.1, by rw [e, bind_ok], a1, by omega, by omega⟩

/-- The jump function on equispaced points with spacing at most one: it exists, and it is exact on a polynomial with a jump in the
interval of `x`. -/
theorem jumpAt_equi {eps a h x : K} {t v : List K} {ν : Nat → K} {N m c : Nat} (he : 0 < eps) (he1 : eps ≤ 1) (hh : 0 < h) (hh1 : h ≤ 1)
    (hN : t.length = N) (ht : ∀ i < N, t[i]? = some (a + (i : K) * h)) (hv : ∀ i < N, v[i]? = some (ν i))
    (hc : c + 1 < N) (hlo : a + (c : K) * h < x) (hhi : x < a + ((c + 1 : Nat) : K) * h) (hm : 1 ≤ m) (hm8 : m ≤ 8) (hmN : m + 1 ≤ N) :
    ∃ J, jumpAt eps x t v N m = .ok J ∧ ∀ (P : Polynomial K) (b : K), P.degree < (m : WithBot Nat) →
      (∀ i < N, ν i = P.eval (a + (i : K) * h) + if x < a + (i : K) * h then b else 0) → J = b := by
  have mono : ∀ i j : Nat, i ≤ j → a + (i : K) * h ≤ a + (j : K) * h := fun i j hij => by
    have : (i : K) ≤ (j : K) := by exact_mod_cast hij
    have := mul_le_mul_of_nonneg_right this hh.le
    linarith
  have hlo' : ∀ i ≤ c, a + (i : K) * h < x := fun i hi => lt_of_le_of_lt (mono i c hi) hlo
  have hhi' : ∀ i, c < i → i < N → x < a + (i : K) * h := fun i hi _ => lt_of_lt_of_le hhi (mono (c + 1) i hi)
  obtain ⟨st, e, s1, s2, s3⟩ := getStencil_ok (τ := fun i => a + (i : K) * h) hN ht hc hlo' hhi' (show 2 ≤ m + 1 by omega) hmN
  unfold jumpAt
  rw [e, bind_ok]
  have sh : ∀ i : Nat, a + ((st + i : Nat) : K) * h = (a + (st : K) * h) + (i : K) * h := fun i => by push_cast; ring
  have inj : ∀ i < m + 1, ∀ j < m + 1, (fun j : Nat => (a + (st : K) * h) + (j : K) * h) i
      = (fun j : Nat => (a + (st : K) * h) + (j : K) * h) j → i = j := by
    intro i _ j _ e
    have e' : (i : K) * h = (j : K) * h := by simpa using e
    exact_mod_cast mul_right_cancel₀ hh.ne' e'
  have hd := den_equi (a := a + (st : K) * h) (x := x) hh (m := m) (p := c + 1 - st) (by omega) (by omega) (by
    intro i hi
    rw [← sh i]
    constructor
    · intro hx
      by_contra hcon
      exact absurd hx (not_lt.2 (hlo' (st + i) (by omega)).le)
    · intro hp
      exact hhi' (st + i) (by omega) (by omega))
  have hd1 : eps ≤ |den x (fun j : Nat => (a + (st : K) * h) + (j : K) * h) (m + 1)| := by
    rw [hd]
    have c1 : (1 : K) ≤ ((m - 1).choose (c + 1 - st - 1) : K) := by
      exact_mod_cast Nat.choose_pos (show c + 1 - st - 1 ≤ m - 1 by omega)
    have c2 : h ^ m ≤ 1 := pow_le_one₀ hh.le hh1
    refine le_trans he1 ?_
    rw [le_div_iff₀ (pow_pos hh m)]
    linarith
  refine ⟨_, evalJump_ok (ν := fun i => ν (st + i)) he (by omega) (by omega)
    (fun i hi => by rw [ht (st + i) (by omega), sh i]) (fun i hi => hv (st + i) (by omega)) inj hd1, ?_⟩
  intro P b hP hval
  have hne : den x (fun j : Nat => (a + (st : K) * h) + (j : K) * h) (m + 1) ≠ 0 := fun h0 => by
    rw [h0, abs_zero] at hd1; exact absurd hd1 (not_le.2 he)
  rw [jump_exact inj P b (by simpa using hP) (fun i hi => by
    have := hval (st + i) (by omega)
    rw [sh i] at this; exact this), mul_div_assoc, div_self hne, mul_one]

/-- The bounds of a minmod of numbers `J`. -/
def MinMod (J : Nat → K) (a b : Nat) (r : K) : Prop :=
  ((∃ m, a ≤ m ∧ m ≤ b ∧ ¬ (J m < 0 ↔ J a < 0)) ∧ r = 0) ∨
  ((∀ m, a ≤ m → m ≤ b → ((J m < 0 ↔ J a < 0) ∧ |r| ≤ |J m|)) ∧ ∃ m, a ≤ m ∧ m ≤ b ∧ r = J m)

theorem minmod_ok {eps x : K} {t v : List K} {N a b : Nat} {J : Nat → K} (hab : a ≤ b)
    (hJ : ∀ m, a ≤ m → m ≤ b → jumpAt eps x t v N m = .ok (J m)) :
    ∃ r, minmod eps x t v N a b = .ok r ∧ MinMod J a b r := by
  unfold minmod
  rw [hJ a (le_refl a) hab, bind_ok]
  obtain ⟨s, e, h1⟩ := forN_spec (n := b + 1 - (a + 1)) (s := ((J a, false) : K × Bool))
    (body := fun i => mmStep eps x t v N (decide (J a < 0)) (a + 1 + i))
    (I := fun k s => (s.2 = true ∧ s.1 = 0 ∧ ∃ m, a ≤ m ∧ m ≤ b ∧ ¬ (J m < 0 ↔ J a < 0)) ∨
      (s.2 = false ∧ (∀ m, a ≤ m → m ≤ a + k → ((J m < 0 ↔ J a < 0) ∧ |s.1| ≤ |J m|)) ∧ ∃ m, a ≤ m ∧ m ≤ a + k ∧ s.1 = J m))
    (Or.inr ⟨rfl, fun m h1 h2 => by
      have : m = a := by omega
      subst this; simp, a, le_refl a, by omega, rfl⟩) (by
      intro k hk s hs
      rcases hs with ⟨q1, q2, q3⟩ | ⟨q1, q2, m0, q3, q4, q5⟩
      · refine ⟨s, ?_, Or.inl ⟨q1, q2, q3⟩⟩
        unfold mmStep; rw [q1]; rfl
      · unfold mmStep
        rw [q1, if_neg (by simp), hJ (a + 1 + k) (by omega) (by omega), bind_ok]
        by_cases hs : (J (a + 1 + k) < 0 ↔ J a < 0)
        · rw [if_neg (by simpa using hs)]
          have old : ∀ r : K, (|r| ≤ |s.1| ∧ |r| ≤ |J (a + 1 + k)|) → (r = s.1 ∨ r = J (a + 1 + k)) →
              ((∀ m, a ≤ m → m ≤ a + (k + 1) → ((J m < 0 ↔ J a < 0) ∧ |r| ≤ |J m|)) ∧ ∃ m, a ≤ m ∧ m ≤ a + (k + 1) ∧ r = J m) := by
            intro r ⟨r1, r2⟩ r3
            refine ⟨fun m m1 m2 => ?_, ?_⟩
            · by_cases hm : m = a + 1 + k
              · rw [hm]; exact ⟨hs, r2⟩
              · obtain ⟨w1, w2⟩ := q2 m m1 (by omega)
                exact ⟨w1, le_trans r1 w2⟩
            · rcases r3 with r3 | r3
              · exact ⟨m0, q3, by omega, r3.trans q5⟩
              · exact ⟨a + 1 + k, by omega, by omega, r3⟩
          have s0 : (s.1 < 0 ↔ J a < 0) := by rw [q5]; exact (q2 m0 q3 q4).1
          by_cases hn : J a < 0
          · have n1 := hs.2 hn
            have n2 := s0.2 hn
            rw [if_neg (by simpa using hn)]
            refine ⟨_, rfl, Or.inr ⟨rfl, ?_⟩⟩
            apply old
            · rw [abs_of_neg n1, abs_of_neg n2]
              simp only []
              split_ifs with hc
              · rw [abs_of_neg n1]; exact ⟨by linarith, le_refl _⟩
              · rw [abs_of_neg n2]; exact ⟨le_refl _, by linarith [not_lt.1 hc]⟩
            · simp only []; split_ifs <;> simp
          · have n1 : 0 ≤ J (a + 1 + k) := not_lt.1 (fun q => hn (hs.1 q))
            have n2 : 0 ≤ s.1 := not_lt.1 (fun q => hn (s0.1 q))
            rw [if_pos (by simpa using hn)]
            refine ⟨_, rfl, Or.inr ⟨rfl, ?_⟩⟩
            apply old
            · rw [abs_of_nonneg n1, abs_of_nonneg n2]
              simp only []
              split_ifs with hc
              · rw [abs_of_nonneg n1]; exact ⟨by linarith, le_refl _⟩
              · rw [abs_of_nonneg n2]; exact ⟨le_refl _, by linarith [not_lt.1 hc]⟩
            · simp only []; split_ifs <;> simp
        · rw [if_pos (by simpa using hs)]
          exact ⟨(0, true), rfl, Or.inl ⟨rfl, rfl, a + 1 + k, by omega, by omega, hs⟩⟩)
  rw [forR, e, bind_ok]
  refine ⟨s.1, rfl, ?_⟩
  rcases h1 with ⟨_, q2, q3⟩ | ⟨_, q2, m0, q3, q4, q5⟩
  · exact Or.inl ⟨q3, q2⟩
  · exact Or.inr ⟨fun m m1 m2 => q2 m m1 (by omega), m0, q3, by omega, q5⟩

theorem MinMod.const {J : Nat → K} {a b : Nat} {r z : K} (hab : a ≤ b) (h : MinMod J a b r) (hz : ∀ m, a ≤ m → m ≤ b → J m = z) : r = z := by
  rcases h with ⟨⟨m, m1, m2, m3⟩, _⟩ | ⟨_, m, m1, m2, m3⟩
  · exact absurd (by rw [hz m m1 m2, hz a (le_refl a) hab]) m3
  · rw [m3, hz m m1 m2]

theorem spacing_equi {a h : K} (hh : 0 < h) {t : List K} {N : Nat} (h2 : 2 ≤ N) (ht : ∀ i < N, t[i]? = some (a + (i : K) * h)) :
    spacing t N = .ok h := by
  unfold spacing
  rw [rd_of_getElem? (ht 1 (by omega)), bind_ok, rd_of_getElem? (ht 0 (by omega)), bind_ok, forR]
  obtain ⟨s, e, hs⟩ := forN_spec (n := N - 2) (s := a + ((1 : Nat) : K) * h - (a + ((0 : Nat) : K) * h))
    (body := fun i hcur => do
      let q ← rd t (2 + i)
      let b ← Except.ok (a + ((0 : Nat) : K) * h)
      .ok (if q - b < hcur then q - b else hcur)) (I := fun _ s => s = h) (by push_cast; ring) (by
      intro k hk s hs
      refine ⟨h, ?_, rfl⟩
      rw [rd_of_getElem? (ht (2 + k) (by omega)), bind_ok, bind_ok, hs, if_neg]
      have : (0 : K) ≤ (k : K) * h := by positivity
      push_cast; intro hc; nlinarith)
  rw [e, hs]

theorem lsp_ok (lb ub : K) {n : Nat} (hn : 0 < n) :
    ∃ l, lsp lb ub n = .ok l ∧ l.length = n + 1 ∧ ∀ i < n + 1, l[i]? = some (lb + (i : K) * ((ub - lb) / (n : K))) := by
  unfold lsp
  obtain ⟨s, e, hl, hs⟩ := forN_spec (n := n) (s := (List.replicate (n + 1) (0 : K)))
    (body := fun ii a => wr a ii ((ii : K) * ((ub - lb) / (n : K)) + lb))
    (I := fun k s => s.length = n + 1 ∧ ∀ i < k, s[i]? = some (lb + (i : K) * ((ub - lb) / (n : K)))) (by simp) (by
      intro k hk s ⟨hl, hs⟩
      refine ⟨s.set k ((k : K) * ((ub - lb) / (n : K)) + lb), wr_ok _ (by omega), by simp [hl], ?_⟩
      intro i hi
      by_cases hik : i = k
      · rw [hik, List.getElem?_set_self (by omega), add_comm]
      · rw [List.getElem?_set_ne (Ne.symm hik), hs i (by omega)])
  rw [e, bind_ok]
  refine ⟨s.set n ub, wr_ok _ (by omega), by simp [hl], ?_⟩
  intro i hi
  by_cases hik : i = n
  · have : (n : K) ≠ 0 := by exact_mod_cast hn.ne'
    rw [hik, List.getElem?_set_self (by omega)]
    congr 1; field_simp; ring
  · rw [List.getElem?_set_ne (Ne.symm hik), hs i (by omega)]

end C3.Jmp
