/-
The error of successive truncated decompositions of a tensor, independently of how the matrices are stored.
-/
import Verif.Tt.TensorProps
import Verif.Tt.SvdRect

set_option linter.unusedSectionVars false

namespace C3.Tt
open Finset C3.Ft C3.Round

/-- Orthonormal columns preserve sums of squares. -/
theorem parseval {m p : Nat} {U : Nat → Nat → ℝ} (hU : ∀ q < p, ∀ q' < p, ∑ a ∈ range m, U a q * U a q' = if q = q' then 1 else 0)
    (z : Nat → ℝ) : ∑ a ∈ range m, (∑ q ∈ range p, U a q * z q) ^ 2 = ∑ q ∈ range p, z q ^ 2 := by
  have h1 : ∀ a, (∑ q ∈ range p, U a q * z q) ^ 2 = ∑ q ∈ range p, ∑ q' ∈ range p, z q * z q' * (U a q * U a q') := by
    intro a
    rw [sq, sum_mul_sum]
    refine sum_congr rfl fun q _ => sum_congr rfl fun q' _ => by ring
  simp only [h1]
  rw [sum_comm]
  refine sum_congr rfl fun q hq => ?_
  rw [sum_comm]
  have h2 : ∀ q' ∈ range p, ∑ a ∈ range m, z q * z q' * (U a q * U a q') = if q = q' then z q * z q' else 0 := by
    intro q' hq'
    rw [← mul_sum, hU q (mem_range.1 hq) q' (mem_range.1 hq')]
    split <;> simp
  rw [sum_congr rfl h2, sum_ite_eq, if_pos hq, sq]

/-- Error of a combination of the first `r` columns. -/
theorem orth_err {m p r : Nat} {U : Nat → Nat → ℝ} (hr : r ≤ p)
    (hU : ∀ q < p, ∀ q' < p, ∑ a ∈ range m, U a q * U a q' = if q = q' then 1 else 0) (y x : Nat → ℝ) :
    ∑ a ∈ range m, ((∑ q ∈ range p, U a q * y q) - ∑ c ∈ range r, U a c * x c) ^ 2
      = ∑ c ∈ range r, (y c - x c) ^ 2 + ∑ q ∈ Ico r p, y q ^ 2 := by
  have h1 : ∀ a, (∑ q ∈ range p, U a q * y q) - ∑ c ∈ range r, U a c * x c
      = ∑ q ∈ range p, U a q * (if q < r then y q - x q else y q) := by
    intro a
    have : ∑ c ∈ range r, U a c * x c = ∑ q ∈ range p, U a q * (if q < r then x q else 0) := by
      rw [← sum_range_add_sum_Ico (fun q => U a q * (if q < r then x q else 0)) hr,
        sum_eq_zero (s := Ico r p) (fun q hq => by rw [if_neg (by have := (mem_Ico.1 hq).1; omega), mul_zero]), add_zero]
      exact sum_congr rfl fun c hc => by rw [if_pos (mem_range.1 hc)]
    rw [this, ← sum_sub_distrib]
    refine sum_congr rfl fun q _ => ?_
    split <;> ring
  simp only [h1]
  rw [parseval hU, ← sum_range_add_sum_Ico _ hr]
  congr 1
  · refine sum_congr rfl fun c hc => by rw [if_pos (mem_range.1 hc)]
  · refine sum_congr rfl fun c hc => by rw [if_neg (by have := (mem_Ico.1 hc).1; omega)]

theorem msum_add (ns : List Nat) (f g : List Nat → ℝ) : msum ns (fun es => f es + g es) = msum ns f + msum ns g := by
  induction ns generalizing f g with
  | nil => rfl
  | cons n ns ih => simp only [msum, ih, sum_add_distrib]

theorem msum_fsum (ns : List Nat) (S : Finset Nat) (f : Nat → List Nat → ℝ) :
    msum ns (fun es => ∑ c ∈ S, f c es) = ∑ c ∈ S, msum ns (f c) := by
  induction ns generalizing f with
  | nil => rfl
  | cons n ns ih => simp only [msum]; rw [sum_comm]; exact sum_congr rfl fun e _ => ih _

theorem msum_nonneg (ns : List Nat) {f : List Nat → ℝ} (h : ∀ es, 0 ≤ f es) : 0 ≤ msum ns f := by
  induction ns generalizing f with
  | nil => exact h _
  | cons n ns ih => exact sum_nonneg fun e _ => ih fun es => h _

/-- Replacing the tensor `R` (rows `i < r`, first index `e < n`, other indices in `ns`) by the product of `G` with some `X`
costs the distance of `X` from `R'`, and `E`. -/
def Split (n r r' : Nat) (ns : List Nat) (G : Nat → Nat → Nat → ℝ) (R R' : Nat → List Nat → ℝ) (E : ℝ) : Prop :=
  ∀ X : Nat → List Nat → ℝ,
    ∑ i ∈ range r, ∑ e ∈ range n, msum ns (fun es => (R i (e :: es) - ∑ c ∈ range r', G i e c * X c es) ^ 2)
      = ∑ c ∈ range r', msum ns (fun es => (R' c es - X c es) ^ 2) + E

theorem sum_rows {r n : Nat} (f : Nat → ℝ) : ∑ i ∈ range r, ∑ e ∈ range n, f (e * r + i) = ∑ a ∈ range (n * r), f a := by
  rw [sum_comm]
  induction n with
  | zero => simp
  | succ n ih => rw [sum_range_succ, ih, Nat.succ_mul, sum_range_add]

/-- A factorisation with orthonormal columns, cut to the first `r'`, is a split. -/
theorem split_of {n r r' p : Nat} {ns : List Nat} {U : Nat → Nat → ℝ} {Y : Nat → List Nat → ℝ} {G : Nat → Nat → Nat → ℝ}
    {R R' : Nat → List Nat → ℝ} {σ : Nat → ℝ} (hr : r' ≤ p)
    (hU : ∀ q < p, ∀ q' < p, ∑ a ∈ range (n * r), U a q * U a q' = if q = q' then 1 else 0)
    (hR : ∀ i < r, ∀ e < n, ∀ es, es.length = ns.length → (∀ k < ns.length, es.getD k 0 < ns.getD k 0) →
      R i (e :: es) = ∑ q ∈ range p, U (e * r + i) q * Y q es)
    (hG : ∀ i < r, ∀ e < n, ∀ c < r', G i e c = U (e * r + i) c)
    (hR' : ∀ c < r', ∀ es, es.length = ns.length → (∀ k < ns.length, es.getD k 0 < ns.getD k 0) → R' c es = Y c es)
    (hY : ∀ q, r' ≤ q → q < p → msum ns (fun es => Y q es ^ 2) = σ q ^ 2) :
    Split n r r' ns G R R' (∑ q ∈ Ico r' p, σ q ^ 2) := by
  intro X
  have e1 : ∀ i ∈ range r, ∀ e ∈ range n, msum ns (fun es => (R i (e :: es) - ∑ c ∈ range r', G i e c * X c es) ^ 2)
      = msum ns (fun es => ((∑ q ∈ range p, U (e * r + i) q * Y q es) - ∑ c ∈ range r', U (e * r + i) c * X c es) ^ 2) := by
    intro i hi e he
    refine msum_congr fun es h1 h2 => ?_
    rw [hR i (mem_range.1 hi) e (mem_range.1 he) es h1 h2]
    congr 2
    exact sum_congr rfl fun c hc => by rw [hG i (mem_range.1 hi) e (mem_range.1 he) c (mem_range.1 hc)]
  rw [sum_congr rfl fun i hi => sum_congr rfl (e1 i hi)]
  rw [sum_rows (fun a => msum ns (fun es => ((∑ q ∈ range p, U a q * Y q es) - ∑ c ∈ range r', U a c * X c es) ^ 2))]
  rw [← msum_sum]
  simp only [orth_err hr hU]
  rw [msum_add, msum_fsum, msum_fsum]
  congr 1
  · refine sum_congr rfl fun c hc => msum_congr fun es h1 h2 => ?_
    rw [hR' c (mem_range.1 hc) es h1 h2]
  · refine sum_congr rfl fun q hq => hY q (mem_Ico.1 hq).1 (mem_Ico.1 hq).2

/-- Error of the tails of a train against the tensors `R k`. -/
noncomputable def errAt (s : Nat → Nat) (G : Nat → Nat → Nat → Nat → ℝ) (ns : List Nat) (R : Nat → Nat → List Nat → ℝ) (k : Nat) : ℝ :=
  ∑ i ∈ range (s k), msum (ns.drop k) (fun es => (R k i es - tail s G k es i) ^ 2)

theorem err_chain {s : Nat → Nat} {G : Nat → Nat → Nat → Nat → ℝ} {ns : List Nat} {R : Nat → Nat → List Nat → ℝ} {E : Nat → ℝ}
    {q : Nat} (hq : q ≤ ns.length)
    (h : ∀ k < q, Split (ns.getD k 0) (s k) (s (k + 1)) (ns.drop (k + 1)) (G k) (R k) (R (k + 1)) (E k)) :
    errAt s G ns R 0 = errAt s G ns R q + ∑ k ∈ range q, E k := by
  induction q with
  | zero => simp
  | succ q ih =>
    rw [ih (by omega) fun k hk => h k (by omega), sum_range_succ]
    have := h q (by omega) (fun c es => tail s G (q + 1) es c)
    have e1 : errAt s G ns R q = errAt s G ns R (q + 1) + E q := by
      rw [errAt, errAt, ← this, drop_cons (k := q) (by omega)]
      rfl
    rw [e1]; ring

/-- Sum over all multi-indices of a function of the column-major position. -/
theorem msum_colPos (ns : List Nat) (f : Nat → ℝ) : msum ns (fun es => f (colPos ns es)) = ∑ b ∈ range ns.prod, f b := by
  induction ns generalizing f with
  | nil => simp [msum, colPos]
  | cons n ns ih =>
    simp only [msum, colPos, List.prod_cons]
    rw [sum_congr rfl fun e _ => ih (fun b => f (e + n * b))]
    rw [Nat.mul_comm n, ← sum_rows (r := n) (n := ns.prod) f]
    refine sum_congr rfl fun e _ => sum_congr rfl fun b _ => ?_
    congr 1; ring

end C3.Tt
