/-
Gram matrices of trains under orthogonal decompositions of their cores. `ichain2 e I k As Bs i j` is the integral of the
product of row `i` of the chain `As` and row `j` of the chain `Bs` over the dimensions from `k` on.
-/
import Verif.Ft.InnerAlg

set_option linter.unusedSectionVars false

namespace C3.Round
open Finset C3.Ft
variable {U X : Type} {e : Ev ℝ U X} {F : Fam U X} {I : Integ ℝ X}

/-- The functions of a list of cores belong to the dimensions from `k` on. -/
def Mem (F : Fam U X) (k : Nat) (cores : List (Qma U)) : Prop :=
  ∀ (j : Nat) (Q : Qma U), cores[j]? = some Q → ∀ f ∈ Q.funcs, F.P (k + j) f

theorem Mem.nil {k : Nat} : Mem F k [] := fun j Q h => by simp at h

theorem Mem.cons {k : Nat} {Q : Qma U} {Qs : List (Qma U)} (hQ : ∀ f ∈ Q.funcs, F.P k f) (h : Mem F (k + 1) Qs) :
    Mem F k (Q :: Qs) := by
  rintro (_ | j) P hP
  · simp at hP; subst hP; exact hQ
  · have := h j P (by simpa using hP)
    rwa [show k + 1 + j = k + (j + 1) by omega] at this

theorem Mem.head {k : Nat} {Q : Qma U} {Qs : List (Qma U)} (h : Mem F k (Q :: Qs)) : ∀ f ∈ Q.funcs, F.P k f := h 0 Q rfl

theorem Mem.tail {k : Nat} {Q : Qma U} {Qs : List (Qma U)} (h : Mem F k (Q :: Qs)) : Mem F (k + 1) Qs := fun j P hP => by
  have := h (j + 1) P (by simpa using hP)
  rwa [show k + (j + 1) = k + 1 + j by omega] at this

theorem Mem.append {k : Nat} {As Bs : List (Qma U)} (hA : Mem F k As) (hB : Mem F (k + As.length) Bs) :
    Mem F k (As ++ Bs) := by
  induction As generalizing k with
  | nil => simpa using hB
  | cons A As ih =>
    refine Mem.cons hA.head (ih hA.tail ?_)
    simpa [Nat.add_assoc, Nat.add_comm] using hB

theorem fits_append {As Bs : List (Qma U)} {r s t : Nat} (hA : Fits r As s) (hB : Fits s Bs t) : Fits r (As ++ Bs) t := by
  induction hA with
  | nil => exact hB
  | cons Q Qs hQ _ ih => exact Fits.cons Q _ hQ (ih hB)

/-- Columns orthonormal for the integral in dimension `k`. -/
def ColON (e : Ev ℝ U X) (I : Integ ℝ X) (k : Nat) (Q : Qma U) : Prop :=
  ∀ c < Q.ncols, ∀ c' < Q.ncols,
    ∑ i ∈ range Q.nrows, I.J k (fun x => Q.val e x i c * Q.val e x i c') = if c = c' then 1 else 0

/-- Rows orthonormal for the integral in dimension `k`. -/
def RowON (e : Ev ℝ U X) (I : Integ ℝ X) (k : Nat) (Q : Qma U) : Prop :=
  ∀ r < Q.nrows, ∀ r' < Q.nrows,
    ∑ j ∈ range Q.ncols, I.J k (fun x => Q.val e x r j * Q.val e x r' j) = if r = r' then 1 else 0

/-- The `n` rows of a chain are orthonormal. -/
def TailON (e : Ev ℝ U X) (I : Integ ℝ X) (k n : Nat) (Qs : List (Qma U)) : Prop :=
  ∀ i < n, ∀ j < n, ichain2 e I k Qs Qs i j = if i = j then 1 else 0

theorem tailON_nil {k : Nat} : TailON e I k 1 ([] : List (Qma U)) := by
  intro i hi j hj
  have : i = 0 := by omega
  have : j = 0 := by omega
  subst_vars
  simp [ichain2]

theorem sum_delta {n : Nat} {f : Nat → ℝ} {c : Nat} (hc : c < n) :
    ∑ p ∈ range n, f p * (if p = c then 1 else 0) = f c := by
  rw [sum_eq_single c (fun b _ hb => by rw [if_neg hb, mul_zero]) (fun h => absurd (mem_range.2 hc) h), if_pos rfl, mul_one]

theorem tailON_cons {k : Nat} {Q : Qma U} {Qs : List (Qma U)} (hQ : RowON e I k Q) (h : TailON e I (k + 1) Q.ncols Qs) :
    TailON e I k Q.nrows (Q :: Qs) := by
  intro i hi j hj
  rw [ichain2, ← hQ i hi j hj]
  refine sum_congr rfl fun c hc => ?_
  rw [sum_congr rfl fun d hd => by rw [h c (mem_range.1 hc) d (mem_range.1 hd)]]
  have := sum_delta (n := Q.ncols) (f := fun d => I.J k (fun x => Q.val e x i c * Q.val e x j d)) (mem_range.1 hc)
  rw [← this]
  exact sum_congr rfl fun d _ => by simp only [eq_comm]

/-- Replacing the first core of the left chain by a combination of rows. -/
theorem ichain2_lin (hI : IntLaw F.D I) (hm : MemLaw2 e F I) {k : Nat} {T Q B : Qma U} {Qs Bs : List (Qma U)}
    (hQ : QOk F k Q) (hB : QOk F k B) (hc : T.ncols = Q.ncols) {w : Nat → ℝ} {i d : Nat} (hd : d < B.nrows)
    (hv : ∀ x, F.D k x → ∀ b < Q.ncols, T.val e x i b = ∑ j ∈ range Q.nrows, w j * Q.val e x j b) :
    ichain2 e I k (T :: Qs) (B :: Bs) i d = ∑ j ∈ range Q.nrows, w j * ichain2 e I k (Q :: Qs) (B :: Bs) j d := by
  simp only [ichain2, hc, mul_sum]
  have hJ : ∀ c < Q.ncols, ∀ d' < B.ncols, I.J k (fun x => T.val e x i c * B.val e x d d')
      = ∑ j ∈ range Q.nrows, w j * I.J k (fun x => Q.val e x j c * B.val e x d d') := fun c hc d' hd' =>
    (J_lin_left (F := F) hI (v := fun j x => Q.val e x j c) (g := fun x => B.val e x d d')
      (fun j hj => val_mem2 hm hQ.wf hQ.mem hB.wf hB.mem hj hc hd hd')
      (fun x hx => by rw [hv x hx c hc])).2
  rw [sum_comm (s := range Q.nrows)]
  refine sum_congr rfl fun c hc => ?_
  rw [sum_comm]
  refine sum_congr rfl fun d' hd' => ?_
  rw [hJ c (mem_range.1 hc) d' (mem_range.1 hd'), sum_mul]
  exact sum_congr rfl fun j _ => by ring

/-- An array `A` with `n` columns written as `φ M` with orthonormal columns `φ` and rows of `M` of squared length `s_p²`;
the columns of `Cc` are the first `rank` columns of `φ`. -/
structure Dec (e : Ev ℝ U X) (F : Fam U X) (I : Integ ℝ X) (k : Nat) (A Cc : Qma U) (s : Nat → ℝ)
    (M : Nat → Nat → ℝ) (φ : Nat → Nat → X → ℝ) : Prop where
  okA : QOk F k A
  okC : QOk F k Cc
  rows : Cc.nrows = A.nrows
  rank : Cc.ncols ≤ A.ncols
  valA : ∀ x, F.D k x → ∀ i < A.nrows, ∀ j < A.ncols, A.val e x i j = ∑ p ∈ range A.ncols, M p j * φ i p x
  valC : ∀ x, F.D k x → ∀ i < A.nrows, ∀ p < Cc.ncols, Cc.val e x i p = φ i p x
  mem : ∀ i < A.nrows, ∀ p < A.ncols, ∀ q < A.ncols, I.V k (fun x => φ i p x * φ i q x)
  on : ∀ p < A.ncols, ∀ q < A.ncols, ∑ i ∈ range A.nrows, I.J k (fun x => φ i p x * φ i q x) = if p = q then 1 else 0
  len : ∀ p < A.ncols, ∑ j ∈ range A.ncols, M p j * M p j = s p ^ 2

section dec
variable {k : Nat} {A Cc : Qma U} {s : Nat → ℝ} {M : Nat → Nat → ℝ} {φ : Nat → Nat → X → ℝ}

theorem Dec.Aφ (hI : IntLaw F.D I) (h : Dec e F I k A Cc s M φ) {i j q : Nat} (hi : i < A.nrows) (hj : j < A.ncols)
    (hq : q < A.ncols) :
    I.V k (fun x => A.val e x i j * φ i q x) ∧
      I.J k (fun x => A.val e x i j * φ i q x) = ∑ p ∈ range A.ncols, M p j * I.J k (fun x => φ i p x * φ i q x) :=
  J_lin_left (F := F) hI (v := fun p x => φ i p x) (g := φ i q) (fun p hp => h.mem i hi p hp q hq)
    (fun x hx => by rw [h.valA x hx i hi j hj])

theorem Dec.sumAφ (hI : IntLaw F.D I) (h : Dec e F I k A Cc s M φ) {j q : Nat} (hj : j < A.ncols) (hq : q < A.ncols) :
    ∑ i ∈ range A.nrows, I.J k (fun x => A.val e x i j * φ i q x) = M q j := by
  rw [sum_congr rfl fun i hi => (h.Aφ hI (mem_range.1 hi) hj hq).2, sum_comm]
  rw [sum_congr rfl fun p hp => by rw [← mul_sum, h.on p (mem_range.1 hp) q hq]]
  exact sum_delta (f := fun p => M p j) hq

theorem Dec.AC (hI : IntLaw F.D I) (h : Dec e F I k A Cc s M φ) {i j c : Nat} (hi : i < A.nrows) (hj : j < A.ncols)
    (hc : c < Cc.ncols) :
    I.J k (fun x => A.val e x i j * Cc.val e x i c) = I.J k (fun x => A.val e x i j * φ i c x) :=
  ((hI.congr k _ _ (fun x hx => by rw [h.valC x hx i hi c hc])
    (h.Aφ hI hi hj (lt_of_lt_of_le hc h.rank)).1).2).symm

theorem Dec.CC (hI : IntLaw F.D I) (h : Dec e F I k A Cc s M φ) {i c c' : Nat} (hi : i < A.nrows) (hc : c < Cc.ncols)
    (hc' : c' < Cc.ncols) :
    I.J k (fun x => Cc.val e x i c * Cc.val e x i c') = I.J k (fun x => φ i c x * φ i c' x) :=
  ((hI.congr k _ _ (fun x hx => by rw [h.valC x hx i hi c hc, h.valC x hx i hi c' hc'])
    (h.mem i hi c (lt_of_lt_of_le hc h.rank) c' (lt_of_lt_of_le hc' h.rank))).2).symm

theorem Dec.AA (hI : IntLaw F.D I) (h : Dec e F I k A Cc s M φ) {j : Nat} (hj : j < A.ncols) :
    ∑ i ∈ range A.nrows, I.J k (fun x => A.val e x i j * A.val e x i j) = ∑ p ∈ range A.ncols, M p j * M p j := by
  have : ∀ i ∈ range A.nrows, I.J k (fun x => A.val e x i j * A.val e x i j)
      = ∑ q ∈ range A.ncols, M q j * I.J k (fun x => A.val e x i j * φ i q x) := fun i hi => by
    have hi := mem_range.1 hi
    have := (J_lin_left (F := F) hI (k := k) (n := A.ncols) (w := fun q => M q j) (v := fun q x => φ i q x)
      (g := fun x => A.val e x i j) (u := fun x => A.val e x i j * A.val e x i j)
      (fun q hq => (hI.congr k _ _ (fun x _ => mul_comm _ _) (h.Aφ hI hi hj hq).1).1)
      (fun x hx => by rw [← h.valA x hx i hi j hj])).2
    rw [this]
    exact sum_congr rfl fun q _ => by simp only [mul_comm]
  rw [sum_congr rfl this, sum_comm]
  exact sum_congr rfl fun q hq => by rw [← mul_sum, h.sumAφ hI hj (mem_range.1 hq)]

/-- Squared norm of `A` followed by an orthonormal chain. -/
theorem Dec.full (hI : IntLaw F.D I) (h : Dec e F I k A Cc s M φ) {Qs : List (Qma U)}
    (hQ : TailON e I (k + 1) A.ncols Qs) :
    ∑ i ∈ range A.nrows, ichain2 e I k (A :: Qs) (A :: Qs) i i = ∑ p ∈ range A.ncols, s p ^ 2 := by
  have : ∀ i ∈ range A.nrows, ichain2 e I k (A :: Qs) (A :: Qs) i i
      = ∑ j ∈ range A.ncols, I.J k (fun x => A.val e x i j * A.val e x i j) := fun i _ => by
    rw [ichain2]
    refine sum_congr rfl fun c hc => ?_
    rw [sum_congr rfl fun d hd => by rw [hQ c (mem_range.1 hc) d (mem_range.1 hd)]]
    have := sum_delta (n := A.ncols) (f := fun d => I.J k (fun x => A.val e x i c * A.val e x i d)) (mem_range.1 hc)
    rw [← this]
    exact sum_congr rfl fun d _ => by simp only [eq_comm]
  rw [sum_congr rfl this, sum_comm, sum_congr rfl fun j hj => h.AA hI (mem_range.1 hj), sum_comm]
  exact sum_congr rfl fun p hp => h.len p (mem_range.1 hp)

/-- Product of `A` followed by `Qs` with `Cc` followed by `Bs`. -/
theorem Dec.cross (hI : IntLaw F.D I) (h : Dec e F I k A Cc s M φ) {Qs Bs : List (Qma U)} :
    ∑ i ∈ range A.nrows, ichain2 e I k (A :: Qs) (Cc :: Bs) i i
      = ∑ c ∈ range Cc.ncols, ∑ j ∈ range A.ncols, M c j * ichain2 e I (k + 1) Qs Bs j c := by
  simp only [ichain2]
  rw [sum_comm, sum_comm (s := range Cc.ncols)]
  refine sum_congr rfl fun j hj => ?_
  rw [sum_comm]
  refine sum_congr rfl fun c hc => ?_
  rw [← sum_mul, ← h.sumAφ hI (mem_range.1 hj) (lt_of_lt_of_le (mem_range.1 hc) h.rank)]
  congr 1
  exact sum_congr rfl fun i hi => h.AC hI (mem_range.1 hi) (mem_range.1 hj) (mem_range.1 hc)

/-- Product of two chains that start with `Cc`. -/
theorem Dec.self (hI : IntLaw F.D I) (h : Dec e F I k A Cc s M φ) {Bs : List (Qma U)} :
    ∑ i ∈ range A.nrows, ichain2 e I k (Cc :: Bs) (Cc :: Bs) i i
      = ∑ c ∈ range Cc.ncols, ichain2 e I (k + 1) Bs Bs c c := by
  simp only [ichain2]
  rw [sum_comm]
  refine sum_congr rfl fun c hc => ?_
  rw [sum_comm]
  have := sum_delta (n := Cc.ncols) (f := fun d => ichain2 e I (k + 1) Bs Bs c d) (mem_range.1 hc)
  rw [← this]
  refine sum_congr rfl fun d hd => ?_
  have hc' := mem_range.1 hc
  have hd' := mem_range.1 hd
  rw [← sum_mul, mul_comm, sum_congr rfl fun i hi => h.CC hI (mem_range.1 hi) hc' hd',
    h.on c (lt_of_lt_of_le hc' h.rank) d (lt_of_lt_of_le hd' h.rank)]
  simp only [eq_comm]

end dec

end C3.Round
