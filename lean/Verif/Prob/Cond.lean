/-
Conditional means of a train and the nonnegativity of the interactions: specification and supporting facts for C79.
-/
import Verif.Ft.SubsetProps
import Verif.Ft.IntProps
import Verif.Prob.Combos

set_option linter.unusedSectionVars false

namespace C3.Prob
open Finset
open C3.Ft
variable {K U X : Type} [Field K]

/-! ### Specification -/

/-- Integral over the listed coordinates, in the order of the list. -/
def lint (I : Integ K X) : List Nat → (List X → K) → K
  | [], g => g []
  | k :: l, g => I.J k (fun x => lint I l (fun xs => g (x :: xs)))

/-- Mean of a function of coordinates `k, ..., k+n-1` given the coordinates not in `c`; their values are the entries of the list. -/
def cint (I : Integ K X) (c : Nat → Prop) [DecidablePred c] : Nat → Nat → (List X → K) → List X → K
  | _, 0, g, _ => g []
  | k, n + 1, g, ys =>
    if c k then I.J k (fun x => cint I c (k + 1) n (fun xs => g (x :: xs)) ys)
    else match ys with
      | [] => 0
      | y :: ys => cint I c (k + 1) n (fun xs => g (y :: xs)) ys

/-- Second moment of the conditional mean given the coordinates of `L`. -/
def condSq (I : Integ K X) (dim : Nat) (f : List X → K) (L : List Nat) : K :=
  lint I L (fun ys => cint I (fun k => k ∉ L) 0 dim f ys * cint I (fun k => k ∉ L) 0 dim f ys)

/-- Variance of the conditional mean given the coordinates of `L`: its second moment minus the square of its mean. -/
def condVar (I : Integ K X) (dim : Nat) (f : List X → K) (L : List Nat) : K :=
  condSq I dim f L - lint I L (cint I (fun k => k ∉ L) 0 dim f) * lint I L (cint I (fun k => k ∉ L) 0 dim f)

/-- The variance of the function. -/
def fullVar (I : Integ K X) (dim : Nat) (f : List X → K) : K := iint I 0 dim (fun x => f x * f x) - iint I 0 dim f * iint I 0 dim f

/-! ### Trains -/

def _root_.C3.Ft.Integ.sub (I : Integ K X) (l : List Nat) : Integ K X := ⟨fun j => I.V (l.getD j 0), fun j => I.J (l.getD j 0)⟩

theorem sub_shift (I : Integ K X) (k : Nat) (l : List Nat) : ∀ (n j : Nat) (g : List X → K), iint (I.sub (k :: l)) (j + 1) n g = iint (I.sub l) j n g
  | 0, _, _ => rfl
  | n + 1, j, g => by
    rw [iint, iint]
    show I.J (l.getD j 0) _ = I.J (l.getD j 0) _
    exact congrArg _ (funext fun x => sub_shift I k l n (j + 1) _)

theorem lint_eq (I : Integ K X) : ∀ (l : List Nat) (g : List X → K), iint (I.sub l) 0 l.length g = lint I l g
  | [], _ => rfl
  | k :: l, g => by
    rw [List.length_cons, iint, lint]
    show I.J k _ = I.J k _
    exact congrArg _ (funext fun x => by rw [sub_shift, lint_eq I l])

theorem lint_range (I : Integ K X) : ∀ (n k : Nat) (g : List X → K), lint I (List.range' k n) g = iint I k n g
  | 0, _, _ => rfl
  | n + 1, k, g => by
    rw [List.range'_succ, lint, iint]
    congr 1
    funext x
    exact lint_range I n (k + 1) _

/-- Remaining coordinates from `k` on. -/
def remFrom (c : Nat → Prop) [DecidablePred c] (k n : Nat) : List Nat := (List.range' k n).filter (fun j => decide (¬ c j))

theorem remFrom_succ {c : Nat → Prop} [DecidablePred c] {k n : Nat} : remFrom c k (n + 1) = if c k then remFrom c (k + 1) n else k :: remFrom c (k + 1) n := by
  rw [remFrom, List.range'_succ, List.filter_cons]
  by_cases h : c k <;> simp [h, remFrom]

theorem cint_in {I : Integ K X} {c : Nat → Prop} [DecidablePred c] {k n : Nat} (h : c k) (g : List X → K) (ys : List X) :
    cint I c k (n + 1) g ys = I.J k (fun x => cint I c (k + 1) n (fun xs => g (x :: xs)) ys) := by
  cases ys <;> simp [cint, h]

theorem cint_out {I : Integ K X} {c : Nat → Prop} [DecidablePred c] {k n : Nat} (h : ¬ c k) (g : List X → K) (y : X) (ys : List X) :
    cint I c k (n + 1) g (y :: ys) = cint I c (k + 1) n (fun xs => g (y :: xs)) ys := by
  simp [cint, h]

theorem cint_psub (I : Integ K X) (c : Nat → Prop) [DecidablePred c] (y : Nat → X) : ∀ (n k : Nat) (g : List X → K),
    cint I c k n g ((remFrom c k n).map y) = iint (psub I c y) k n g
  | 0, _, _ => rfl
  | n + 1, k, g => by
    rw [remFrom_succ, iint]
    by_cases h : c k
    · rw [cint_in h, if_pos h]
      simp only [psub, h, if_true]
      exact congrArg _ (funext fun x => cint_psub I c y n (k + 1) _)
    · rw [if_neg h, List.map_cons, cint_out h]
      simp only [psub, h, if_false]
      exact cint_psub I c y n (k + 1) _

variable {e : Ev K U X} {F : Fam U X} {I : Integ K X}

/-- Mean of a chain given some of its coordinates. -/
def cchain (e : Ev K U X) (I : Integ K X) (c : Nat → Prop) [DecidablePred c] : Nat → List (Qma U) → List X → Nat → K
  | _, [], _, i => if i = 0 then 1 else 0
  | k, Q :: Qs, ys, i =>
    if c k then ∑ m ∈ range Q.ncols, I.J k (fun x => Q.val e x i m) * cchain e I c (k + 1) Qs ys m
    else match ys with
      | [] => 0
      | y :: ys => ∑ m ∈ range Q.ncols, Q.val e y i m * cchain e I c (k + 1) Qs ys m

theorem cchain_in {c : Nat → Prop} [DecidablePred c] {k : Nat} (h : c k) (Q : Qma U) (Qs : List (Qma U)) (ys : List X) (i : Nat) :
    cchain e I c k (Q :: Qs) ys i = ∑ m ∈ range Q.ncols, I.J k (fun x => Q.val e x i m) * cchain e I c (k + 1) Qs ys m := by
  cases ys <;> simp [cchain, h]

theorem cchain_out {c : Nat → Prop} [DecidablePred c] {k : Nat} (h : ¬ c k) (Q : Qma U) (Qs : List (Qma U)) (y : X) (ys : List X) (i : Nat) :
    cchain e I c k (Q :: Qs) (y :: ys) i = ∑ m ∈ range Q.ncols, Q.val e y i m * cchain e I c (k + 1) Qs ys m := by
  simp [cchain, h]

/-- Cores of functions of the family from dimension `k` on. -/
def CoresOk (F : Fam U X) (k : Nat) (Qs : List (Qma U)) : Prop := ∀ (j : Nat) Q, Qs[j]? = some Q → ∀ f ∈ Q.funcs, F.P (k + j) f

theorem CoresOk.tail {k : Nat} {Q : Qma U} {Qs : List (Qma U)} (h : CoresOk F k (Q :: Qs)) : CoresOk F (k + 1) Qs := fun j Q' hQ' => by
  have := h (j + 1) Q' (by simpa using hQ'); rwa [show k + (j + 1) = k + 1 + j by omega] at this

theorem cint_lin (hI : IntLaw F.D I) (hm : MemLaw e F I) (c : Nat → Prop) [DecidablePred c] {Qs : List (Qma U)} : ∀ {k r s : Nat}, Fits r Qs s → CoresOk F k Qs →
    ∀ {m : Nat} (w : Nat → K) (ys : List X), m ≤ r → ys.length = (remFrom c k Qs.length).length →
      cint I c k Qs.length (fun xs => ∑ i ∈ range m, w i * chain (mats e Qs xs) i) ys = ∑ i ∈ range m, w i * cchain e I c k Qs ys i := by
  induction Qs with
  | nil => intro k r s _ _ m w ys _ _; rfl
  | cons Q Qs ih =>
    intro k r s hf hP m w ys hmr hl
    cases hf with
    | cons _ _ hQ hf =>
    have hP0 : ∀ f ∈ Q.funcs, F.P k f := hP 0 Q rfl
    have hsplit : ∀ x xs, ∑ i ∈ range m, w i * chain (mats e (Q :: Qs) (x :: xs)) i = ∑ a ∈ range Q.ncols, (∑ i ∈ range m, w i * Q.val e x i a) * chain (mats e Qs xs) a := by
      intro x xs
      have : ∀ i, chain (mats e (Q :: Qs) (x :: xs)) i = ∑ a ∈ range Q.ncols, Q.val e x i a * chain (mats e Qs xs) a := fun _ => rfl
      simp only [this, mul_sum, sum_mul]
      rw [sum_comm]
      exact sum_congr rfl fun _ _ => sum_congr rfl fun _ _ => by ring
    rw [List.length_cons]
    by_cases hc : c k
    · rw [cint_in hc]
      have hl' : ys.length = (remFrom c (k + 1) Qs.length).length := by rw [hl, List.length_cons, remFrom_succ, if_pos hc]
      simp only [hsplit]
      have : ∀ x, cint I c (k + 1) Qs.length (fun xs => ∑ a ∈ range Q.ncols, (∑ i ∈ range m, w i * Q.val e x i a) * chain (mats e Qs xs) a) ys
          = ∑ a ∈ range Q.ncols, ∑ i ∈ range m, (cchain e I c (k + 1) Qs ys a * w i) * Q.val e x i a := fun x => by
        rw [ih hf hP.tail _ ys (Nat.le_refl _) hl']
        exact sum_congr rfl fun a _ => by rw [sum_mul]; exact sum_congr rfl fun i _ => by ring
      simp only [this]
      rw [(J_sum2 hI (k := k) Q.ncols m (w := fun a i => cchain e I c (k + 1) Qs ys a * w i) (g := fun a i x => Q.val e x i a)
        (fun a ha i hi => val_mem hm hQ hP0 (by omega) ha)).2, sum_comm]
      refine sum_congr rfl fun i _ => ?_
      rw [cchain_in hc, mul_sum]
      exact sum_congr rfl fun a _ => by ring
    · rw [List.length_cons, remFrom_succ, if_neg hc, List.length_cons] at hl
      match ys, hl with
      | y :: ys, hl =>
        rw [cint_out hc]
        simp only [hsplit]
        rw [ih hf hP.tail _ ys (Nat.le_refl _) (by simpa using hl)]
        simp only [sum_mul]
        rw [sum_comm]
        refine sum_congr rfl fun i _ => ?_
        rw [cchain_out hc, mul_sum]
        exact sum_congr rfl fun a _ => by ring

/-- The conditional mean of a train. -/
theorem cint_value (hI : IntLaw F.D I) (hm : MemLaw e F I) (c : Nat → Prop) [DecidablePred c] {ft : FT K U} (hft : ft.Ok F) {ys : List X}
    (hl : ys.length = (remFrom c 0 ft.dim).length) : cint I c 0 ft.dim (value e ft.cores) ys = cchain e I c 0 ft.cores ys 0 := by
  have hP : CoresOk F 0 ft.cores := fun j Q hQ => by rw [Nat.zero_add]; exact hft.mem j Q hQ
  rw [hft.wf.dim] at hl ⊢
  have := cint_lin hI hm c hft.wf.fits hP (m := 1) (fun _ => 1) ys (by decide) hl
  simp only [sum_range_one, one_mul] at this
  exact this

/-- The value of the contracted train is the conditional mean. -/
theorem cchain_psub (c : Nat → Prop) [DecidablePred c] (y : Nat → X) {Qs : List (Qma U)} : ∀ {k : Nat} (i : Nat),
    cchain e I c k Qs ((remFrom c k Qs.length).map y) i = ichain e (psub I c y) k Qs i := by
  induction Qs with
  | nil => intro k i; rfl
  | cons Q Qs ih =>
    intro k i
    rw [ichain, List.length_cons, remFrom_succ]
    by_cases hc : c k
    · rw [cchain_in hc, if_pos hc]
      simp only [psub, hc, if_true]
      exact sum_congr rfl fun m _ => by rw [ih]; rfl
    · rw [if_neg hc, List.map_cons, cchain_out hc]
      simp only [psub, hc, if_false]
      exact sum_congr rfl fun m _ => by rw [ih]; rfl

/-! ### Moments of the conditional mean -/

theorem lint_cchain (hI : IntLaw F.D I) (hm : MemLaw e F I) (c : Nat → Prop) [DecidablePred c] {Qs : List (Qma U)} : ∀ {k r s : Nat}, Fits r Qs s → CoresOk F k Qs →
    ∀ {m : Nat} (w : Nat → K), m ≤ r →
      lint I (remFrom c k Qs.length) (fun ys => ∑ i ∈ range m, w i * cchain e I c k Qs ys i) = ∑ i ∈ range m, w i * ichain e I k Qs i := by
  induction Qs with
  | nil => intro k r s _ _ m w _; rfl
  | cons Q Qs ih =>
    intro k r s hf hP m w hmr
    cases hf with
    | cons _ _ hQ hf =>
    have hP0 : ∀ f ∈ Q.funcs, F.P k f := hP 0 Q rfl
    rw [List.length_cons, remFrom_succ]
    by_cases hc : c k
    · rw [if_pos hc]
      have : ∀ ys, ∑ i ∈ range m, w i * cchain e I c k (Q :: Qs) ys i = ∑ a ∈ range Q.ncols, (∑ i ∈ range m, w i * I.J k (fun x => Q.val e x i a)) * cchain e I c (k + 1) Qs ys a := fun ys => by
        simp only [cchain_in hc, mul_sum, sum_mul]
        rw [sum_comm]
        exact sum_congr rfl fun _ _ => sum_congr rfl fun _ _ => by ring
      simp only [this]
      rw [ih hf hP.tail _ (Nat.le_refl _)]
      simp only [ichain, mul_sum, sum_mul]
      rw [sum_comm]
      exact sum_congr rfl fun _ _ => sum_congr rfl fun _ _ => by ring
    · rw [if_neg hc, lint]
      have : ∀ x ys, ∑ i ∈ range m, w i * cchain e I c k (Q :: Qs) (x :: ys) i = ∑ a ∈ range Q.ncols, (∑ i ∈ range m, w i * Q.val e x i a) * cchain e I c (k + 1) Qs ys a := fun x ys => by
        simp only [cchain_out hc, mul_sum, sum_mul]
        rw [sum_comm]
        exact sum_congr rfl fun _ _ => sum_congr rfl fun _ _ => by ring
      simp only [this]
      have : ∀ x, lint I (remFrom c (k + 1) Qs.length) (fun ys => ∑ a ∈ range Q.ncols, (∑ i ∈ range m, w i * Q.val e x i a) * cchain e I c (k + 1) Qs ys a)
          = ∑ a ∈ range Q.ncols, ∑ i ∈ range m, (ichain e I (k + 1) Qs a * w i) * Q.val e x i a := fun x => by
        rw [ih hf hP.tail _ (Nat.le_refl _)]
        exact sum_congr rfl fun a _ => by rw [sum_mul]; exact sum_congr rfl fun i _ => by ring
      simp only [this]
      rw [(J_sum2 hI (k := k) Q.ncols m (w := fun a i => ichain e I (k + 1) Qs a * w i) (g := fun a i x => Q.val e x i a)
        (fun a ha i hi => val_mem hm hQ hP0 (by omega) ha)).2, sum_comm]
      refine sum_congr rfl fun i _ => ?_
      rw [ichain, mul_sum]
      exact sum_congr rfl fun a _ => by ring

/-- A chain of bilinear forms: per dimension the integral of products of entries, or a product of integrals. -/
def bch (e : Ev K U X) (I : Integ K X) (G : Nat → (X → K) → (X → K) → K) : Nat → List (Qma U) → Nat → Nat → K
  | _, [], i, j => (if i = 0 then 1 else 0) * (if j = 0 then 1 else 0)
  | k, Q :: Qs, i, j => ∑ a ∈ range Q.ncols, ∑ b ∈ range Q.ncols, G k (fun x => Q.val e x i a) (fun x => Q.val e x j b) * bch e I G (k + 1) Qs a b

/-- The bilinear forms of a conditional mean. -/
def condG (I : Integ K X) (c : Nat → Prop) [DecidablePred c] (k : Nat) (g h : X → K) : K := if c k then I.J k g * I.J k h else I.J k (fun x => g x * h x)

theorem sum4 {m n : Nat} (w : Nat → Nat → K) (A B : Nat → Nat → K) (C D : Nat → K) :
    ∑ i ∈ range m, ∑ j ∈ range m, w i j * ((∑ a ∈ range n, A i a * C a) * ∑ b ∈ range n, B j b * D b)
      = ∑ a ∈ range n, ∑ b ∈ range n, (∑ i ∈ range m, ∑ j ∈ range m, w i j * (A i a * B j b)) * (C a * D b) := by
  have h1 : ∀ i j, w i j * ((∑ a ∈ range n, A i a * C a) * ∑ b ∈ range n, B j b * D b) = ∑ a ∈ range n, ∑ b ∈ range n, w i j * (A i a * B j b) * (C a * D b) := fun i j => by
    rw [sum_mul_sum, mul_sum]
    exact sum_congr rfl fun a _ => by rw [mul_sum]; exact sum_congr rfl fun b _ => by ring
  rw [sum_congr rfl fun i _ => sum_congr rfl fun j _ => h1 i j]
  simp only [sum_mul]
  calc _ = ∑ i ∈ range m, ∑ a ∈ range n, ∑ b ∈ range n, ∑ j ∈ range m, w i j * (A i a * B j b) * (C a * D b) := by
        refine sum_congr rfl fun i _ => ?_
        rw [sum_comm]
        exact sum_congr rfl fun a _ => sum_comm
    _ = _ := by
        rw [sum_comm]
        exact sum_congr rfl fun a _ => sum_comm

theorem sum4' {m n : Nat} (w : Nat → Nat → K) (G : Nat → Nat → Nat → Nat → K) (B : Nat → Nat → K) :
    ∑ a ∈ range n, ∑ b ∈ range n, (∑ i ∈ range m, ∑ j ∈ range m, w i j * G i a j b) * B a b
      = ∑ i ∈ range m, ∑ j ∈ range m, w i j * ∑ a ∈ range n, ∑ b ∈ range n, G i a j b * B a b := by
  simp only [sum_mul, mul_sum]
  calc _ = ∑ a ∈ range n, ∑ i ∈ range m, ∑ j ∈ range m, ∑ b ∈ range n, w i j * G i a j b * B a b := by
        refine sum_congr rfl fun a _ => ?_
        rw [sum_comm]
        refine sum_congr rfl fun i _ => ?_
        rw [sum_comm]
    _ = _ := by
        rw [sum_comm]
        refine sum_congr rfl fun i _ => ?_
        rw [sum_comm]
        exact sum_congr rfl fun j _ => sum_congr rfl fun a _ => sum_congr rfl fun b _ => by ring

theorem lint_cchain2 (hI : IntLaw F.D I) (hm2 : MemLaw2 e F I) (c : Nat → Prop) [DecidablePred c] {Qs : List (Qma U)} : ∀ {k r s : Nat}, Fits r Qs s → CoresOk F k Qs →
    ∀ {m : Nat} (w : Nat → Nat → K), m ≤ r →
      lint I (remFrom c k Qs.length) (fun ys => ∑ i ∈ range m, ∑ j ∈ range m, w i j * (cchain e I c k Qs ys i * cchain e I c k Qs ys j))
        = ∑ i ∈ range m, ∑ j ∈ range m, w i j * bch e I (condG I c) k Qs i j := by
  induction Qs with
  | nil => intro k r s _ _ m w _; rfl
  | cons Q Qs ih =>
    intro k r s hf hP m w hmr
    cases hf with
    | cons _ _ hQ hf =>
    have hP0 : ∀ f ∈ Q.funcs, F.P k f := hP 0 Q rfl
    rw [List.length_cons, remFrom_succ]
    by_cases hc : c k
    · rw [if_pos hc]
      simp only [cchain_in hc, sum4]
      rw [ih hf hP.tail _ (Nat.le_refl _)]
      simp only [bch, condG, if_pos hc]
      exact sum4' w (fun i a j b => I.J k (fun x => Q.val e x i a) * I.J k (fun x => Q.val e x j b)) _
    · rw [if_neg hc, lint]
      simp only [cchain_out hc, sum4]
      have : ∀ x, lint I (remFrom c (k + 1) Qs.length) (fun ys => ∑ a ∈ range Q.ncols, ∑ b ∈ range Q.ncols,
          (∑ i ∈ range m, ∑ j ∈ range m, w i j * (Q.val e x i a * Q.val e x j b)) * (cchain e I c (k + 1) Qs ys a * cchain e I c (k + 1) Qs ys b))
          = ∑ i ∈ range m, ∑ j ∈ range m, w i j * ∑ a ∈ range Q.ncols, ∑ b ∈ range Q.ncols, bch e I (condG I c) (k + 1) Qs a b * (Q.val e x i a * Q.val e x j b) := fun x => by
        rw [ih hf hP.tail _ (Nat.le_refl _), sum4' w (fun i a j b => Q.val e x i a * Q.val e x j b)]
        exact sum_congr rfl fun i _ => sum_congr rfl fun j _ => congrArg _ (sum_congr rfl fun a _ => sum_congr rfl fun b _ => mul_comm _ _)
      simp only [this]
      have hin : ∀ i < m, ∀ j < m, I.V k (fun x => ∑ a ∈ range Q.ncols, ∑ b ∈ range Q.ncols, bch e I (condG I c) (k + 1) Qs a b * (Q.val e x i a * Q.val e x j b)) ∧ _ :=
        fun i hi j hj => J_sum2 hI (k := k) Q.ncols Q.ncols (w := fun a b => bch e I (condG I c) (k + 1) Qs a b) (g := fun a b x => Q.val e x i a * Q.val e x j b)
          (fun a ha b hb => val_mem2 hm2 hQ hP0 hQ hP0 (by omega) ha (by omega) hb)
      rw [(J_sum2 hI (k := k) m m (w := w) (g := fun i j x => ∑ a ∈ range Q.ncols, ∑ b ∈ range Q.ncols, bch e I (condG I c) (k + 1) Qs a b * (Q.val e x i a * Q.val e x j b))
        (fun i hi j hj => (hin i hi j hj).1)).2]
      refine sum_congr rfl fun i hi => sum_congr rfl fun j hj => ?_
      rw [(hin i (mem_range.1 hi) j (mem_range.1 hj)).2]
      simp only [bch, condG, if_neg hc]
      exact congrArg _ (sum_congr rfl fun a _ => sum_congr rfl fun b _ => mul_comm _ _)

theorem bch_congr {G G' : Nat → (X → K) → (X → K) → K} : ∀ {Qs : List (Qma U)} {k : Nat} (i j : Nat), (∀ l, k ≤ l → l < k + Qs.length → G l = G' l) →
    bch e I G k Qs i j = bch e I G' k Qs i j
  | [], _, _, _, _ => rfl
  | Q :: Qs, k, i, j, h => by
    rw [bch, bch, h k (Nat.le_refl _) (by simp)]
    exact sum_congr rfl fun a _ => sum_congr rfl fun b _ => by
      rw [bch_congr a b fun l h1 h2 => h l (by omega) (by rw [List.length_cons]; omega)]

end C3.Prob
