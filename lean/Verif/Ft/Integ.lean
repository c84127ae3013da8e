/-
What integration means: a linear functional per dimension, applied coordinate by coordinate. Independent of the
algorithms.
-/
import Verif.Ft.AlgLemmas

set_option linter.unusedSectionVars false

namespace C3.Ft
open Finset
variable {K U X : Type} [Field K]

/-- A univariate integral per dimension: the integrable functions and the integral. -/
structure Integ (K X : Type) where
  V : Nat → (X → K) → Prop
  J : Nat → (X → K) → K

/-- The integral is linear and depends only on the values on the domain `D`. -/
structure IntLaw (D : Nat → X → Prop) (I : Integ K X) : Prop where
  zero : ∀ k, I.V k (fun _ => 0)
  add : ∀ k g h, I.V k g → I.V k h → I.V k (fun x => g x + h x) ∧ I.J k (fun x => g x + h x) = I.J k g + I.J k h
  smul : ∀ k a g, I.V k g → I.V k (fun x => a * g x) ∧ I.J k (fun x => a * g x) = a * I.J k g
  congr : ∀ k g h, (∀ x, D k x → g x = h x) → I.V k g → I.V k h ∧ I.J k g = I.J k h

/-- Iterated integral over dimensions `k, ..., k+n-1` of a function of a list of `n` coordinates. -/
def iint (I : Integ K X) : Nat → Nat → (List X → K) → K
  | _, 0, g => g []
  | k, n + 1, g => I.J k (fun x => iint I (k + 1) n (fun xs => g (x :: xs)))

/-- The iterated integral exists. -/
def IV (D : Nat → X → Prop) (I : Integ K X) : Nat → Nat → (List X → K) → Prop
  | _, 0, _ => True
  | k, n + 1, g => (∀ x, D k x → IV D I (k + 1) n (fun xs => g (x :: xs))) ∧
      I.V k (fun x => iint I (k + 1) n (fun xs => g (x :: xs)))

variable {D : Nat → X → Prop} {I : Integ K X}

theorem iint_congr (hI : IntLaw D I) : ∀ {n k : Nat} {g h : List X → K},
    (∀ xs, xs.length = n → (∀ i x, xs[i]? = some x → D (k + i) x) → g xs = h xs) → IV D I k n g →
    IV D I k n h ∧ iint I k n g = iint I k n h
  | 0, k, g, h, e, _ => ⟨trivial, e [] rfl (by simp)⟩
  | n + 1, k, g, h, e, hv => by
    have ih : ∀ x, D k x → IV D I (k + 1) n (fun xs => h (x :: xs)) ∧
        iint I (k + 1) n (fun xs => g (x :: xs)) = iint I (k + 1) n (fun xs => h (x :: xs)) := fun x hx =>
      iint_congr hI (fun xs hl hd => e (x :: xs) (by simp [hl]) (by
        rintro (_ | i) y hy
        · simp at hy; subst hy; exact hx
        · have := hd i y (by simpa using hy); rwa [show k + 1 + i = k + (i + 1) by omega] at this)) (hv.1 x hx)
    obtain ⟨c1, c2⟩ := hI.congr k _ (fun x => iint I (k + 1) n (fun xs => h (x :: xs))) (fun x hx => (ih x hx).2) hv.2
    exact ⟨⟨fun x hx => (ih x hx).1, c1⟩, c2⟩

theorem iint_zero (hI : IntLaw D I) : ∀ {n k : Nat}, IV D I k n (fun _ => 0) ∧ iint I k n (fun _ => 0) = 0
  | 0, _ => ⟨trivial, rfl⟩
  | n + 1, k => by
    obtain ⟨h1, h2⟩ := iint_zero (n := n) (k := k + 1) hI
    have h3 := hI.smul k 0 _ (hI.zero k)
    simp only [zero_mul, mul_zero] at h3
    refine ⟨⟨fun _ _ => h1, ?_⟩, ?_⟩
    · simp only [h2]; exact hI.zero k
    · simp only [iint, h2]; exact h3.2

theorem iint_add (hI : IntLaw D I) : ∀ {n k : Nat} {g h : List X → K}, IV D I k n g → IV D I k n h →
    IV D I k n (fun xs => g xs + h xs) ∧ iint I k n (fun xs => g xs + h xs) = iint I k n g + iint I k n h
  | 0, _, _, _, _, _ => ⟨trivial, rfl⟩
  | n + 1, k, g, h, hg, hh => by
    have ih := fun x hx => iint_add (n := n) (k := k + 1) hI (hg.1 x hx) (hh.1 x hx)
    obtain ⟨a1, a2⟩ := hI.add k _ _ hg.2 hh.2
    obtain ⟨c1, c2⟩ := hI.congr k _ (fun x => iint I (k + 1) n (fun xs => g (x :: xs) + h (x :: xs)))
      (fun x hx => (ih x hx).2.symm) a1
    exact ⟨⟨fun x hx => (ih x hx).1, c1⟩, c2.symm.trans a2⟩

theorem iint_smul (hI : IntLaw D I) (a : K) : ∀ {n k : Nat} {g : List X → K}, IV D I k n g →
    IV D I k n (fun xs => a * g xs) ∧ iint I k n (fun xs => a * g xs) = a * iint I k n g
  | 0, _, _, _ => ⟨trivial, rfl⟩
  | n + 1, k, g, hg => by
    have ih := fun x hx => iint_smul hI a (n := n) (k := k + 1) (hg.1 x hx)
    obtain ⟨a1, a2⟩ := hI.smul k a _ hg.2
    obtain ⟨c1, c2⟩ := hI.congr k _ (fun x => iint I (k + 1) n (fun xs => a * g (x :: xs)))
      (fun x hx => (ih x hx).2.symm) a1
    exact ⟨⟨fun x hx => (ih x hx).1, c1⟩, c2.symm.trans a2⟩

/-- Finite linear combinations. -/
theorem iint_sum (hI : IntLaw D I) {n k : Nat} (m : Nat) {w : Nat → K} {g : Nat → List X → K}
    (hg : ∀ c < m, IV D I k n (g c)) :
    IV D I k n (fun xs => ∑ c ∈ range m, w c * g c xs) ∧
      iint I k n (fun xs => ∑ c ∈ range m, w c * g c xs) = ∑ c ∈ range m, w c * iint I k n (g c) := by
  induction m with
  | zero => simpa using iint_zero hI
  | succ m ih =>
    obtain ⟨i1, i2⟩ := ih (fun c hc => hg c (by omega))
    obtain ⟨s1, s2⟩ := iint_smul hI (w m) (hg m (by omega))
    obtain ⟨a1, a2⟩ := iint_add hI i1 s1
    simp only [sum_range_succ]
    exact ⟨a1, by rw [a2, i2, s2]⟩

theorem J_sum (hI : IntLaw D I) {k : Nat} (m : Nat) {w : Nat → K} {g : Nat → X → K} (hg : ∀ c < m, I.V k (g c)) :
    I.V k (fun x => ∑ c ∈ range m, w c * g c x) ∧
      I.J k (fun x => ∑ c ∈ range m, w c * g c x) = ∑ c ∈ range m, w c * I.J k (g c) := by
  induction m with
  | zero =>
    have h3 := hI.smul k 0 _ (hI.zero k)
    simp only [zero_mul, mul_zero] at h3
    simpa using h3
  | succ m ih =>
    obtain ⟨i1, i2⟩ := ih (fun c hc => hg c (by omega))
    obtain ⟨s1, s2⟩ := hI.smul k (w m) _ (hg m (by omega))
    obtain ⟨a1, a2⟩ := hI.add k _ _ i1 s1
    simp only [sum_range_succ]
    exact ⟨a1, by rw [a2, i2, s2]⟩

/-- Functions of the family are integrable. -/
def MemLaw (e : Ev K U X) (F : Fam U X) (I : Integ K X) : Prop := ∀ k f, F.P k f → I.V k (fun x => e.ev f x)

/-- Products of two functions of the family are integrable. -/
def MemLaw2 (e : Ev K U X) (F : Fam U X) (I : Integ K X) : Prop :=
  ∀ k f g, F.P k f → F.P k g → I.V k (fun x => e.ev f x * e.ev g x)

/-- Core entries are integrable. -/
theorem val_mem {e : Ev K U X} {F : Fam U X} (hm : MemLaw e F I) {k : Nat} {Q : Qma U} (hQ : Q.WF)
    (hP : ∀ f ∈ Q.funcs, F.P k f) {i j : Nat} (hi : i < Q.nrows) (hj : j < Q.ncols) :
    I.V k (fun x => Q.val e x i j) := by
  obtain ⟨f, -, h2, h3⟩ := hQ.get (e := e) hi hj
  have := hm k f (hP f h2)
  simpa only [h3] using this

/-- Integrated chain: `Σ ∏ ∫ entries`. -/
def ichain (e : Ev K U X) (I : Integ K X) : Nat → List (Qma U) → Nat → K
  | _, [], r => if r = 0 then 1 else 0
  | k, Q :: Qs, r => ∑ c ∈ range Q.ncols, I.J k (fun x => Q.val e x r c) * ichain e I (k + 1) Qs c

/-- The iterated integral of a chain of cores is the integrated chain. -/
theorem iint_chain {e : Ev K U X} {F : Fam U X} (hI : IntLaw D I) (hm : MemLaw e F I) {cores : List (Qma U)} :
    ∀ {k r s i : Nat}, Fits r cores s → (∀ (j : Nat) Q, cores[j]? = some Q → ∀ f ∈ Q.funcs, F.P (k + j) f) → i < r →
    IV D I k cores.length (fun xs => chain (mats e cores xs) i) ∧
      iint I k cores.length (fun xs => chain (mats e cores xs) i) = ichain e I k cores i := by
  induction cores with
  | nil => intro k r s i _ _ _; exact ⟨trivial, rfl⟩
  | cons Q Qs ih =>
    intro k r s i hf hP hi
    cases hf with
    | cons _ _ hQ hf =>
    have hP0 : ∀ f ∈ Q.funcs, F.P k f := hP 0 Q rfl
    have ih' := fun c hc => ih (k := k + 1) (i := c) hf (fun j Q' hQ' => by
      have := hP (j + 1) Q' (by simpa using hQ'); rwa [show k + (j + 1) = k + 1 + j by omega] at this) hc
    have inner : ∀ x, IV D I (k + 1) Qs.length (fun xs => chain (mats e (Q :: Qs) (x :: xs)) i) ∧
        iint I (k + 1) Qs.length (fun xs => chain (mats e (Q :: Qs) (x :: xs)) i)
          = ∑ c ∈ range Q.ncols, Q.val e x i c * ichain e I (k + 1) Qs c := by
      intro x
      obtain ⟨s1, s2⟩ := iint_sum hI (k := k + 1) (n := Qs.length) Q.ncols (w := fun c => Q.val e x i c)
        (g := fun c xs => chain (mats e Qs xs) c) (fun c hc => (ih' c hc).1)
      refine ⟨s1, s2.trans (sum_congr rfl fun c hc => ?_)⟩
      rw [(ih' c (mem_range.1 hc)).2]
    obtain ⟨j1, j2⟩ := J_sum hI (k := k) Q.ncols (w := fun c => ichain e I (k + 1) Qs c)
      (g := fun c x => Q.val e x i c) (fun c hc => val_mem hm hQ hP0 hi hc)
    have hcomm : ∀ x, ∑ c ∈ range Q.ncols, ichain e I (k + 1) Qs c * Q.val e x i c
        = iint I (k + 1) Qs.length (fun xs => chain (mats e (Q :: Qs) (x :: xs)) i) := by
      intro x
      rw [(inner x).2]
      exact sum_congr rfl fun c _ => mul_comm _ _
    simp only [hcomm] at j1 j2
    refine ⟨⟨fun x _ => (inner x).1, j1⟩, ?_⟩
    show I.J k _ = _
    rw [j2, ichain]
    exact sum_congr rfl fun c _ => mul_comm _ _

/-- Integrated chain of products of two trains. -/
def ichain2 (e : Ev K U X) (I : Integ K X) : Nat → List (Qma U) → List (Qma U) → Nat → Nat → K
  | k, A :: As, B :: Bs, i, j => ∑ c ∈ range A.ncols, ∑ d ∈ range B.ncols,
      I.J k (fun x => A.val e x i c * B.val e x j d) * ichain2 e I (k + 1) As Bs c d
  | _, _, _, i, j => (if i = 0 then 1 else 0) * (if j = 0 then 1 else 0)

theorem val_mem2 {e : Ev K U X} {F : Fam U X} (hm : MemLaw2 e F I) {k : Nat} {A B : Qma U} (hA : A.WF)
    (hPA : ∀ f ∈ A.funcs, F.P k f) (hB : B.WF) (hPB : ∀ f ∈ B.funcs, F.P k f) {i j i' j' : Nat} (hi : i < A.nrows)
    (hj : j < A.ncols) (hi' : i' < B.nrows) (hj' : j' < B.ncols) :
    I.V k (fun x => A.val e x i j * B.val e x i' j') := by
  obtain ⟨f, -, h2, h3⟩ := hA.get (e := e) hi hj
  obtain ⟨g, -, h2', h3'⟩ := hB.get (e := e) hi' hj'
  have := hm k f g (hPA f h2) (hPB g h2')
  simpa only [h3, h3'] using this

theorem iint_sum2 (hI : IntLaw D I) {n k : Nat} (m m' : Nat) {w : Nat → Nat → K} {g : Nat → Nat → List X → K}
    (hg : ∀ c < m, ∀ d < m', IV D I k n (g c d)) :
    IV D I k n (fun xs => ∑ c ∈ range m, ∑ d ∈ range m', w c d * g c d xs) ∧
      iint I k n (fun xs => ∑ c ∈ range m, ∑ d ∈ range m', w c d * g c d xs)
        = ∑ c ∈ range m, ∑ d ∈ range m', w c d * iint I k n (g c d) := by
  have h1 := fun c hc => iint_sum hI (k := k) (n := n) m' (w := w c) (g := g c) (hg c hc)
  obtain ⟨s1, s2⟩ := iint_sum hI (k := k) (n := n) m (w := fun _ => 1)
    (g := fun c xs => ∑ d ∈ range m', w c d * g c d xs) (fun c hc => (h1 c hc).1)
  simp only [one_mul] at s1 s2
  refine ⟨s1, s2.trans (sum_congr rfl fun c hc => (h1 c (mem_range.1 hc)).2)⟩

theorem J_sum2 (hI : IntLaw D I) {k : Nat} (m m' : Nat) {w : Nat → Nat → K} {g : Nat → Nat → X → K}
    (hg : ∀ c < m, ∀ d < m', I.V k (g c d)) :
    I.V k (fun x => ∑ c ∈ range m, ∑ d ∈ range m', w c d * g c d x) ∧
      I.J k (fun x => ∑ c ∈ range m, ∑ d ∈ range m', w c d * g c d x)
        = ∑ c ∈ range m, ∑ d ∈ range m', w c d * I.J k (g c d) := by
  have h1 := fun c hc => J_sum hI (k := k) m' (w := w c) (g := g c) (hg c hc)
  obtain ⟨s1, s2⟩ := J_sum hI (k := k) m (w := fun _ => 1)
    (g := fun c x => ∑ d ∈ range m', w c d * g c d x) (fun c hc => (h1 c hc).1)
  simp only [one_mul] at s1 s2
  refine ⟨s1, s2.trans (sum_congr rfl fun c hc => (h1 c (mem_range.1 hc)).2)⟩

/-- The iterated integral of the product of two chains. -/
theorem iint_chain2 {e : Ev K U X} {F : Fam U X} (hI : IntLaw D I) (hm : MemLaw2 e F I) {As : List (Qma U)} :
    ∀ {Bs : List (Qma U)} {k r s r' s' i i' : Nat}, As.length = Bs.length → Fits r As s → Fits r' Bs s' →
    (∀ (j : Nat) Q, As[j]? = some Q → ∀ f ∈ Q.funcs, F.P (k + j) f) →
    (∀ (j : Nat) Q, Bs[j]? = some Q → ∀ f ∈ Q.funcs, F.P (k + j) f) → i < r → i' < r' →
    IV D I k As.length (fun xs => chain (mats e As xs) i * chain (mats e Bs xs) i') ∧
      iint I k As.length (fun xs => chain (mats e As xs) i * chain (mats e Bs xs) i') = ichain2 e I k As Bs i i' := by
  induction As with
  | nil =>
    intro Bs k r s r' s' i i' hlen _ _ _ _ _ _
    have : Bs = [] := List.length_eq_zero_iff.1 (by simpa using hlen.symm)
    subst this
    exact ⟨trivial, rfl⟩
  | cons A As ih =>
    intro Bs k r s r' s' i i' hlen hf hf' hP hP' hi hi'
    obtain ⟨B, Bs, rfl⟩ : ∃ B Bs', Bs = B :: Bs' := by
      cases Bs with
      | nil => simp at hlen
      | cons B Bs => exact ⟨_, _, rfl⟩
    cases hf with
    | cons _ _ hA hf =>
    cases hf' with
    | cons _ _ hB hf' =>
    have hPA : ∀ f ∈ A.funcs, F.P k f := hP 0 A rfl
    have hPB : ∀ f ∈ B.funcs, F.P k f := hP' 0 B rfl
    have ih' := fun c hc d hd => ih (Bs := Bs) (k := k + 1) (i := c) (i' := d) (by simpa using hlen) hf hf'
      (fun j Q' hQ' => by
        have := hP (j + 1) Q' (by simpa using hQ'); rwa [show k + (j + 1) = k + 1 + j by omega] at this)
      (fun j Q' hQ' => by
        have := hP' (j + 1) Q' (by simpa using hQ'); rwa [show k + (j + 1) = k + 1 + j by omega] at this) hc hd
    have inner : ∀ x, IV D I (k + 1) As.length
          (fun xs => chain (mats e (A :: As) (x :: xs)) i * chain (mats e (B :: Bs) (x :: xs)) i') ∧
        iint I (k + 1) As.length (fun xs => chain (mats e (A :: As) (x :: xs)) i * chain (mats e (B :: Bs) (x :: xs)) i')
          = ∑ c ∈ range A.ncols, ∑ d ∈ range B.ncols,
              (A.val e x i c * B.val e x i' d) * ichain2 e I (k + 1) As Bs c d := by
      intro x
      obtain ⟨s1, s2⟩ := iint_sum2 hI (k := k + 1) (n := As.length) A.ncols B.ncols
        (w := fun c d => A.val e x i c * B.val e x i' d)
        (g := fun c d xs => chain (mats e As xs) c * chain (mats e Bs xs) d) (fun c hc d hd => (ih' c hc d hd).1)
      have hEq : ∀ xs, chain (mats e (A :: As) (x :: xs)) i * chain (mats e (B :: Bs) (x :: xs)) i'
          = ∑ c ∈ range A.ncols, ∑ d ∈ range B.ncols,
            (A.val e x i c * B.val e x i' d) * (chain (mats e As xs) c * chain (mats e Bs xs) d) := by
        intro xs
        show (∑ c ∈ range A.ncols, A.val e x i c * chain (mats e As xs) c)
          * (∑ d ∈ range B.ncols, B.val e x i' d * chain (mats e Bs xs) d) = _
        rw [sum_mul_sum]
        exact sum_congr rfl fun c _ => sum_congr rfl fun d _ => by rw [mul_mul_mul_comm]
      simp only [hEq]
      refine ⟨s1, s2.trans (sum_congr rfl fun c hc => sum_congr rfl fun d hd => ?_)⟩
      rw [(ih' c (mem_range.1 hc) d (mem_range.1 hd)).2]
    obtain ⟨j1, j2⟩ := J_sum2 hI (k := k) A.ncols B.ncols (w := fun c d => ichain2 e I (k + 1) As Bs c d)
      (g := fun c d x => A.val e x i c * B.val e x i' d)
      (fun c hc d hd => val_mem2 hm hA hPA hB hPB hi hc hi' hd)
    have hcomm : ∀ x, ∑ c ∈ range A.ncols, ∑ d ∈ range B.ncols,
          ichain2 e I (k + 1) As Bs c d * (A.val e x i c * B.val e x i' d)
        = iint I (k + 1) As.length
            (fun xs => chain (mats e (A :: As) (x :: xs)) i * chain (mats e (B :: Bs) (x :: xs)) i') := by
      intro x
      rw [(inner x).2]
      exact sum_congr rfl fun c _ => sum_congr rfl fun d _ => mul_comm _ _
    simp only [hcomm] at j1 j2
    refine ⟨⟨fun x _ => (inner x).1, j1⟩, ?_⟩
    show I.J k _ = _
    rw [j2, ichain2]
    exact sum_congr rfl fun c _ => sum_congr rfl fun d _ => mul_comm _ _

end C3.Ft
