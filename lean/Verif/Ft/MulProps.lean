/-
C27, C28: products of arrays of functions with matrices and with each other. `Rep e F k n m M Q` says that `Q` is an `n × m`
array of functions of dimension `k` whose entry `(i,j)` at `x` is `M x i j`. A matrix in column-major storage has entry
`(i,j)` at `R.getD (j * n + i) 0`.
-/
import Verif.Ft.MulLemmas
import Verif.Ft.AlgProps

set_option linter.unusedSectionVars false

namespace C3.Ft
open Finset
variable {K U X : Type} [Field K]

/-- Entry `(i,j)` of a column-major matrix with `n` rows. -/
def ent (n : Nat) (R : List K) (i j : Nat) : K := R.getD (j * n + i) 0

/-- C28: `Q R`. -/
theorem qmam_value {e : Ev K U X} {o : LOps K U} {F : Fam U X} (hL : LinLaw e o F) {k : Nat} {Q : Qma U} (hQ : QOk F k Q)
    {R : List K} {b : Nat} (hc : 0 < Q.ncols) (hR : Q.ncols * b ≤ R.length) :
    ∃ B, qmam o Q R b = .ok B ∧
      Rep e F k Q.nrows b (fun x i j => ∑ t ∈ range Q.ncols, Q.val e x i t * ent Q.ncols R t j) B := by
  refine fill_rows fun i hi j hj => ?_
  obtain ⟨h, h1, h2, h3⟩ := lc2_ok (e := e) hL (k := k) hc (ldgf := Q.nrows) (goff := i) (ldc := 1) (coff := j * Q.ncols)
    (gfa := Q.funcs) (c := R) (v := fun t x => Q.val e x i t) (w := fun t => ent Q.ncols R t j)
    (fun t ht => hQ.get hi ht (Nat.add_comm _ _))
    (fun t ht => rd_mat hR ht hj (by rw [Nat.mul_one]))
  exact ⟨h, h1, h2, fun x hx => by rw [h3 x hx]; exact sum_congr rfl fun t _ => mul_comm _ _⟩

/-- C28: `Qᵀ R`. -/
theorem qmatm_value {e : Ev K U X} {o : LOps K U} {F : Fam U X} (hL : LinLaw e o F) {k : Nat} {Q : Qma U} (hQ : QOk F k Q)
    {R : List K} {b : Nat} (hc : 0 < Q.nrows) (hR : Q.nrows * b ≤ R.length) :
    ∃ B, qmatm o Q R b = .ok B ∧
      Rep e F k Q.ncols b (fun x i j => ∑ t ∈ range Q.nrows, Q.val e x t i * ent Q.nrows R t j) B := by
  refine fill_rows fun i hi j hj => ?_
  obtain ⟨h, h1, h2, h3⟩ := lc2_ok (e := e) hL (k := k) hc (ldgf := 1) (goff := i * Q.nrows) (ldc := 1)
    (coff := j * Q.nrows) (gfa := Q.funcs) (c := R) (v := fun t x => Q.val e x t i) (w := fun t => ent Q.nrows R t j)
    (fun t ht => hQ.get ht hi (by rw [Nat.mul_one]))
    (fun t ht => rd_mat hR ht hj (by rw [Nat.mul_one]))
  exact ⟨h, h1, h2, fun x hx => by rw [h3 x hx]; exact sum_congr rfl fun t _ => mul_comm _ _⟩

/-- C28: `R Q`. -/
theorem mqma_value {e : Ev K U X} {o : LOps K U} {F : Fam U X} (hL : LinLaw e o F) {k : Nat} {Q : Qma U} (hQ : QOk F k Q)
    {R : List K} {b : Nat} (hc : 0 < Q.nrows) (hR : b * Q.nrows ≤ R.length) :
    ∃ B, mqma o R Q b = .ok B ∧
      Rep e F k b Q.ncols (fun x i j => ∑ t ∈ range Q.nrows, ent b R i t * Q.val e x t j) B := by
  refine fill_cols fun j hj i hi => ?_
  exact lc2_ok (e := e) hL (k := k) hc (ldgf := 1) (goff := j * Q.nrows) (ldc := b)
    (coff := i) (gfa := Q.funcs) (c := R) (v := fun t x => Q.val e x t j) (w := fun t => ent b R i t)
    (fun t ht => hQ.get ht hj (by rw [Nat.mul_one]))
    (fun t ht => rd_mat hR hi ht (Nat.add_comm _ _))

/-- C28: `A B`. -/
theorem qmaqma_value {e : Ev K U X} {o : LOps K U} {F : Fam U X} (hL : LinLaw e o F) (hS : SpLaw e o F) {k : Nat}
    {a b : Qma U} (ha : QOk F k a) (hb : QOk F k b) (hc : 0 < a.ncols) (hab : a.ncols = b.nrows) :
    ∃ B, qmaqma o a b = .ok B ∧
      Rep e F k a.nrows b.ncols (fun x i j => ∑ t ∈ range a.ncols, a.val e x i t * b.val e x t j) B := by
  refine fill_cols fun j hj i hi => ?_
  exact sumProd_ok (e := e) hL hS (k := k) hc (v := fun t x => a.val e x i t) (w := fun t x => b.val e x t j)
    (fun t ht => ha.get hi ht (Nat.add_comm _ _))
    (fun t ht => hb.get (by omega) hj (by rw [Nat.mul_one]))

/-- C28: `Aᵀ B`. -/
theorem qmatqma_value {e : Ev K U X} {o : LOps K U} {F : Fam U X} (hL : LinLaw e o F) (hS : SpLaw e o F) {k : Nat}
    {a b : Qma U} (ha : QOk F k a) (hb : QOk F k b) (hc : 0 < a.nrows) (hab : a.nrows = b.nrows) :
    ∃ B, qmatqma o a b = .ok B ∧
      Rep e F k a.ncols b.ncols (fun x i j => ∑ t ∈ range a.nrows, a.val e x t i * b.val e x t j) B := by
  refine fill_cols fun j hj i hi => ?_
  rw [← hab]
  exact sumProd_ok (e := e) hL hS (k := k) hc (v := fun t x => a.val e x t i) (w := fun t x => b.val e x t j)
    (fun t ht => ha.get ht hi (by rw [Nat.mul_one]))
    (fun t ht => hb.get (by omega) hj (by rw [Nat.mul_one, hab]))

/-- C28: `A Bᵀ`. -/
theorem qmaqmat_value {e : Ev K U X} {o : LOps K U} {F : Fam U X} (hL : LinLaw e o F) (hS : SpLaw e o F) {k : Nat}
    {a b : Qma U} (ha : QOk F k a) (hb : QOk F k b) (hc : 0 < a.ncols) (hab : a.ncols = b.ncols) :
    ∃ B, qmaqmat o a b = .ok B ∧
      Rep e F k a.nrows b.nrows (fun x i j => ∑ t ∈ range a.ncols, a.val e x i t * b.val e x j t) B := by
  refine fill_cols fun j hj i hi => ?_
  exact sumProd_ok (e := e) hL hS (k := k) hc (v := fun t x => a.val e x i t) (w := fun t x => b.val e x j t)
    (fun t ht => ha.get hi ht (Nat.add_comm _ _))
    (fun t ht => hb.get hj (by omega) (Nat.add_comm _ _))

/-- C28, `Aᵀ Bᵀ`: correct when the first factor has a single column. Missing: every other shape, see below. -/
theorem qmatqmat_value_partial {e : Ev K U X} {o : LOps K U} {F : Fam U X} (hL : LinLaw e o F) (hS : SpLaw e o F) {k : Nat}
    {a b : Qma U} (ha : QOk F k a) (hb : QOk F k b) (hc : 0 < a.nrows) (hab : a.nrows = b.ncols) (h1 : a.ncols = 1) :
    ∃ B, qmatqmat o a b = .ok B ∧
      Rep e F k a.ncols b.nrows (fun x i j => ∑ t ∈ range a.nrows, a.val e x t i * b.val e x j t) B := by
  have := fill_cols (e := e) (F := F) (k := k) (n := a.ncols) (m := b.nrows)
    (M := fun x i j => ∑ t ∈ range a.nrows, a.val e x t i * b.val e x j t)
    (g := fun jj ii => sumProd o b.ncols 1 a.funcs (ii * a.nrows) b.nrows b.funcs jj) (fun j hj i hi => by
      rw [← hab]
      exact sumProd_ok (e := e) hL hS (k := k) hc (v := fun t x => a.val e x t i) (w := fun t x => b.val e x j t)
        (fun t ht => ha.get ht hi (by rw [Nat.mul_one]))
        (fun t ht => hb.get hj (by omega) (Nat.add_comm _ _)))
  obtain ⟨B, hB, hR⟩ := this
  refine ⟨B, ?_, hR⟩
  rw [← hB, qmatqmat]
  simp only [h1, Nat.mul_one]
  have : ∀ jj, (fun (ii : Nat) (c : List (Option U)) => (do
      let f ← sumProd o b.ncols 1 a.funcs (ii * a.nrows) b.nrows b.funcs jj
      wr c (ii + jj) (some f) : C (List (Option U))))
    = fun ii c => (do
      let f ← sumProd o b.ncols 1 a.funcs (ii * a.nrows) b.nrows b.funcs jj
      wr c (jj + ii) (some f)) := by
    intro jj; funext ii c; rw [Nat.add_comm]
  simp only [this]

/-- C28, `Aᵀ Bᵀ`, square case: the result is the transpose of the documented product, i.e. `B A`. -/
theorem qmatqmat_square_actual {e : Ev K U X} {o : LOps K U} {F : Fam U X} (hL : LinLaw e o F) (hS : SpLaw e o F) {k : Nat}
    {a b : Qma U} (ha : QOk F k a) (hb : QOk F k b) (hc : 0 < a.nrows) (hab : a.nrows = b.ncols) (h1 : a.ncols = b.nrows) :
    ∃ B, qmatqmat o a b = .ok B ∧
      Rep e F k b.nrows a.ncols (fun x i j => ∑ t ∈ range a.nrows, b.val e x i t * a.val e x t j) B := by
  obtain ⟨B, hB, hR⟩ := fill_rows (e := e) (F := F) (k := k) (n := b.nrows) (m := a.ncols)
    (M := fun x i j => ∑ t ∈ range a.nrows, b.val e x i t * a.val e x t j)
    (g := fun jj ii => sumProd o b.ncols 1 a.funcs (ii * a.nrows) b.nrows b.funcs jj) (fun j hj i hi => by
      rw [← hab]
      obtain ⟨h, h1, h2, h3⟩ := sumProd_ok (e := e) hL hS (k := k) hc (v := fun t x => a.val e x t i)
        (w := fun t x => b.val e x j t) (lda := 1) (aoff := i * a.nrows) (ldb := b.nrows) (boff := j) (a := a.funcs)
        (b := b.funcs)
        (fun t ht => ha.get ht hi (by rw [Nat.mul_one]))
        (fun t ht => hb.get hj (by omega) (Nat.add_comm _ _))
      exact ⟨h, h1, h2, fun x hx => by rw [h3 x hx]; exact sum_congr rfl fun t _ => mul_comm _ _⟩)
  refine ⟨B, ?_, hR⟩
  rw [← hB, qmatqmat]
  simp only [h1]

/-! ### Integrated products: the arrays of integrals -/

section integrated
variable {e : Ev K U X} {F : Fam U X} {I : Integ K X} {inner : U → U → C K}

theorem QOk.inner_get (hI : InnerLaw e F I inner) {k : Nat} {a b : Qma U} (ha : QOk F k a) (hb : QOk F k b)
    {i j i' j' p q : Nat} (hi : i < a.nrows) (hj : j < a.ncols) (hi' : i' < b.nrows) (hj' : j' < b.ncols)
    (hp : p = j * a.nrows + i) (hq : q = j' * b.nrows + i') :
    ∃ f g, rd a.funcs p = .ok f ∧ rd b.funcs q = .ok g ∧
      inner f g = .ok (I.J k (fun x => a.val e x i j * b.val e x i' j')) := by
  subst hp hq
  obtain ⟨f, h1, h2, h3⟩ := ha.wf.get (e := e) hi hj
  obtain ⟨g, g1, g2, g3⟩ := hb.wf.get (e := e) hi' hj'
  refine ⟨f, g, h1, g1, ?_⟩
  rw [hI k f g (ha.mem f h2) (hb.mem g g2)]
  simp only [h3, g3]

/-- C28: `∫ Aᵀ B`, entry by entry. -/
theorem qmatqmaInt_value (hI : InnerLaw e F I inner) {k : Nat} {a b : Qma U} (ha : QOk F k a) (hb : QOk F k b)
    (hab : a.nrows = b.nrows) :
    qmatqmaInt inner a b = .ok (cm a.ncols b.ncols fun i j =>
      ∑ t ∈ range a.nrows, I.J k (fun x => a.val e x t i * b.val e x t j)) := by
  rw [qmatqmaInt, forN_fill_cm _ (by simp)]
  intro j hj i hi c _
  rw [innerSum_ok (v := fun t => I.J k (fun x => a.val e x t i * b.val e x t j)), bind_ok, hab]
  intro t ht
  exact ha.inner_get hI hb (by omega) hi ht hj (by rw [Nat.mul_one]) (by rw [Nat.mul_one])

/-- C28: `∫ A B`. -/
theorem qmaqmaInt_value (hI : InnerLaw e F I inner) {k : Nat} {a b : Qma U} (ha : QOk F k a) (hb : QOk F k b)
    (hab : a.ncols = b.nrows) :
    qmaqmaInt inner a b = .ok (cm a.nrows b.ncols fun i j =>
      ∑ t ∈ range a.ncols, I.J k (fun x => a.val e x i t * b.val e x t j)) := by
  rw [qmaqmaInt, forN_fill_cm _ (by simp)]
  intro j hj i hi c _
  rw [innerSum_ok (v := fun t => I.J k (fun x => a.val e x i t * b.val e x t j)), bind_ok]
  intro t ht
  exact ha.inner_get hI hb hi ht (by omega) hj (Nat.add_comm _ _) (by rw [Nat.mul_one])

/-- C28: `∫ A Bᵀ`. -/
theorem qmaqmatInt_value (hI : InnerLaw e F I inner) {k : Nat} {a b : Qma U} (ha : QOk F k a) (hb : QOk F k b)
    (hab : a.ncols = b.ncols) :
    qmaqmatInt inner a b = .ok (cm a.nrows b.nrows fun i j =>
      ∑ t ∈ range a.ncols, I.J k (fun x => a.val e x i t * b.val e x j t)) := by
  rw [qmaqmatInt, forN_fill_cm _ (by simp)]
  intro j hj i hi c _
  rw [innerSum_ok (v := fun t => I.J k (fun x => a.val e x i t * b.val e x j t)), bind_ok]
  intro t ht
  exact ha.inner_get hI hb hi ht hj (by omega) (Nat.add_comm _ _) (Nat.add_comm _ _)

/-- C28, `∫ Aᵀ Bᵀ`: what the routine returns is the array of `∫ B A`, i.e. the transpose of the documented matrix. -/
theorem qmatqmatInt_actual (hI : InnerLaw e F I inner) {k : Nat} {a b : Qma U} (ha : QOk F k a) (hb : QOk F k b)
    (hab : a.nrows = b.ncols) :
    qmatqmatInt inner a b = .ok (cm b.nrows a.ncols fun i j =>
      ∑ t ∈ range a.nrows, I.J k (fun x => a.val e x t j * b.val e x i t)) := by
  rw [qmatqmatInt, forN_fill_cm' _ (by simp [Nat.mul_comm])]
  intro j hj i hi c _
  rw [innerSum_ok (v := fun t => I.J k (fun x => a.val e x t i * b.val e x j t)), bind_ok, hab]
  intro t ht
  exact ha.inner_get hI hb (by omega) hi hj ht (by rw [Nat.mul_one]) (Nat.add_comm _ _)

/-- C28: entrywise integrals. -/
theorem qmaInt_value {int : U → C K} (hq : QuadLaw e F I int) {k : Nat} {Q : Qma U} (hQ : QOk F k Q) :
    qmaInt int Q = .ok (cm Q.nrows Q.ncols fun i j => I.J k (fun x => Q.val e x i j)) := by
  rw [qmaInt, forN_fill_cm _ (by simp)]
  intro j hj i hi c _
  obtain ⟨f, h1, h2, h3⟩ := hQ.wf.get (e := e) hi hj
  rw [h1, bind_ok, hq k f (hQ.mem f h2), bind_ok]
  simp only [h3]

end integrated

/-- C27: `a (B ⊗ C)`: the result is the `r × (mb mc)` array whose entry `(i, jb*mc + jc)` is
`Σ_{s,t} a[i, s*nc + t] B[s,jb] C[t,jc]`. -/
theorem matKron_value {e : Ev K U X} {o : LOps K U} {F : Fam U X} (hL : LinLaw e o F) (hS : SpLaw e o F) {k r : Nat}
    {a : List K} {b c : Qma U} (hb : QOk F k b) (hc : QOk F k c) (hbn : 0 < b.nrows) (hcn : 0 < c.nrows)
    (ha : r * (b.nrows * c.nrows) ≤ a.length) :
    ∃ d, matKron o r a b c = .ok d ∧ Rep e F k r (b.ncols * c.ncols)
      (fun x i j => ∑ s ∈ range b.nrows, ∑ t ∈ range c.nrows,
        ent r a i (s * c.nrows + t) * (b.val e x s (j / c.ncols) * c.val e x t (j % c.ncols))) d := by
  -- first half: row `jj*r+ii`, column `kk`
  have f1 : Fills (EntryR e F k (r * b.nrows) (fun x i j => ∑ t ∈ range c.nrows,
        ent r a (i % r) (i / r * c.nrows + t) * c.val e x t j)) (r * b.nrows * c.ncols)
      (kronhL o r b.nrows c.nrows c.ncols a c.funcs)
      (fun p => ∃ kk < c.ncols, ∃ jj < b.nrows, ∃ ii < r, p = kk * (r * b.nrows) + (jj * r + ii)) := by
    refine Fills.forN fun kk hkk => Fills.forN fun jj hjj => Fills.forN fun ii hii => ?_
    have hrow : jj * r + ii < r * b.nrows := cm_idx_lt hii hjj
    obtain ⟨h, h1, h2, h3⟩ := lc2_ok (e := e) hL (k := k) hcn (ldgf := 1) (goff := c.nrows * kk) (ldc := r)
      (coff := ii + jj * c.nrows * r) (gfa := c.funcs) (c := a) (v := fun t x => c.val e x t kk)
      (w := fun t => ent r a ii (jj * c.nrows + t))
      (fun t ht => hc.get ht hkk (by rw [Nat.mul_one, Nat.mul_comm]))
      (fun t ht => rd_mat (n := r) (m := b.nrows * c.nrows) ha hii
        (by rw [Nat.mul_comm b.nrows]; exact cm_idx_lt ht hjj) (by ring))
    refine Fills.bind h1 ?_
    rw [show kk * r * b.nrows + jj * r + ii = kk * (r * b.nrows) + (jj * r + ii) by ring]
    refine Fills.wr (cm_idx_lt hrow hkk) (entryR_cm hrow h2 fun x hx => ?_)
    rw [h3 x hx, cm_mod hii, cm_div hii]
  obtain ⟨t0, l, h1, h2, h3, h4⟩ := f1.finish (fun p hp => by
    obtain ⟨a1, a2, a3⟩ := divmod_of_lt hp
    obtain ⟨b1, b2, b3⟩ := divmod_of_lt a1
    exact ⟨_, a2, _, b2, _, b1, by rw [b3, a3]⟩)
  have hT := rep_of_fill h3 h4
  have hTq := hT.qok
  have f2 : Fills (EntryR e F k r (fun x i j => ∑ s ∈ range b.nrows, ∑ t ∈ range c.nrows,
        ent r a i (s * c.nrows + t) * (b.val e x s (j / c.ncols) * c.val e x t (j % c.ncols)))) (r * (b.ncols * c.ncols))
      (kronh2L o r c.ncols b.nrows b.ncols b.funcs l)
      (fun p => ∃ jj < b.ncols, ∃ kk < c.ncols, ∃ ii < r, p = (jj * c.ncols + kk) * r + ii) := by
    refine Fills.forN fun jj hjj => Fills.forN fun kk hkk => Fills.forN fun ii hii => ?_
    have hcol : jj * c.ncols + kk < b.ncols * c.ncols := by rw [Nat.mul_comm b.ncols]; exact cm_idx_lt hkk hjj
    obtain ⟨h, h1, h2, h3⟩ := sumProd_ok (e := e) hL hS (k := k) hbn (lda := 1) (aoff := jj * b.nrows) (ldb := r)
      (boff := ii + kk * r * b.nrows) (a := b.funcs) (b := l) (v := fun s x => b.val e x s jj)
      (w := fun s x => ∑ t ∈ range c.nrows, ent r a ii (s * c.nrows + t) * c.val e x t kk)
      (fun s hs => hb.get hs hjj (by rw [Nat.mul_one]))
      (fun s hs => by
        obtain ⟨f, g1, g2, g3⟩ := hTq.get (e := e) (i := s * r + ii) (j := kk) (cm_idx_lt hii hs) hkk rfl
        refine ⟨f, ?_, g2, fun x hx => ?_⟩
        · rw [← g1]; congr 1; ring
        · rw [g3 x hx, hT.val x hx _ (cm_idx_lt hii hs) _ hkk, cm_mod hii, cm_div hii])
    refine Fills.bind h1 ?_
    rw [show ii + kk * r + jj * r * c.ncols = (jj * c.ncols + kk) * r + ii by ring]
    refine Fills.wr (cm_idx_lt hii hcol) (entryR_cm hii h2 fun x hx => ?_)
    rw [h3 x hx, cm_div hkk, cm_mod hkk]
    refine sum_congr rfl fun s _ => ?_
    rw [mul_sum]
    exact sum_congr rfl fun t _ => by ring
  obtain ⟨d, l', g1, g2, g3, g4⟩ := f2.finish (fun p hp => by
    obtain ⟨a1, a2, a3⟩ := divmod_of_lt hp
    obtain ⟨b1, b2, b3⟩ := divmod_of_lt (by rwa [Nat.mul_comm b.ncols] at a2 : _ < c.ncols * b.ncols)
    exact ⟨_, b2, _, b1, _, a1, by rw [b3, a3]⟩)
  refine ⟨_, ?_, rep_of_fill g3 g4⟩
  rw [matKron, h1, bind_ok, h2, bind_ok, g1, bind_ok, g2, bind_ok, pure_eq_ok]

/-- C27: `(B ⊗ C) a`: entry `(ib*nc + ic, j)` is `Σ_{s,t} B[ib,s] C[ic,t] a[s*mc + t, j]`. -/
theorem kronMat_value {e : Ev K U X} {o : LOps K U} {F : Fam U X} (hL : LinLaw e o F) (hS : SpLaw e o F) {k r : Nat}
    {a : List K} {b c : Qma U} (hb : QOk F k b) (hc : QOk F k c) (hbn : 0 < b.ncols) (hcn : 0 < c.ncols)
    (ha : b.ncols * c.ncols * r ≤ a.length) :
    ∃ d, kronMat o r a b c = .ok d ∧ Rep e F k (b.nrows * c.nrows) r
      (fun x i j => ∑ s ∈ range b.ncols, ∑ t ∈ range c.ncols,
        (b.val e x (i / c.nrows) s * c.val e x (i % c.nrows) t) * ent (b.ncols * c.ncols) a (s * c.ncols + t) j) d := by
  have f1 : Fills (EntryR e F k c.nrows (fun x i j => ∑ t ∈ range c.ncols,
        ent (b.ncols * c.ncols) a (j % b.ncols * c.ncols + t) (j / b.ncols) * c.val e x i t))
        (c.nrows * (b.ncols * r))
      (kronhR o r b.ncols c.nrows c.ncols a c.funcs)
      (fun p => ∃ ii < r, ∃ jj < c.nrows, ∃ kk < b.ncols, p = (ii * b.ncols + kk) * c.nrows + jj) := by
    refine Fills.forN fun ii hii => Fills.forN fun jj hjj => Fills.forN fun kk hkk => ?_
    have hcol : ii * b.ncols + kk < b.ncols * r := cm_idx_lt hkk hii
    obtain ⟨h, h1, h2, h3⟩ := lc2_ok (e := e) hL (k := k) hcn (ldgf := c.nrows) (goff := jj) (ldc := 1)
      (coff := kk * c.ncols + ii * c.ncols * b.ncols) (gfa := c.funcs) (c := a) (v := fun t x => c.val e x jj t)
      (w := fun t => ent (b.ncols * c.ncols) a (kk * c.ncols + t) ii)
      (fun t ht => hc.get hjj ht (Nat.add_comm _ _))
      (fun t ht => rd_mat (n := b.ncols * c.ncols) (m := r) ha
        (by rw [Nat.mul_comm b.ncols]; exact cm_idx_lt ht hkk) hii (by ring))
    refine Fills.bind h1 ?_
    rw [show jj + kk * c.nrows + ii * c.nrows * b.ncols = (ii * b.ncols + kk) * c.nrows + jj by ring]
    refine Fills.wr (cm_idx_lt hjj hcol) (entryR_cm hjj h2 fun x hx => ?_)
    rw [h3 x hx, cm_mod hkk, cm_div hkk]
  obtain ⟨t0, l, h1, h2, h3, h4⟩ := f1.finish (fun p hp => by
    obtain ⟨a1, a2, a3⟩ := divmod_of_lt hp
    obtain ⟨b1, b2, b3⟩ := divmod_of_lt a2
    exact ⟨_, b2, _, a1, _, b1, by rw [b3, a3]⟩)
  have hT := rep_of_fill h3 h4
  have hTq := hT.qok
  have f2 : Fills (EntryR e F k (b.nrows * c.nrows) (fun x i j => ∑ s ∈ range b.ncols, ∑ t ∈ range c.ncols,
        (b.val e x (i / c.nrows) s * c.val e x (i % c.nrows) t) * ent (b.ncols * c.ncols) a (s * c.ncols + t) j))
        (b.nrows * c.nrows * r)
      (kronh2R o r c.nrows b.nrows b.ncols b.funcs l)
      (fun p => ∃ ii < r, ∃ jj < b.nrows, ∃ kk < c.nrows, p = ii * (b.nrows * c.nrows) + (jj * c.nrows + kk)) := by
    refine Fills.forN fun ii hii => Fills.forN fun jj hjj => Fills.forN fun kk hkk => ?_
    have hrow : jj * c.nrows + kk < b.nrows * c.nrows := by rw [Nat.mul_comm b.nrows]; exact cm_idx_lt hkk hjj
    obtain ⟨h, h1, h2, h3⟩ := sumProd_ok (e := e) hL hS (k := k) hbn (lda := b.nrows) (aoff := jj) (ldb := c.nrows)
      (boff := kk + ii * b.ncols * c.nrows) (a := b.funcs) (b := l) (v := fun s x => b.val e x jj s)
      (w := fun s x => ∑ t ∈ range c.ncols, ent (b.ncols * c.ncols) a (s * c.ncols + t) ii * c.val e x kk t)
      (fun s hs => hb.get hjj hs (Nat.add_comm _ _))
      (fun s hs => by
        obtain ⟨f, g1, g2, g3⟩ := hTq.get (e := e) (i := kk) (j := ii * b.ncols + s) hkk (cm_idx_lt hs hii) rfl
        refine ⟨f, ?_, g2, fun x hx => ?_⟩
        · rw [← g1]; congr 1; ring
        · rw [g3 x hx, hT.val x hx _ hkk _ (cm_idx_lt hs hii), cm_mod hs, cm_div hs])
    refine Fills.bind h1 ?_
    rw [show kk + jj * c.nrows + ii * b.nrows * c.nrows = ii * (b.nrows * c.nrows) + (jj * c.nrows + kk) by ring]
    refine Fills.wr (cm_idx_lt hrow hii) (entryR_cm hrow h2 fun x hx => ?_)
    rw [h3 x hx, cm_div hkk, cm_mod hkk]
    refine sum_congr rfl fun s _ => ?_
    rw [mul_sum]
    exact sum_congr rfl fun t _ => by ring
  obtain ⟨d, l', g1, g2, g3, g4⟩ := f2.finish (fun p hp => by
    obtain ⟨a1, a2, a3⟩ := divmod_of_lt hp
    obtain ⟨b1, b2, b3⟩ := divmod_of_lt (by rwa [Nat.mul_comm b.nrows] at a1 : _ < c.nrows * b.nrows)
    exact ⟨_, a2, _, b2, _, b1, by rw [b3, Nat.mul_comm c.nrows b.nrows, a3]⟩)
  refine ⟨_, ?_, rep_of_fill g3 g4⟩
  rw [kronMat, h1, bind_ok, h2, bind_ok, g1, bind_ok, g2, bind_ok, pure_eq_ok]

/-! ### The hypotheses are satisfiable -/

/-- Plain functions; `p` chooses which of the two code paths is taken. -/
def fnLOps (p : Bool) : LOps ℚ (ℚ → ℚ) where
  toOps := fnOps
  daxpby := fun a f b g => .ok (fun x => a * f x + b * g x)
  poly := fun _ => p
  lcPoly := fun cs fs => .ok (fun x => (List.zipWith (fun c f => c * f x) cs fs).sum)
  spPoly := fun fs gs => .ok (fun x => (List.zipWith (fun f g => f x * g x) fs gs).sum)

theorem fn_lin (p : Bool) : LinLaw fnEv (fnLOps p) fnFam :=
  ⟨fn_scale, fun _ _ _ _ _ _ _ => ⟨_, rfl, trivial, fun _ _ => rfl⟩,
    fun _ _ _ _ _ _ => ⟨_, rfl, trivial, fun _ _ => rfl⟩⟩

theorem fn_sp (p : Bool) : SpLaw fnEv (fnLOps p) fnFam :=
  ⟨fn_prod, fun _ _ _ _ _ _ _ => ⟨_, rfl, trivial, fun _ _ => rfl⟩⟩

def fnQ : Qma (ℚ → ℚ) := ⟨2, 2, [fun x => x, fun _ => 1, fun _ => 2, fun x => x * x]⟩
theorem fnQ_ok : QOk fnFam 0 fnQ := ⟨rfl, fun _ _ => trivial⟩

example (p : Bool) : ∃ B, qmam (fnLOps p) fnQ [1, 10] 1 = .ok B ∧ B.val fnEv 3 0 0 = 23 ∧ B.val fnEv 3 1 0 = 91 := by
  obtain ⟨B, h1, h2⟩ := qmam_value (fn_lin p) fnQ_ok (R := [1, 10]) (b := 1) (by decide) (by decide)
  refine ⟨B, h1, ?_, ?_⟩
  · rw [h2.val 3 trivial 0 (by decide) 0 (by decide)]
    simp [fnQ, Qma.val, ent, fnEv, sum_range_succ]; norm_num
  · rw [h2.val 3 trivial 1 (by decide) 0 (by decide)]
    simp [fnQ, Qma.val, ent, fnEv, sum_range_succ]; norm_num

example (p : Bool) : ∃ B, qmatqma (fnLOps p) fnQ fnQ = .ok B ∧ B.val fnEv 3 0 1 = 15 := by
  obtain ⟨B, h1, h2⟩ := qmatqma_value (fn_lin p) (fn_sp p) fnQ_ok fnQ_ok (by decide) rfl
  refine ⟨B, h1, ?_⟩
  rw [h2.val 3 trivial 0 (by decide) 1 (by decide)]
  simp [fnQ, Qma.val, fnEv, sum_range_succ]; norm_num

example (p : Bool) : ∃ d, matKron (fnLOps p) 1 [1, 2, 3, 4] fnQ fnQ = .ok d ∧ d.nrows = 1 ∧ d.ncols = 4 := by
  obtain ⟨B, h1, h2⟩ := matKron_value (fn_lin p) (fn_sp p) (r := 1) (a := [1, 2, 3, 4]) fnQ_ok fnQ_ok (by decide)
    (by decide) (by decide)
  exact ⟨B, h1, h2.nrows, h2.ncols⟩

example (p : Bool) : ∃ d, kronMat (fnLOps p) 1 [1, 2, 3, 4] fnQ fnQ = .ok d ∧ d.nrows = 4 ∧ d.ncols = 1 := by
  obtain ⟨B, h1, h2⟩ := kronMat_value (fn_lin p) (fn_sp p) (r := 1) (a := [1, 2, 3, 4]) fnQ_ok fnQ_ok (by decide)
    (by decide) (by decide)
  exact ⟨B, h1, h2.nrows, h2.ncols⟩

/-- `qmatqmat`, `Aᵀ Bᵀ` for the 2 × 2 array `fnQ` and the constant array `[[0,1],[0,0]]`: entry `(0,0)` of `Aᵀ Bᵀ` at
`x = 3` is `A[0,0] B[0,0] + A[1,0] B[0,1] = 1`, the result holds it at `(0,0)`, but entry `(1,0)`, which should be
`A[0,1] B[0,0] + A[1,1] B[0,1] = 9`, is 0. -/
theorem qmatqmat_counterexample (p : Bool) :
    ∃ B, qmatqmat (fnLOps p) fnQ ⟨2, 2, [fun _ => 0, fun _ => 0, fun _ => 1, fun _ => 0]⟩ = .ok B ∧
      B.nrows = 2 ∧ B.ncols = 2 ∧ B.val fnEv 3 1 0 = 0 ∧
      ∑ t ∈ range 2, fnQ.val fnEv 3 t 1 *
        (⟨2, 2, [fun _ => 0, fun _ => 0, fun _ => 1, fun _ => 0]⟩ : Qma (ℚ → ℚ)).val fnEv 3 0 t = 9 := by
  obtain ⟨B, h1, h2⟩ := qmatqmat_square_actual (fn_lin p) (fn_sp p) fnQ_ok
    (b := ⟨2, 2, [fun _ => 0, fun _ => 0, fun _ => 1, fun _ => 0]⟩) (F := fnFam) (k := 0)
    ⟨rfl, fun _ _ => trivial⟩ (by decide) rfl rfl
  refine ⟨B, h1, h2.nrows, h2.ncols, ?_, ?_⟩
  · rw [h2.val 3 trivial 1 (by decide) 0 (by decide)]
    simp [fnQ, Qma.val, fnEv, sum_range_succ]
  · simp [fnQ, Qma.val, fnEv, sum_range_succ]; norm_num

/-- `qmatqmat`, 1 × 2 times 1 × 1: the second entry is written outside the result. -/
theorem qmatqmat_oob_counterexample (p : Bool) :
    qmatqmat (fnLOps p) ⟨1, 2, [fun x => x, fun _ => 1]⟩ ⟨1, 1, [fun x => x]⟩ = .error .oob := by
  cases p <;> rfl

end C3.Ft
