/- Helper lemmas for products of arrays of functions. -/
import Verif.Ft.Mul
import Verif.Ft.AlgLemmas
import Verif.Ft.Integ

set_option linter.unusedSectionVars false

namespace C3.Ft
open Finset
variable {K U X : Type} [Field K]

/-- Linear combinations of functions of the family stay in the family and have the expected values, whichever of the
univariate routines computes them. -/
structure LinLaw (e : Ev K U X) (o : LOps K U) (F : Fam U X) : Prop where
  scale : ScaleLaw e o.toOps F
  daxpby : ∀ k a f b g, F.P k f → F.P k g →
    ∃ h, o.daxpby a f b g = .ok h ∧ F.P k h ∧ ∀ x, F.D k x → e.ev h x = a * e.ev f x + b * e.ev g x
  lcPoly : ∀ k cs fs, cs.length = fs.length → fs ≠ [] → (∀ f ∈ fs, F.P k f ∧ o.poly f = true) →
    ∃ h, o.lcPoly cs fs = .ok h ∧ F.P k h ∧
      ∀ x, F.D k x → e.ev h x = (List.zipWith (fun c f => c * e.ev f x) cs fs).sum

/-- Sums of products likewise. -/
structure SpLaw (e : Ev K U X) (o : LOps K U) (F : Fam U X) : Prop where
  prod : ProdLaw e o.toOps F
  spPoly : ∀ k fs gs, fs.length = gs.length → fs ≠ [] → (∀ f ∈ fs, F.P k f ∧ o.poly f = true) →
    (∀ f ∈ gs, F.P k f ∧ o.poly f = true) → ∃ h, o.spPoly fs gs = .ok h ∧ F.P k h ∧
      ∀ x, F.D k x → e.ev h x = (List.zipWith (fun f g => e.ev f x * e.ev g x) fs gs).sum

theorem collect_ok {α : Type} {n : Nat} {g : Nat → C α} (v : Nat → α) (h : ∀ i < n, g i = .ok (v i)) :
    collect n g = .ok ((List.range n).map v) := by
  have := forN_traj (fun i => (List.range i).map v) (n := n)
    (body := fun i l => g i >>= fun v => pure (l ++ [v]))
    (fun i hi => by rw [h i hi, bind_ok, pure_eq_ok, List.range_succ, List.map_append]; rfl)
  exact this

theorem sum_zip_range {α β : Type} (f : α → β → K) (n : Nat) (a : Nat → α) (b : Nat → β) :
    (List.zipWith f ((List.range n).map a) ((List.range n).map b)).sum = ∑ i ∈ range n, f (a i) (b i) := by
  rw [List.zipWith_map, List.zipWith_self]
  rfl

theorem rd_map_range {α : Type} {n i : Nat} (v : Nat → α) (h : i < n) : rd ((List.range n).map v) i = .ok (v i) := by
  rw [rd_ok (by simpa using h)]; simp

/-- Linear combination of strided functions with strided coefficients. -/
theorem lc2_ok {e : Ev K U X} {o : LOps K U} {F : Fam U X} (hL : LinLaw e o F) {k n : Nat} (hn : 0 < n)
    {ldgf goff ldc coff : Nat} {gfa : List U} {c : List K} {v : Nat → X → K} {w : Nat → K}
    (hf : ∀ i < n, ∃ f, rd gfa (goff + i * ldgf) = .ok f ∧ F.P k f ∧ ∀ x, F.D k x → e.ev f x = v i x)
    (hc : ∀ i < n, rd c (coff + i * ldc) = .ok (w i)) :
    ∃ h, lc2 o n ldgf gfa goff ldc c coff = .ok h ∧ F.P k h ∧
      ∀ x, F.D k x → e.ev h x = ∑ i ∈ range n, w i * v i x := by
  haveI : Nonempty U := ⟨(hf 0 hn).choose⟩
  choose! fi hfi using hf
  rw [lc2, if_neg (by omega)]
  by_cases h1 : n = 1
  · subst h1
    obtain ⟨a1, a2, a3⟩ := hfi 0 hn
    have a4 := hc 0 hn
    simp only [Nat.zero_mul, Nat.add_zero] at a1 a4
    rw [if_pos rfl, a4, bind_ok, a1, bind_ok]
    obtain ⟨h, b1, b2, b3⟩ := hL.scale k (w 0) _ a2
    refine ⟨h, b1, b2, fun x hx => ?_⟩
    rw [b3 x hx, a3 x hx, sum_range_one]
  · rw [if_neg h1, collect_ok fi (fun i hi => (hfi i hi).1), bind_ok, collect_ok w hc, bind_ok]
    by_cases hp : ((List.range n).map fi).all o.poly = true
    · rw [if_pos hp]
      rw [List.all_eq_true] at hp
      obtain ⟨h, b1, b2, b3⟩ := hL.lcPoly k ((List.range n).map w) ((List.range n).map fi) (by simp)
        (by simp; omega) (fun f hf => by
          refine ⟨?_, hp f hf⟩
          obtain ⟨i, hi, rfl⟩ := List.mem_map.1 hf
          exact (hfi i (List.mem_range.1 hi)).2.1)
      refine ⟨h, b1, b2, fun x hx => ?_⟩
      rw [b3 x hx, sum_zip_range]
      exact sum_congr rfl fun i hi => by rw [(hfi i (mem_range.1 hi)).2.2 x hx]
    · rw [if_neg hp, lc2Chain, rd_map_range fi hn, bind_ok, rd_map_range w hn, bind_ok,
        rd_map_range fi (by omega : 1 < n), bind_ok, rd_map_range w (by omega : 1 < n), bind_ok]
      obtain ⟨t, b1, b2, b3⟩ := hL.daxpby k (w 0) _ (w 1) _ (hfi 0 hn).2.1 (hfi 1 (by omega)).2.1
      rw [b1, bind_ok]
      obtain ⟨h, c1, c2, c3⟩ := forR_spec (I := fun i t => F.P k t ∧ ∀ x, F.D k x → e.ev t x = ∑ j ∈ range i, w j * v j x)
        (a := 2) (b := n) (by omega)
        (body := fun i t => do
          let f ← rd ((List.range n).map fi) i
          let c ← rd ((List.range n).map w) i
          o.daxpby c f 1 t) (s := t)
        ⟨b2, fun x hx => by
          rw [b3 x hx, (hfi 0 hn).2.2 x hx, (hfi 1 (by omega)).2.2 x hx, sum_range_succ, sum_range_one]⟩
        (by
          rintro i hi1 hi2 t ⟨g1, g2⟩
          obtain ⟨h, d1, d2, d3⟩ := hL.daxpby k (w i) _ 1 _ (hfi i hi2).2.1 g1
          refine ⟨h, ?_, d2, fun x hx => ?_⟩
          · simp only [rd_map_range fi hi2, rd_map_range w hi2, bind_ok, d1]
          · rw [d3 x hx, (hfi i hi2).2.2 x hx, g2 x hx, one_mul, sum_range_succ, add_comm])
      exact ⟨h, c1, c2, c3⟩

/-- Sum of products of strided functions. -/
theorem sumProd_ok {e : Ev K U X} {o : LOps K U} {F : Fam U X} (hL : LinLaw e o F) (hS : SpLaw e o F) {k n : Nat}
    (hn : 0 < n) {lda aoff ldb boff : Nat} {a b : List U} {v w : Nat → X → K}
    (hf : ∀ i < n, ∃ f, rd a (aoff + i * lda) = .ok f ∧ F.P k f ∧ ∀ x, F.D k x → e.ev f x = v i x)
    (hg : ∀ i < n, ∃ f, rd b (boff + i * ldb) = .ok f ∧ F.P k f ∧ ∀ x, F.D k x → e.ev f x = w i x) :
    ∃ h, sumProd o n lda a aoff ldb b boff = .ok h ∧ F.P k h ∧
      ∀ x, F.D k x → e.ev h x = ∑ i ∈ range n, v i x * w i x := by
  haveI : Nonempty U := ⟨(hf 0 hn).choose⟩
  choose! fi hfi using hf
  choose! gi hgi using hg
  rw [sumProd, if_neg (by omega), collect_ok fi (fun i hi => (hfi i hi).1), bind_ok,
    collect_ok gi (fun i hi => (hgi i hi).1), bind_ok]
  by_cases hp : (((List.range n).map fi).all o.poly && ((List.range n).map gi).all o.poly) = true
  · rw [if_pos hp]
    rw [Bool.and_eq_true, List.all_eq_true, List.all_eq_true] at hp
    obtain ⟨h, b1, b2, b3⟩ := hS.spPoly k ((List.range n).map fi) ((List.range n).map gi) (by simp)
      (by simp; omega)
      (fun f hf => by
        refine ⟨?_, hp.1 f hf⟩
        obtain ⟨i, hi, rfl⟩ := List.mem_map.1 hf
        exact (hfi i (List.mem_range.1 hi)).2.1)
      (fun f hf => by
        refine ⟨?_, hp.2 f hf⟩
        obtain ⟨i, hi, rfl⟩ := List.mem_map.1 hf
        exact (hgi i (List.mem_range.1 hi)).2.1)
    refine ⟨h, b1, b2, fun x hx => ?_⟩
    rw [b3 x hx, sum_zip_range]
    exact sum_congr rfl fun i hi => by rw [(hfi i (mem_range.1 hi)).2.2 x hx, (hgi i (mem_range.1 hi)).2.2 x hx]
  · rw [if_neg hp, spChain, rd_map_range fi hn, bind_ok, rd_map_range gi hn, bind_ok]
    obtain ⟨t, b1, b2, b3⟩ := hS.prod k _ _ (hfi 0 hn).2.1 (hgi 0 hn).2.1
    rw [b1, bind_ok]
    obtain ⟨h, c1, c2, c3⟩ := forR_spec
      (I := fun i t => F.P k t ∧ ∀ x, F.D k x → e.ev t x = ∑ j ∈ range i, v j x * w j x) (a := 1) (b := n) (by omega)
      (body := fun i t => do
        let f ← rd ((List.range n).map fi) i
        let g ← rd ((List.range n).map gi) i
        let p ← o.prod f g
        o.daxpby 1 t 1 p) (s := t)
      ⟨b2, fun x hx => by rw [b3 x hx, (hfi 0 hn).2.2 x hx, (hgi 0 hn).2.2 x hx, sum_range_one]⟩
      (by
        rintro i hi1 hi2 t ⟨g1, g2⟩
        obtain ⟨p, p1, p2, p3⟩ := hS.prod k _ _ (hfi i hi2).2.1 (hgi i hi2).2.1
        obtain ⟨h, d1, d2, d3⟩ := hL.daxpby k 1 _ 1 _ g1 p2
        refine ⟨h, ?_, d2, fun x hx => ?_⟩
        · simp only [rd_map_range fi hi2, rd_map_range gi hi2, bind_ok, p1, d1]
        · rw [d3 x hx, g2 x hx, p3 x hx, (hfi i hi2).2.2 x hx, (hgi i hi2).2.2 x hx, one_mul, one_mul, sum_range_succ])
    exact ⟨h, c1, c2, c3⟩

/-- An array of functions of dimension `k`. -/
structure QOk (F : Fam U X) (k : Nat) (Q : Qma U) : Prop where
  wf : Q.WF
  mem : ∀ f ∈ Q.funcs, F.P k f

theorem QOk.get {e : Ev K U X} {F : Fam U X} {k : Nat} {Q : Qma U} (h : QOk F k Q) {i j p : Nat} (hi : i < Q.nrows)
    (hj : j < Q.ncols) (hp : p = j * Q.nrows + i) :
    ∃ f, rd Q.funcs p = .ok f ∧ F.P k f ∧ ∀ x, F.D k x → e.ev f x = Q.val e x i j := by
  subst hp
  obtain ⟨f, h1, h2, h3⟩ := h.wf.get (e := e) hi hj
  exact ⟨f, h1, h.mem f h2, fun x _ => h3 x⟩

theorem rd_mat {R : List K} {n m i j p : Nat} (hR : n * m ≤ R.length) (hi : i < n) (hj : j < m) (hp : p = j * n + i) :
    rd R p = .ok (R.getD (j * n + i) 0) := by
  subst hp
  exact rd_getD 0 (lt_of_lt_of_le (cm_idx_lt hi hj) hR)

/-- An `n × m` array filled column by column. -/
theorem fill_cols {e : Ev K U X} {F : Fam U X} {k n m : Nat} {M : X → Nat → Nat → K} {g : Nat → Nat → C U}
    (h : ∀ j < m, ∀ i < n, ∃ f, g j i = .ok f ∧ F.P k f ∧ ∀ x, F.D k x → e.ev f x = M x i j) :
    ∃ Q, (do
      let c ← forN m (fun j => forN n (fun i c => do
        let f ← g j i
        wr c (j * n + i) (some f))) (List.replicate (n * m) none)
      let fs ← allSome c
      pure (⟨n, m, fs⟩ : Qma U)) = .ok Q ∧ Rep e F k n m M Q := by
  have f1 : Fills (EntryR e F k n M) (n * m)
      (forN m (fun j => forN n (fun i c => do
        let f ← g j i
        wr c (j * n + i) (some f))))
      (fun p => ∃ j < m, ∃ i < n, p = j * n + i) := by
    refine Fills.forN fun j hj => Fills.forN fun i hi => ?_
    obtain ⟨f, h1, h2, h3⟩ := h j hj i hi
    exact Fills.bind h1 (Fills.wr (cm_idx_lt hi hj) (entryR_cm hi h2 h3))
  obtain ⟨c, l, h1, h2, h3, h4⟩ := f1.finish (fun p hp => by
    obtain ⟨a1, a2, a3⟩ := divmod_of_lt hp
    exact ⟨_, a2, _, a1, a3.symm⟩)
  refine ⟨_, ?_, rep_of_fill h3 h4⟩
  rw [h1, bind_ok, h2, bind_ok, pure_eq_ok]

/-- The same with the row loop outside. -/
theorem fill_rows {e : Ev K U X} {F : Fam U X} {k n m : Nat} {M : X → Nat → Nat → K} {g : Nat → Nat → C U}
    (h : ∀ i < n, ∀ j < m, ∃ f, g i j = .ok f ∧ F.P k f ∧ ∀ x, F.D k x → e.ev f x = M x i j) :
    ∃ Q, (do
      let c ← forN n (fun i => forN m (fun j c => do
        let f ← g i j
        wr c (j * n + i) (some f))) (List.replicate (n * m) none)
      let fs ← allSome c
      pure (⟨n, m, fs⟩ : Qma U)) = .ok Q ∧ Rep e F k n m M Q := by
  have f1 : Fills (EntryR e F k n M) (n * m)
      (forN n (fun i => forN m (fun j c => do
        let f ← g i j
        wr c (j * n + i) (some f))))
      (fun p => ∃ i < n, ∃ j < m, p = j * n + i) := by
    refine Fills.forN fun i hi => Fills.forN fun j hj => ?_
    obtain ⟨f, h1, h2, h3⟩ := h i hi j hj
    exact Fills.bind h1 (Fills.wr (cm_idx_lt hi hj) (entryR_cm hi h2 h3))
  obtain ⟨c, l, h1, h2, h3, h4⟩ := f1.finish (fun p hp => by
    obtain ⟨a1, a2, a3⟩ := divmod_of_lt hp
    exact ⟨_, a1, _, a2, a3.symm⟩)
  refine ⟨_, ?_, rep_of_fill h3 h4⟩
  rw [h1, bind_ok, h2, bind_ok, pure_eq_ok]

theorem innerSum_ok {inner : U → U → C K} {n lda aoff ldb boff : Nat} {a b : List U} {v : Nat → K}
    (h : ∀ i < n, ∃ f g, rd a (aoff + i * lda) = .ok f ∧ rd b (boff + i * ldb) = .ok g ∧ inner f g = .ok (v i)) :
    innerSum inner n lda a aoff ldb b boff = .ok (∑ i ∈ range n, v i) := by
  rw [innerSum, forN_sum v, zero_add]
  intro i hi s
  obtain ⟨f, g, h1, h2, h3⟩ := h i hi
  rw [h1, bind_ok, h2, bind_ok, h3, bind_ok, pure_eq_ok]

/-- The univariate integral routine computes the integral. -/
def QuadLaw (e : Ev K U X) (F : Fam U X) (I : Integ K X) (int : U → C K) : Prop :=
  ∀ k f, F.P k f → int f = .ok (I.J k (fun x => e.ev f x))

/-- The univariate inner product routine computes the integral of the product. -/
def InnerLaw (e : Ev K U X) (F : Fam U X) (I : Integ K X) (inner : U → U → C K) : Prop :=
  ∀ k f g, F.P k f → F.P k g → inner f g = .ok (I.J k (fun x => e.ev f x * e.ev g x))

theorem Rep.qok {e : Ev K U X} {F : Fam U X} {k n m : Nat} {M : X → Nat → Nat → K} {Q : Qma U}
    (h : Rep e F k n m M Q) : QOk F k Q := ⟨h.wf, h.mem⟩

end C3.Ft
