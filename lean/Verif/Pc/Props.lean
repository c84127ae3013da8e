/- C110 and C111: piecewise constant elements: search, evaluation, algebra, extrema. -/
import Verif.Pc.Model
import Verif.Lin.ApproxProps
import Verif.Lin.MergeProps

set_option linter.unusedSectionVars false

namespace C3.Pc
open C3.Lin (WF.swap tri nd_in forN_inplace map_range_getD sdiscp_ok)
variable {K : Type} [Field K] [LinearOrder K] [IsStrictOrderedRing K]

/-! ### Specification -/

/-- `i` is the node nearest to `x`; of two equally near nodes the one with the larger number. -/
def Nearest (f : CE K) (x : K) (i : Nat) : Prop :=
  i < f.num ∧ ∀ j < f.num, |x - f.nd i| ≤ |x - f.nd j| ∧ (|x - f.nd i| = |x - f.nd j| → j ≤ i)

/-- Neighbouring nodes are further apart than twice the tolerance. -/
def Gap (tol : K) (f : CE K) : Prop := ∀ i, i + 1 < f.num → 2 * tol < f.nd (i + 1) - f.nd i

/-- `v` is the value at `x` of the piecewise constant function: zero outside of the range of the nodes, the coefficient of the
nearest node inside. -/
def IsValue (f : CE K) (x v : K) : Prop :=
  ((x < f.nd 0 ∨ f.nd (f.num - 1) < x) → v = 0) ∧
  (f.nd 0 ≤ x → x ≤ f.nd (f.num - 1) → ∃ i, Nearest f x i ∧ v = f.cf i)

theorem Nearest.unique {f : CE K} {x : K} {i j : Nat} (h : Nearest f x i) (h' : Nearest f x j) : i = j := by
  have a := h.2 j h'.1
  have b := h'.2 i h.1
  have e := le_antisymm a.1 b.1
  exact le_antisymm (b.2 e.symm) (a.2 e)

theorem IsValue.unique {f : CE K} {x v w : K} (h : IsValue f x v) (h' : IsValue f x w) : v = w := by
  rcases tri f x with ho | ⟨hl, hh⟩
  · rw [h.1 ho, h'.1 ho]
  · obtain ⟨i, hi, rfl⟩ := h.2 hl hh
    obtain ⟨j, hj, rfl⟩ := h'.2 hl hh
    rw [hi.unique hj]

/-! ### Search -/

theorem search_ok {tol x : K} {f : CE K} (hf : f.WF) :
    ∀ fuel lo hi, lo < hi → hi < f.num → hi - lo ≤ fuel → (lo = 0 ∨ f.nd lo ≤ x) → (hi = f.num - 1 ∨ x ≤ f.nd hi) → 0 < fuel →
      ∃ i < f.num, search tol f.nodes x fuel lo hi = .ok i ∧ (Nearest f x i ∨ |x - f.nd i| ≤ tol) := by
  intro fuel
  induction fuel with
  | zero => intro lo hi _ _ _ _ _ h; omega
  | succ fuel ih =>
    intro lo hi h1 h2 h3 h4 h5 _
    rw [search]
    by_cases hm : lo + (hi - lo) / 2 = lo
    · rw [if_pos hm, Lin.LE.rd_nd hf (by omega), bind_ok, Lin.LE.rd_nd hf (by omega), bind_ok]
      have hhi : hi = lo + 1 := by omega
      subst hhi
      have hab := hf.inc lo h2
      have left : ∀ j ≤ lo, |x - f.nd lo| ≤ |x - f.nd j| := by
        intro j hj
        rcases h4 with rfl | h4
        · have : j = 0 := by omega
          subst this; exact le_rfl
        · have := hf.le hj (by omega)
          rw [abs_of_nonneg (sub_nonneg.2 h4), abs_of_nonneg (sub_nonneg.2 (this.trans h4))]
          linarith
      have right : ∀ j, lo + 1 ≤ j → j < f.num → |x - f.nd (lo + 1)| ≤ |x - f.nd j| ∧
          (|x - f.nd (lo + 1)| = |x - f.nd j| → j ≤ lo + 1) := by
        intro j hj hj'
        rcases h5 with h5 | h5
        · have : j = lo + 1 := by omega
          subst this; exact ⟨le_rfl, fun _ => le_rfl⟩
        · have := hf.le hj hj'
          rw [abs_of_nonpos (sub_nonpos.2 h5), abs_of_nonpos (sub_nonpos.2 (h5.trans this))]
          refine ⟨by linarith, fun e => ?_⟩
          by_contra hc
          have := hf.lt (show lo + 1 < j by omega) hj'
          linarith
      by_cases hc : x - f.nd lo < f.nd (lo + 1) - x
      · rw [if_pos hc]
        refine ⟨lo, by omega, rfl, .inl ⟨by omega, ?_⟩⟩
        have near : |x - f.nd lo| < |x - f.nd (lo + 1)| := by
          rw [abs_sub_comm x (f.nd (lo + 1))]
          have : x < f.nd (lo + 1) := by linarith
          rw [abs_of_pos (sub_pos.2 this), abs_lt]
          constructor <;> linarith
        intro j hj
        rcases Nat.lt_or_ge lo j with h | h
        · have := (right j h hj).1
          exact ⟨(near.trans_le this).le, fun e => absurd e (near.trans_le this).ne⟩
        · exact ⟨left j h, fun _ => h⟩
      · rw [if_neg hc]
        refine ⟨lo + 1, h2, rfl, .inl ⟨h2, ?_⟩⟩
        have near : |x - f.nd (lo + 1)| ≤ |x - f.nd lo| := by
          have : f.nd lo ≤ x := by linarith
          rw [abs_of_nonneg (sub_nonneg.2 this), abs_le]
          constructor <;> linarith
        intro j hj
        rcases Nat.lt_or_ge lo j with h | h
        · exact right j h hj
        · exact ⟨near.trans (left j h), fun _ => by omega⟩
    · rw [if_neg hm, Lin.LE.rd_nd hf (by omega), bind_ok]
      by_cases ha : |x - f.nd (lo + (hi - lo) / 2)| ≤ tol
      · rw [if_pos ha]
        exact ⟨_, by omega, rfl, .inr ha⟩
      · rw [if_neg ha]
        by_cases hb : x < f.nd (lo + (hi - lo) / 2)
        · rw [if_pos hb]
          exact ih _ _ (by omega) (by omega) (by omega) h4 (.inr hb.le) (by omega)
        · rw [if_neg hb]
          exact ih _ _ (by omega) h2 (by omega) (.inr (not_lt.1 hb)) h5 (by omega)

theorem findNode_ok {tol : K} {f : CE K} (hf : f.WF) (x : K) :
    ∃ i < f.num, findNode tol f x = .ok i ∧ (Nearest f x i ∨ |x - f.nd i| ≤ tol) := by
  have two := hf.two
  rw [findNode, if_neg (by omega)]
  exact search_ok hf f.num 0 (f.num - 1) (by omega) (by omega) (by omega) (.inl rfl) (.inl rfl) (by omega)

theorem Gap.lt {tol : K} {f : CE K} (hf : f.WF) (hg : Gap tol f) {i j : Nat} (hij : i < j) (hj : j < f.num) :
    2 * tol < f.nd j - f.nd i := by
  have a := hg i (by omega)
  have b := hf.le (show i + 1 ≤ j by omega) hj
  linarith

theorem Gap.abs {tol : K} {f : CE K} (hf : f.WF) (hg : Gap tol f) {i j : Nat} (hi : i < f.num) (hj : j < f.num) (h : i ≠ j) :
    2 * tol < |f.nd i - f.nd j| := by
  rcases Nat.lt_or_gt_of_ne h with h | h
  · rw [abs_sub_comm]; exact (hg.lt hf h hj).trans_le (le_abs_self _)
  · exact (hg.lt hf h hi).trans_le (le_abs_self _)

/-- **C110** The search ends at the nearest node, for every point (also outside of the range), ties going to the upper node. -/
theorem findNode_nearest {tol : K} {f : CE K} (hf : f.WF) (hg : Gap tol f) (x : K) :
    ∃ i, findNode tol f x = .ok i ∧ Nearest f x i := by
  obtain ⟨i, hi, h1, h2 | h2⟩ := findNode_ok (tol := tol) hf x
  · exact ⟨i, h1, h2⟩
  · refine ⟨i, h1, hi, fun j hj => ?_⟩
    by_cases e : j = i
    · subst e; exact ⟨le_rfl, fun _ => le_rfl⟩
    · have a := hg.abs hf hi hj (Ne.symm e)
      have b := abs_sub_le (f.nd i) x (f.nd j)
      rw [abs_sub_comm (f.nd i) x] at b
      have c : |x - f.nd i| < |x - f.nd j| := by linarith
      exact ⟨c.le, fun e => absurd e c.ne⟩

theorem gap_zero {f : CE K} (hf : f.WF) : Gap 0 f := fun i hi => by
  rw [mul_zero]; exact sub_pos.2 (hf.inc i hi)

/-! ### Evaluation -/

theorem eval_out {tol x : K} {f : CE K} (hf : f.WF) (h : x < f.nd 0 ∨ f.nd (f.num - 1) < x) : eval tol f x = .ok 0 := by
  have two := hf.two
  rw [eval, if_neg (by omega), Lin.LE.rd_nd hf (by omega), bind_ok, Lin.LE.rd_nd hf (by omega), bind_ok, if_pos h]

/-- Inside of the range the result is a coefficient; which one depends on the nodes only. -/
theorem eval_form {tol x : K} {f : CE K} (hf : f.WF) (hl : f.nd 0 ≤ x) (hh : x ≤ f.nd (f.num - 1)) :
    ∃ i < f.num, findNode tol f x = .ok i ∧
      ∀ c : List K, c.length = f.num → eval tol ⟨f.num, f.nodes, c⟩ x = .ok (c.getD i 0) := by
  obtain ⟨i, hi, h1, _⟩ := findNode_ok (tol := tol) hf x
  have two := hf.two
  refine ⟨i, hi, h1, fun c hc => ?_⟩
  rw [eval, if_neg (by dsimp; omega)]
  dsimp only
  rw [Lin.LE.rd_nd hf (by omega), bind_ok, Lin.LE.rd_nd hf (by omega), bind_ok,
    if_neg (by push Not; exact ⟨hl, hh⟩)]
  have h1' : findNode tol ⟨f.num, f.nodes, c⟩ x = .ok i := h1
  rw [h1', bind_ok, rd_getD 0 (by omega)]

/-- **C110** Evaluation returns the value of the piecewise constant function, at every point: zero outside of the range, the
coefficient of the nearest node inside. -/
theorem eval_value {tol : K} {f : CE K} (hf : f.WF) (hg : Gap tol f) (x : K) :
    ∃ v, eval tol f x = .ok v ∧ IsValue f x v := by
  rcases tri f x with h | ⟨hl, hh⟩
  · exact ⟨0, eval_out hf h, fun _ => rfl, fun a b => by
      exfalso; rcases h with h | h
      · exact absurd a (not_le.2 h)
      · exact absurd b (not_le.2 h)⟩
  · obtain ⟨i, hi, h1, h2⟩ := eval_form (tol := tol) hf hl hh
    obtain ⟨j, h3, h4⟩ := findNode_nearest hf hg x
    have : i = j := Except.ok.inj (h1.symm.trans h3)
    subst this
    refine ⟨_, h2 f.coeff hf.hc, fun h => ?_, fun _ _ => ⟨i, h4, rfl⟩⟩
    exfalso
    rcases h with h | h
    · exact absurd hl (not_le.2 h)
    · exact absurd hh (not_le.2 h)

/-- **C110** Without any assumption on the spacing: evaluation succeeds at every point, and inside of the range the coefficient
returned belongs to the nearest node or to a node within the tolerance of the point. -/
theorem eval_total {tol : K} {f : CE K} (hf : f.WF) {x : K} (hl : f.nd 0 ≤ x) (hh : x ≤ f.nd (f.num - 1)) :
    ∃ i < f.num, eval tol f x = .ok (f.cf i) ∧ (Nearest f x i ∨ |x - f.nd i| ≤ tol) := by
  obtain ⟨i, hi, h1, h2⟩ := eval_form (tol := tol) hf hl hh
  obtain ⟨j, _, h3, h4⟩ := findNode_ok (tol := tol) hf x
  have : i = j := Except.ok.inj (h1.symm.trans h3)
  subst this
  exact ⟨i, hi, h2 f.coeff hf.hc, h4⟩

/-- **C110** At a node evaluation returns the coefficient of the node. -/
theorem eval_node {tol : K} (ht : 0 ≤ tol) {f : CE K} (hf : f.WF) (hs : f.Sep tol) {k : Nat} (hk : k < f.num) :
    eval tol f (f.nd k) = .ok (f.cf k) := by
  obtain ⟨i, hi, h1, h2⟩ := eval_total (tol := tol) hf (nd_in hf hk).1 (nd_in hf hk).2
  rw [h1]
  have : i = k := by
    refine hs k hk i hi ?_
    rcases h2 with h | h
    · have := (h.2 k hk).1
      rw [sub_self, abs_zero] at this
      exact this.trans ht
    · exact h
  rw [this]

/-- **C110** Nodes closer together than the tolerance: the value at the first node is the coefficient of the second. -/
theorem eval_close_counterexample :
    eval (1 / 10 ^ 15 : ℚ) ⟨3, [0, 1 / 10 ^ 16, 1], [1, 0, 0]⟩ 0 = .ok 0 := by decide +kernel

/-- **C110** Batch evaluation with strides is evaluation point by point. -/
theorem evalN_value {tol : K} {f : CE K} {N incx incy : Nat} {x y : List K} (v : Nat → K)
    (hx : ∀ i < N, i * incx < x.length) (hi : 0 < incy) (hy : ∀ i < N, i * incy < y.length)
    (hv : ∀ i < N, eval tol f (x.getD (i * incx) 0) = .ok (v i)) :
    ∃ y', evalN tol f N x incx y incy = .ok y' ∧ y'.length = y.length ∧ (∀ i < N, y'[i * incy]? = some (v i)) ∧
      ∀ k, (∀ i < N, k ≠ i * incy) → y'[k]? = y[k]? := by
  obtain ⟨s, h1, h2, h3, h4⟩ := forN_scatter (n := N) (a := y) (idx := fun i => i * incy) (g := v)
    (body := fun ii y => do
      let xi ← rd x (ii * incx)
      let v ← eval tol f xi
      wr y (ii * incy) v)
    (fun i hi => hy i hi) (fun i _ j _ h => Nat.eq_of_mul_eq_mul_right hi h) (by
      intro i hi b _ _ _
      rw [rd_getD 0 (hx i hi), bind_ok, hv i hi, bind_ok])
  exact ⟨s, h1, h2, h3, fun k hk => h4 k fun i hi e => hk i hi e.symm⟩

/-! ### Scaling, sum, product -/

/-- **C110** Scaling multiplies the value at every point. -/
theorem scale_value {tol : K} {f : CE K} (hf : f.WF) (a : K) :
    ∃ h, scale a f = .ok h ∧ h.WF ∧ h.nodes = f.nodes ∧ ∀ x, ∃ v, eval tol f x = .ok v ∧ eval tol h x = .ok (a * v) := by
  have e := forN_inplace (n := f.num) (a := f.coeff) (body := fun i c => do
    let u ← rd c i
    wr c i (u * a)) hf.hc (fun _ u => u * a) (by
      intro i hi b hb1 hb2
      rw [rd_getD 0 (by omega), bind_ok, hb2])
  have hw : (Lin.LE.mk f.num f.nodes ((List.range f.num).map fun i => f.coeff.getD i 0 * a)).WF := WF.swap hf (by simp)
  refine ⟨_, by rw [scale, Lin.scale, e, bind_ok]; rfl, hw, rfl, fun x => ?_⟩
  rcases tri f x with h | ⟨hl, hh⟩
  · exact ⟨0, eval_out hf h, by rw [mul_zero]; exact eval_out hw h⟩
  · obtain ⟨i, hi, _, h3⟩ := eval_form (tol := tol) hf hl hh
    refine ⟨_, h3 f.coeff hf.hc, ?_⟩
    rw [h3 _ (by simp), map_range_getD _ hi, mul_comm]

/-- **C110** Changing the sign negates the value at every point. -/
theorem flipSign_value {tol : K} {f : CE K} (hf : f.WF) :
    ∃ h, flipSign f = .ok h ∧ h.WF ∧ h.nodes = f.nodes ∧ ∀ x, ∃ v, eval tol f x = .ok v ∧ eval tol h x = .ok (-v) := by
  obtain ⟨h, h1, h2, h3, h4⟩ := scale_value (tol := tol) hf (-1)
  have := h2.two
  rw [scale] at h1
  refine ⟨h, by rw [flipSign, Lin.flipSign, h1, bind_ok, cassert_of (by simp; omega), bind_ok, pure_eq_ok], h2, h3, fun x => ?_⟩
  obtain ⟨v, p, q⟩ := h4 x
  exact ⟨v, p, by rw [q]; congr 1; ring⟩

theorem sdiscp_same {tol : K} (ht : 0 ≤ tol) {f g : CE K} (hf : f.WF) (hg : g.WF) (hn : f.nodes = g.nodes) :
    f.num = g.num ∧ Lin.sdiscp tol f g = .ok true := by
  have hnum : f.num = g.num := by rw [← hf.hn, ← hg.hn, hn]
  refine ⟨hnum, ?_⟩
  rw [sdiscp_ok hf hg hnum]
  congr 1
  rw [decide_eq_true_eq]
  intro i _
  rw [Lin.LE.nd, Lin.LE.nd, hn, sub_self, abs_zero]
  exact ht

/-- **C111** On a common grid, `g := a f + g` adds the values at every point. -/
theorem axpy_value {tol : K} (ht : 0 ≤ tol) {f g : CE K} (hf : f.WF) (hg : g.WF) (hn : f.nodes = g.nodes) (a : K) :
    ∃ h, axpy tol a f g = .ok h ∧ h.WF ∧ h.nodes = g.nodes ∧
      ∀ x, ∃ u w, eval tol f x = .ok u ∧ eval tol g x = .ok w ∧ eval tol h x = .ok (a * u + w) := by
  obtain ⟨hnum, hs⟩ := sdiscp_same ht hf hg hn
  have e := forN_inplace (n := g.num) (a := g.coeff) (body := fun i c => do
    let u ← rd f.coeff i
    let w ← rd c i
    wr c i (a * u + w)) hg.hc (fun i w => a * f.cf i + w) (by
      intro i hi b hb1 hb2
      rw [Lin.LE.rd_cf hf (by omega), bind_ok, rd_getD 0 (by omega), bind_ok, hb2])
  have hw : (Lin.LE.mk g.num g.nodes ((List.range g.num).map fun i => a * f.cf i + g.coeff.getD i 0)).WF := WF.swap hg (by simp)
  refine ⟨_, by rw [axpy, hs, bind_ok, if_pos rfl, Lin.axpySame, e, bind_ok]; rfl, hw, rfl, fun x => ?_⟩
  have ef : f = ⟨g.num, g.nodes, f.coeff⟩ := by rw [← hnum, ← hn]
  have hnd : ∀ j, f.nd j = g.nd j := fun j => by rw [Lin.LE.nd, Lin.LE.nd, hn]
  rcases tri g x with h | ⟨hl, hh⟩
  · exact ⟨0, 0, eval_out hf (by rw [hnd, hnd, hnum]; exact h), eval_out hg h, by rw [mul_zero, add_zero]; exact eval_out hw h⟩
  · obtain ⟨i, hi, _, h3⟩ := eval_form (tol := tol) hg hl hh
    refine ⟨_, _, by rw [ef]; exact h3 f.coeff (by rw [hf.hc, hnum]), h3 g.coeff hg.hc, ?_⟩
    rw [h3 _ (by simp), map_range_getD _ hi]
    rfl

/-- **C111** On a common grid the product multiplies the values at every point. -/
theorem prod_value {tol : K} (ht : 0 ≤ tol) {f g : CE K} (hf : f.WF) (hg : g.WF) (hn : f.nodes = g.nodes) :
    ∃ h, prod tol f g = .ok h ∧ h.WF ∧ h.nodes = f.nodes ∧
      ∀ x, ∃ u w, eval tol f x = .ok u ∧ eval tol g x = .ok w ∧ eval tol h x = .ok (u * w) := by
  obtain ⟨hnum, hs⟩ := sdiscp_same ht hf hg hn
  have e := forN_inplace (n := f.num) (a := f.coeff) (body := fun i c => do
    let u ← rd c i
    let w ← rd g.coeff i
    wr c i (u * w)) hf.hc (fun i u => u * g.cf i) (by
      intro i hi b hb1 hb2
      rw [rd_getD 0 (by omega), bind_ok, Lin.LE.rd_cf hg (by omega), bind_ok, hb2])
  have hw : (Lin.LE.mk f.num f.nodes ((List.range f.num).map fun i => f.coeff.getD i 0 * g.cf i)).WF := WF.swap hf (by simp)
  refine ⟨_, by rw [prod, hs, bind_ok, cassert_of rfl, bind_ok, e, bind_ok]; rfl, hw, rfl, fun x => ?_⟩
  have eg : g = ⟨f.num, f.nodes, g.coeff⟩ := by rw [hnum, hn]
  have hnd : ∀ j, f.nd j = g.nd j := fun j => by rw [Lin.LE.nd, Lin.LE.nd, hn]
  rcases tri f x with h | ⟨hl, hh⟩
  · exact ⟨0, 0, eval_out hf h, eval_out hg (by rw [← hnd, ← hnd, ← hnum]; exact h), by rw [mul_zero]; exact eval_out hw h⟩
  · obtain ⟨i, hi, _, h3⟩ := eval_form (tol := tol) hf hl hh
    refine ⟨_, _, h3 f.coeff hf.hc, by rw [eg]; exact h3 g.coeff (by rw [hg.hc, hnum]), ?_⟩
    rw [h3 _ (by simp), map_range_getD _ hi]
    rfl

/-- **C111** The product of functions on different grids fails an assertion. -/
theorem prod_grids_actual {tol : K} {f g : CE K} (h : f.num ≠ g.num) : prod tol f g = .error .assertFail := by
  rw [prod, Lin.sdiscp, if_pos h, bind_ok]
  rfl

/-- **C111** On different grids the sum is formed on the union of the nodes, and has the right value at each of these nodes.
(Nodes of the two grids must coincide or be further apart than the tolerance.) Missing: the other points, where
`axpy_grids_counterexample` refutes it. -/
theorem axpyMerged_node_partial {tol a : K} (ht : 0 < tol) {f g : CE K} (hf : f.WF) (hg : g.WF)
    (hs : ∀ i < f.num, ∀ j < g.num, |f.nd i - g.nd j| ≤ tol → f.nd i = g.nd j) :
    ∃ h, axpyMerged tol a f g = .ok h ∧ h.WF ∧
      (∀ y, (∃ k < h.num, y = h.nd k) ↔ (∃ k < f.num, y = f.nd k) ∨ ∃ k < g.num, y = g.nd k) ∧
      (h.Sep tol → ∀ k < h.num, ∃ u w, eval tol f (h.nd k) = .ok u ∧ eval tol g (h.nd k) = .ok w ∧
        eval tol h (h.nd k) = .ok (a * u + w)) := by
  have twof := hf.two
  have twog := hg.two
  have hev : ∀ {f : CE K}, f.WF → ∀ x, ∃ v, eval tol f x = .ok v := by
    intro f hf x
    rcases tri f x with h | ⟨hl, hh⟩
    · exact ⟨0, eval_out hf h⟩
    · obtain ⟨i, _, h, _⟩ := eval_total (tol := tol) hf hl hh
      exact ⟨_, h⟩
  choose F hF using hev hf
  choose G hG using hev hg
  obtain ⟨xs, p1, p2, p3⟩ := Lin.mergeGrid_ok ht hf hg hs (f.num + g.num + 1) 0 0 [] (Nat.zero_le _) (Nat.zero_le _) (by omega)
    (fun i hi => by simp at hi) (fun y hy => by simp at hy)
  have mem : ∀ y, y ∈ xs ↔ (∃ k < f.num, y = f.nd k) ∨ ∃ k < g.num, y = g.nd k := by
    intro y
    rw [p3]
    constructor
    · rintro (h | ⟨k, _, h⟩ | ⟨k, _, h⟩)
      · simp at h
      · exact .inl ⟨k, h⟩
      · exact .inr ⟨k, h⟩
    · rintro (⟨k, h⟩ | ⟨k, h⟩)
      · exact .inr (.inl ⟨k, Nat.zero_le _, h⟩)
      · exact .inr (.inr ⟨k, Nat.zero_le _, h⟩)
  have pos : ∀ y, y ∈ xs ↔ ∃ k < xs.length, y = xs.getD k 0 := by
    intro y
    rw [List.mem_iff_getElem]
    constructor
    · rintro ⟨k, hk, h⟩; exact ⟨k, hk, by simp [List.getD_eq_getElem?_getD, List.getElem?_eq_getElem hk, h]⟩
    · rintro ⟨k, hk, h⟩; exact ⟨k, hk, by rw [h]; simp [List.getD_eq_getElem?_getD, List.getElem?_eq_getElem hk]⟩
  have big : 2 ≤ xs.length := by
    obtain ⟨k, hk, e⟩ := (pos _).1 ((mem (f.nd 0)).2 (.inl ⟨0, by omega, rfl⟩))
    obtain ⟨l, hl, e'⟩ := (pos _).1 ((mem (f.nd 1)).2 (.inl ⟨1, by omega, rfl⟩))
    have : k ≠ l := by
      intro h; rw [h, ← e'] at e; exact absurd e (hf.inc 0 (by omega)).ne
    omega
  have small : xs.length ≤ f.num + g.num := by
    have nd : xs.Nodup := by
      rw [List.nodup_iff_injective_getElem]
      rintro ⟨i, hi⟩ ⟨j, hj⟩ h
      have wx : (Lin.LE.mk xs.length xs xs).WF := ⟨rfl, rfl, big, p2⟩
      have e : ∀ k (hk : k < xs.length), (Lin.LE.mk xs.length xs xs).nd k = xs[k] := fun k hk => by
        simp [Lin.LE.nd, List.getD_eq_getElem?_getD, List.getElem?_eq_getElem hk]
      ext
      rcases lt_trichotomy i j with h' | h' | h'
      · exact absurd ((e i hi).trans (h.trans (e j hj).symm)) (wx.lt h' hj).ne
      · exact h'
      · exact absurd ((e i hi).trans (h.trans (e j hj).symm)) (wx.lt h' hi).ne'
    have sub : xs ⊆ (List.range f.num).map f.nd ++ (List.range g.num).map g.nd := by
      intro y hy
      rcases (mem y).1 hy with ⟨k, hk, rfl⟩ | ⟨k, hk, rfl⟩
      · exact List.mem_append_left _ (List.mem_map.2 ⟨k, List.mem_range.2 hk, rfl⟩)
      · exact List.mem_append_right _ (List.mem_map.2 ⟨k, List.mem_range.2 hk, rfl⟩)
    have := (nd.subperm sub).length_le
    simpa using this
  obtain ⟨c, c1, c2, c3, _⟩ := forN_scatter (n := xs.length) (a := List.replicate (f.num + g.num) (0 : K)) (idx := fun i => i)
    (g := fun i => a * F (xs.getD i 0) + G (xs.getD i 0))
    (body := fun ii c => do
      let xi ← rd xs ii
      let u ← eval tol f xi
      let w ← eval tol g xi
      wr c ii (a * u + w))
    (fun i hi => by simp; omega) (fun _ _ _ _ h => h) (by
      intro i hi b _ _ _
      rw [rd_getD 0 hi, bind_ok, hF, bind_ok, hG, bind_ok])
  have c2' : c.length = f.num + g.num := by rw [c2]; simp
  have hw : (Lin.LE.mk xs.length xs (c.take xs.length)).WF := ⟨rfl, by simp; omega, big, p2⟩
  refine ⟨_, by rw [axpyMerged, p1, bind_ok, c1, bind_ok, pure_eq_ok], hw, fun y => by rw [← mem y, pos y]; rfl, ?_⟩
  intro hsep k hk
  refine ⟨_, _, hF _, hG _, ?_⟩
  rw [eval_node ht.le hw hsep hk]
  congr 1
  show (c.take xs.length).getD k 0 = _
  rw [List.getD_eq_getElem?_getD, List.getElem?_take_of_lt hk, c3 k hk]
  rfl

/-- **C111** On different grids the sum is wrong between the nodes: the cells of the union of the grids are not the cells of the
summands. -/
theorem axpy_grids_counterexample :
    ∃ h : CE ℚ, axpy (1 / 10 ^ 15) 1 ⟨2, [0, 1], [0, 4]⟩ ⟨3, [0, 1 / 4, 1], [0, 0, 0]⟩ = .ok h ∧
      eval (1 / 10 ^ 15) h (11 / 20) = .ok 0 ∧ eval (1 / 10 ^ 15) (⟨2, [0, 1], [0, 4]⟩ : CE ℚ) (11 / 20) = .ok 4 ∧
      eval (1 / 10 ^ 15) (⟨3, [0, 1 / 4, 1], [0, 0, 0]⟩ : CE ℚ) (11 / 20) = .ok 0 :=
  ⟨⟨3, [0, 1 / 4, 1], [0, 0, 4]⟩, by decide +kernel, by decide +kernel, by decide +kernel, by decide +kernel⟩

/-! ### Extrema -/

/-- **C110** The reported maximum bounds the value at every point of the range and is the coefficient of the reported node;
evaluation returns it there when the nodes are further apart than the tolerance. -/
theorem max_value {tol : K} (ht : 0 ≤ tol) {f : CE K} (hf : f.WF) :
    ∃ m loc, max f = .ok (m, loc) ∧ (∃ k < f.num, loc = f.nd k ∧ m = f.cf k) ∧ (f.Sep tol → eval tol f loc = .ok m) ∧
      ∀ x, f.nd 0 ≤ x → x ≤ f.nd (f.num - 1) → ∃ v, eval tol f x = .ok v ∧ v ≤ m := by
  obtain ⟨k, hk, h1, h2⟩ := Lin.scan_ok hf (g := id) (better := fun a b => decide (a > b)) (fun a b => a ≤ b) (fun _ => le_rfl)
    (fun _ _ _ => le_trans) (fun a b h => by simpa using (by simpa using h : b < a).le) (fun a b h => by simpa using h)
  refine ⟨_, _, h1, ⟨k, hk, rfl, rfl⟩, fun hs => eval_node ht hf hs hk, fun x hl hh => ?_⟩
  obtain ⟨i, hi, h3, _⟩ := eval_total (tol := tol) hf hl hh
  exact ⟨_, h3, h2 i hi⟩

/-- **C110** The same for the minimum. -/
theorem min_value {tol : K} (ht : 0 ≤ tol) {f : CE K} (hf : f.WF) :
    ∃ m loc, min f = .ok (m, loc) ∧ (∃ k < f.num, loc = f.nd k ∧ m = f.cf k) ∧ (f.Sep tol → eval tol f loc = .ok m) ∧
      ∀ x, f.nd 0 ≤ x → x ≤ f.nd (f.num - 1) → ∃ v, eval tol f x = .ok v ∧ m ≤ v := by
  obtain ⟨k, hk, h1, h2⟩ := Lin.scan_ok hf (g := id) (better := fun a b => decide (a < b)) (fun a b => b ≤ a) (fun _ => le_rfl)
    (fun _ _ _ h h' => le_trans h' h) (fun a b h => by simpa using (by simpa using h : a < b).le) (fun a b h => by simpa using h)
  refine ⟨_, _, h1, ⟨k, hk, rfl, rfl⟩, fun hs => eval_node ht hf hs hk, fun x hl hh => ?_⟩
  obtain ⟨i, hi, h3, _⟩ := eval_total (tol := tol) hf hl hh
  exact ⟨_, h3, h2 i hi⟩

/-- **C110** The same for the largest absolute value, at every point whatsoever. -/
theorem absmax_value {tol : K} (ht : 0 ≤ tol) {f : CE K} (hf : f.WF) :
    ∃ m loc, absmax f = .ok (m, loc) ∧ (∃ k < f.num, loc = f.nd k ∧ m = |f.cf k|) ∧
      (f.Sep tol → ∃ v, eval tol f loc = .ok v ∧ |v| = m) ∧ ∀ x, ∃ v, eval tol f x = .ok v ∧ |v| ≤ m := by
  obtain ⟨k, hk, h1, h2⟩ := Lin.scan_ok hf (g := fun c => |c|) (better := fun a b => decide (a > b)) (fun a b => a ≤ b)
    (fun _ => le_rfl) (fun _ _ _ => le_trans) (fun a b h => by simpa using (by simpa using h : b < a).le)
    (fun a b h => by simpa using h)
  refine ⟨_, _, h1, ⟨k, hk, rfl, rfl⟩, fun hs => ⟨_, eval_node ht hf hs hk, rfl⟩, fun x => ?_⟩
  rcases tri f x with h | ⟨hl, hh⟩
  · exact ⟨0, eval_out hf h, by simp⟩
  obtain ⟨i, hi, h3, _⟩ := eval_total (tol := tol) hf hl hh
  exact ⟨_, h3, h2 i hi⟩

/-- **C110** Over a nonempty list of given points: the largest absolute value on the list, attained at a listed point. -/
theorem absmaxOver_value {tol : K} (ht : 0 ≤ tol) {f : CE K} (hf : f.WF) {pts : List K} (hp : pts ≠ []) :
    ∃ m loc, absmaxOver tol f pts = .ok (m, loc) ∧ loc ∈ pts ∧ (∃ v, eval tol f loc = .ok v ∧ |v| = m) ∧
      ∀ p ∈ pts, ∃ v, eval tol f p = .ok v ∧ |v| ≤ m := by
  have hlen : 0 < pts.length := List.length_pos_iff.2 hp
  have hev : ∀ x, ∃ v, eval tol f x = .ok v := fun x => by
    obtain ⟨_, _, _, _, _, h⟩ := absmax_value ht hf
    obtain ⟨v, h1, _⟩ := h x
    exact ⟨v, h1⟩
  obtain ⟨v0, hv0⟩ := hev (pts.getD 0 0)
  obtain ⟨s, h1, ⟨h2, h3⟩, h4⟩ := forN_spec (n := pts.length) (s := (|v0|, pts.getD 0 0))
    (σ := K × K) (body := fun ii s => do
      let p ← rd pts ii
      let v ← eval tol f p
      if |v| > s.1 then pure (|v|, p) else pure s)
    (I := fun m s => (s.2 ∈ pts ∧ ∃ v, eval tol f s.2 = .ok v ∧ |v| = s.1) ∧
      ∀ j < m, ∃ v, eval tol f (pts.getD j 0) = .ok v ∧ |v| ≤ s.1)
    ⟨⟨by
      rw [List.getD_eq_getElem?_getD, List.getElem?_eq_getElem hlen]; exact List.getElem_mem _, v0, hv0, rfl⟩,
      fun j hj => by omega⟩
    (by
      rintro i hi s ⟨⟨ha, w, hw1, hw2⟩, hb⟩
      obtain ⟨v, hv⟩ := hev (pts.getD i 0)
      by_cases hc : |v| > s.1
      · refine ⟨_, by rw [rd_getD 0 hi, bind_ok, hv, bind_ok, if_pos hc, pure_eq_ok], ⟨?_, v, hv, rfl⟩, ?_⟩
        · rw [List.getD_eq_getElem?_getD, List.getElem?_eq_getElem hi]; exact List.getElem_mem _
        · intro j hj
          rcases Nat.lt_succ_iff_lt_or_eq.1 hj with h | h
          · obtain ⟨u, p, q⟩ := hb j h
            exact ⟨u, p, q.trans hc.le⟩
          · subst h; exact ⟨v, hv, le_rfl⟩
      · refine ⟨_, by rw [rd_getD 0 hi, bind_ok, hv, bind_ok, if_neg hc, pure_eq_ok], ⟨ha, w, hw1, hw2⟩, ?_⟩
        intro j hj
        rcases Nat.lt_succ_iff_lt_or_eq.1 hj with h | h
        · exact hb j h
        · subst h; exact ⟨v, hv, not_lt.1 hc⟩)
  refine ⟨s.1, s.2, by rw [absmaxOver, rd_getD 0 hlen, bind_ok, hv0, bind_ok, h1], h2, h3, ?_⟩
  intro p hp'
  obtain ⟨i, hi, rfl⟩ := List.getElem_of_mem hp'
  have := h4 i hi
  rwa [List.getD_eq_getElem?_getD, List.getElem?_eq_getElem hi] at this

/-! ### Non-vacuity -/

theorem exGap : Gap (1 / 10 ^ 15) (Lin.LE.mk 3 [0, 1, 3] [2, 5, 1] : CE ℚ) := by
  intro i hi
  have : i = 0 ∨ i = 1 := by dsimp at hi; omega
  rcases this with rfl | rfl <;> norm_num [Lin.LE.nd]
theorem exSep : (Lin.LE.mk 3 [0, 1, 3] [2, 5, 1] : CE ℚ).Sep (1 / 10 ^ 15) := by
  intro i hi j hj
  have h1 : i = 0 ∨ i = 1 ∨ i = 2 := by dsimp at hi; omega
  have h2 : j = 0 ∨ j = 1 ∨ j = 2 := by dsimp at hj; omega
  rcases h1 with rfl | rfl | rfl <;> rcases h2 with rfl | rfl | rfl <;> norm_num [Lin.LE.nd, abs_of_pos, abs_of_neg]

example := findNode_nearest Lin.exWF exGap (7 / 4)
example := eval_value Lin.exWF exGap (7 / 4)
example : eval (1 / 10 ^ 15 : ℚ) ⟨3, [0, 1, 3], [2, 5, 1]⟩ 2 = .ok 1 := by decide +kernel
example := eval_node (tol := 1 / 10 ^ 15) (by norm_num) Lin.exWF exSep (k := 1) (by decide)
example := axpy_value (tol := 1 / 10 ^ 15) (by norm_num) Lin.exWF (WF.swap Lin.exWF (c := [1, 1, 4]) rfl) rfl 7
example := prod_value (tol := 1 / 10 ^ 15) (by norm_num) Lin.exWF (WF.swap Lin.exWF (c := [1, 1, 4]) rfl) rfl
example := axpyMerged_node_partial (tol := (1 / 10 : ℚ)) (a := 2) (by norm_num) Lin.exWF Lin.exWFb (by
  intro i hi j hj h
  have h1 : i = 0 ∨ i = 1 ∨ i = 2 := by dsimp at hi; omega
  have h2 : j = 0 ∨ j = 1 := by dsimp at hj; omega
  rcases h1 with rfl | rfl | rfl <;> rcases h2 with rfl | rfl <;> first | rfl | (exfalso; norm_num [Lin.LE.nd, abs_le] at h))
example := max_value (tol := 1 / 10 ^ 15) (by norm_num) Lin.exWF
example := absmaxOver_value (tol := 1 / 10 ^ 15) (by norm_num) Lin.exWF (pts := [1, 7]) (by simp)

end C3.Pc
