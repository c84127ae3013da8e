/- C111 and C112: integral, inner product and orthonormal basis of piecewise constant elements. -/
import Verif.Pc.GradProps
import Verif.Pc.Orth
import Verif.Lin.IntProps

set_option linter.unusedSectionVars false

namespace C3.Pc
open Finset MeasureTheory
open C3.Lin (WF.swap tri nd_in forN_inplace map_range_getD)

section
variable {K : Type} [Field K] [LinearOrder K] [IsStrictOrderedRing K]

/-- The loop is the sum of value times half the length of the adjacent intervals. -/
theorem cells_ok {num : Nat} {nodes : List K} {c : Nat → C K} (g : Nat → K) (hn : nodes.length = num) (two : 2 ≤ num)
    (hc : ∀ i < num, c i = .ok (g i)) :
    cells num nodes c = .ok (∑ i ∈ range (num - 1), (g i + g (i + 1)) / 2 * (nodes.getD (i + 1) 0 - nodes.getD i 0)) := by
  obtain ⟨s, h1, h2⟩ := forR_spec (a := 1) (b := num - 1)
    (s := (g 0 * ((nodes.getD 1 0 - nodes.getD 0 0) / 2), (nodes.getD 1 0 - nodes.getD 0 0) / 2))
    (body := fun ii (s : K × K) => do
      let xp ← rd nodes (ii + 1)
      let xi ← rd nodes ii
      let ci ← c ii
      pure (s.1 + ci * (s.2 + (xp - xi) / 2), (xp - xi) / 2))
    (I := fun m s => s = (∑ i ∈ range (m - 1), (g i + g (i + 1)) / 2 * (nodes.getD (i + 1) 0 - nodes.getD i 0) +
      g (m - 1) * ((nodes.getD m 0 - nodes.getD (m - 1) 0) / 2), (nodes.getD m 0 - nodes.getD (m - 1) 0) / 2))
    (by omega) (by simp) (by
      rintro i hi1 hi2 s rfl
      refine ⟨_, by rw [rd_getD 0 (by omega), bind_ok, rd_getD 0 (by omega), bind_ok, hc i (by omega), bind_ok, pure_eq_ok], ?_⟩
      obtain ⟨m, rfl⟩ : ∃ m, i = m + 1 := ⟨i - 1, by omega⟩
      simp only [Nat.add_sub_cancel]
      rw [sum_range_succ]
      congr 1
      ring)
  obtain ⟨m, rfl⟩ : ∃ m, num = m + 2 := ⟨num - 2, by omega⟩
  rw [cells, if_neg (by omega), rd_getD 0 (by omega), bind_ok, rd_getD 0 (by omega), bind_ok, hc 0 (by omega), bind_ok, h1, bind_ok,
    rd_getD 0 (by omega), bind_ok, rd_getD 0 (by omega), bind_ok, hc _ (by omega), bind_ok, pure_eq_ok, h2]
  simp only [show m + 2 - 1 = m + 1 by omega, show m + 2 - 2 = m by omega, Nat.add_sub_cancel]
  rw [sum_range_succ]
  congr 1
  ring

theorem integrate_sum {f : CE K} (hf : f.WF) :
    integrate f = .ok (∑ i ∈ range (f.num - 1), (f.cf i + f.cf (i + 1)) / 2 * (f.nd (i + 1) - f.nd i)) := by
  have := hf.two
  rw [integrate, cassert_of (by simp; omega), bind_ok]
  exact cells_ok f.cf hf.hn hf.two fun i hi => Lin.LE.rd_cf hf hi

theorem inner_sum {tol : K} (ht : 0 ≤ tol) {f g : CE K} (hf : f.WF) (hg : g.WF) (hn : f.nodes = g.nodes) :
    inner tol f g = .ok (∑ i ∈ range (f.num - 1),
      (f.cf i * g.cf i + f.cf (i + 1) * g.cf (i + 1)) / 2 * (f.nd (i + 1) - f.nd i)) := by
  obtain ⟨hnum, hs⟩ := sdiscp_same ht hf hg hn
  rw [inner, hs, bind_ok, if_pos rfl, innerSame]
  exact cells_ok (fun i => f.cf i * g.cf i) hf.hn hf.two fun i hi => by
    rw [Lin.LE.rd_cf hf hi, bind_ok, Lin.LE.rd_cf hg (by omega), bind_ok, pure_eq_ok]

end

/-- Inside the lower half of an interval the lower node is nearest, inside the upper half the upper one. -/
theorem halves {tol : ℝ} {f : CE ℝ} (hf : f.WF) (hg : Gap tol f) {F : ℝ → ℝ} (hF : ∀ x, eval tol f x = .ok (F x)) {i : Nat}
    (hi : i + 1 < f.num) {x : ℝ} :
    (f.nd i < x → x < (f.nd i + f.nd (i + 1)) / 2 → F x = f.cf i) ∧
    ((f.nd i + f.nd (i + 1)) / 2 < x → x < f.nd (i + 1) → F x = f.cf (i + 1)) := by
  have two := hf.two
  have hab := hf.inc i hi
  have lo : f.nd 0 ≤ f.nd i := hf.le (by omega) (by omega)
  have up : f.nd (i + 1) ≤ f.nd (f.num - 1) := hf.le (by omega) (by omega)
  have key : f.nd i < x → x < f.nd (i + 1) → ∃ k, Nearest f x k ∧ F x = f.cf k := by
    intro h1 h2
    obtain ⟨v, e, _, h4⟩ := eval_value hf hg x
    rw [hF x] at e
    obtain ⟨k, hk, rfl⟩ := h4 (by linarith) (by linarith)
    exact ⟨k, hk, Except.ok.inj e⟩
  have far : ∀ {k}, k < f.num → f.nd i < x → x < f.nd (i + 1) → k ≠ i → k ≠ i + 1 →
      |x - f.nd i| < |x - f.nd k| ∨ |x - f.nd (i + 1)| < |x - f.nd k| := by
    intro k hk h1 h2 e1 e2
    rcases Nat.lt_or_ge k i with h | h
    · left
      have := hf.lt h (by omega)
      rw [abs_of_pos (by linarith), abs_of_pos (by linarith)]
      linarith
    · right
      have := hf.lt (show i + 1 < k by omega) hk
      rw [abs_of_neg (by linarith), abs_of_neg (by linarith)]
      linarith
  constructor
  · intro h1 h2
    obtain ⟨k, hk, e⟩ := key h1 (by linarith)
    rw [e]; congr 1
    by_contra hne
    have a := (hk.2 i (by omega)).1
    by_cases e2 : k = i + 1
    · subst e2
      rw [abs_of_pos (a := x - f.nd i) (by linarith), abs_of_neg (by linarith)] at a
      linarith
    · have b := (hk.2 (i + 1) hi).1
      rcases far hk.1 h1 (by linarith) hne e2 with h | h <;> linarith
  · intro h1 h2
    obtain ⟨k, hk, e⟩ := key (by linarith) h2
    rw [e]; congr 1
    by_contra hne
    have a := (hk.2 (i + 1) hi).1
    by_cases e2 : k = i
    · subst e2
      rw [abs_of_pos (a := x - f.nd k) (by linarith), abs_of_neg (by linarith)] at a
      linarith
    · have b := (hk.2 i (by omega)).1
      rcases far hk.1 (by linarith) h2 e2 hne with h | h <;> linarith

theorem const_on {G : ℝ → ℝ} {a b v : ℝ} (hab : a < b) (h : ∀ x, a < x → x < b → G x = v) :
    IntervalIntegrable G volume a b ∧ ∫ x in a..b, G x = v * (b - a) := by
  have e : Set.EqOn (fun _ => v) G (Set.uIoo a b) := by
    intro x hx
    rw [Set.uIoo_of_le hab.le] at hx
    exact (h x hx.1 hx.2).symm
  refine ⟨(intervalIntegrable_const (μ := volume) (a := a) (b := b) (c := v)).congr_uIoo e, ?_⟩
  rw [← intervalIntegral.integral_congr_uIoo e, intervalIntegral.integral_const, smul_eq_mul, mul_comm]

/-- Integral of a function that is constant on the halves of the intervals between nodes. -/
theorem integral_cells {f : CE ℝ} (hf : f.WF) {G : ℝ → ℝ} {c : Nat → ℝ}
    (h : ∀ i, i + 1 < f.num → ∀ x, (f.nd i < x → x < (f.nd i + f.nd (i + 1)) / 2 → G x = c i) ∧
      ((f.nd i + f.nd (i + 1)) / 2 < x → x < f.nd (i + 1) → G x = c (i + 1))) :
    IntervalIntegrable G volume (f.nd 0) (f.nd (f.num - 1)) ∧
    ∫ x in f.nd 0..f.nd (f.num - 1), G x = ∑ i ∈ range (f.num - 1), (c i + c (i + 1)) / 2 * (f.nd (i + 1) - f.nd i) := by
  have seg : ∀ k < f.num - 1, IntervalIntegrable G volume (f.nd k) (f.nd (k + 1)) ∧
      ∫ x in f.nd k..f.nd (k + 1), G x = (c k + c (k + 1)) / 2 * (f.nd (k + 1) - f.nd k) := by
    intro k hk
    have hab := hf.inc k (by omega)
    obtain ⟨a1, a2⟩ := const_on (G := G) (a := f.nd k) (b := (f.nd k + f.nd (k + 1)) / 2) (v := c k) (by linarith)
      fun x => (h k (by omega) x).1
    obtain ⟨b1, b2⟩ := const_on (G := G) (a := (f.nd k + f.nd (k + 1)) / 2) (b := f.nd (k + 1)) (v := c (k + 1)) (by linarith)
      fun x => (h k (by omega) x).2
    refine ⟨a1.trans b1, ?_⟩
    rw [← intervalIntegral.integral_add_adjacent_intervals a1 b1, a2, b2]
    ring
  refine ⟨IntervalIntegrable.trans_iterate fun k hk => (seg k hk).1, ?_⟩
  rw [← intervalIntegral.sum_integral_adjacent_intervals fun k hk => (seg k hk).1]
  exact sum_congr rfl fun k hk => (seg k (mem_range.1 hk)).2

/-- **C111** The integral routine returns the integral over the range of the function that evaluation computes. -/
theorem integrate_value {tol : ℝ} {f : CE ℝ} (hf : f.WF) (hg : Gap tol f) {F : ℝ → ℝ} (hF : ∀ x, eval tol f x = .ok (F x)) :
    IntervalIntegrable F volume (f.nd 0) (f.nd (f.num - 1)) ∧
    integrate f = .ok (∫ x in f.nd 0..f.nd (f.num - 1), F x) := by
  obtain ⟨h1, h2⟩ := integral_cells hf (G := F) (c := f.cf) fun i hi x => halves hf hg hF hi
  exact ⟨h1, by rw [h2, integrate_sum hf]⟩

/-- **C111** On a common grid the inner product is the integral of the product of the two functions that evaluation computes. -/
theorem inner_value {tol : ℝ} (ht : 0 ≤ tol) {f g : CE ℝ} (hf : f.WF) (hg : g.WF) (hn : f.nodes = g.nodes) (hgap : Gap tol f)
    {F G : ℝ → ℝ} (hF : ∀ x, eval tol f x = .ok (F x)) (hG : ∀ x, eval tol g x = .ok (G x)) :
    IntervalIntegrable (fun x => F x * G x) volume (f.nd 0) (f.nd (f.num - 1)) ∧
    inner tol f g = .ok (∫ x in f.nd 0..f.nd (f.num - 1), F x * G x) := by
  have hnum : f.num = g.num := by rw [← hf.hn, ← hg.hn, hn]
  have hnd : ∀ j, f.nd j = g.nd j := fun j => by rw [Lin.LE.nd, Lin.LE.nd, hn]
  have hgap' : Gap tol g := fun i hi => by rw [← hnd, ← hnd]; exact hgap i (by omega)
  obtain ⟨h1, h2⟩ := integral_cells hf (G := fun x => F x * G x) (c := fun i => f.cf i * g.cf i) (by
    intro i hi x
    have a := halves hf hgap hF hi (x := x)
    have b := halves hg hgap' hG (show i + 1 < g.num by omega) (x := x)
    rw [← hnd, ← hnd] at b
    exact ⟨fun p q => by rw [a.1 p q, b.1 p q], fun p q => by rw [a.2 p q, b.2 p q]⟩)
  exact ⟨h1, by rw [h2, inner_sum ht hf hg hn]⟩

/-- **C111** The norm is the square root of the integral of the square. -/
theorem norm_value {tol : ℝ} (ht : 0 ≤ tol) {f : CE ℝ} (hf : f.WF) (hgap : Gap tol f) {F : ℝ → ℝ}
    (hF : ∀ x, eval tol f x = .ok (F x)) : norm tol f = .ok (Real.sqrt (∫ x in f.nd 0..f.nd (f.num - 1), F x ^ 2)) := by
  rw [norm, (inner_value ht hf hf rfl hgap hF hF).2, bind_ok, pure_eq_ok]
  congr 3
  funext x
  ring

/-- **C111** On different grids the inner product is not the integral of the product: the same function (constant one) on two
grids has two different inner products with `4·1[x ≥ 1/2]`, 3/2 and 2. -/
theorem inner_grids_counterexample :
    inner (1 / 10 ^ 15 : ℚ) ⟨2, [0, 1], [0, 4]⟩ ⟨3, [0, 1 / 4, 1], [1, 1, 1]⟩ = .ok (3 / 2) ∧
      inner (1 / 10 ^ 15 : ℚ) ⟨2, [0, 1], [0, 4]⟩ ⟨2, [0, 1], [1, 1]⟩ = .ok 2 ∧
      (∀ x : ℚ, 0 ≤ x → x ≤ 1 → eval (1 / 10 ^ 15 : ℚ) ⟨3, [0, 1 / 4, 1], [1, 1, 1]⟩ x = .ok 1 ∧
        eval (1 / 10 ^ 15 : ℚ) ⟨2, [0, 1], [1, 1]⟩ x = .ok 1) := by
  refine ⟨by decide +kernel, by decide +kernel, fun x h0 h1 => ?_⟩
  have w1 : (Lin.LE.mk 3 [0, 1 / 4, 1] [1, 1, 1] : CE ℚ).WF := ⟨rfl, rfl, by decide, by
    intro i hi
    have : i = 0 ∨ i = 1 := by dsimp at hi; omega
    rcases this with rfl | rfl <;> norm_num [Lin.LE.nd]⟩
  have w2 : (Lin.LE.mk 2 [0, 1] [1, 1] : CE ℚ).WF := ⟨rfl, rfl, by decide, by
    intro i hi
    have : i = 0 := by dsimp at hi; omega
    subst this; norm_num [Lin.LE.nd]⟩
  constructor
  · obtain ⟨i, hi, e, _⟩ := eval_total (tol := 1 / 10 ^ 15) w1 (x := x) h0 h1
    rw [e]
    have : i = 0 ∨ i = 1 ∨ i = 2 := by dsimp at hi; omega
    rcases this with rfl | rfl | rfl <;> rfl
  · obtain ⟨i, hi, e, _⟩ := eval_total (tol := 1 / 10 ^ 15) w2 (x := x) h0 h1
    rw [e]
    have : i = 0 ∨ i = 1 := by dsimp at hi; omega
    rcases this with rfl | rfl <;> rfl

/-- **C111** The inner product of functions with separate ranges reads out of bounds instead of returning zero. -/
theorem inner_disjoint_actual {tol : ℝ} {f g : CE ℝ} (hf : f.WF) (hg : g.WF) (hn : f.num ≠ g.num)
    (h : g.nd (g.num - 1) < f.nd 0) : inner tol f g = .error .oob := by
  have a := hf.two
  have b := hg.two
  rw [inner, Lin.sdiscp, if_pos hn, bind_ok, if_neg (by simp), innerGrid, Lin.LE.rd_nd hf (by omega), bind_ok,
    Lin.LE.rd_nd hg (by omega), bind_ok, Lin.LE.rd_nd hg (by omega), bind_ok, Lin.LE.rd_nd hf (by omega), bind_ok, if_pos h, bind_ok]
  rfl

/-- A sample of the common grid of two functions: the node with the values of both functions there. -/
def Sample (tol : ℝ) (f g : CE ℝ) (e : ℝ × ℝ × ℝ) : Prop :=
  (∃ i, i < f.num ∧ e.1 = f.nd i ∧ e.2.1 = f.cf i ∧
    (eval tol g e.1 = .ok e.2.2 ∨ ∃ j, j < g.num ∧ |e.1 - g.nd j| < tol ∧ e.2.2 = g.cf j)) ∨
  ∃ j, j < g.num ∧ e.1 = g.nd j ∧ e.2.2 = g.cf j ∧ eval tol f e.1 = .ok e.2.1

theorem mergeInner_values {tol : ℝ} {f g : CE ℝ} (hf : f.WF) (hg : g.WF) :
    ∀ fuel i j acc r, mergeInner tol f g fuel i j acc = .ok r → (∀ e ∈ acc, Sample tol f g e) → ∀ e ∈ r, Sample tol f g e := by
  intro fuel
  induction fuel with
  | zero => intro i j acc r h; cases h
  | succ n ih =>
    intro i j acc r h ha
    have add : ∀ x : ℝ × ℝ × ℝ, Sample tol f g x → ∀ e ∈ acc ++ [x], Sample tol f g e := by
      intro x hx e he
      rcases List.mem_append.1 he with h | h
      · exact ha e h
      · rw [List.mem_singleton.1 h]; exact hx
    rw [mergeInner] at h
    split_ifs at h with h1
    · rw [Lin.LE.rd_nd hf h1.1, bind_ok, Lin.LE.rd_nd hg h1.2, bind_ok] at h
      split_ifs at h with h2 h3 h4
      · rw [Lin.LE.rd_cf hf h1.1, bind_ok, Lin.LE.rd_cf hg h1.2, bind_ok] at h
        exact ih _ _ _ _ h (add _ (.inl ⟨i, h1.1, rfl, rfl, .inr ⟨j, h1.2, h2, rfl⟩⟩))
      · rw [Lin.LE.rd_cf hf h1.1, bind_ok] at h
        cases hw : eval tol g (f.nd i) with
        | error e => rw [hw] at h; cases h
        | ok w =>
          rw [hw, bind_ok] at h
          exact ih _ _ _ _ h (add _ (.inl ⟨i, h1.1, rfl, rfl, .inl hw⟩))
      · cases hw : eval tol f (g.nd j) with
        | error e => rw [hw] at h; cases h
        | ok w =>
          rw [hw, bind_ok, Lin.LE.rd_cf hg h1.2, bind_ok] at h
          exact ih _ _ _ _ h (add _ (.inr ⟨j, h1.2, rfl, rfl, hw⟩))
      · exact ih _ _ _ _ h ha
    · cases h; exact ha

/-- **C111** On different grids every entry of the common grid is a node of one of the two functions, together with the value of
both functions at that node. -/
theorem innerGrid_values {tol : ℝ} {f g : CE ℝ} (hf : f.WF) (hg : g.WF) {r : List (ℝ × ℝ × ℝ)} (h : innerGrid tol f g = .ok r) :
    ∀ e ∈ r, Sample tol f g e := by
  have a := hf.two
  have b := hg.two
  rw [innerGrid, Lin.LE.rd_nd hf (by omega), bind_ok, Lin.LE.rd_nd hg (by omega), bind_ok, Lin.LE.rd_nd hg (by omega), bind_ok,
    Lin.LE.rd_nd hf (by omega), bind_ok] at h
  split_ifs at h
  · cases h; intro e he; cases he
  · cases h; intro e he; cases he
  · cases h1 : Lin.skipTo f.nodes (g.nd 0) f.num 0 with
    | error e => rw [h1] at h; cases h
    | ok i =>
      cases h2 : Lin.skipTo g.nodes (f.nd 0) g.num 0 with
      | error e => rw [h1, bind_ok, h2] at h; cases h
      | ok j =>
        rw [h1, bind_ok, h2, bind_ok] at h
        exact mergeInner_values hf hg _ _ _ _ _ h (by intro e he; cases he)

/-- The hypothesis of `innerGrid_values` is met by two functions with three and two nodes. -/
example : innerGrid (1 / 10 ^ 15 : ℚ) ⟨2, [0, 1], [0, 4]⟩ ⟨3, [0, 1 / 4, 1], [1, 2, 3]⟩ = .ok [(0, 0, 1), (1 / 4, 0, 2), (1, 4, 3)] := by
  decide +kernel

/-! ### Orthonormal basis -/

/-- Half the length of the adjacent intervals. -/
noncomputable def len (num : Nat) (nodes : List ℝ) (i : Nat) : ℝ :=
  (if i = 0 then 0 else (nodes.getD i 0 - nodes.getD (i - 1) 0) / 2) +
  (if i = num - 1 then 0 else (nodes.getD (i + 1) 0 - nodes.getD i 0) / 2)

theorem len_pos {num : Nat} {nodes : List ℝ} (h : (Lin.LE.mk num nodes nodes).WF) {i : Nat} (hi : i < num) : 0 < len num nodes i := by
  have two : 2 ≤ num := h.two
  have p : ∀ k, k + 1 < num → nodes.getD k 0 < nodes.getD (k + 1) 0 := fun k hk => h.inc k hk
  rw [len]
  by_cases h0 : i = 0
  · subst h0
    have := p 0 (by omega)
    rw [if_pos rfl, if_neg (by omega)]; linarith
  · obtain ⟨m, rfl⟩ : ∃ m, i = m + 1 := ⟨i - 1, by omega⟩
    have := p m (by omega)
    simp only [Nat.add_sub_cancel]
    rw [if_neg (by omega)]
    by_cases h1 : m + 1 = num - 1
    · rw [if_pos h1]; linarith
    · have := p (m + 1) (by omega)
      rw [if_neg h1]; linarith

theorem cellLen_ok {num : Nat} {nodes : List ℝ} (h : (Lin.LE.mk num nodes nodes).WF) {i : Nat} (hi : i < num) :
    cellLen num nodes i = .ok (len num nodes i) := by
  have two : 2 ≤ num := h.two
  have hlen : nodes.length = num := h.hn
  rw [cellLen, len]
  by_cases h0 : i = 0
  · subst h0
    rw [if_pos rfl, if_pos rfl, if_neg (by omega), rd_getD 0 (by omega), bind_ok, rd_getD 0 (by omega), bind_ok, pure_eq_ok, zero_add]
  · rw [if_neg h0, if_neg h0]
    by_cases h1 : i = num - 1
    · rw [if_pos h1, if_pos h1, rd_getD 0 (by omega), bind_ok, rd_getD 0 (by omega), bind_ok, pure_eq_ok, add_zero]
    · rw [if_neg h1, if_neg h1, rd_getD 0 (by omega), bind_ok, rd_getD 0 (by omega), bind_ok, rd_getD 0 (by omega), bind_ok, pure_eq_ok]

/-- Function number `i` of the basis. -/
noncomputable def bf (num : Nat) (nodes : List ℝ) (i : Nat) : CE ℝ :=
  ⟨num, nodes, (List.replicate num 0).set i (Real.sqrt (1 / len num nodes i))⟩

theorem orthFun_ok {tiny : ℝ} {num : Nat} {nodes : List ℝ} (h : (Lin.LE.mk num nodes nodes).WF) {i : Nat} (hi : i < num) :
    orthFun tiny num nodes i = .ok (bf num nodes i) := by
  have two : 2 ≤ num := h.two
  rw [orthFun, cassert_of (by simp; omega), bind_ok, if_pos hi, cellLen_ok h hi, bind_ok, Lin.dv_ok (len_pos h hi).ne', bind_ok,
    wr_ok _ (by simpa using hi), bind_ok, pure_eq_ok]
  rfl

theorem bf_cf {num : Nat} {nodes : List ℝ} {i j : Nat} (hj : j < num) :
    (bf num nodes i).cf j = if j = i then Real.sqrt (1 / len num nodes i) else 0 := by
  show ((List.replicate num (0 : ℝ)).set i _).getD j 0 = _
  by_cases e : j = i
  · subst e
    rw [if_pos rfl, List.getD_eq_getElem?_getD, List.getElem?_set_self (by simpa using hj)]; rfl
  · rw [if_neg e, List.getD_eq_getElem?_getD, List.getElem?_set_ne (Ne.symm e)]; simp [hj]

theorem bf_wf {num : Nat} {nodes : List ℝ} (h : (Lin.LE.mk num nodes nodes).WF) (i : Nat) : (bf num nodes i).WF :=
  WF.swap h (by simp)

/-- Regrouping of the sum over intervals by nodes, for a single nonzero node. -/
theorem sum_single {num : Nat} {nodes : List ℝ} (two : 2 ≤ num) {i : Nat} (hi : i < num) (v : ℝ) :
    ∑ k ∈ range (num - 1), ((if k = i then v else 0) + (if k + 1 = i then v else 0)) / 2 * (nodes.getD (k + 1) 0 - nodes.getD k 0) =
      v * len num nodes i := by
  have e : ∀ k, ((if k = i then v else 0) + (if k + 1 = i then v else 0)) / 2 * (nodes.getD (k + 1) 0 - nodes.getD k 0) =
      (if k = i then v / 2 * (nodes.getD (i + 1) 0 - nodes.getD i 0) else 0) +
      (if k = i - 1 then (if i = 0 then 0 else v / 2 * (nodes.getD i 0 - nodes.getD (i - 1) 0)) else 0) := by
    intro k
    by_cases h0 : i = 0
    · subst h0
      by_cases h1 : k = 0
      · subst h1; simp
      · simp [h1]
    · obtain ⟨m, rfl⟩ : ∃ m, i = m + 1 := ⟨i - 1, by omega⟩
      by_cases h1 : k = m + 1
      · subst h1; simp
      · by_cases h2 : k = m
        · subst h2; simp
        · simp [h1, h2]
  rw [sum_congr rfl fun k _ => e k, sum_add_distrib, sum_ite_eq', sum_ite_eq', len]
  have m2 : i - 1 ∈ range (num - 1) := mem_range.2 (by omega)
  rw [if_pos m2]
  by_cases h1 : i = num - 1
  · rw [if_neg (by rw [mem_range]; omega), if_pos h1]
    by_cases h0 : i = 0
    · rw [if_pos h0, if_pos h0]; ring
    · rw [if_neg h0, if_neg h0]; ring
  · rw [if_pos (mem_range.2 (by omega)), if_neg h1]
    by_cases h0 : i = 0
    · rw [if_pos h0, if_pos h0]; ring
    · rw [if_neg h0, if_neg h0]; ring

theorem inner_bf {tol : ℝ} (ht : 0 ≤ tol) {num : Nat} {nodes : List ℝ} (h : (Lin.LE.mk num nodes nodes).WF) {i j : Nat}
    (hi : i < num) : inner tol (bf num nodes i) (bf num nodes j) = .ok (if i = j then 1 else 0) := by
  have two : 2 ≤ num := h.two
  rw [inner_sum ht (bf_wf h i) (bf_wf h j) rfl]
  congr 1
  have e : ∀ k < num, (bf num nodes i).cf k * (bf num nodes j).cf k = if k = i then (if i = j then 1 / len num nodes i else 0) else 0 := by
    intro k hk
    rw [bf_cf hk, bf_cf hk]
    by_cases h1 : k = i
    · subst h1
      by_cases h2 : k = j
      · subst h2
        rw [if_pos rfl, if_pos rfl, if_pos rfl, Real.mul_self_sqrt (by have := len_pos h hk; positivity)]
      · rw [if_neg h2, mul_zero, if_pos rfl, if_neg h2]
    · rw [if_neg h1, zero_mul, if_neg h1]
  have : ∀ k ∈ range ((bf num nodes i).num - 1),
      ((bf num nodes i).cf k * (bf num nodes j).cf k + (bf num nodes i).cf (k + 1) * (bf num nodes j).cf (k + 1)) / 2 *
        ((bf num nodes i).nd (k + 1) - (bf num nodes i).nd k) =
      ((if k = i then (if i = j then 1 / len num nodes i else 0) else 0) +
        (if k + 1 = i then (if i = j then 1 / len num nodes i else 0) else 0)) / 2 * (nodes.getD (k + 1) 0 - nodes.getD k 0) := by
    intro k hk
    have hk' : k < num - 1 := mem_range.1 hk
    rw [e k (by omega), e (k + 1) (by omega)]
    rfl
  rw [sum_congr rfl this]
  show ∑ k ∈ range (num - 1), _ = _
  rw [sum_single two hi]
  by_cases h2 : i = j
  · rw [if_pos h2, if_pos h2, one_div, inv_mul_cancel₀ (len_pos h hi).ne']
  · rw [if_neg h2, if_neg h2, zero_mul]

/-- **C112** The basis: as many functions as requested, all on the given grid, with inner products one and zero; together with
`inner_value` they are orthonormal with respect to the integral. Missing: more functions than nodes
(`orthBasis_extra_counterexample`). -/
theorem orthBasis_value_partial {tol tiny : ℝ} (ht : 0 ≤ tol) {n num : Nat} {nodes : List ℝ} (h : (Lin.LE.mk num nodes nodes).WF)
    (hn : n ≤ num) :
    ∃ fs : List (CE ℝ), orthBasis tiny n num nodes = .ok fs ∧ fs.length = n ∧ (∀ f ∈ fs, f.WF ∧ f.nodes = nodes) ∧
      ∀ i (hi : i < fs.length) j (hj : j < fs.length), inner tol fs[i] fs[j] = .ok (if i = j then 1 else 0) := by
  obtain ⟨fs, h1, h2⟩ := forN_spec (n := n) (s := ([] : List (CE ℝ)))
    (body := fun ii fs => do
      let f ← orthFun tiny num nodes ii
      pure (fs ++ [f]))
    (I := fun m fs => fs = (List.range m).map (bf num nodes)) rfl (by
      rintro i hi s rfl
      exact ⟨_, by rw [orthFun_ok h (by omega), bind_ok, pure_eq_ok], by rw [List.range_succ, List.map_append]; rfl⟩)
  subst h2
  refine ⟨_, h1, by simp, ?_, ?_⟩
  · intro f hf
    obtain ⟨k, _, rfl⟩ := List.mem_map.1 hf
    exact ⟨bf_wf h k, rfl⟩
  · intro i hi j hj
    simp only [List.length_map, List.length_range] at hi hj
    simp only [List.getElem_map, List.getElem_range]
    exact inner_bf ht h (by omega)

/-- **C112** More functions than nodes: the third function on two nodes is (almost) zero, and not orthogonal to the first. -/
theorem orthBasis_extra_counterexample {tiny : ℝ} (ht : 0 < tiny) (ht1 : tiny < 1) :
    ∃ f0 f1 f2 : CE ℝ, ∃ v w : ℝ, orthBasis tiny 3 2 [0, 2] = .ok [f0, f1, f2] ∧ inner 0 f0 f2 = .ok v ∧ v ≠ 0 ∧
      inner 0 f2 f2 = .ok w ∧ w < 1 := by
  have h : (Lin.LE.mk 2 [0, 2] [0, 2] : CE ℝ).WF := ⟨rfl, rfl, by simp, by
    intro i hi
    have : i = 0 := by dsimp at hi; omega
    subst this; norm_num [Lin.LE.nd]⟩
  have w2 : (Lin.LE.mk 2 [0, 2] [tiny, 0] : CE ℝ).WF := WF.swap h rfl
  have e2 : orthFun tiny 2 [0, 2] 2 = .ok ⟨2, [0, 2], [tiny, 0]⟩ := rfl
  refine ⟨bf 2 [0, 2] 0, bf 2 [0, 2] 1, ⟨2, [0, 2], [tiny, 0]⟩, tiny, tiny ^ 2, ?_, ?_, ht.ne', ?_, by nlinarith⟩
  · rw [orthBasis, forN_succ, forN_succ, forN_succ, forN_zero]
    rw [orthFun_ok h (by omega)]
    simp only [bind_ok, pure_eq_ok]
    rw [orthFun_ok h (by omega)]
    simp only [bind_ok, pure_eq_ok]
    rw [e2]
    rfl
  · rw [inner_sum le_rfl (bf_wf h 0) w2 rfl]
    norm_num [bf, Lin.LE.cf, Lin.LE.nd, len]
  · rw [inner_sum le_rfl w2 w2 rfl]
    norm_num [Lin.LE.cf, Lin.LE.nd]
    ring

/-! ### Non-vacuity -/

theorem exGapR : Gap (1 / 10 ^ 15) (Lin.LE.mk 3 [0, 1, 3] [2, 5, 1] : CE ℝ) := by
  intro i hi
  have : i = 0 ∨ i = 1 := by dsimp at hi; omega
  rcases this with rfl | rfl <;> norm_num [Lin.LE.nd]

example : ∃ F : ℝ → ℝ, (∀ x, eval (1 / 10 ^ 15) (Lin.LE.mk 3 [0, 1, 3] [2, 5, 1] : CE ℝ) x = .ok (F x)) := by
  choose F hF using fun x => eval_value (tol := 1 / 10 ^ 15) Lin.exWFR exGapR x
  exact ⟨F, fun x => (hF x).1⟩
example {F : ℝ → ℝ} (hF : ∀ x, eval (1 / 10 ^ 15) (Lin.LE.mk 3 [0, 1, 3] [2, 5, 1] : CE ℝ) x = .ok (F x)) :=
  integrate_value Lin.exWFR exGapR hF
example {F : ℝ → ℝ} (hF : ∀ x, eval (1 / 10 ^ 15) (Lin.LE.mk 3 [0, 1, 3] [2, 5, 1] : CE ℝ) x = .ok (F x)) :
    HasDerivAt F 0 (5 / 4) := derivEval_value Lin.exWFR exGapR hF (x := 5 / 4) (i := 1) (by simp) (by norm_num [Lin.LE.nd])
  (by norm_num [Lin.LE.nd]) (by
    intro j hj hne
    have : j = 0 ∨ j = 2 := by dsimp at hj; omega
    rcases this with rfl | rfl <;> norm_num [Lin.LE.nd, abs_of_pos, abs_of_neg])
example := orthBasis_value_partial (tol := 1 / 10 ^ 15) (tiny := 1 / 10 ^ 20) (by norm_num) (n := 2) (WF.swap Lin.exWFR rfl) (by simp)

end C3.Pc
