/- The integral of a piecewise polynomial tree (property C39). -/
import Verif.Pw.Props
import Verif.Poly.IntProps

set_option linter.unusedSectionVars false

namespace C3.Pw
open MeasureTheory
open C3.Poly (Ope chebFam legFam OnInt)

theorem pieceVal_lt {f : Ope ℝ} {ls : List (Ope ℝ)} {x : ℝ} (h : x < f.ub) : pieceVal 0 (f :: ls) x = f.val x := by
  simp [pieceVal, List.find?_cons, h]

theorem pieceVal_ge {f : Ope ℝ} {ls : List (Ope ℝ)} {x : ℝ} (h : f.ub ≤ x) : pieceVal 0 (f :: ls) x = pieceVal 0 ls x := by
  simp [pieceVal, List.find?_cons, not_lt.2 h]

theorem val_continuous (f : Ope ℝ) : Continuous f.val := continuous_iff_continuousAt.2 fun x => (C3.Poly.val_hasDerivAt f x).continuousAt

/-- The integrals over consecutive pieces add up. -/
theorem sum_pieces : ∀ {ls : List (Ope ℝ)} (h0 : ls ≠ []), Consec ls →
    IntervalIntegrable (pieceVal 0 ls) volume (ls.head h0).lb (ls.getLast h0).ub ∧
    (ls.map fun f => ∫ x in f.lb..f.ub, f.val x).sum = ∫ x in (ls.head h0).lb..(ls.getLast h0).ub, pieceVal 0 ls x
  | [], h0, _ => absurd rfl h0
  | f :: ls, _, hc => by
    have hlt := hc.2 f (by simp)
    have hae : ∀ᵐ x : ℝ, x ∈ Set.uIoc f.lb f.ub → f.val x = pieceVal 0 (f :: ls) x := by
      have : ∀ᵐ x : ℝ, x ≠ f.ub := by simp [ae_iff]
      filter_upwards [this] with x hx hm
      rw [Set.uIoc_of_le hlt.le] at hm
      exact (pieceVal_lt (lt_of_le_of_ne hm.2 hx)).symm
    have hi1 : IntervalIntegrable (pieceVal 0 (f :: ls)) volume f.lb f.ub :=
      ((val_continuous f).intervalIntegrable _ _).congr_ae ((ae_restrict_iff' measurableSet_uIoc).2 hae)
    by_cases hn : ls = []
    · subst hn
      exact ⟨hi1, by simpa using intervalIntegral.integral_congr_ae hae⟩
    · have hc' : Consec ls := ⟨hc.1.tail, fun g hg => hc.2 g (List.mem_cons_of_mem _ hg)⟩
      obtain ⟨ih1, ih2⟩ := sum_pieces hn hc'
      have hfub : f.ub = (ls.head hn).lb := by
        obtain ⟨g, l, rfl⟩ := List.exists_cons_of_ne_nil hn
        exact (List.isChain_cons_cons.1 hc.1).1
      have hle : (ls.head hn).lb ≤ (ls.getLast hn).ub := by
        have := last_max hc'.pairwise hn (List.head_mem hn)
        exact (hc'.2 _ (List.head_mem hn)).le.trans this
      have heq : ∀ x ∈ Set.uIoc (ls.head hn).lb (ls.getLast hn).ub, pieceVal 0 ls x = pieceVal 0 (f :: ls) x := fun x hx => by
        rw [Set.uIoc_of_le hle] at hx
        exact (pieceVal_ge (by rw [hfub]; exact hx.1.le)).symm
      have hi2 : IntervalIntegrable (pieceVal 0 (f :: ls)) volume (ls.head hn).lb (ls.getLast hn).ub := ih1.congr heq
      rw [List.getLast_cons hn, List.head_cons]
      refine ⟨hi1.trans (by rw [hfub]; exact hi2), ?_⟩
      rw [List.map_cons, List.sum_cons, ih2, ← intervalIntegral.integral_add_adjacent_intervals hi1 (by rw [hfub]; exact hi2)]
      congr 1
      · exact intervalIntegral.integral_congr_ae hae
      · rw [hfub]; exact intervalIntegral.integral_congr_ae (Filter.Eventually.of_forall heq)

/-- C39: the integral of a tree of Legendre or Chebyshev expansions is the integral of the piecewise function over its domain. -/
theorem integrate_value {p : Pw ℝ} (h : p.Ok) (hfam : ∀ f ∈ p.leaves, (f.fam = legFam ∨ ∃ pi, f.fam = chebFam pi) ∧ OnInt f) {l u : ℝ} (hl : p.lb = .ok l) (hu : p.ub = .ok u) :
    p.integrate = .ok (∫ x in l..u, pieceVal 0 p.leaves x) := by
  rw [lb_ok h.full] at hl
  rw [ub_ok h.full] at hu
  rw [← Except.ok.inj hl, ← Except.ok.inj hu, ← (sum_pieces (leaves_ne h.full) h.consec).2]
  refine integrate_ok fun f hf => ?_
  obtain ⟨h1 | ⟨pi, h1⟩, h2⟩ := hfam f hf
  · exact C3.Poly.integrate_leg (h.wf f hf) h1 h2
  · exact C3.Poly.integrate_cheb (h.wf f hf) h1 h2

/-! ### A concrete tree -/

/-- Pieces on `[0,1]`, `[1,3]` and `[3,4]`, the last two below an inner node. -/
noncomputable def exPiece (a b : ℝ) (c : List ℝ) : Ope ℝ := ⟨legFam, c.length, a, b, ⟨2 / (b - a), -(a + b) / (b - a), (b - a) / 2, (a + b) / 2⟩, c.length, c, false⟩
noncomputable def exTree : Pw ℝ := .node [.leaf (exPiece 0 1 [1]), .node [.leaf (exPiece 1 3 [1, 2]), .leaf (exPiece 3 4 [5, 0, 1])]]

theorem exPiece_wf {a b : ℝ} {c : List ℝ} (h : 1 ≤ c.length) : (exPiece a b c).WF := ⟨h, le_rfl, le_rfl, fun h => by cases h⟩

theorem exTree_leaves : exTree.leaves = [exPiece 0 1 [1], exPiece 1 3 [1, 2], exPiece 3 4 [5, 0, 1]] := rfl

theorem exTree_ok : exTree.Ok := by
  refine ⟨by simp [exTree, Pw.Full, FullL], ?_, ?_, ?_⟩
  · rw [exTree_leaves]
    refine ⟨by simp [exPiece], fun f hf => ?_⟩
    simp only [List.mem_cons, List.not_mem_nil, or_false] at hf
    rcases hf with rfl | rfl | rfl <;> simp [exPiece] <;> norm_num
  · rw [exTree_leaves]
    intro f hf
    simp only [List.mem_cons, List.not_mem_nil, or_false] at hf
    rcases hf with rfl | rfl | rfl <;> exact exPiece_wf (by simp)
  · rw [exTree_leaves]
    intro f hf
    simp only [List.mem_cons, List.not_mem_nil, or_false] at hf
    rcases hf with rfl | rfl | rfl <;> rfl

example : exTree.integrate = .ok (∫ x in (0 : ℝ)..4, pieceVal 0 exTree.leaves x) := by
  refine integrate_value exTree_ok (fun f hf => ?_) rfl rfl
  rw [exTree_leaves] at hf
  simp only [List.mem_cons, List.not_mem_nil, or_false] at hf
  rcases hf with rfl | rfl | rfl <;> exact ⟨.inl rfl, by constructor <;> norm_num [exPiece]⟩

example (dflt : ℝ) := eval_leaf (tol := 1 / 100) (dflt := dflt) Real.sqrt exTree_ok (u := 4) (x := 2) rfl (by norm_num)
example (dflt : ℝ) := eval_outside_actual (tol := 1 / 100) (dflt := dflt) Real.sqrt exTree_ok (u := 4) (x := 5) rfl (by norm_num)
example := copy_value exTree_ok
example := flipSign_value exTree_ok
example := scale_exact (a := 3) exTree_ok
example (other : Ope ℝ → Ope ℝ → C (Ope ℝ)) := deriv_value other exTree_ok (fun f hf => by
  rw [exTree_leaves] at hf
  simp only [List.mem_cons, List.not_mem_nil, or_false] at hf
  rcases hf with rfl | rfl | rfl <;> rfl)
example := flatten_value exTree_ok
example : exTree.isFlat = false := rfl
example : exTree.boundaries = .ok [0, 1, 3, 4] := by
  rw [boundaries_value_partial exTree_ok.full (fun h => by rw [exTree_leaves] at h; simp at h)]
  rfl
example (dflt : ℝ) := evalN_value (tol := 1 / 100) (dflt := dflt) Real.sqrt exTree_ok (u := 4) rfl (N := 2) (incx := 1) (incy := 2) (x := [1 / 2, 2]) (y := [0, 0, 0]) (by norm_num)
  (fun i hi => by interval_cases i <;> norm_num) (fun i hi => by interval_cases i <;> norm_num)

end C3.Pw
