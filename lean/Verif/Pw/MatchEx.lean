/-
C77: the hypotheses of `MatchProps` are met. Gauss rules exist by `Quad/Golub`; two functions with pieces on [0,1], [1,3], [3,4] and on [0,2], [2,4].
-/
import Verif.Pw.MatchProps
import Verif.Quad.Golub

set_option linter.unusedSectionVars false

namespace C3.Pw
open C3.Poly (Ope Rule PT IsGaussLeg legFam OnInt)

theorem exists_gap : ∀ L : List ℝ, (∀ y ∈ L, 0 < y) → ∃ g : ℝ, 0 < g ∧ ∀ y ∈ L, g ≤ y
  | [], _ => ⟨1, one_pos, fun y hy => by cases hy⟩
  | a :: L, h => by
    obtain ⟨g, hg, hL⟩ := exists_gap L fun y hy => h y (by simp [hy])
    refine ⟨min a g, lt_min (h a (by simp)) hg, fun y hy => ?_⟩
    rcases List.mem_cons.1 hy with rfl | hy
    · exact min_le_left _ _
    · exact (min_le_right _ _).trans (hL y hy)

theorem gauss_pts {n : Nat} {r : Rule ℝ} (h : IsGaussLeg n r) {x : ℝ} (hx : x ∈ r.pts) : -1 < x ∧ x < 1 := by
  obtain ⟨i, hi, rfl⟩ := List.getElem_of_mem hx
  obtain ⟨-, h1, h2, -⟩ := C3.Quad.gaussLeg_inside h (j := i) (by rw [← h.pts]; exact hi)
  have e : r.pts.getD i 0 = r.pts[i] := by rw [List.getD_eq_getElem?_getD, List.getElem?_eq_getElem hi, Option.getD_some]
  exact ⟨e ▸ h1, e ▸ h2⟩

/-- Exactness alone makes the rules good for some gap: their points are inside the interval. -/
theorem GoodRules.of_gauss {Q : PT → Nat → Rule ℝ} (h : ∀ n, IsGaussLeg n (Q .leg n)) : ∃ gap, 0 < gap ∧ GoodRules Q gap := by
  obtain ⟨g, hg, hL⟩ := exists_gap ((List.range 200).flatMap fun n => (Q .leg n).pts.map (1 + ·)) (fun y hy => by
    obtain ⟨n, -, hy⟩ := List.mem_flatMap.1 hy
    obtain ⟨x, hx, rfl⟩ := List.mem_map.1 hy
    have := (gauss_pts (h n) hx).1
    linarith)
  exact ⟨g, hg, h, fun n hn x hx => ⟨hL _ (List.mem_flatMap.2 ⟨n, List.mem_range.2 (by omega), List.mem_map.2 ⟨x, hx, rfl⟩⟩), (gauss_pts (h n) hx).2⟩⟩

theorem exists_goodRules : ∃ Q gap, 0 < gap ∧ GoodRules Q gap := by
  obtain ⟨gap, h⟩ := GoodRules.of_gauss (Q := fun _ n => Classical.choose (C3.Quad.exists_gaussLeg n)) fun n => Classical.choose_spec (C3.Quad.exists_gaussLeg n)
  exact ⟨_, gap, h⟩

noncomputable def exTree2 : Pw ℝ := .node [.leaf (exPiece 0 2 [1, 1]), .leaf (exPiece 2 4 [0, 1, 1])]

theorem exTree2_leaves : exTree2.leaves = [exPiece 0 2 [1, 1], exPiece 2 4 [0, 1, 1]] := rfl

theorem exTree2_ok : exTree2.Ok := by
  refine ⟨by simp [exTree2, Pw.Full, FullL], ?_, ?_, ?_⟩
  · rw [exTree2_leaves]
    refine ⟨by simp [exPiece], fun f hf => ?_⟩
    simp only [List.mem_cons, List.not_mem_nil, or_false] at hf
    rcases hf with rfl | rfl <;> simp [exPiece] <;> norm_num
  · rw [exTree2_leaves]
    intro f hf
    simp only [List.mem_cons, List.not_mem_nil, or_false] at hf
    rcases hf with rfl | rfl <;> exact exPiece_wf (by simp)
  · rw [exTree2_leaves]
    intro f hf
    simp only [List.mem_cons, List.not_mem_nil, or_false] at hf
    rcases hf with rfl | rfl <;> rfl

theorem exPiece_leg {a b : ℝ} (h : a < b) (c : List ℝ) : LegLeaf (exPiece a b c) := by
  have hb : b - a ≠ 0 := by linarith
  refine ⟨rfl, ⟨h, ?_, ?_, ?_⟩, ⟨?_, ?_⟩⟩ <;> simp only [exPiece] <;> field_simp <;> ring

theorem exMatch : Matchable 1 exTree exTree2 := by
  refine ⟨exTree_ok, exTree2_ok, fun h => by rw [exTree_leaves] at h; simp at h, fun h => by rw [exTree2_leaves] at h; simp at h, fun f hf => ?_, fun f hf => ?_, rfl, rfl, ?_⟩
  · rw [exTree_leaves] at hf
    simp only [List.mem_cons, List.not_mem_nil, or_false] at hf
    rcases hf with rfl | rfl | rfl <;> exact ⟨exPiece_leg (by norm_num) _, by simp [exPiece]⟩
  · rw [exTree2_leaves] at hf
    simp only [List.mem_cons, List.not_mem_nil, or_false] at hf
    rcases hf with rfl | rfl <;> exact ⟨exPiece_leg (by norm_num) _, by simp [exPiece]⟩
  · intro u hu v hv
    rw [show bds exTree exTree_ok.full ++ bds exTree2 exTree2_ok.full = [0, 1, 3, 4, 0, 2, 4] from rfl] at hu hv
    simp only [List.mem_cons, List.not_mem_nil, or_false] at hu hv
    rcases hu with rfl | rfl | rfl | rfl | rfl | rfl | rfl <;> rcases hv with rfl | rfl | rfl | rfl | rfl | rfl | rfl <;> first | (left; rfl) | (right; norm_num [abs_le, le_abs])

/-- The inner product of the two, whatever exact rules the library uses, provided the tolerance of the evaluation is small enough. -/
example {Q : PT → Nat → Rule ℝ} (h : ∀ n, IsGaussLeg n (Q .leg n)) (cc : Nat → Rule ℝ) (other : Ope ℝ → Ope ℝ → C ℝ) (dflt : ℝ) : ∃ tol > 0,
    innerPw (1 / 100) (1 / 100) (legAdapt legFam 0 (1 / 100) Q cc 30) (fun p x => p.eval tol dflt Real.sqrt x) (C3.Poly.inner other) exTree exTree2 =
      .ok (∫ x in (0 : ℝ)..4, pieceVal 0 exTree.leaves x * pieceVal 0 exTree2.leaves x) := by
  obtain ⟨gap, hg, hQ⟩ := GoodRules.of_gauss h
  exact ⟨gap / 4, by positivity, inner_value_partial hQ cc le_rfl Real.sqrt exMatch (by positivity) (by norm_num) (by norm_num) (by norm_num) (by norm_num) hg.le (by linarith) other rfl rfl⟩

example : ∃ (Q : PT → Nat → Rule ℝ) (tol : ℝ), ∀ (cc : Nat → Rule ℝ) (dflt : ℝ), ∃ r,
    daxpby (1 / 100) (1 / 100) 0 1 (legAdapt legFam 0 (1 / 100) Q cc 30) (fun p x => p.eval tol dflt Real.sqrt x) 2 (some exTree) 3 (some exTree2) = .ok (some r) ∧
      ∀ t x, pieceVal t r.leaves x = 2 * pieceVal t exTree.leaves x + 3 * pieceVal t exTree2.leaves x := by
  obtain ⟨Q, gap, hg, hQ⟩ := exists_goodRules
  refine ⟨Q, gap / 4, fun cc dflt => ?_⟩
  obtain ⟨r, e, -, -, -, -, v⟩ := daxpby_value_partial (tolA := 1 / 100) (dflt := dflt) hQ cc le_rfl Real.sqrt exMatch (tol := gap / 4) (tol2 := 1 / 100) (eps := 1 / 100) (aeps := 1)
    (by positivity) (by norm_num) (by norm_num) (by norm_num) (by norm_num) hg.le (by linarith) (by norm_num) 2 3
  exact ⟨r, e, v⟩

example := daxpby_null (tol2 := 1) (eps := 1) (aeps := 1) (fun _ _ _ => .error .ub) (fun _ _ => .error .ub) exTree_ok 2 3

end C3.Pw
