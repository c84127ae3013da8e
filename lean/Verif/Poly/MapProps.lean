/-
C70: the mapping of an expansion between its domain and the reference domain.
-/
import Verif.Poly.ApproxProps

set_option linter.unusedSectionVars false

namespace C3.Poly
open Finset
open C3.Lin (dv dv_ok)
variable {K : Type} [Field K] [LinearOrder K] [IsStrictOrderedRing K]

/-- A new expansion on `[lb,ub]`: the mapping sends the bounds to the bounds of the reference domain, the inverse mapping is its inverse,
and all coefficients are zero. -/
theorem init_map (fam : Fam K) (num : Nat) {lb ub : K} (hpt : fam.pt ≠ .herm) (h1 : fam.lower < fam.upper) (h2 : lb < ub) :
    ∃ f, init fam num lb ub = .ok f ∧ f.fam = fam ∧ f.num = num ∧ f.lb = lb ∧ f.ub = ub ∧ f.krist = false ∧
      f.map.map lb = fam.lower ∧ f.map.map ub = fam.upper ∧ f.map.Inv ∧ 0 < f.map.slope ∧
      (∀ x, f.map.inv (f.map.map x) = x) ∧ (∀ t, f.map.map (f.map.inv t) = t) ∧
      (1 ≤ num → (fam.pt = .cheb → ∃ pi, fam = chebFam pi) → f.WF) ∧ ∀ k, f.coeff.getD k 0 = 0 := by
  have d1 : ub - lb ≠ 0 := (sub_pos.2 h2).ne'
  have d2 : fam.upper - fam.lower ≠ 0 := (sub_pos.2 h1).ne'
  have d3 : (fam.upper - fam.lower) / (ub - lb) ≠ 0 := div_ne_zero d2 d1
  have e : init fam num lb ub = .ok ⟨fam, num, lb, ub, ⟨(fam.upper - fam.lower) / (ub - lb),
      fam.upper - (fam.upper - fam.lower) / (ub - lb) * ub, 1 / ((fam.upper - fam.lower) / (ub - lb)),
      -(fam.upper - (fam.upper - fam.lower) / (ub - lb) * ub) / ((fam.upper - fam.lower) / (ub - lb))⟩, num + 50,
      List.replicate (num + 50) 0, false⟩ := by
    unfold init
    split
    · rename_i h; exact absurd h hpt
    · rw [dv_ok d1, bind_ok]; dsimp only; rw [dv_ok d3, bind_ok, dv_ok d3, bind_ok]; rfl
  have hinv : SMap.Inv (⟨(fam.upper - fam.lower) / (ub - lb),
      fam.upper - (fam.upper - fam.lower) / (ub - lb) * ub, 1 / ((fam.upper - fam.lower) / (ub - lb)),
      -(fam.upper - (fam.upper - fam.lower) / (ub - lb) * ub) / ((fam.upper - fam.lower) / (ub - lb))⟩ : SMap K) := by
    refine ⟨mul_one_div_cancel d3, ?_⟩
    dsimp only
    rw [mul_div_cancel₀ _ d3]; ring
  refine ⟨_, e, rfl, rfl, rfl, rfl, rfl, ?_, ?_, hinv, div_pos (sub_pos.2 h1) (sub_pos.2 h2), hinv.left, hinv.right,
    fun hn hc => ⟨hn, by dsimp only; omega, by dsimp only; rw [List.length_replicate], hc⟩, fun k => ?_⟩
  · show (fam.upper - fam.lower) / (ub - lb) * lb + (fam.upper - (fam.upper - fam.lower) / (ub - lb) * ub) = fam.lower
    field_simp; ring
  · show (fam.upper - fam.lower) / (ub - lb) * ub + (fam.upper - (fam.upper - fam.lower) / (ub - lb) * ub) = fam.upper
    ring
  · dsimp only
    rw [List.getD_eq_getElem?_getD, List.getElem?_replicate]; split <;> rfl

/-- Interior points are mapped into the reference domain and back. -/
theorem init_map_mem (fam : Fam K) (num : Nat) {lb ub : K} (hpt : fam.pt ≠ .herm) (h1 : fam.lower < fam.upper) (h2 : lb < ub) :
    ∃ f, init fam num lb ub = .ok f ∧ (∀ x, lb ≤ x ∧ x ≤ ub ↔ fam.lower ≤ f.map.map x ∧ f.map.map x ≤ fam.upper) := by
  obtain ⟨f, e, -, -, -, -, -, a, b, -, hs, -, -, -, -⟩ := init_map fam num hpt h1 h2
  refine ⟨f, e, fun x => ?_⟩
  rw [← a, ← b]
  unfold SMap.map
  simp only [add_le_add_iff_right, mul_le_mul_iff_right₀ hs]

/-- Hermite expansions made from options map mean and standard deviation to 0 and 1. -/
theorem initOpts_herm (o : Opts K) (num : Nat) (hpt : o.fam.pt = .herm) (hs : o.std ≠ 0) :
    ∃ f, initOpts o num = .ok f ∧ f.fam = o.fam ∧ f.num = num ∧ f.krist = o.krist ∧ f.map.Inv ∧
      f.map.map o.mean = 0 ∧ f.map.map (o.mean + o.std) = 1 ∧
      (1 ≤ num → f.WF) ∧ ∀ k, f.coeff.getD k 0 = 0 := by
  have e : initOpts o num = .ok ⟨o.fam, num, o.lb, o.ub, ⟨1 / o.std, -o.mean / o.std, o.std, o.mean⟩, num + 50,
      List.replicate (num + 50) 0, o.krist⟩ := by
    unfold initOpts init
    rw [hpt]
    dsimp only
    rw [bind_ok, dv_ok hs, bind_ok, dv_ok hs, bind_ok]; rfl
  have hinv : SMap.Inv (⟨1 / o.std, -o.mean / o.std, o.std, o.mean⟩ : SMap K) := by
    refine ⟨one_div_mul_cancel hs, ?_⟩
    dsimp only; field_simp; ring
  refine ⟨_, e, rfl, rfl, rfl, hinv, ?_, ?_,
    fun hn => ⟨hn, by dsimp only; omega, by dsimp only; rw [List.length_replicate], fun h => by rw [hpt] at h; cases h⟩, fun k => ?_⟩
  · show 1 / o.std * o.mean + -o.mean / o.std = 0
    field_simp; ring
  · show 1 / o.std * (o.mean + o.std) + -o.mean / o.std = 1
    field_simp; ring
  · dsimp only
    rw [List.getD_eq_getElem?_getD, List.getElem?_replicate]; split <;> rfl

/-- Expansions made from options for the other families. -/
theorem initOpts_other (o : Opts K) (num : Nat) (hpt : o.fam.pt ≠ .herm) {p : Ope K} (hp : init o.fam num o.lb o.ub = .ok p) :
    initOpts o num = .ok { p with krist := o.krist } := by
  unfold initOpts
  rw [hp, bind_ok]
  split
  · rename_i h; exact absurd h hpt
  · rfl

example : (init (chebFam (3 : ℚ)) 2 4 10).map (fun f => f.map) = .ok ⟨1 / 3, -7 / 3, 3, 7⟩ := by decide +kernel

end C3.Poly
