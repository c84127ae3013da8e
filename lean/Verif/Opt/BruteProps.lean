/-
The brute force optimizer: the first best point of the table.
-/
import Verif.Opt.Lemmas

set_option linter.unusedSectionVars false

namespace C3.Opt
open Finset

variable {K : Type} [Field K] [LinearOrder K] [IsStrictOrderedRing K]

/-- Specification: the `i`-th point of a table of points with `d` coordinates stored one after the other. -/
def pt (ws : List K) (d i : Nat) : List K := (List.range d).map fun j => ws.getD (i * d + j) 0

theorem loc_ok {ws : List K} {d ii : Nat} (h : (ii + 1) * d ≤ ws.length) : loc ws d ii = .ok (pt ws d ii) := by
  obtain ⟨b, h1, h2⟩ := forN_spec (body := fun j l => do
    let v ← rd ws (ii * d + j)
    pure (l ++ [v])) (n := d) (s := ([] : List K)) (I := fun k l => l = (List.range k).map fun j => ws.getD (ii * d + j) 0)
    rfl (by
      intro i hi s hs
      have : ii * d + i < ws.length := by
        have : (ii + 1) * d = ii * d + d := by ring
        omega
      rw [rd_getD 0 this, bind_ok]
      exact ⟨_, rfl, by rw [hs, List.range_succ, List.map_append]; rfl⟩)
  rw [loc, h1, h2]; rfl

/-- C82: with a table of at least one point the brute force optimizer returns the value and the coordinates of the first best point of
the table, whatever the start was. -/
theorem bruteForce_spec (o : Obj K) {d nlocs : Nat} {ws start : List K} (hn : 1 ≤ nlocs) (hw : nlocs * d ≤ ws.length)
    (hs : start.length = d) :
    ∃ i < nlocs, bruteForce o d nlocs (some ws) start = .ok (o.f (pt ws d i), pt ws d i) ∧
      (∀ j < nlocs, o.f (pt ws d i) ≤ o.f (pt ws d j)) ∧ ∀ j < i, o.f (pt ws d i) < o.f (pt ws d j) := by
  have hle : ∀ i < nlocs, (i + 1) * d ≤ ws.length := fun i hi => le_trans (Nat.mul_le_mul_right d hi) hw
  obtain ⟨s, h1, h2, h3, h4, h5⟩ := forR_spec (a := 1) (b := nlocs) (body := fun ii (s : K × Nat) => do
      let y ← loc ws d ii
      let v := o.f y
      pure (if v < s.1 then (v, ii) else s)) (s := (o.f (pt ws d 0), 0))
    (I := fun k s => s.2 < k ∧ s.1 = o.f (pt ws d s.2) ∧ (∀ j < k, s.1 ≤ o.f (pt ws d j)) ∧ ∀ j < s.2, s.1 < o.f (pt ws d j))
    hn ⟨one_pos, rfl, fun j hj => by have : j = 0 := by omega
                                     rw [this], fun j hj => by simp at hj⟩ (by
      intro i ha hb s ⟨a1, a2, a3, a4⟩
      rw [loc_ok (hle i hb), bind_ok]
      refine ⟨_, rfl, ?_⟩
      split
      · next hlt =>
        refine ⟨by simp only; omega, rfl, ?_, ?_⟩
        · intro j hj
          by_cases e : j = i
          · rw [e]
          · exact le_trans hlt.le (a3 j (by omega))
        · intro j hj
          exact lt_of_lt_of_le hlt (a3 j hj)
      · next hge =>
        refine ⟨by omega, a2, ?_, a4⟩
        intro j hj
        by_cases e : j = i
        · rw [e]; exact not_lt.mp hge
        · exact a3 j (by omega))
  refine ⟨s.2, h2, ?_, by rw [← h3]; exact h4, by rw [← h3]; exact h5⟩
  rw [bruteForce, loc_ok (hle 0 hn), bind_ok]
  dsimp only
  rw [h1, bind_ok, forN_fill_all (fun j => ws.getD (s.2 * d + j) 0) hs, bind_ok, pure_eq_ok, h3]
  · rfl
  · intro i hi b hb
    have h6 := hle s.2 h2
    have : (s.2 + 1) * d = s.2 * d + d := by ring
    rw [rd_getD 0 (by omega)]; rfl

/-- Two points in two variables: ties go to the first one. -/
example : bruteForce (⟨fun x => x.getD 0 0 ^ 2 + x.getD 1 0 ^ 2, fun x => x⟩ : Obj ℚ) 2 4 (some [3, 4, 1, 2, 2, 1, 5, 5]) [0, 0] = .ok (5, [1, 2]) := by
  decide +kernel

/-- C82: minimizing before `c3opt_set_brute_force_vals` was called is not diagnosed: the objective gets a null pointer. -/
theorem bruteForce_unset_counterexample (o : Obj K) (d nlocs : Nat) (start : List K) : bruteForce o d nlocs none start = .error .null := rfl

/-- C82: an empty table (`nlocs = 0`) is read all the same. -/
theorem bruteForce_empty_counterexample (o : Obj K) {d : Nat} (hd : 0 < d) (start : List K) :
    bruteForce o d 0 (some []) start = .error .oob := by
  obtain ⟨k, rfl⟩ : ∃ k, d = k + 1 := ⟨d - 1, by omega⟩
  have : loc ([] : List K) (k + 1) 0 = .error .oob := by
    rw [loc]
    have h : ∀ n, forN (n + 1) (fun j l => do
      let v ← rd ([] : List K) (0 * (k + 1) + j)
      pure (l ++ [v])) [] = .error .oob := by
      intro n
      induction n with
      | zero => rfl
      | succ n ih => rw [forN_succ, ih]; rfl
    exact h k
  rw [bruteForce, this]; rfl

end C3.Opt
