/- Lemmas on the projection loops. -/
import Verif.Poly.Approx
import Verif.Poly.AlgProps

set_option linter.unusedSectionVars false

namespace C3.Poly
open Finset
open C3.Lin (dv dv_ok)
variable {K : Type} [Field K] [LinearOrder K] [IsStrictOrderedRing K]

theorem getD_set' {l : List K} {i : Nat} (hi : i < l.length) (v : K) (k : Nat) : (l.set i v).getD k 0 = if k = i then v else l.getD k 0 := by
  by_cases hk : k = i
  · subst hk
    rw [if_pos rfl, List.getD_eq_getElem?_getD, List.getElem?_set_self hi]; rfl
  · rw [if_neg hk, List.getD_eq_getElem?_getD, List.getElem?_set_ne (Ne.symm hk), ← List.getD_eq_getElem?_getD]

theorem consRow_ok (fam : Fam K) {num : Nat} (fv nd : K) {co : List K} (h1 : 1 < num) (hl : num ≤ co.length) :
    ∃ d, consRow fam num fv nd co = .ok d ∧ d.length = co.length ∧ (∀ k < num, d.getD k 0 = co.getD k 0 + fv * fam.p k nd) := by
  rw [consRow, rd_getD 0 (by omega), bind_ok, wr_ok _ (by omega), bind_ok, rd_getD 0 (by rw [List.length_set]; omega), bind_ok,
    wr_ok _ (by rw [List.length_set]; omega), bind_ok]
  obtain ⟨s, es, i1, i2, i3, i4⟩ := forR_spec (a := 2) (b := num) (body := consStep fam fv nd)
    (s := (fam.c0, fam.l0 + fam.l1 * nd, (co.set 0 (co.getD 0 0 + fv * fam.c0)).set 1
      ((co.set 0 (co.getD 0 0 + fv * fam.c0)).getD 1 0 + fv * (fam.l0 + fam.l1 * nd))))
    (I := fun j s => s.1 = fam.p (j - 2) nd ∧ s.2.1 = fam.p (j - 1) nd ∧ s.2.2.length = co.length ∧
      ∀ k, s.2.2.getD k 0 = if k < j then co.getD k 0 + fv * fam.p k nd else co.getD k 0) (by omega)
    ⟨rfl, rfl, by simp, fun k => by
      rw [getD_set' (by rw [List.length_set]; omega), getD_set' (by omega), getD_set' (by omega)]
      match k with
      | 0 => simp
      | 1 => simp
      | k + 2 => simp⟩
    (by
      rintro j hj1 hj2 s ⟨h1, h2, h3, h4⟩
      obtain ⟨j, rfl⟩ : ∃ i, j = i + 2 := ⟨j - 2, by omega⟩
      have ew : wp fam s.1 s.2.1 (j + 2) nd = fam.p (j + 2) nd := by
        rw [h1, h2, show j + 2 - 2 = j by omega, show j + 2 - 1 = j + 1 by omega]; rfl
      refine ⟨_, by rw [consStep, rd_getD 0 (by omega), bind_ok, wr_ok _ (by omega), bind_ok, ew]; rfl, ?_, rfl, by simp [h3], fun k => ?_⟩
      · dsimp only; rw [h2]; rfl
      · dsimp only
        rw [getD_set' (by omega), h4, h4]
        by_cases hk : k = j + 2
        · rw [if_pos hk, if_neg (by omega), if_pos (by omega), hk]
        · rw [if_neg hk]
          by_cases hk2 : k < j + 2
          · rw [if_pos hk2, if_pos (by omega)]
          · rw [if_neg hk2, if_neg (by omega)])
  refine ⟨s.2.2, by rw [es]; rfl, i3, fun k hk => by rw [i4, if_pos hk]⟩

/-- The loops that turn weighted function values into coefficients: each coefficient receives the weighted sum of the values with
the basis polynomial, divided by its squared norm. -/
theorem construct_ok {f : Ope K} (hf : f.WF) {n : Nat} {fvals nodes : List K} (h1 : n ≤ fvals.length) (h2 : n ≤ nodes.length)
    (hn : ∀ k < f.num, f.fam.norm k ≠ 0) :
    ∃ co, construct f n fvals nodes = .ok { f with coeff := co } ∧ co.length = f.coeff.length ∧
      ∀ k < f.num, co.getD k 0 = (f.coeff.getD k 0 + ∑ i ∈ range n, fvals.getD i 0 * f.fam.p k (nodes.getD i 0)) / f.fam.norm k := by
  have hp := hf.pos
  have hl := hf.num_le.trans hf.alloc_le
  rw [construct]
  by_cases c1 : f.num > 1
  · rw [if_pos c1]
    obtain ⟨co, e, l, v⟩ := forN_spec (n := n) (s := f.coeff) (body := fun ii co => do
        let fv ← rd fvals ii
        let nd ← rd nodes ii
        consRow f.fam f.num fv nd co)
      (I := fun j co => co.length = f.coeff.length ∧ ∀ k < f.num, co.getD k 0 = f.coeff.getD k 0 +
        ∑ i ∈ range j, fvals.getD i 0 * f.fam.p k (nodes.getD i 0))
      ⟨rfl, fun k _ => by simp⟩
      (by
        rintro j hj co ⟨l, v⟩
        obtain ⟨d, ed, ld, vd⟩ := consRow_ok f.fam (fvals.getD j 0) (nodes.getD j 0) c1 (co := co) (by omega)
        refine ⟨d, by rw [rd_getD 0 (by omega), bind_ok, rd_getD 0 (by omega), bind_ok, ed], ld.trans l, fun k hk => ?_⟩
        rw [vd k hk, v k hk, sum_range_succ, add_assoc])
    obtain ⟨d, ed, ld, vd, -⟩ := forN_window (n := f.num) (off := 0) (a := co) (fun i c => c / f.fam.norm i) (by omega)
      (body := fun ii co => do
        let c ← rd co ii
        let q ← dv c (f.fam.norm ii)
        wr co ii q)
      (fun i hi b hb => by rw [rd_getD 0 (by omega), bind_ok, dv_ok (hn i hi), bind_ok, wr_ok _ (by omega), Nat.zero_add])
    refine ⟨d, by rw [e, bind_ok, ed]; rfl, ld.trans l, fun k hk => ?_⟩
    have := vd k hk
    rw [Nat.zero_add] at this
    rw [this, v k hk]
  · have hn1 : f.num = 1 := by omega
    rw [if_neg c1]
    obtain ⟨co, e, l, v⟩ := forN_spec (n := n) (s := f.coeff) (body := fun ii co => do
        let fv ← rd fvals ii
        let c ← rd co 0
        wr co 0 (c + fv * f.fam.c0))
      (I := fun j co => co.length = f.coeff.length ∧ co.getD 0 0 = f.coeff.getD 0 0 + ∑ i ∈ range j, fvals.getD i 0 * f.fam.c0)
      ⟨rfl, by simp⟩
      (by
        rintro j hj co ⟨l, v⟩
        refine ⟨_, by rw [rd_getD 0 (by omega), bind_ok, rd_getD 0 (by omega), bind_ok, wr_ok _ (by omega)], by rw [List.length_set, l], ?_⟩
        rw [getD_set' (by omega), if_pos rfl, v, sum_range_succ, add_assoc])
    rw [e, bind_ok, rd_getD 0 (by omega), bind_ok, dv_ok (hn 0 hp), bind_ok, wr_ok _ (by omega), bind_ok]
    refine ⟨_, rfl, by rw [List.length_set, l], fun k hk => ?_⟩
    obtain rfl : k = 0 := by omega
    rw [getD_set' (by omega), if_pos rfl, v]
    simp

end C3.Poly
