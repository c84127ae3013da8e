/- C40: element positions in full tensors, transposed copies, coordinate trains. -/
import Verif.Tt.DotProps

set_option linter.unusedSectionVars false

namespace C3.Tt
open Finset
variable {K : Type} [CommRing K]

/-- Column-major position of a multi-index (first index runs fastest). -/
def colPos : List Nat → List Nat → Nat
  | n :: ns, e :: es => e + n * colPos ns es
  | _, _ => 0

theorem colPos_lt : ∀ (ns es : List Nat), es.length = ns.length → (∀ k < ns.length, es.getD k 0 < ns.getD k 0) →
    colPos ns es < ns.prod
  | [], es, _, _ => by simp [colPos]
  | n :: ns, [], h, _ => by simp at h
  | n :: ns, e :: es, h, hlt => by
    have h0 := hlt 0 (by simp)
    have ih := colPos_lt ns es (by simpa using h) (fun k hk => by simpa using hlt (k + 1) (by simpa using hk))
    simp only [List.getD_cons_zero] at h0
    rw [colPos, List.prod_cons]
    calc e + n * colPos ns es < n + n * colPos ns es := by omega
      _ = n * (colPos ns es + 1) := by ring
      _ ≤ n * ns.prod := Nat.mul_le_mul_left _ ih

theorem colPos_drop {ns es : List Nat} {k : Nat} (hl : es.length = ns.length) (hk : k < ns.length) :
    colPos (ns.drop k) (es.drop k) = es.getD k 0 + ns.getD k 0 * colPos (ns.drop (k + 1)) (es.drop (k + 1)) := by
  rw [drop_cons hk, drop_cons (es := es) (by omega), colPos]

/-- **C40** An element of a full tensor of any dimension is read at its column-major position. -/
theorem tensorElem_value {t : Tensor K} (hd : 0 < t.dim) (hn : t.nvals.length = t.dim) {es : List Nat}
    (hes : es.length = t.dim) (hlt : ∀ k < t.dim, es.getD k 0 < t.nvals.getD k 0) (hv : t.vals.length = t.nvals.prod) :
    tensorElem t es = .ok (t.vals.getD (colPos t.nvals es) 0) := by
  have hre : ∀ k < t.dim, rd es k = .ok (es.getD k 0) := fun k hk => rd_getD 0 (by omega)
  have hrn : ∀ k < t.dim, rd t.nvals k = .ok (t.nvals.getD k 0) := fun k hk => rd_getD 0 (by omega)
  obtain ⟨st, h1, h2⟩ := forR_spec (a := 1) (b := t.dim) (s := (es.getD 0 0, t.nvals.getD 0 0))
    (body := fun ii (st : Nat × Nat) => do
      let e ← rd es ii
      let n ← rd t.nvals ii
      pure (st.1 + e * st.2, st.2 * n))
    (I := fun k st => st.1 + st.2 * colPos (t.nvals.drop k) (es.drop k) = colPos t.nvals es)
    (by omega)
    (by
      have := colPos_drop (ns := t.nvals) (es := es) (k := 0) (by omega) (by omega)
      simpa using this.symm)
    (by
      rintro k hk1 hk2 st hst
      refine ⟨(st.1 + es.getD k 0 * st.2, st.2 * t.nvals.getD k 0), ?_, ?_⟩
      · rw [hre k hk2, bind_ok, hrn k hk2, bind_ok, pure_eq_ok]
      · rw [← hst, colPos_drop (k := k) (by omega) (by omega)]; ring)
  rw [List.drop_of_length_le (by omega), List.drop_of_length_le (by omega)] at h2
  simp only [colPos, Nat.mul_zero, Nat.add_zero] at h2
  rw [tensorElem, hre 0 hd, bind_ok, hrn 0 hd, bind_ok, h1, bind_ok, h2, rd_getD 0]
  rw [hv]; exact colPos_lt _ _ (by omega) (fun k hk => hlt k (by omega))

example : tensorElem (⟨3, [2, 3, 2], [1, 2, 3, 4, 5, 6, 7, 8, 9, 10, 11, 12]⟩ : Tensor Int) [1, 2, 1] = .ok 12 := by decide
example := tensorElem_value (t := (⟨3, [2, 3, 2], [1, 2, 3, 4, 5, 6, 7, 8, 9, 10, 11, 12]⟩ : Tensor Int))
  (es := [1, 2, 0]) (by decide) rfl rfl (by decide) rfl

/-- **C40** For all sizes, the values of a transposed copy are those of the transposed tensor (sizes exchanged), but the
sizes stored with them are those of the original. -/
theorem copy3_transpose_data {a : T3 K} (ha : a.WF) :
    ∃ v, copy3 a true = .ok ⟨a.n0, a.n1, a.n2, v⟩ ∧ (T3.mk a.n2 a.n1 a.n0 v).WF ∧
      ∀ i < a.n2, ∀ e < a.n1, ∀ j < a.n0, (T3.mk a.n2 a.n1 a.n0 v).get i e j = a.get j e i := by
  obtain ⟨r, n, s, vals⟩ := a
  have hi := ha.is
  simp only at hi
  have key : FillsV (fun p => (T3.get ⟨r, n, s, vals⟩ (p / (s * n)) (p / s % n) (p % s) : K)) (s * n * r)
      (forN s (fun ii => forN n (fun jj => forN r (fun kk v => do
        let x ← rd vals (kk + jj * r + ii * n * r)
        wr v (ii + jj * s + kk * s * n) x))))
      (fun p => ∃ ii < s, ∃ jj < n, ∃ kk < r, p = ii + jj * s + kk * s * n) := by
    refine FillsV.forN fun ii h1 => FillsV.forN fun jj h2 => FillsV.forN fun kk h3 => ?_
    have e1 : kk + jj * r + ii * n * r = kk + jj * r + ii * r * n := by ring
    obtain ⟨q1, q2, q3⟩ := idx3_inv (r := s) (n := n) (i := ii) (e := jj) (j := kk) h1 h2
    refine FillsV.bind (by rw [e1]; exact hi.rd h3 h2 h1) (FillsV.wr (idx3_lt h1 h2 h3) ?_)
    rw [q1, q2, q3]
  have h := key.finish (fun p hp => by
    obtain ⟨h1, h2, h3, h4⟩ := idx3_cov hp
    exact ⟨_, h1, _, h2, _, h3, h4.symm⟩) (a := List.replicate (s * n * r) 0) (by simp)
  have hc := is_of_fill (K := K) (r := s) (n := n) (s := r) (g := fun i e j => T3.get ⟨r, n, s, vals⟩ j e i) rfl
  refine ⟨_, ?_, hc.wf, fun i h1 e h2 j h3 => hc.get h1 h2 h3⟩
  have e0 : r * n * s = s * n * r := by ring
  rw [copy3, if_pos rfl]
  dsimp only [initT3]
  rw [e0, h, bind_ok, pure_eq_ok]

/-- **C40** The transposed copy of a tensor with equal outer sizes is its transpose. Missing: different outer sizes, for
which the copy declares the sizes of the original (`copy3_counterexample`). -/
theorem copy3_transpose_partial {a : T3 K} (ha : a.WF) (h02 : a.n0 = a.n2) :
    ∃ c, copy3 a true = .ok c ∧ c.WF ∧ c.n0 = a.n2 ∧ c.n1 = a.n1 ∧ c.n2 = a.n0 ∧
      ∀ i < a.n2, ∀ e < a.n1, ∀ j < a.n0, c.get i e j = a.get j e i := by
  obtain ⟨v, h1, h2, h3⟩ := copy3_transpose_data ha
  refine ⟨_, h1, ?_, h02, rfl, h02.symm, ?_⟩
  · rw [h02] at h2 ⊢; exact h2
  · intro i hi e he j hj
    have := h3 i hi e he j hj
    rw [T3.get] at this ⊢
    dsimp only at this ⊢
    rw [h02]; exact this

/-- **C40** The transposed copy of a `1 x 1 x 2` tensor declares sizes `1,1,2` instead of `2,1,1`. -/
theorem copy3_counterexample : copy3 (⟨1, 1, 2, [5, 7]⟩ : T3 Int) true = .ok ⟨1, 1, 2, [5, 7]⟩ := by decide

example := copy3_transpose_partial (a := (⟨2, 1, 2, [1, 2, 3, 4]⟩ : T3 Int)) rfl rfl

/-- **C41** Quadrature of the coordinate train built by the library (`x₀` on a `2 x 3` grid with unit weights): the sum
`3·(5+7) = 36` comes out as 12. -/
theorem ttX_integrate_counterexample :
    (do let t ← ttX ([5, 7] : List Int) 0 2 [2, 3]
        ttIntegrate t [[1, 1], [1, 1, 1]]) = .ok 12 ∧ ([5, 7] : List Int).sum * 3 = 36 := ⟨by decide, by decide⟩

end C3.Tt
