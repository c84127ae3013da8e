/- C54: transposition, stacking, block diagonal and Kronecker product of arrays of functions, entry by entry. -/
import Verif.Ft.MulProps

set_option linter.unusedSectionVars false

namespace C3.Ft
open Finset
variable {K U X : Type} [Field K]

/-- **C54** Transposition exchanges the two indices. -/
theorem transpose_value {e : Ev K U X} {F : Fam U X} {k : Nat} {a : Qma U} (ha : QOk F k a) :
    ∃ Q, transpose a = .ok Q ∧ Rep e F k a.ncols a.nrows (fun x i j => a.val e x j i) Q := by
  refine fill_cols fun j hj i hi => ?_
  exact ha.get hj hi rfl

/-- **C54** Transposing twice gives back the array itself (the same functions at the same places). -/
theorem transpose_twice {F : Fam U X} {k : Nat} {a : Qma U} (ha : QOk F k a) :
    ∃ Q, transpose a = .ok Q ∧ transpose Q = .ok a := by
  -- positions of the functions are followed through one transposition
  have step : ∀ b : Qma U, b.WF → ∃ Q : Qma U, transpose b = .ok Q ∧ Q.WF ∧ Q.nrows = b.ncols ∧ Q.ncols = b.nrows ∧
      ∀ i < b.nrows, ∀ j < b.ncols, Q.funcs[i * b.ncols + j]? = b.funcs[j * b.nrows + i]? := by
    intro b hb
    have f1 : Fills (fun p (v : U) => b.funcs[p % b.ncols * b.nrows + p / b.ncols]? = some v) (b.ncols * b.nrows)
        (forN b.nrows (fun ii => forN b.ncols (fun jj c => do
          let f ← rd b.funcs (jj * b.nrows + ii)
          wr c (ii * b.ncols + jj) (some f)))) (fun p => ∃ i < b.nrows, ∃ j < b.ncols, p = i * b.ncols + j) := by
      refine Fills.forN fun i hi => Fills.forN fun j hj => ?_
      have hlt : j * b.nrows + i < b.funcs.length := by rw [hb]; exact cm_idx_lt hi hj
      refine Fills.bind (rd_ok hlt) (Fills.wr (cm_idx_lt hj hi) ?_)
      rw [cm_mod hj, cm_div hj, List.getElem?_eq_getElem hlt]
    obtain ⟨c, l, h1, h2, h3, h4⟩ := f1.finish (fun p hp => by
      obtain ⟨a1, a2, a3⟩ := divmod_of_lt hp
      exact ⟨_, a2, _, a1, a3.symm⟩)
    refine ⟨⟨b.ncols, b.nrows, l⟩, ?_, h3, rfl, rfl, ?_⟩
    · rw [transpose, h1, bind_ok, h2, bind_ok, pure_eq_ok]
    · intro i hi j hj
      obtain ⟨v, hv, hv2⟩ := h4 _ (cm_idx_lt hj hi)
      rw [cm_mod hj, cm_div hj] at hv2
      show l[_]? = _
      rw [hv, hv2]
  obtain ⟨Q, h1, w1, n1, m1, v1⟩ := step a ha.wf
  obtain ⟨R, h2, w2, n2, m2, v2⟩ := step Q w1
  refine ⟨Q, h1, ?_⟩
  rw [h2]
  rw [n1] at v2 m2
  rw [m1] at v2 n2
  congr 1
  have : R.funcs = a.funcs := by
    refine ext_cm (n := a.nrows) (m := a.ncols) (by rw [w2, n2, m2]) ha.wf ?_
    intro i hi j hj
    rw [v2 j hj i hi, v1 i hi j hj]
  cases R; cases a; simp only [Qma.mk.injEq]; exact ⟨n2, m2, this⟩

/-- **C54** `[A B]`. -/
theorem stackh_value {e : Ev K U X} {F : Fam U X} {k : Nat} {a b : Qma U} (ha : QOk F k a) (hb : QOk F k b)
    (hr : a.nrows = b.nrows) :
    ∃ Q, stackh a b = .ok Q ∧ Rep e F k a.nrows (a.ncols + b.ncols)
      (fun x i j => if j < a.ncols then a.val e x i j else b.val e x i (j - a.ncols)) Q :=
  stackh_ok ha.wf hb.wf ha.mem hb.mem hr

/-- **C54** `[A; B]`. -/
theorem stackv_value {e : Ev K U X} {F : Fam U X} {k : Nat} {a b : Qma U} (ha : QOk F k a) (hb : QOk F k b)
    (hr : a.ncols = b.ncols) :
    ∃ Q, stackv a b = .ok Q ∧ Rep e F k (a.nrows + b.nrows) a.ncols
      (fun x i j => if i < a.nrows then a.val e x i j else b.val e x (i - a.nrows) j) Q :=
  stackv_ok ha.wf hb.wf ha.mem hb.mem hr

/-- **C54** Arrays that do not fit are refused. -/
theorem stack_refuses (a b : Qma U) :
    (a.nrows ≠ b.nrows → stackh a b = .error .assertFail) ∧ (a.ncols ≠ b.ncols → stackv a b = .error .assertFail) := by
  constructor
  · intro h; rw [stackh, decide_eq_false h]; rfl
  · intro h; rw [stackv, decide_eq_false h]; rfl

/-- **C54** `[A 0; 0 B]`. -/
theorem blockdiag_value {e : Ev K U X} {o : Ops K U} {F : Fam U X} (hs : ScaleLaw e o F) {k : Nat} {a b : Qma U}
    (ha : QOk F k a) (hb : QOk F k b) (hp1 : 0 < a.nrows) (hp2 : 0 < a.ncols) :
    ∃ Q, blockdiag o a b = .ok Q ∧ Rep e F k (a.nrows + b.nrows) (a.ncols + b.ncols)
      (fun x i j => if i < a.nrows then (if j < a.ncols then a.val e x i j else 0)
        else (if j < a.ncols then 0 else b.val e x (i - a.nrows) (j - a.ncols))) Q :=
  blockdiag_ok hs ha.wf hb.wf ha.mem hb.mem hp1 hp2

/-- **C54** Kronecker product: entry `(i nb + k, j mb + l)` is `A[i,j] B[k,l]`. -/
theorem kron_value {e : Ev K U X} {o : Ops K U} {F : Fam U X} (hp : ProdLaw e o F) {k : Nat} {a b : Qma U}
    (ha : QOk F k a) (hb : QOk F k b) :
    ∃ Q, kron o a b = .ok Q ∧ Q.nrows = a.nrows * b.nrows ∧ Q.ncols = a.ncols * b.ncols ∧
      ∀ x, F.D k x → ∀ i < a.nrows, ∀ j < a.ncols, ∀ r < b.nrows, ∀ c < b.ncols,
        Q.val e x (i * b.nrows + r) (j * b.ncols + c) = a.val e x i j * b.val e x r c := by
  obtain ⟨Q, h1, h2⟩ := kron_ok (e := e) hp ha.wf hb.wf ha.mem hb.mem
  refine ⟨Q, h1, h2.nrows, h2.ncols, fun x hx i hi j hj r hr c hc => ?_⟩
  rw [h2.val x hx _ (by rw [Nat.mul_comm a.nrows]; exact cm_idx_lt hr hi) _
    (by rw [Nat.mul_comm a.ncols]; exact cm_idx_lt hc hj), Mk, cm_div hr, cm_mod hr, cm_div hc, cm_mod hc]

example : ∃ Q, transpose fnQ = .ok Q ∧ Q.val fnEv 3 0 1 = fnQ.val fnEv 3 1 0 := by
  obtain ⟨Q, h1, h2⟩ := transpose_value (e := fnEv) fnQ_ok
  exact ⟨Q, h1, h2.val 3 trivial 0 (by decide) 1 (by decide)⟩

example : ∃ Q, stackh fnQ fnQ = .ok Q ∧ Q.ncols = 4 := by
  obtain ⟨Q, h1, h2⟩ := stackh_value (e := fnEv) fnQ_ok fnQ_ok rfl
  exact ⟨Q, h1, h2.ncols⟩

example : stackh fnQ ⟨1, 1, [fun x => x]⟩ = .error .assertFail := (stack_refuses _ _).1 (by decide)

end C3.Ft
