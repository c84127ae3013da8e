/-
Polynomials on [0,1] meet all the contracts used for the diffusion operator by sweeps: inner product `∫ pq`, Householder sweeps
of Verif/Qr with threshold 0, starting functions from the Gram-Schmidt process on the monomials.
-/
import Verif.Dmrg.DifProps
import Mathlib.Analysis.InnerProductSpace.GramSchmidtOrtho
import Mathlib.MeasureTheory.Integral.IntervalIntegral.Basic
import Mathlib.MeasureTheory.Integral.IntervalIntegral.FundThmCalculus
import Mathlib.Topology.Algebra.Polynomial
import Mathlib.Algebra.Polynomial.Basis

set_option linter.unusedSectionVars false

namespace C3.Dmrg
open Finset C3.Ft C3.Round C3.Dif

/-- Polynomials with the inner product on [0,1]. -/
def PL : Type := Polynomial ℝ

namespace PL

noncomputable instance : AddCommGroup PL := inferInstanceAs (AddCommGroup (Polynomial ℝ))
noncomputable instance : Module ℝ PL := inferInstanceAs (Module ℝ (Polynomial ℝ))

/-- Value at a point. -/
noncomputable def at' (f : PL) (x : ℝ) : ℝ := Polynomial.eval x (show Polynomial ℝ from f)

/-- A polynomial as an element. -/
noncomputable def mk (p : Polynomial ℝ) : PL := p

theorem mk_at (p : Polynomial ℝ) (x : ℝ) : (mk p).at' x = p.eval x := rfl

theorem at_cont (f : PL) : Continuous f.at' := Polynomial.continuous _
theorem at_add (f g : PL) (x : ℝ) : (f + g).at' x = f.at' x + g.at' x := Polynomial.eval_add
theorem at_smul (a : ℝ) (f : PL) (x : ℝ) : (a • f).at' x = a * f.at' x := Polynomial.eval_smul ..
theorem at_zero (x : ℝ) : (0 : PL).at' x = 0 := Polynomial.eval_zero

noncomputable instance core : InnerProductSpace.Core ℝ PL where
  inner f g := ∫ x in (0 : ℝ)..1, f.at' x * g.at' x
  conj_inner_symm f g := by
    show (∫ x in (0 : ℝ)..1, g.at' x * f.at' x) = _
    simp only [mul_comm]
  re_inner_nonneg f := by
    show 0 ≤ ∫ x in (0 : ℝ)..1, f.at' x * f.at' x
    exact intervalIntegral.integral_nonneg (by norm_num) fun x _ => mul_self_nonneg _
  add_left f g h := by
    have := intervalIntegral.integral_add (μ := MeasureTheory.volume) (a := 0) (b := 1) (f := fun x => f.at' x * h.at' x)
      (g := fun x => g.at' x * h.at' x) ((f.at_cont.mul h.at_cont).intervalIntegrable _ _) ((g.at_cont.mul h.at_cont).intervalIntegrable _ _)
    rw [← this]
    simp only [at_add, add_mul]
  smul_left f g r := by
    show _ = r * _
    rw [← intervalIntegral.integral_const_mul]
    simp only [at_smul, mul_assoc]
  definite f h := by
    have hz : ∀ x ∈ Set.Icc (0 : ℝ) 1, f.at' x = 0 := by
      intro x hx
      by_contra hne
      have : 0 < ∫ x in (0 : ℝ)..1, f.at' x * f.at' x :=
        intervalIntegral.integral_pos (by norm_num) (f.at_cont.mul f.at_cont).continuousOn (fun y _ => mul_self_nonneg _)
          ⟨x, hx, mul_self_pos.2 hne⟩
      exact absurd h this.ne'
    exact Polynomial.eq_zero_of_infinite_isRoot (show Polynomial ℝ from f)
      ((Set.Icc_infinite (show (0 : ℝ) < 1 by norm_num)).mono fun x hx => hz x hx)

noncomputable instance : NormedAddCommGroup PL := core.toNormedAddCommGroup
noncomputable instance : InnerProductSpace ℝ PL := InnerProductSpace.ofCore core.toCore

theorem inner_eq (f g : PL) : inner ℝ f g = ∫ x in (0 : ℝ)..1, f.at' x * g.at' x := rfl

/-- Orthonormal polynomials. -/
noncomputable def onb (n : Nat) : PL := InnerProductSpace.gramSchmidtNormed ℝ (fun k => (show PL from (Polynomial.X ^ k : Polynomial ℝ))) n

theorem onb_inner (v w : Nat) : inner ℝ (onb v) (onb w) = if v = w then (1 : ℝ) else 0 := by
  have hli : LinearIndependent ℝ (fun k : Nat => (show PL from (Polynomial.X ^ k : Polynomial ℝ))) := by
    have := (Polynomial.basisMonomials ℝ).linearIndependent
    have h2 : (fun k : Nat => (Polynomial.X ^ k : Polynomial ℝ)) = Polynomial.basisMonomials ℝ := by
      funext k
      rw [Polynomial.coe_basisMonomials]
      exact (Polynomial.monomial_one_right_eq_X_pow k).symm
    rw [← h2] at this
    exact this
  exact (orthonormal_iff_ite.1 (InnerProductSpace.gramSchmidtNormed_orthonormal hli)) v w

end PL

noncomputable def qEv : Ev ℝ PL ℝ := ⟨PL.at', fun _ => false⟩
def qFam : Fam PL ℝ := ⟨fun _ _ => True, fun _ _ => True⟩
noncomputable def qInteg : Integ ℝ ℝ := ⟨fun _ g => Continuous g, fun _ g => ∫ x in (0 : ℝ)..1, g x⟩
noncomputable def qLin : LOps ℝ PL where
  scale := fun a f => .ok (a • f)
  prod := fun f g => .ok (show PL from ((show Polynomial ℝ from f) * (show Polynomial ℝ from g) : Polynomial ℝ))
  daxpby := fun a f b g => .ok (a • f + b • g)
  poly := fun _ => false
  lcPoly := fun _ _ => .error .assertFail
  spPoly := fun _ _ => .error .assertFail

noncomputable def qDer (f : PL) : C PL := .ok (show PL from Polynomial.derivative (show Polynomial ℝ from f))
noncomputable def qAx (f g : PL) : C PL := .ok (f + g)

noncomputable def qqStart (r c : Nat) : List PL := cm r c (fun i v => if i = 0 then PL.onb v else 0)
noncomputable def qlStart (r c : Nat) : List PL := cm r c (fun v j => if j = 0 then PL.onb v else 0)

noncomputable def qQr (_ : Nat) (A : Qma PL) : C (Qma PL × List ℝ) := do
  let r ← Qr.qmarrayHouseholder 0 A.nrows A.ncols A.funcs (qqStart A.nrows A.ncols) (List.replicate (A.ncols * A.ncols) 0)
  pure (⟨A.nrows, A.ncols, r.1⟩, r.2)
noncomputable def qLq (_ : Nat) (A : Qma PL) : C (Qma PL × List ℝ) := do
  let r ← Qr.qmarrayHouseholderRows 0 A.nrows A.ncols A.funcs (qlStart A.nrows A.ncols) (List.replicate (A.nrows * A.nrows) 0)
  pure (⟨A.nrows, A.ncols, r.1⟩, r.2)

theorem q_int : IntLaw qFam.D qInteg where
  zero := fun _ => continuous_const
  add := fun _ g h hg hh => ⟨Continuous.add hg hh, intervalIntegral.integral_add (Continuous.intervalIntegrable hg _ _)
    (Continuous.intervalIntegrable hh _ _)⟩
  smul := fun _ a g hg => ⟨Continuous.mul continuous_const hg, intervalIntegral.integral_const_mul a g⟩
  congr := fun _ g h e hg => by
    have : g = h := funext fun x => e x trivial
    subst this; exact ⟨hg, rfl⟩

theorem q_mem2 : MemLaw2 qEv qFam qInteg := fun _ f g _ _ => f.at_cont.mul g.at_cont

theorem q_lin : LinLaw qEv qLin qFam where
  scale := fun _ a f _ => ⟨_, rfl, trivial, fun x _ => PL.at_smul a f x⟩
  daxpby := fun _ a f b g _ _ => ⟨_, rfl, trivial, fun x _ => by
    show (a • f + b • g).at' x = _
    rw [PL.at_add, PL.at_smul, PL.at_smul]; rfl⟩
  lcPoly := fun k cs fs _ hne h => by
    obtain ⟨f, l, rfl⟩ := List.exists_cons_of_ne_nil hne
    exact absurd (h f (by simp)).2 (by simp [qLin])

theorem q_sp : SpLaw qEv qLin qFam where
  prod := fun _ f g _ _ => ⟨_, rfl, trivial, fun x _ => Polynomial.eval_mul⟩
  spPoly := fun k fs gs _ hne h => by
    obtain ⟨f, l, rfl⟩ := List.exists_cons_of_ne_nil hne
    exact absurd (h f (by simp)).2 (by simp [qLin])

theorem q_der : DerLaw qEv qFam fun _ => qDer := fun _ f _ => ⟨_, rfl, trivial, fun x => Polynomial.hasDerivAt (show Polynomial ℝ from f) x⟩
theorem q_ax : AxLaw qEv qFam qAx := fun _ f g _ _ => ⟨_, rfl, trivial, fun x _ => PL.at_add f g x⟩
theorem q_innerLaw : InnerLaw qEv qFam qInteg (fun f g => .ok (inner ℝ f g)) := fun _ _ _ _ _ => rfl

theorem q_val (Q : Qma PL) (x : ℝ) (i j : Nat) : Q.val qEv x i j = (Q.funcs.getD (j * Q.nrows + i) 0 : PL).at' x := by
  rw [Qma.val, List.getD_eq_getElem?_getD]
  cases Q.funcs[j * Q.nrows + i]? with
  | none => exact (PL.at_zero x).symm
  | some f => rfl

theorem q_J (Q : Qma PL) (k i c i' c' : Nat) :
    qInteg.J k (fun x => Q.val qEv x i c * Q.val qEv x i' c')
      = inner ℝ (Q.funcs.getD (c * Q.nrows + i) 0 : PL) (Q.funcs.getD (c' * Q.nrows + i') 0) := by
  rw [PL.inner_eq]
  simp only [q_val]
  rfl

theorem q_sum (n : Nat) (c : Nat → ℝ) (f : Nat → PL) (x : ℝ) :
    (∑ k ∈ range n, c k • f k : PL).at' x = ∑ k ∈ range n, c k * (f k).at' x := by
  induction n with
  | zero => exact PL.at_zero x
  | succ n ih => rw [sum_range_succ, sum_range_succ, ← ih, PL.at_add, PL.at_smul]

theorem q_qr : QrLaw qEv qFam qInteg qQr := by
  intro k A hA hr hc
  have ho : Qr.Orthonormal (fun v i => v * A.nrows + i) A.ncols A.nrows (qqStart A.nrows A.ncols) := by
    intro v hv w hw
    have hs : ∀ i ∈ range A.nrows, inner ℝ ((qqStart A.nrows A.ncols).getD (v * A.nrows + i) 0)
        ((qqStart A.nrows A.ncols).getD (w * A.nrows + i) 0) = if i = 0 then (if v = w then (1 : ℝ) else 0) else 0 := by
      intro i hi
      have hi := mem_range.1 hi
      rw [qqStart, getD_cm _ _ hi hv, getD_cm _ _ hi hw]
      by_cases h : i = 0
      · simp only [if_pos h]; exact PL.onb_inner v w
      · simp only [if_neg h]; exact inner_zero_left _
    rw [sum_congr rfl hs, sum_ite_eq' (range A.nrows) 0, if_pos (mem_range.2 hr)]
  obtain ⟨Q, R, h1, h2, h3, h4, -, -, -, h5⟩ := Qr.qmarray_householder_spec (le_refl (0 : ℝ)) (A := A.funcs)
    (Q := qqStart A.nrows A.ncols) (R := List.replicate (A.ncols * A.ncols) 0) hA.wf (by simp [qqStart, cm]) (by simp)
    zero_triangular ho
  refine ⟨(⟨A.nrows, A.ncols, Q⟩, R), by rw [qQr, h1]; rfl, ⟨h2, fun f _ => trivial⟩, rfl, rfl, h3, ?_, ?_⟩
  · intro x _ i hi j hj
    rw [q_val, h5 rfl j hj i hi, q_sum]
    refine sum_congr rfl fun c _ => ?_
    rw [q_val, ent, mul_comm]
  · intro c hc c' hc'
    rw [sum_congr rfl fun i _ => q_J _ k i c i c']
    exact h4 c hc c' hc'

theorem q_lq : LqLaw qEv qFam qInteg qLq := by
  intro k A hA hr hc
  have ho : Qr.Orthonormal (fun v i => i * A.nrows + v) A.nrows A.ncols (qlStart A.nrows A.ncols) := by
    intro v hv w hw
    have hs : ∀ i ∈ range A.ncols, inner ℝ ((qlStart A.nrows A.ncols).getD (i * A.nrows + v) 0)
        ((qlStart A.nrows A.ncols).getD (i * A.nrows + w) 0) = if i = 0 then (if v = w then (1 : ℝ) else 0) else 0 := by
      intro i hi
      have hi := mem_range.1 hi
      rw [qlStart, getD_cm _ _ hv hi, getD_cm _ _ hw hi]
      by_cases h : i = 0
      · simp only [if_pos h]; exact PL.onb_inner v w
      · simp only [if_neg h]; exact inner_zero_left _
    rw [sum_congr rfl hs, sum_ite_eq' (range A.ncols) 0, if_pos (mem_range.2 hc)]
  obtain ⟨Q, L, h1, h2, h3, h4, -, -, -, h5⟩ := Qr.qmarray_householder_rows_spec (le_refl (0 : ℝ)) (A := A.funcs)
    (Q := qlStart A.nrows A.ncols) (L := List.replicate (A.nrows * A.nrows) 0) hA.wf (by simp [qlStart, cm]) (by simp)
    zero_triangular ho
  refine ⟨(⟨A.nrows, A.ncols, Q⟩, L), by rw [qLq, h1]; rfl, ⟨h2, fun f _ => trivial⟩, rfl, rfl, h3, ?_, ?_⟩
  · intro x _ i hi j hj
    rw [q_val, h5 rfl i hi j hj, q_sum]
    refine sum_congr rfl fun c _ => ?_
    rw [q_val, ent]
  · intro c hc c' hc'
    rw [sum_congr rfl fun i _ => q_J _ k c i c' i]
    exact h4 c hc c' hc'

noncomputable def qDm : DmOps PL where
  lin := qLin
  inner := fun f g => .ok (inner ℝ f g)
  qr := qQr
  lq := qLq
  svd := svdAny
  zero := .error .exit
  qrF := qQr
  lqF := qLq

theorem q_laws : DLaws qEv qFam qInteg qDm :=
  ⟨⟨q_int, q_mem2, q_lin, q_innerLaw, q_qr, q_lq, svdAny_law⟩, q_qr, q_lq⟩

open Polynomial in
/-- `x² y + y³` with rank 2. -/
noncomputable def qFt : FT ℝ PL :=
  ⟨2, [1, 2, 1], [⟨1, 2, [PL.mk (X ^ 2), PL.mk 1]⟩, ⟨2, 1, [PL.mk X, PL.mk (X ^ 3)]⟩], none, none, none⟩

open Polynomial in
theorem qFt_ok : qFt.Ok qFam := by
  refine ⟨⟨rfl, List.cons_ne_nil _ _, rfl, ?_⟩, ?_, fun _ _ _ _ _ => trivial⟩
  · refine Fits.cons (⟨1, 2, [PL.mk (X ^ 2), PL.mk 1]⟩ : Qma PL) _ rfl ?_
    exact Fits.cons (⟨2, 1, [PL.mk X, PL.mk (X ^ 3)]⟩ : Qma PL) _ rfl (.nil _)
  · intro k r h
    change [1, 2, 1][k]? = some r at h
    rcases k with _ | _ | _ | k <;> simp at h <;> omega

theorem qFt_value (a b : ℝ) : value qEv qFt.cores [a, b] = a ^ 2 * b + b ^ 3 := by
  simp [value, mats, chain, qFt, qEv, Qma.val, Finset.sum_range_succ, PL.mk_at]

/-- The constant 1. -/
noncomputable def qOne : FT ℝ PL :=
  ⟨2, [1, 1, 1], [⟨1, 1, [PL.mk 1]⟩, ⟨1, 1, [PL.mk 1]⟩], none, none, none⟩

theorem qOne_ok : qOne.Ok qFam := by
  refine ⟨⟨rfl, List.cons_ne_nil _ _, rfl, ?_⟩, ?_, fun _ _ _ _ _ => trivial⟩
  · refine Fits.cons (⟨1, 1, [PL.mk 1]⟩ : Qma PL) _ rfl ?_
    exact Fits.cons (⟨1, 1, [PL.mk 1]⟩ : Qma PL) _ rfl (.nil _)
  · intro k r h
    change [1, 1, 1][k]? = some r at h
    rcases k with _ | _ | _ | k <;> simp at h <;> omega

theorem qOne_value (a b : ℝ) : value qEv qOne.cores [a, b] = 1 := by
  simp [value, mats, chain, qOne, qEv, Qma.val, PL.mk_at]

/-- The Laplacian of `x² y + y³` is `8 y`, found by one sweep without truncation. -/
example (a b : ℝ) : ∃ g, dmrgDiffusion qDm qDer qAx qOne qFt 0 (1 / 10) 1 0 = .ok g ∧ value qEv g.cores [a, b] = 8 * b := by
  obtain ⟨g, h1, -, -, -, h3⟩ := dmrg_diffusion_partial q_laws q_sp q_der q_ax qOne_ok qFt_ok rfl (Nat.le_refl 2) 0 (1 / 10) 1 0
  refine ⟨g, h1, ?_⟩
  obtain ⟨v, v1, v2⟩ := h3 (Nat.le_refl 1) le_rfl [a, b] ⟨Nat.le_refl _, fun _ _ _ _ => trivial⟩
  obtain ⟨G0, g1, g2⟩ := v1 0 (by decide)
  obtain ⟨G1, k1, k2⟩ := v1 1 (by decide)
  simp only [List.set_cons_zero, List.set_cons_succ, qFt_value, qOne_value, one_mul, List.getD_cons_zero, List.getD_cons_succ] at g1 g2 k1 k2
  have e0 : G0 = fun t => 2 * t * b := funext fun t => (g1 t).unique (by simpa using ((hasDerivAt_pow 2 t).mul_const b).add_const (b ^ 3))
  have e1 : G1 = fun t => a ^ 2 + 3 * t ^ 2 := funext fun t => (k1 t).unique
    (HasDerivAt.congr_deriv (((hasDerivAt_id t).const_mul (a ^ 2)).add (hasDerivAt_pow 3 t)) (by norm_num))
  have f0 : v 0 = 2 * b := by
    refine (g2.unique (?_ : HasDerivAt _ (2 * b) a))
    rw [e0]
    simpa using ((hasDerivAt_id a).const_mul 2).mul_const b
  have f1 : v 1 = 6 * b := by
    refine (k2.unique (?_ : HasDerivAt _ (6 * b) b))
    rw [e1]
    exact (((hasDerivAt_pow 2 b).const_mul 3).const_add (a ^ 2)).congr_deriv (by norm_num; ring)
  rw [v2, show qOne.dim = 2 from rfl, Finset.sum_range_succ, Finset.sum_range_one, f0, f1]
  ring

example : ∃ c, dmrgDiffusion qDm qDer qAx qOne qFt 0 (1 / 10) 0 0 = .ok c ∧ value qEv c.cores [1, 2] = 10 := by
  obtain ⟨c, h1, -, h2⟩ := dmrg_diffusion_nosweep_actual q_laws q_sp q_der q_ax qOne_ok qFt_ok rfl (Nat.le_refl 2) 0 (1 / 10) 0
  exact ⟨c, h1, by rw [h2 [1, 2] ⟨Nat.le_refl _, fun _ _ _ _ => trivial⟩, qFt_value]; norm_num⟩

example (M : List ℝ) (h : M.length = 3 * (1 * 1 + 1 * 1)) (A B : Qma PL) (hA : Rep qEv qFam 0 1 1 (fun x _ _ => x) A)
    (hB : Rep qEv qFam 0 1 1 (fun _ _ _ => 1) B) : ∃ Q, lastLeft qDm qAx B A B B A M 3 = .ok Q := by
  obtain ⟨Q, q1, -⟩ := lastLeft_value (o := qDm) q_lin q_sp q_ax hB hA hB hB hA Nat.one_pos Nat.one_pos h
  exact ⟨Q, q1⟩

example (M : List ℝ) (h : M.length = (1 * 1 + 1 * 1) * 3) (A B : Qma PL) (hA : Rep qEv qFam 0 1 1 (fun x _ _ => x) A)
    (hB : Rep qEv qFam 0 1 1 (fun _ _ _ => 1) B) : ∃ Q, firstRight qDm qAx B A B B A M 3 = .ok Q := by
  obtain ⟨Q, q1, -⟩ := firstRight_value (o := qDm) q_lin q_sp q_ax hB hA hB hB hA Nat.one_pos Nat.one_pos h
  exact ⟨Q, q1⟩

end C3.Dmrg
