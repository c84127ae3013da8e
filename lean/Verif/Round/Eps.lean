/-
C105, disagreement: the relative accuracy handed to the rounding routine is not met.
-/
import Verif.Round.Main

set_option linter.unusedSectionVars false

namespace C3.Round
open Finset C3.Ft

section
variable (t : ℝ)

noncomputable def sBq : Qma L2 := ⟨2, 1, [unit 0, unit 1]⟩
noncomputable def sAt : Qma L2 := ⟨1, 2, [t • unit 0, t • unit 1]⟩

open Classical in
/-- The routines of `sRd` with the obvious decompositions for the arrays of the example. -/
noncomputable def exRd : RdOps L2 where
  lin := sOps
  inner := fun f g => .ok (inner ℝ f g)
  qr := fun k A => if A = sAt t then .ok (sA, [t, 0, 0, t]) else sQr k A
  lq := fun k A => if A = sB t then .ok (sBq, [t, 0, 0, t]) else sLq k A
  svd := fun m n M => if m = 2 ∧ n = 2 ∧ M = [t, 0, 0, t] then .ok ⟨[1, 0, 0, 1], [t, t], [1, 0, 0, 1]⟩ else svdAny m n M
  zero := .error .exit

theorem lt_two {i : Nat} (h : i < 2) : i = 0 ∨ i = 1 := by omega

theorem exRd_laws (ht : 0 < t) : Laws sEv sFam sInteg (exRd t) := by
  refine ⟨s_int, s_mem2, s_lin, s_innerLaw, ?_, ?_, ?_⟩
  · intro k A hA hr hc
    by_cases h : A = sAt t
    · subst h
      refine ⟨(sA, [t, 0, 0, t]), if_pos rfl, ⟨rfl, fun _ _ => trivial⟩, rfl, rfl, rfl, ?_, ?_⟩
      · intro x _ i hi j hj
        have hi : i = 0 := by have : i < 1 := hi; omega
        subst hi
        rcases lt_two (show j < 2 from hj) with rfl | rfl <;>
          simp [s_val, sAt, sA, ent, sum_range_succ, mul_comm]
      · intro c hc c' hc'
        rw [sum_congr rfl fun i _ => s_J _ k i c i c']
        rcases lt_two (show c < 2 from hc) with rfl | rfl <;> rcases lt_two (show c' < 2 from hc') with rfl | rfl <;>
          simp [sA, unit_inner, unit_norm]
    · rw [show (exRd t).qr k A = sQr k A from if_neg h]
      exact s_qr k A hA hr hc
  · intro k A hA hr hc
    by_cases h : A = sB t
    · subst h
      refine ⟨(sBq, [t, 0, 0, t]), if_pos rfl, ⟨rfl, fun _ _ => trivial⟩, rfl, rfl, rfl, ?_, ?_⟩
      · intro x _ i hi j hj
        have hj : j = 0 := by have : j < 1 := hj; omega
        subst hj
        rcases lt_two (show i < 2 from hi) with rfl | rfl <;>
          simp [s_val, sB, sBq, ent, sum_range_succ, mul_comm]
      · intro c hc c' hc'
        rw [sum_congr rfl fun i _ => s_J _ k c i c' i]
        rcases lt_two (show c < 2 from hc) with rfl | rfl <;> rcases lt_two (show c' < 2 from hc') with rfl | rfl <;>
          simp [sBq, unit_inner, unit_norm]
    · rw [show (exRd t).lq k A = sLq k A from if_neg h]
      exact s_lq k A hA hr hc
  · intro n M hn hM
    by_cases h : n = 2 ∧ M = [t, 0, 0, t]
    · obtain ⟨rfl, rfl⟩ := h
      refine ⟨_, if_pos ⟨rfl, rfl, rfl⟩, rfl, rfl, rfl, ?_, ?_, ?_, ?_, ?_⟩
      · intro i hi j hj
        rcases lt_two hi with rfl | rfl <;> rcases lt_two hj with rfl | rfl <;> simp [ent, sum_range_succ]
      · intro i hi j hj
        rcases lt_two hi with rfl | rfl <;> rcases lt_two hj with rfl | rfl <;> simp [ent, sum_range_succ]
      · intro i hi j hj
        rcases lt_two hi with rfl | rfl <;> rcases lt_two hj with rfl | rfl <;> simp [ent, sum_range_succ]
      · intro p hp
        rcases lt_two hp with rfl | rfl <;> simp [ht.le]
      · intro p q hpq hq
        rcases lt_two (show p < 2 by omega) with rfl | rfl <;> rcases lt_two hq with rfl | rfl <;> simp
    · rw [show (exRd t).svd n n M = svdAny n n M from if_neg (by rintro ⟨a, -, b⟩; exact h ⟨a, b⟩)]
      exact svdAny_law n M hn hM

/-- The result of rounding the example. -/
noncomputable def exOut : FT ℝ L2 := ⟨2, [1, 1, 1], [⟨1, 1, [unit 0]⟩, ⟨1, 1, [t • unit 0]⟩], none, none, none⟩

theorem ex_orthor : orthor (exRd t) (sFt t) = .ok ⟨2, [1, 2, 1], [sAt t, sBq], none, none, none⟩ := by
  have h1 : (exRd t).lq 1 (sB t) = .ok (sBq, [t, 0, 0, t]) := if_pos rfl
  have h2 : qmam (exRd t).lin sA [t, 0, 0, t] 2 = .ok (sAt t) := by
    have : qmam (exRd t).lin sA [t, 0, 0, t] 2
        = .ok ⟨1, 2, [t • unit 0 + (0 : ℝ) • unit 1, (0 : ℝ) • unit 0 + t • unit 1]⟩ := rfl
    rw [this, zero_smul, zero_smul, add_zero, zero_add]
    rfl
  rw [orthor, show rd (sFt t).cores ((sFt t).dim - 1) = .ok (sB t) from rfl, bind_ok,
    show (sFt t).dim - 1 = 1 from rfl, h1, bind_ok]
  rw [show wr (List.replicate (sFt t).dim none) 1 (some (sBq, [t, 0, 0, t]).1) = .ok [none, some sBq] from rfl, bind_ok,
    show forR 2 (sFt t).dim (orthorStep (exRd t) (sFt t)) ⟨[none, some sBq], (sBq, [t, 0, 0, t]).2⟩
      = .ok ⟨[none, some sBq], [t, 0, 0, t]⟩ from rfl, bind_ok,
    show rd (sFt t).cores 0 = .ok sA from rfl, bind_ok, show rd (sFt t).ranks 1 = .ok 2 from rfl, bind_ok, h2, bind_ok]
  rfl

theorem ex_rank {delta : ℝ} (h : t ^ 2 < delta) : svdRank 2 [t, t] delta = .ok 1 := by
  obtain ⟨r, h1, h2⟩ := svdRank_spec (n := 2) (s := [t, t]) (delta := delta) (by omega) (le_refl 2)
  rw [h1]
  have := h2.least
  have h3 := h2.pos
  have h4 := h2.le
  by_cases hr : r = 1
  · rw [hr]
  · have hr : r = 2 := by omega
    subst hr
    have := this (by omega)
    have e : tailSq 2 [t, t] (2 - 1) = t ^ 2 := by simp [tailSq]
    rw [e] at this
    linarith

theorem ex_run {delta : ℝ} (h : t ^ 2 < delta) :
    roundFirst (exRd t) none ⟨2, [1, 2, 1], [sAt t, sBq], none, none, none⟩ 2 delta
      = .ok ⟨[1, 1, 0], [some ⟨1, 1, [unit 0]⟩, none], ⟨1, 1, [t • unit 0]⟩⟩ := by
  have h1 : (exRd t).qr 0 (sAt t) = .ok (sA, [t, 0, 0, t]) := if_pos rfl
  have h2 : (exRd t).svd 2 2 [t, 0, 0, t] = .ok ⟨[1, 0, 0, 1], [t, t], [1, 0, 0, 1]⟩ := if_pos ⟨rfl, rfl, rfl⟩
  have h3 : truncSvd (exRd t).svd 2 2 [t, 0, 0, t] delta = .ok ⟨1, [1, 0], [t], [1, 0]⟩ := by
    rw [truncSvd, h2, bind_ok, show min 2 2 = 2 from rfl, ex_rank t h, bind_ok]
    rfl
  have h4 : qmam (exRd t).lin sA [1, 0] 1 = .ok ⟨1, 1, [unit 0]⟩ := by
    have : qmam (exRd t).lin sA [1, 0] 1 = .ok ⟨1, 1, [(1 : ℝ) • unit 0 + (0 : ℝ) • unit 1]⟩ := rfl
    rw [this, zero_smul, one_smul, add_zero]
  have h5 : qmaTsvd (exRd t) 0 (sAt t) delta = .ok ⟨⟨1, 1, [unit 0]⟩, 1, [t], [1, 0]⟩ := by
    rw [qmaTsvd, h1, bind_ok, show (sAt t).ncols = 2 from rfl, h3, bind_ok, h4, bind_ok, pure_eq_ok]
  have h6 : absorb (exRd t) ⟨⟨1, 1, [unit 0]⟩, 1, [t], [1, 0]⟩ 2 sBq = .ok ⟨1, 1, [t • unit 0]⟩ := by
    have : absorb (exRd t) ⟨⟨1, 1, [unit 0]⟩, 1, [t], [1, 0]⟩ 2 sBq
        = mqma (exRd t).lin [0 + t * 1, 0 + t * 0] sBq 1 := rfl
    rw [this]
    have : mqma (exRd t).lin [0 + t * 1, 0 + t * 0] sBq 1
        = .ok ⟨1, 1, [(0 + t * 1) • unit 0 + (0 + t * 0) • unit 1]⟩ := rfl
    rw [this, zero_add, zero_add, mul_one, mul_zero, zero_smul, add_zero]
  rw [roundFirst, show wr (List.replicate (2 + 1) 0) 0 1 = .ok [1, 0, 0] from rfl, bind_ok]
  dsimp only
  rw [show rd [sAt t, sBq] 0 = .ok (sAt t) from rfl, bind_ok, h5, bind_ok,
    show cutOpt none (sAt t).ncols (⟨⟨1, 1, [unit 0]⟩, 1, [t], [1, 0]⟩ : QTsvd L2) = .ok ⟨⟨1, 1, [unit 0]⟩, 1, [t], [1, 0]⟩ from rfl,
    bind_ok]
  dsimp only
  rw [show wr (List.replicate 2 none) 0 (some (⟨1, 1, [unit 0]⟩ : Qma L2)) = .ok [some ⟨1, 1, [unit 0]⟩, none] from rfl, bind_ok,
    show wr [1, 0, 0] 1 1 = .ok [1, 1, 0] from rfl, bind_ok, show rd [sAt t, sBq] 1 = .ok sBq from rfl, bind_ok,
    show (sAt t).ncols = 2 from rfl, h6, bind_ok, pure_eq_ok]

theorem exOut_ok : (exOut t).Ok sFam := by
  refine ⟨⟨rfl, List.cons_ne_nil _ _, rfl, ?_⟩, ?_, fun _ _ _ _ _ => trivial⟩
  · exact Fits.cons (⟨1, 1, [unit 0]⟩ : Qma L2) _ rfl (Fits.cons (⟨1, 1, [t • unit 0]⟩ : Qma L2) _ rfl (.nil _))
  · intro k r h
    change [1, 1, 1][k]? = some r at h
    rcases k with _ | _ | _ | k <;> simp at h <;> omega

end

/-- C105, disagreement: `truncated_svd` compares the sum of the *squares* of the dropped singular values with the tolerance
itself, so the relative error of rounding is not bounded by `epsilon`: for every `epsilon > 0` there is a non-zero train,
`epsilon·(e₀⊗e₀ + e₁⊗e₁)`, that loses half of its squared norm when rounded to relative accuracy `epsilon`. -/
theorem round_eps_counterexample {eps : ℝ} (he : 0 < eps) : ∃ (o : RdOps L2) (a b : FT ℝ L2), Laws sEv sFam sInteg o ∧
    a.Ok sFam ∧ a.dim = 2 ∧ ftRound o none 0 a eps = .ok b ∧ 0 < iint sInteg 0 2 (fun x => value sEv a.cores x ^ 2) ∧
    iint sInteg 0 2 (fun x => (value sEv a.cores x - value sEv b.cores x) ^ 2)
      = 1 / 2 * iint sInteg 0 2 (fun x => value sEv a.cores x ^ 2) := by
  have hL := exRd_laws eps he
  refine ⟨exRd eps, sFt eps, exOut eps, hL, sFt_ok eps, rfl, ?_, ?_, ?_⟩
  · rw [round_run hL (sFt_ok eps) (thr := 0) (Real.sqrt_nonneg _), roundMain, copy_ok (sFt_ok eps).wf, bind_ok]
    have hn := norm2_value s_int s_lin s_mem2 s_innerLaw (sFt_ok eps)
    change ftNorm2 (exRd eps).lin (exRd eps).inner (sFt eps) = .ok (Real.sqrt |iint sInteg 0 2 _|) at hn
    rw [sFt_norm] at hn
    change (ftNorm2 (exRd eps).lin (exRd eps).inner (sFt eps) >>= _) = _
    rw [hn, bind_ok]
    dsimp only
    have hd : eps ^ 2 < Real.sqrt |2 * eps ^ 2| * eps / Real.sqrt (((sFt eps).dim - 1 : Nat) : ℝ) := by
      have h1 : (((sFt eps).dim - 1 : Nat) : ℝ) = 1 := by norm_num [sFt]
      rw [h1, Real.sqrt_one, div_one, abs_of_pos (by positivity), pow_two]
      refine mul_lt_mul_of_pos_right ?_ he
      rw [Real.lt_sqrt he.le]
      nlinarith
    change (orthor (exRd eps) (sFt eps) >>= _) = _
    rw [ex_orthor, bind_ok]
    change (roundFirst (exRd eps) none _ 2 _ >>= _) = _
    rw [ex_run eps hd, bind_ok]
    rfl
  · rw [sFt_norm]; positivity
  · have := dist_spec s_int s_mem2 (sFt_ok eps) (exOut_ok eps) rfl
    change iint sInteg 0 2 _ = _ at this
    rw [this, sFt_self, sFt_norm]
    have h1 : ichain2 sEv sInteg 0 (sFt eps).cores (exOut eps).cores 0 0 = eps ^ 2 := by
      simp [sFt, exOut, ichain2, s_J2, sA, sB, sum_range_succ, unit_inner, real_inner_smul_left, real_inner_smul_right, unit_norm]
      ring
    have h2 : ichain2 sEv sInteg 0 (exOut eps).cores (exOut eps).cores 0 0 = eps ^ 2 := by
      simp [exOut, ichain2, s_J2, sum_range_succ, unit_inner, real_inner_smul_left, real_inner_smul_right, unit_norm]
      ring
    rw [h1, h2]
    ring

end C3.Round
