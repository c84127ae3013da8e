/-
C105: what rounding a train promises and what it does not.
-/
import Verif.Round.Props
import Verif.Round.Inst

set_option linter.unusedSectionVars false

namespace C3.Round
open Finset C3.Ft
variable {U X : Type} {e : Ev ℝ U X} {F : Fam U X} {I : Integ ℝ X}

/-- The contracts of the routines rounding is built on. -/
structure Laws (e : Ev ℝ U X) (F : Fam U X) (I : Integ ℝ X) (o : RdOps U) : Prop where
  int : IntLaw F.D I
  mem : MemLaw2 e F I
  lin : LinLaw e o.lin F
  inner : InnerLaw e F I o.inner
  qr : QrLaw e F I o.qr
  lq : LqLaw e F I o.lq
  svd : SvdLaw o.svd

/-- The `L²` norm of the function a train represents. -/
noncomputable def nrm (e : Ev ℝ U X) (I : Integ ℝ X) (a : FT ℝ U) : ℝ :=
  Real.sqrt |iint I 0 a.dim (fun x => value e a.cores x ^ 2)|

theorem round_run {o : RdOps U} (h : Laws e F I o) {a : FT ℝ U} (ha : a.Ok F) {thr : ℝ} (ht : thr ≤ nrm e I a)
    (mr : Option Nat) (eps : ℝ) : ftRound o mr thr a eps = roundMain o mr a eps := by
  rw [ftRound, norm2_value h.int h.lin h.mem h.inner ha, bind_ok]
  exact if_neg (not_lt.2 ht)

/-- C105: for every train of dimension at least 2 whose norm is not below the threshold and every tolerance `eps`, rounding
succeeds; the result is a well-formed train of the same dimension, no rank grows, the error is orthogonal to the result
(so the norm does not grow), and the squared error is at most `sqrt(d-1)·‖f‖·eps`. Missing: the documented relative accuracy
`eps`, which does not hold (`round_eps_counterexample`), and dimension 1 (`round_dim1_actual`). -/
theorem round_partial {o : RdOps U} (h : Laws e F I o) {a : FT ℝ U} (ha : a.Ok F) (h2 : 2 ≤ a.dim) {thr : ℝ}
    (ht : thr ≤ nrm e I a) {eps : ℝ} (he : 0 ≤ eps) :
    ∃ b, ftRound o none thr a eps = .ok b ∧ Rounded e F I a b ∧
      iint I 0 a.dim (fun x => (value e a.cores x - value e b.cores x) ^ 2)
        ≤ Real.sqrt (a.dim - 1) * Real.sqrt (iint I 0 a.dim (fun x => value e a.cores x ^ 2)) * eps := by
  obtain ⟨b, b1, b2, b3, -⟩ := roundMain_ok h.int h.mem h.lin h.inner h.qr h.lq h.svd ha h2 (mr := none) (by simp) eps
  exact ⟨b, by rw [round_run h ha ht, b1], b2, b3 rfl he⟩

/-- C105: rounding with a tolerance that is zero keeps the function. -/
theorem round_exact {o : RdOps U} (h : Laws e F I o) {a : FT ℝ U} (ha : a.Ok F) (h2 : 2 ≤ a.dim) {thr : ℝ}
    (ht : thr ≤ nrm e I a) :
    ∃ b, ftRound o none thr a 0 = .ok b ∧ Rounded e F I a b ∧
      iint I 0 a.dim (fun x => (value e a.cores x - value e b.cores x) ^ 2) = 0 := by
  obtain ⟨b, b1, b2, b3⟩ := round_partial h ha h2 ht (le_refl 0)
  rw [mul_zero] at b3
  exact ⟨b, b1, b2, le_antisymm b3 b2.nonneg⟩

/-- C105: with a rank bound the result obeys it. -/
theorem round_maxrank {o : RdOps U} (h : Laws e F I o) {a : FT ℝ U} (ha : a.Ok F) (h2 : 2 ≤ a.dim) {thr : ℝ}
    (ht : thr ≤ nrm e I a) {m : Nat} (hm : 0 < m) (eps : ℝ) :
    ∃ b, ftRound o (some m) thr a eps = .ok b ∧ Rounded e F I a b ∧ ∀ k, b.ranks.getD k 0 ≤ m := by
  obtain ⟨b, b1, b2, -, b4⟩ := roundMain_ok h.int h.mem h.lin h.inner h.qr h.lq h.svd ha h2 (mr := some m)
    (fun k hk => by rw [← Option.some.inj hk]; exact hm) eps
  exact ⟨b, by rw [round_run h ha ht, b1], b2, b4 m rfl⟩

/-- C105: a train with a norm below the threshold is replaced by the constant zero. -/
theorem round_small {o : RdOps U} (h : Laws e F I o) {a : FT ℝ U} (ha : a.Ok F) {thr : ℝ} (ht : nrm e I a < thr)
    (mr : Option Nat) (eps : ℝ) : ftRound o mr thr a eps = o.zero := by
  rw [ftRound, norm2_value h.int h.lin h.mem h.inner ha, bind_ok]
  exact if_pos ht

/-- C105, disagreement: right-orthogonalising a train of dimension 1 returns `A·L` where `A = L·Q` is its only core: the
result represents `L·f` instead of `f`. -/
theorem orthor_dim1_actual {o : RdOps U} (h : Laws e F I o) {a : FT ℝ U} (ha : a.Ok F) (h1 : a.dim = 1) :
    ∃ f c l, orthor o a = .ok f ∧ f.cores = [c] ∧ QOk F 0 c ∧ c.nrows = 1 ∧ c.ncols = 1 ∧ f.dim = a.dim ∧ (∃ A Q, LqGood e F I 0 A Q [l]) ∧
      ∀ x, F.D 0 x → value e f.cores [x] = l * value e a.cores [x] := by
  have hd := ha.wf.dim
  have hk : 0 < a.cores.length := by omega
  obtain ⟨ok1, r1, c1, p1, p2⟩ := core_facts ha hk
  have hr0 : a.ranks.getD 0 0 = 1 := by rw [ha.wf.ranks]; rfl
  have hlast : a.ranks.getD 1 0 = 1 := by
    have := ha.wf.fits.last
    rw [show a.cores.length = 1 by omega, ← ha.wf.ranks] at this
    rw [List.getD_eq_getElem?_getD, this]; rfl
  rw [hr0] at r1
  rw [Nat.zero_add, hlast] at c1
  obtain ⟨⟨Q, L⟩, q1, q2⟩ := h.lq 0 _ ok1 (by omega) (by omega)
  obtain ⟨l, hl⟩ : ∃ l, L = [l] := by
    have := q2.len
    rw [r1] at this
    exact List.length_eq_one_iff.1 this
  dsimp only at q2
  rw [hl] at q2
  obtain ⟨T, t1, t2⟩ := qmam_value h.lin ok1 (R := [l]) (b := 1) (by omega) (by rw [c1]; exact le_rfl)
  have hcs : a.cores = [a.cores[0]] := by
    obtain ⟨A, hA⟩ := List.length_eq_one_iff.1 (show a.cores.length = 1 by omega)
    simp [hA]
  refine ⟨⟨a.dim, a.ranks, [T], none, none, none⟩, T, l, ?_, rfl, ⟨t2.wf, t2.mem⟩, by rw [t2.nrows, r1], t2.ncols, rfl, ⟨_, _, q2⟩, ?_⟩
  · have hrk : rd a.ranks 1 = .ok 1 := by
      rw [rd_getD 0 (by rw [ha.wf.ranks]; simp; omega), hlast]
    rw [orthor]
    simp only [h1]
    rw [rd_ok hk, bind_ok, q1, bind_ok, hl]
    rw [show wr (List.replicate 1 none) (1 - 1) (some (Q, [l]).1) = .ok [some Q] from rfl, bind_ok,
      show forR 2 1 (orthorStep o a) ⟨[some Q], (Q, [l]).2⟩ = .ok ⟨[some Q], [l]⟩ from rfl, bind_ok, bind_ok, hrk, bind_ok,
      t1, bind_ok]
    rfl
  · intro x hx
    rw [hcs, value, value, chain_cons, chain_cons, t2.ncols, c1, sum_range_one, sum_range_one,
      t2.val x hx 0 (by omega) 0 (by omega), c1, sum_range_one]
    have : ent 1 [l] 0 0 = l := rfl
    rw [this]
    show _ * l * chain [] 0 = l * (_ * chain [] 0)
    ring

/-- C105, disagreement: a train of dimension 1 cannot be rounded, the core after the first is read although there is
none. -/
theorem round_dim1_actual {o : RdOps U} (h : Laws e F I o) {a : FT ℝ U} (ha : a.Ok F) (h1 : a.dim = 1) {thr : ℝ}
    (ht : thr ≤ nrm e I a) (mr : Option Nat) (hmr : ∀ m, mr = some m → 0 < m) (eps : ℝ) :
    ftRound o mr thr a eps = .error .oob := by
  obtain ⟨a', ha'def⟩ : ∃ a' : FT ℝ U, a' = { a with sp1 := none, sp2 := none, sp3 := none } := ⟨_, rfl⟩
  have ha' : a'.Ok F := by
    subst ha'def
    exact ⟨⟨ha.wf.dim, ha.wf.pos, ha.wf.ranks, ha.wf.fits⟩, ha.pos, ha.mem⟩
  have hcopy : ftCopy a = .ok a' := by rw [ha'def]; exact copy_ok ha.wf
  have hd' : a'.dim = 1 := by rw [ha'def]; exact h1
  obtain ⟨f, c, l, f1, f2, f3, f4, f5, -⟩ := orthor_dim1_actual h ha' hd'
  rw [round_run h ha ht, roundMain, hcopy, bind_ok, norm2_value h.int h.lin h.mem h.inner ha', bind_ok]
  dsimp only
  rw [f1, bind_ok]
  generalize Real.sqrt _ * eps / _ = delta
  obtain ⟨w, φ, d0, a1, a2, a3⟩ := qmaTsvd_ok h.int h.mem h.lin h.qr h.svd f3 (by omega) (by omega) delta
  obtain ⟨d, b1, -, -⟩ := cutOpt_ok a2 hmr
  have hrd : rd f.cores 0 = .ok c := by rw [f2]; rfl
  have hrd1 : rd f.cores 1 = .error .oob := by rw [f2]; rfl
  rw [roundFirst, hd', show wr (List.replicate (1 + 1) 0) 0 1 = .ok [1, 0] from rfl, bind_ok, hrd, bind_ok, a1, bind_ok, b1,
    bind_ok, show wr (List.replicate 1 none) 0 (some d.core) = .ok [some d.core] from rfl, bind_ok,
    show wr [1, 0] 1 d.rank = .ok [1, d.rank] from rfl, bind_ok, hrd1, bind_error, bind_error]

/-! The contracts are satisfiable: square-summable sequences. -/

theorem s_laws : Laws sEv sFam sInteg sRd := ⟨s_int, s_mem2, s_lin, s_innerLaw, s_qr, s_lq, svdAny_law⟩

/-- `t (e₀ ⊗ e₀ + e₁ ⊗ e₁)`. -/
noncomputable def unit (n : Nat) : L2 := lp.single 2 n (1 : ℝ)
noncomputable def sA : Qma L2 := ⟨1, 2, [unit 0, unit 1]⟩
noncomputable def sB (t : ℝ) : Qma L2 := ⟨2, 1, [t • unit 0, t • unit 1]⟩
noncomputable def sFt (t : ℝ) : FT ℝ L2 := ⟨2, [1, 2, 1], [sA, sB t], none, none, none⟩

theorem sFt_ok (t : ℝ) : (sFt t).Ok sFam := by
  refine ⟨⟨rfl, List.cons_ne_nil _ _, rfl, ?_⟩, ?_, fun _ _ _ _ _ => trivial⟩
  · exact Fits.cons sA _ rfl (Fits.cons (sB t) _ rfl (.nil _))
  · intro k r h
    change [1, 2, 1][k]? = some r at h
    rcases k with _ | _ | _ | k <;> simp at h <;> omega

theorem unit_inner (v w : ℕ) : inner ℝ (unit v) (unit w) = if v = w then (1 : ℝ) else 0 := single_inner v w

theorem unit_norm (v : ℕ) : ‖unit v‖ = 1 := by
  have := unit_inner v v
  rw [if_pos rfl, real_inner_self_eq_norm_sq] at this
  nlinarith [norm_nonneg (unit v)]

theorem s_J2 (A B : Qma L2) (k i c i' c' : Nat) :
    sInteg.J k (fun x => A.val sEv x i c * B.val sEv x i' c')
      = inner ℝ (A.funcs.getD (c * A.nrows + i) 0 : L2) (B.funcs.getD (c' * B.nrows + i') 0) := by
  rw [← s_inner]
  simp only [s_val]
  rfl

theorem sFt_self (t : ℝ) : ichain2 sEv sInteg 0 (sFt t).cores (sFt t).cores 0 0 = 2 * t ^ 2 := by
  simp [sFt, ichain2, s_J2, sA, sB, sum_range_succ, unit_inner, real_inner_smul_left, real_inner_smul_right, unit_norm]
  ring

theorem sFt_norm (t : ℝ) : iint sInteg 0 2 (fun x => value sEv (sFt t).cores x ^ 2) = 2 * t ^ 2 := by
  have := inner_spec s_int s_mem2 (⟨sFt_ok t, sFt_ok t, rfl⟩ : Pair sFam (sFt t) (sFt t))
  rw [sFt_self] at this
  rw [← this]
  congr 1
  funext x
  ring

example : ∃ b, ftRound sRd none 0 (sFt 1) (1 / 10) = .ok b ∧ Rounded sEv sFam sInteg (sFt 1) b := by
  obtain ⟨b, b1, b2, -⟩ := round_partial s_laws (sFt_ok 1) (le_refl 2) (thr := 0) (Real.sqrt_nonneg _) (eps := 1 / 10) (by norm_num)
  exact ⟨b, b1, b2⟩

example : ∃ b, ftRound sRd (some 1) 0 (sFt 1) (1 / 10) = .ok b ∧ ∀ k, b.ranks.getD k 0 ≤ 1 := by
  obtain ⟨b, b1, -, b2⟩ := round_maxrank s_laws (sFt_ok 1) (le_refl 2) (thr := 0) (Real.sqrt_nonneg _) Nat.one_pos (1 / 10)
  exact ⟨b, b1, b2⟩

end C3.Round
