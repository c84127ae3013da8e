/-
C20 (symmetry, bilinearity, agreement of the three algorithms), C51 (L2 distance) and the interval integral as an instance.
-/
import Verif.Ft.IntProps
import Mathlib.Analysis.SpecialFunctions.Pow.Real
import Mathlib.MeasureTheory.Integral.IntervalIntegral.Basic
import Mathlib.Analysis.SpecialFunctions.Integrals.Basic

set_option linter.unusedSectionVars false

namespace C3.Ft
open Finset
variable {K U X : Type} [Field K]
variable {e : Ev K U X} {F : Fam U X} {I : Integ K X} {o : LOps K U} {int : U → C K} {inner : U → U → C K}

/-- C20: the three algorithms agree. -/
theorem inner_agree (hI : IntLaw F.D I) (hL : LinLaw e o F) (hm : MemLaw2 e F I) (hin : InnerLaw e F I inner)
    {a b : FT K U} (ha : a.Ok F) (hb : b.Ok F) (hab : a.dim = b.dim) :
    ∃ v, ftInner o inner a b = .ok v ∧ ftInner2 o inner a b = .ok v ∧ ftInnerRl o inner a b = .ok v :=
  ⟨_, inner_value hI hL hm hin ha hb hab, inner2_value hI hL hm hin ha hb hab, innerRl_value hI hL hm hin ha hb hab⟩

/-- C20: symmetry. -/
theorem inner_comm (hI : IntLaw F.D I) (hL : LinLaw e o F) (hm : MemLaw2 e F I) (hin : InnerLaw e F I inner)
    {a b : FT K U} (ha : a.Ok F) (hb : b.Ok F) (hab : a.dim = b.dim) :
    ∃ v, ftInner o inner a b = .ok v ∧ ftInner o inner b a = .ok v := by
  refine ⟨_, inner_value hI hL hm hin ha hb hab, ?_⟩
  rw [inner_value hI hL hm hin hb ha hab.symm, hab]
  simp only [mul_comm]

/-- The inner product is the integral of the product train (C17 and C19 together). -/
theorem inner_eq_integrate_prod (hI : IntLaw F.D I) (hL : LinLaw e o F) (hS : SpLaw e o F) (hm : MemLaw e F I)
    (hm2 : MemLaw2 e F I) (hq : QuadLaw e F I int) (hin : InnerLaw e F I inner) {a b : FT K U} (ha : a.Ok F)
    (hb : b.Ok F) (hab : a.dim = b.dim) :
    ∃ c v, ftProd o.toOps a b = .ok c ∧ ftInt int c = .ok v ∧ ftInner o inner a b = .ok v := by
  obtain ⟨c, h1, hc, -, hd, -, hv⟩ := prod_value hS.prod ha hb hab
  refine ⟨c, _, h1, integrate_value hI hm hq hc, ?_⟩
  rw [inner_value hI hL hm2 hin ha hb hab]
  have hiv := (iint_chain (F := F) (k := 0) (i := 0) hI hm hc.wf.fits
    (fun j Q hQ => by rw [Nat.zero_add]; exact hc.mem j Q hQ) (by decide)).1
  rw [← hc.wf.dim] at hiv
  have := (iint_congr (D := F.D) hI (k := 0) (n := c.dim) (g := value e c.cores)
    (h := fun x => value e a.cores x * value e b.cores x)
    (fun xs hl hD => hv xs ⟨by rw [hl, hd], fun k hk x hx => by have := hD k x hx; rwa [Nat.zero_add] at this⟩) hiv).2
  rw [this, hd]

theorem pair_iv (hI : IntLaw F.D I) (hm : MemLaw2 e F I) {a b : FT K U} (ha : a.Ok F) (hb : b.Ok F)
    (hab : a.dim = b.dim) : IV F.D I 0 a.dim (fun x => value e a.cores x * value e b.cores x) := by
  have hlen : a.cores.length = b.cores.length := by rw [← ha.wf.dim, ← hb.wf.dim, hab]
  have := (iint_chain2 (F := F) (k := 0) (i := 0) (i' := 0) hI hm hlen ha.wf.fits hb.wf.fits
    (fun j Q hQ => by rw [Nat.zero_add]; exact ha.mem j Q hQ)
    (fun j Q hQ => by rw [Nat.zero_add]; exact hb.mem j Q hQ) (by decide) (by decide)).1
  rw [ha.wf.dim]; exact this

/-- C20: additivity in the first argument (dimension at least 2, where sums are correct). -/
theorem inner_add_partial (hI : IntLaw F.D I) (hL : LinLaw e o F) (hm : MemLaw2 e F I) (hin : InnerLaw e F I inner)
    {a b c : FT K U} (ha : a.Ok F) (hb : b.Ok F) (hc : c.Ok F) (hab : a.dim = b.dim) (hac : a.dim = c.dim)
    (h2 : 2 ≤ a.dim) :
    ∃ s u v, ftSum o.toOps a b = .ok s ∧ ftInner o inner a c = .ok u ∧ ftInner o inner b c = .ok v ∧
      ftInner o inner s c = .ok (u + v) := by
  obtain ⟨s, h1, hs, -, hd, -, hv⟩ := sum_value_partial hL.scale ha hb hab h2
  refine ⟨s, _, _, h1, inner_value hI hL hm hin ha hc hac, inner_value hI hL hm hin hb hc (hab ▸ hac), ?_⟩
  rw [inner_value hI hL hm hin hs hc (hd.trans hac), ← hab, hd]
  have i1 := pair_iv hI hm ha hc hac
  have i2 := pair_iv hI hm hb hc (hab ▸ hac)
  rw [← hab] at i2
  obtain ⟨a1, a2⟩ := iint_add hI i1 i2
  rw [← a2]
  congr 1
  exact ((iint_congr hI (fun xs hl hD => by
    rw [hv xs ⟨by rw [hl], fun k hk x hx => by have := hD k x hx; rwa [Nat.zero_add] at this⟩, add_mul]) a1).2).symm

/-- C20: homogeneity. -/
theorem inner_smul (hI : IntLaw F.D I) (hL : LinLaw e o F) (hm : MemLaw2 e F I) (hin : InnerLaw e F I inner)
    {a c : FT K U} (ha : a.Ok F) (hc : c.Ok F) (hac : a.dim = c.dim) (t : K) :
    ∃ s u, ftScale o.toOps a t = .ok s ∧ ftInner o inner a c = .ok u ∧ ftInner o inner s c = .ok (t * u) := by
  obtain ⟨s, h1, hs, hd, -, -, hv⟩ := scale_value hL.scale ha t
  refine ⟨s, _, h1, inner_value hI hL hm hin ha hc hac, ?_⟩
  rw [inner_value hI hL hm hin hs hc (hd.trans hac), hd]
  obtain ⟨a1, a2⟩ := iint_smul hI t (pair_iv hI hm ha hc hac)
  rw [← a2]
  congr 1
  exact ((iint_congr hI (fun xs hl hD => by
    rw [hv xs ⟨by rw [hl], fun k hk x hx => by have := hD k x hx; rwa [Nat.zero_add] at this⟩, mul_assoc]) a1).2).symm

/-! ### L2 norms -/

/-- c3/lib_clinalg/ft.c:2505-2516 `function_train_norm2` (the sign test has an empty body). -/
noncomputable def ftNorm2 (o : LOps ℝ U) (inner : U → U → C ℝ) (a : FT ℝ U) : C ℝ := do
  let v ← ftInner o inner a a
  pure (Real.sqrt |v|)

/-- c3/lib_clinalg/ft.c:2966-2978 `function_train_norm2diff`. -/
noncomputable def norm2diff (o : LOps ℝ U) (inner : U → U → C ℝ) (a b : FT ℝ U) : C ℝ := do
  let c ← ftCopy b
  let c ← ftScale o.toOps c (-1)
  let d ← ftSum o.toOps a c
  ftNorm2 o inner d

/-- c3/lib_clinalg/ft.c:2990-3015 `function_train_relnorm2diff`; `thr` is ZEROTHRESH. -/
noncomputable def relnorm2diff (o : LOps ℝ U) (inner : U → U → C ℝ) (thr : ℝ) (a b : FT ℝ U) : C ℝ := do
  let c ← ftCopy b
  let c ← ftScale o.toOps c (-1)
  let den ← ftInner o inner c c
  let d ← ftSum o.toOps a c
  let num ← ftInner o inner d d
  pure (Real.sqrt |if |den| > thr then num / den else num|)

section norms
variable {e : Ev ℝ U X} {I : Integ ℝ X} {o : LOps ℝ U} {inner : U → U → C ℝ}

theorem norm2_value (hI : IntLaw F.D I) (hL : LinLaw e o F) (hm : MemLaw2 e F I) (hin : InnerLaw e F I inner)
    {a : FT ℝ U} (ha : a.Ok F) :
    ftNorm2 o inner a = .ok (Real.sqrt |iint I 0 a.dim (fun x => value e a.cores x ^ 2)|) := by
  rw [ftNorm2, inner_value hI hL hm hin ha ha rfl, bind_ok, pure_eq_ok]
  simp only [sq]

/-- What copying, negating and adding gives. -/
theorem diff_train (hI : IntLaw F.D I) (hL : LinLaw e o F) (hm : MemLaw2 e F I) (hin : InnerLaw e F I inner)
    {a b : FT ℝ U} (ha : a.Ok F) (hb : b.Ok F) (hab : a.dim = b.dim) (h2 : 2 ≤ a.dim) :
    ∃ c d, (ftCopy b >>= fun c => ftScale o.toOps c (-1)) = .ok c ∧ ftSum o.toOps a c = .ok d ∧ c.Ok F ∧ c.dim = b.dim ∧
      ftInner o inner c c = .ok (iint I 0 a.dim (fun x => value e b.cores x ^ 2)) ∧
      ftInner o inner d d = .ok (iint I 0 a.dim (fun x => (value e a.cores x - value e b.cores x) ^ 2)) ∧ d.Ok F := by
  have hb' : ({ b with sp1 := none, sp2 := none, sp3 := none } : FT ℝ U).Ok F := ⟨hb.wf |> fun h => ⟨h.dim, h.pos, h.ranks, h.fits⟩,
    hb.pos, hb.mem⟩
  obtain ⟨c, c1, c2, c3, -, -, c4⟩ := scale_value hL.scale hb' (-1)
  obtain ⟨d, d1, d2, -, d3, -, d4⟩ := sum_value_partial hL.scale ha c2 (hab.trans c3.symm) h2
  refine ⟨c, d, by rw [copy_ok hb.wf, bind_ok, c1], d1, c2, c3, ?_, ?_, d2⟩
  · rw [inner_value hI hL hm hin c2 c2 rfl, c3]
    have := (iint_congr hI (k := 0) (n := b.dim) (g := fun x => value e c.cores x * value e c.cores x)
      (h := fun x => value e b.cores x ^ 2)
      (fun xs hl hD => by
        rw [c4 xs ⟨by rw [hl], fun k hk x hx => by have := hD k x hx; rwa [Nat.zero_add] at this⟩]
        ring) (by have := pair_iv hI hm c2 c2 rfl; rwa [c3] at this)).2
    rw [← hab] at this
    congr 1
    rw [← this]
    exact congrArg (fun n => iint I 0 n _) hab.symm
  · rw [inner_value hI hL hm hin d2 d2 rfl, d3]
    have := (iint_congr hI (k := 0) (n := a.dim) (g := fun x => value e d.cores x * value e d.cores x)
      (h := fun x => (value e a.cores x - value e b.cores x) ^ 2)
      (fun xs hl hD => by
        have hD' : InDom F a.dim xs := ⟨by rw [hl], fun k hk x hx => by have := hD k x hx; rwa [Nat.zero_add] at this⟩
        rw [d4 xs hD', c4 xs (by rw [show ({ b with sp1 := none, sp2 := none, sp3 := none } : FT ℝ U).dim = a.dim from hab.symm]; exact hD')]
        ring) (by have := pair_iv hI hm d2 d2 rfl; rwa [d3] at this)).2
    rw [this]

/-- C51: the L2 distance of two trains is the square root of the integral of the squared difference (dimension at least
2; for dimension 1 see `sum_dim1_counterexample`). -/
theorem norm2diff_value_partial (hI : IntLaw F.D I) (hL : LinLaw e o F) (hm : MemLaw2 e F I) (hin : InnerLaw e F I inner)
    {a b : FT ℝ U} (ha : a.Ok F) (hb : b.Ok F) (hab : a.dim = b.dim) (h2 : 2 ≤ a.dim) :
    norm2diff o inner a b =
      .ok (Real.sqrt |iint I 0 a.dim (fun x => (value e a.cores x - value e b.cores x) ^ 2)|) := by
  obtain ⟨c, d, h1, h2, -, -, -, h3, -⟩ := diff_train hI hL hm hin ha hb hab h2
  rw [norm2diff, bind_of_bind h1, h2, bind_ok, ftNorm2, h3, bind_ok, pure_eq_ok]

/-- C51: the relative distance divides by the norm of the second train unless that is below the threshold. -/
theorem relnorm2diff_value_partial (hI : IntLaw F.D I) (hL : LinLaw e o F) (hm : MemLaw2 e F I)
    (hin : InnerLaw e F I inner) (thr : ℝ) {a b : FT ℝ U} (ha : a.Ok F) (hb : b.Ok F) (hab : a.dim = b.dim)
    (h2 : 2 ≤ a.dim) (hthr : thr < |iint I 0 a.dim (fun x => value e b.cores x ^ 2)|) :
    relnorm2diff o inner thr a b =
      .ok (Real.sqrt |iint I 0 a.dim (fun x => (value e a.cores x - value e b.cores x) ^ 2)| /
        Real.sqrt |iint I 0 a.dim (fun x => value e b.cores x ^ 2)|) := by
  obtain ⟨c, d, h1, h2, -, -, h4, h3, -⟩ := diff_train hI hL hm hin ha hb hab h2
  rw [relnorm2diff, bind_of_bind h1, h4, bind_ok, h2, bind_ok, h3, bind_ok, pure_eq_ok, if_pos hthr, abs_div,
    Real.sqrt_div (abs_nonneg _)]

/-- C51: otherwise the absolute distance is returned. -/
theorem relnorm2diff_small_partial (hI : IntLaw F.D I) (hL : LinLaw e o F) (hm : MemLaw2 e F I)
    (hin : InnerLaw e F I inner) (thr : ℝ) {a b : FT ℝ U} (ha : a.Ok F) (hb : b.Ok F) (hab : a.dim = b.dim)
    (h2 : 2 ≤ a.dim) (hthr : |iint I 0 a.dim (fun x => value e b.cores x ^ 2)| ≤ thr) :
    relnorm2diff o inner thr a b =
      .ok (Real.sqrt |iint I 0 a.dim (fun x => (value e a.cores x - value e b.cores x) ^ 2)|) := by
  obtain ⟨c, d, h1, h2, -, -, h4, h3, -⟩ := diff_train hI hL hm hin ha hb hab h2
  rw [relnorm2diff, bind_of_bind h1, h4, bind_ok, h2, bind_ok, h3, bind_ok, pure_eq_ok, if_neg (not_lt.2 hthr)]

end norms

/-! ### Instance: interval integrals of continuous functions over a box -/

section real
open MeasureTheory

/-- Continuous functions with a nonnegative weight function 1: `∫_{lo_k}^{hi_k}`. -/
noncomputable def rInteg (lo hi : Nat → ℝ) : Integ ℝ ℝ where
  V := fun _ g => ∀ a b : ℝ, IntervalIntegrable g volume a b
  J := fun k g => ∫ x in (lo k)..(hi k), g x

def rEv : Ev ℝ (ℝ → ℝ) ℝ := ⟨fun f x => f x, fun _ => false⟩
def rFam : Fam (ℝ → ℝ) ℝ := ⟨fun _ f => Continuous f, fun _ _ => True⟩
def rOps : LOps ℝ (ℝ → ℝ) where
  scale := fun a f => .ok (fun x => a * f x)
  prod := fun f g => .ok (fun x => f x * g x)
  daxpby := fun a f b g => .ok (fun x => a * f x + b * g x)
  poly := fun _ => false
  lcPoly := fun _ _ => .error .assertFail
  spPoly := fun _ _ => .error .assertFail
noncomputable def rInt (lo hi : ℝ) (f : ℝ → ℝ) : C ℝ := .ok (∫ x in lo..hi, f x)
noncomputable def rInner (lo hi : ℝ) (f g : ℝ → ℝ) : C ℝ := .ok (∫ x in lo..hi, f x * g x)

theorem r_intLaw (lo hi : Nat → ℝ) : IntLaw rFam.D (rInteg lo hi) where
  zero := fun _ a b => by simp
  add := fun k g h hg hh => ⟨fun a b => (hg a b).add (hh a b), intervalIntegral.integral_add (hg _ _) (hh _ _)⟩
  smul := fun k a g hg => ⟨fun c d => (hg c d).const_mul a, intervalIntegral.integral_const_mul _ _⟩
  congr := fun k g h e hg => by
    have : g = h := funext fun x => e x trivial
    subst this; exact ⟨hg, rfl⟩

theorem r_mem (lo hi : Nat → ℝ) : MemLaw rEv rFam (rInteg lo hi) := fun _ _ hf _ _ => hf.intervalIntegrable _ _
theorem r_mem2 (lo hi : Nat → ℝ) : MemLaw2 rEv rFam (rInteg lo hi) :=
  fun _ _ _ hf hg _ _ => (hf.mul hg).intervalIntegrable _ _
theorem r_lin : LinLaw rEv rOps rFam where
  scale := fun _ _ _ hf => ⟨_, rfl, continuous_const.mul hf, fun _ _ => rfl⟩
  daxpby := fun _ _ _ _ _ hf hg => ⟨_, rfl, (continuous_const.mul hf).add (continuous_const.mul hg), fun _ _ => rfl⟩
  lcPoly := fun k cs fs _ hne h => by
    obtain ⟨f, l, rfl⟩ := List.exists_cons_of_ne_nil hne
    exact absurd (h f (by simp)).2 (by simp [rOps])
theorem r_quad (l h : ℝ) : QuadLaw rEv rFam (rInteg (fun _ => l) (fun _ => h)) (rInt l h) := fun _ _ _ => rfl
theorem r_inner (l h : ℝ) : InnerLaw rEv rFam (rInteg (fun _ => l) (fun _ => h)) (rInner l h) := fun _ _ _ _ _ => rfl

/-- `x + y` over `[0,1]²`. -/
noncomputable def rFt : FT ℝ (ℝ → ℝ) :=
  ⟨2, [1, 2, 1], [⟨1, 2, [fun x => x, fun _ => 1]⟩, ⟨2, 1, [fun _ => 1, fun x => x]⟩], none, none, none⟩

theorem rFt_ok : rFt.Ok rFam := by
  refine ⟨⟨rfl, List.cons_ne_nil _ _, rfl, ?_⟩, ?_, ?_⟩
  · refine Fits.cons (⟨1, 2, [fun x => x, fun _ => 1]⟩ : Qma (ℝ → ℝ)) _ rfl ?_
    exact Fits.cons (⟨2, 1, [fun _ => 1, fun x => x]⟩ : Qma (ℝ → ℝ)) _ rfl (.nil _)
  · intro k r h
    change [1, 2, 1][k]? = some r at h
    rcases k with _ | _ | _ | k <;> simp at h <;> omega
  · intro k Q hQ f hf
    rcases k with _ | _ | k
    · simp only [rFt, List.getElem?_cons_zero, Option.some.injEq] at hQ
      subst hQ
      simp only [List.mem_cons, List.not_mem_nil, or_false] at hf
      rcases hf with rfl | rfl
      · exact continuous_id
      · exact continuous_const
    · simp only [rFt, List.getElem?_cons_succ, List.getElem?_cons_zero, Option.some.injEq] at hQ
      subst hQ
      simp only [List.mem_cons, List.not_mem_nil, or_false] at hf
      rcases hf with rfl | rfl
      · exact continuous_const
      · exact continuous_id
    · simp [rFt] at hQ

theorem rFt_value (a b : ℝ) : value rEv rFt.cores [a, b] = a + b := by
  simp [value, mats, chain, rFt, rEv, Qma.val, Finset.sum_range_succ]

/-- `∫∫ x + y = 1` over the unit square. -/
example : ftInt (rInt 0 1) rFt = .ok 1 := by
  rw [integrate_value (r_intLaw _ _) (r_mem _ _) (r_quad 0 1) rFt_ok]
  congr 1
  show (∫ x in (0 : ℝ)..1, ∫ y in (0 : ℝ)..1, value rEv rFt.cores [x, y]) = 1
  simp only [rFt_value]
  have : ∀ x : ℝ, ∫ y in (0 : ℝ)..1, (x + y) = x + 1 / 2 := by
    intro x
    rw [intervalIntegral.integral_add (f := fun _ => x) (g := fun y => y) (Continuous.intervalIntegrable (by fun_prop) _ _) (Continuous.intervalIntegrable (by fun_prop) _ _)]
    simp
  simp only [this]
  rw [intervalIntegral.integral_add (f := fun x => x) (g := fun _ => 1 / 2) (Continuous.intervalIntegrable (by fun_prop) _ _)
    (Continuous.intervalIntegrable (by fun_prop) _ _)]
  simp; norm_num

/-- `∫∫ (x + y)² = 7/6`, by all three algorithms. -/
example : ftInner rOps (rInner 0 1) rFt rFt = .ok (7 / 6) ∧ ftInner2 rOps (rInner 0 1) rFt rFt = .ok (7 / 6) ∧
    ftInnerRl rOps (rInner 0 1) rFt rFt = .ok (7 / 6) := by
  have key : iint (rInteg (fun _ => 0) (fun _ => 1)) 0 rFt.dim
      (fun x => value rEv rFt.cores x * value rEv rFt.cores x) = 7 / 6 := by
    show (∫ x in (0 : ℝ)..1, ∫ y in (0 : ℝ)..1, value rEv rFt.cores [x, y] * value rEv rFt.cores [x, y]) = 7 / 6
    simp only [rFt_value]
    have : ∀ x : ℝ, ∫ y in (0 : ℝ)..1, (x + y) * (x + y) = x ^ 2 + x + 1 / 3 := by
      intro x
      have : ∀ y : ℝ, (x + y) * (x + y) = x ^ 2 + 2 * x * y + y ^ 2 := fun y => by ring
      simp only [this]
      rw [intervalIntegral.integral_add (f := fun y => x ^ 2 + 2 * x * y) (g := fun y => y ^ 2) (Continuous.intervalIntegrable (by fun_prop) _ _)
          (Continuous.intervalIntegrable (by fun_prop) _ _),
        intervalIntegral.integral_add (f := fun y => x ^ 2) (g := fun y => 2 * x * y) (Continuous.intervalIntegrable (by fun_prop) _ _)
          (Continuous.intervalIntegrable (by fun_prop) _ _), intervalIntegral.integral_const_mul]
      simp [integral_pow]; ring
    simp only [this]
    rw [intervalIntegral.integral_add (f := fun x => x ^ 2 + x) (g := fun _ => 1 / 3) (Continuous.intervalIntegrable (by fun_prop) _ _)
        (Continuous.intervalIntegrable (by fun_prop) _ _),
      intervalIntegral.integral_add (f := fun x => x ^ 2) (g := fun x => x) (Continuous.intervalIntegrable (by fun_prop) _ _)
        (Continuous.intervalIntegrable (by fun_prop) _ _)]
    simp [integral_pow]; norm_num
  rw [inner_value (r_intLaw _ _) r_lin (r_mem2 _ _) (r_inner 0 1) rFt_ok rFt_ok rfl,
    inner2_value (r_intLaw _ _) r_lin (r_mem2 _ _) (r_inner 0 1) rFt_ok rFt_ok rfl,
    innerRl_value (r_intLaw _ _) r_lin (r_mem2 _ _) (r_inner 0 1) rFt_ok rFt_ok rfl, key]
  exact ⟨rfl, rfl, rfl⟩

example : ∃ v, norm2diff rOps (rInner 0 1) rFt rFt = .ok v ∧ v = 0 := by
  refine ⟨_, norm2diff_value_partial (r_intLaw _ _) r_lin (r_mem2 _ _) (r_inner 0 1) rFt_ok rFt_ok rfl (Nat.le_refl 2), ?_⟩
  simp [(iint_zero (r_intLaw (fun _ => (0 : ℝ)) (fun _ => 1))).2]

end real

end C3.Ft
