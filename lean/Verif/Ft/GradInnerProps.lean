/-
C127: the gradient of the inner product of a parameterised train with another train. The specification is the iterated
integral of the product of the two represented functions; for functions that depend linearly on their parameters it is an
affine function of each parameter, and the gradient consists of the slopes.
-/
import Verif.Ft.GradInner
import Verif.Ft.InnerAlg
import Mathlib.Analysis.Calculus.Deriv.Add
import Mathlib.Analysis.Calculus.Deriv.Mul

set_option linter.unusedSectionVars false

namespace C3.Ft
open Finset
variable {K U X : Type} [Field K]

/-! ### Specification -/

/-- Univariate functions that depend linearly on their parameters: `np f` is the number of parameters, `sh f l t` is `f` with
parameter `l` increased by `t`, `dv f l` the derivative with respect to parameter `l`. The univariate gradient routine `pgi`
returns the integrals of the derivatives times the second function. -/
structure ParLaw (e : Ev K U X) (F : Fam U X) (I : Integ K X) (np : U → Nat) (sh : U → Nat → K → U)
    (dv : U → Nat → X → K) (pgi : U → U → C (List K)) : Prop where
  mem : ∀ k f l t, F.P k f → l < np f → F.P k (sh f l t)
  ev : ∀ k f l t x, F.P k f → l < np f → F.D k x → e.ev (sh f l t) x = e.ev f x + t * dv f l x
  grad : ∀ k f g, F.P k f → F.P k g →
    pgi f g = .ok ((List.range (np f)).map fun l => I.J k (fun x => dv f l x * e.ev g x))

/-- The train with parameter `l` of function `p` of core `k` increased by `t`. -/
def shiftF (sh : U → Nat → K → U) (f : FT K U) (k p l : Nat) (t : K) : FT K U :=
  { f with cores := f.cores.modify k fun Q => ⟨Q.nrows, Q.ncols, Q.funcs.modify p fun u => sh u l t⟩ }

/-- The inner product of the represented functions. -/
def ipr (e : Ev K U X) (I : Integ K X) (f g : FT K U) : K :=
  iint I 0 f.dim (fun x => value e f.cores x * value e g.cores x)

/-- Function `p` of core `k`. -/
def fnAt (f : FT K U) (k p : Nat) : Option U := (f.cores[k]?).bind (·.funcs[p]?)

/-- Change of the inner product when one parameter is increased by one. -/
def slope (e : Ev K U X) (I : Integ K X) (sh : U → Nat → K → U) (f g : FT K U) (k p l : Nat) : K :=
  ipr e I (shiftF sh f k p l 1) g - ipr e I f g

/-- The entries for function `p` of core `k`. -/
def fnBlk (e : Ev K U X) (I : Integ K X) (np : U → Nat) (sh : U → Nat → K → U) (f g : FT K U) (k p : Nat) : List K :=
  match fnAt f k p with
  | none => []
  | some u => (List.range (np u)).map (slope e I sh f g k p)

/-- The entries for core `k`: function by function, in storage order. -/
def coreBlk (e : Ev K U X) (I : Integ K X) (np : U → Nat) (sh : U → Nat → K → U) (f g : FT K U) (k : Nat) : List K :=
  (List.range (f.rk k * f.rk (k + 1))).flatMap (fnBlk e I np sh f g k)

/-- The gradient: core by core. -/
def gradSpec (e : Ev K U X) (I : Integ K X) (np : U → Nat) (sh : U → Nat → K → U) (f g : FT K U) : List K :=
  (List.range f.dim).flatMap (coreBlk e I np sh f g)

/-! ### Changing one function -/

section
variable {e : Ev K U X} {F : Fam U X} {I : Integ K X} {o : LOps K U} {inner : U → U → C K}
variable {np : U → Nat} {sh : U → Nat → K → U} {dv : U → Nat → X → K} {pgi : U → U → C (List K)}

theorem gm_eq {α : Type} (l : List α) (k : Nat) (h : α → α) : (l.modify k h)[k]? = l[k]?.map h := by
  rw [List.getElem?_modify]; cases l[k]? <;> simp

theorem gm_ne {α : Type} (l : List α) {k m : Nat} (h : α → α) (hk : k ≠ m) : (l.modify k h)[m]? = l[m]? := by
  rw [List.getElem?_modify]; cases l[m]? <;> simp [hk]

theorem fits_modify {h : Qma U → Qma U} (hn : ∀ Q, (h Q).nrows = Q.nrows) (hc : ∀ Q, (h Q).ncols = Q.ncols)
    (hw : ∀ Q, Q.WF → (h Q).WF) {r s : Nat} {As : List (Qma U)} (hf : Fits r As s) :
    ∀ k, Fits r (As.modify k h) s := by
  induction hf with
  | nil r => intro k; cases k <;> exact .nil _
  | cons Q Qs hQ hf ih =>
    intro k
    cases k with
    | zero =>
      show Fits Q.nrows (h Q :: Qs) _
      rw [← hn Q]
      refine .cons _ _ (hw Q hQ) ?_
      rw [hc]; exact hf
    | succ k => exact .cons _ _ hQ (ih k)

theorem shiftF_ok (hp : ParLaw e F I np sh dv pgi) {f : FT K U} (hf : f.Ok F) {k p l : Nat} {u : U}
    (hu : fnAt f k p = some u) (hl : l < np u) (t : K) : (shiftF sh f k p l t).Ok F := by
  refine ⟨⟨?_, ?_, ?_, ?_⟩, hf.pos, ?_⟩
  · show f.dim = (f.cores.modify _ _).length
    rw [List.length_modify]; exact hf.wf.dim
  · show f.cores.modify _ _ ≠ []
    intro h0
    have := congrArg List.length h0
    rw [List.length_modify] at this
    exact hf.wf.pos (List.length_eq_zero_iff.1 this)
  · show f.ranks = 1 :: (f.cores.modify _ _).map (·.ncols)
    rw [hf.wf.ranks]
    congr 1
    apply List.ext_getElem?
    intro m
    rw [List.getElem?_map, List.getElem?_map]
    by_cases hkm : k = m
    · subst hkm; rw [gm_eq]; cases f.cores[k]? <;> rfl
    · rw [gm_ne _ _ hkm]
  · exact fits_modify (h := fun Q => ⟨Q.nrows, Q.ncols, Q.funcs.modify p fun u => sh u l t⟩) (fun _ => rfl) (fun _ => rfl)
      (fun Q hQ => by
        show (Q.funcs.modify _ _).length = _
        rw [List.length_modify]; exact hQ) hf.wf.fits k
  · intro m Q hQ w hw
    change (f.cores.modify _ _)[m]? = some Q at hQ
    by_cases hkm : k = m
    · subst hkm
      rw [gm_eq] at hQ
      obtain ⟨Q0, hc, rfl⟩ := Option.map_eq_some_iff.1 hQ
      obtain ⟨q, hq⟩ := List.mem_iff_getElem?.1 hw
      change (Q0.funcs.modify _ _)[q]? = some w at hq
      by_cases hpq : p = q
      · subst hpq
        rw [gm_eq] at hq
        obtain ⟨w0, hq0, rfl⟩ := Option.map_eq_some_iff.1 hq
        have hw0 := hf.mem k Q0 hc w0 (List.mem_of_getElem? hq0)
        have : w0 = u := by
          rw [fnAt, hc] at hu
          change Q0.funcs[p]? = some u at hu
          rw [hq0] at hu; exact Option.some.inj hu
        subst this
        exact hp.mem k w0 l t hw0 hl
      · rw [gm_ne _ _ hpq] at hq
        exact hf.mem k Q0 hc w (List.mem_of_getElem? hq)
    · rw [gm_ne _ _ hkm] at hQ
      exact hf.mem m Q hQ w hw

/-- The matrix `T` (with `b.rk k` rows) is the integrated product of the first `k` cores: it completes the inner product of
every train that agrees with `a` on these cores. -/
structure Fwd (e : Ev K U X) (I : Integ K X) (a b : FT K U) (k : Nat) (T : List K) : Prop where
  len : T.length = b.rk k * a.rk k
  sum : ∀ As : List (Qma U), (∀ m < k, As[m]? = a.cores[m]?) →
    ∑ i ∈ range (a.rk k), ∑ j ∈ range (b.rk k), ent (b.rk k) T j i * ichain2 e I k (As.drop k) (b.cores.drop k) i j
      = ichain2 e I 0 As b.cores 0 0

theorem fwd_zero {a b : FT K U} (ha : a.WF) (hb : b.WF) : Fwd e I a b 0 [1] := by
  refine ⟨by rw [ha.rk_zero, hb.rk_zero]; rfl, fun As _ => ?_⟩
  rw [ha.rk_zero, hb.rk_zero, sum_range_one, sum_range_one]
  simp [ent]

theorem ipr_eq (hI : IntLaw F.D I) (hm : MemLaw2 e F I) {a b : FT K U} (ha : a.Ok F) (hb : b.Ok F) (hab : a.dim = b.dim) :
    ipr e I a b = ichain2 e I 0 a.cores b.cores 0 0 := inner_spec hI hm ⟨ha, hb, hab⟩

/-- Effect of a shift on one core entry. -/
theorem shift_val (hp : ParLaw e F I np sh dv pgi) {k i0 c0 l i c : Nat} {Q : Qma U} (hQ : QOk F k Q) {u : U}
    (hi0 : i0 < Q.nrows) (hi : i < Q.nrows) (hu : Q.funcs[c0 * Q.nrows + i0]? = some u)
    (hl : l < np u) (t : K) {x : X} (hx : F.D k x) :
    Qma.val e (⟨Q.nrows, Q.ncols, Q.funcs.modify (c0 * Q.nrows + i0) fun u => sh u l t⟩ : Qma U) x i c
      = Q.val e x i c + (if i = i0 then if c = c0 then t else 0 else 0) * dv u l x := by
  unfold Qma.val
  show ((Q.funcs.modify _ _)[c * Q.nrows + i]?.map _).getD 0 = _
  by_cases h : i = i0 ∧ c = c0
  · obtain ⟨rfl, rfl⟩ := h
    rw [gm_eq, hu]
    simp only [reduceIte, Option.map_some, Option.getD_some]
    exact hp.ev k u l t x (hQ.mem u (List.mem_of_getElem? hu)) hl hx
  · have hne : c0 * Q.nrows + i0 ≠ c * Q.nrows + i := by
      intro h'
      apply h
      have h1 : (c0 * Q.nrows + i0) % Q.nrows = i0 := cm_mod hi0
      have h2 : (c0 * Q.nrows + i0) / Q.nrows = c0 := cm_div hi0
      rw [h', cm_mod hi] at h1
      rw [h', cm_div hi] at h2
      exact ⟨h1, h2⟩
    have : (if i = i0 then if c = c0 then t else 0 else 0 : K) = 0 := by
      split
      · split
        · exact absurd ⟨‹_›, ‹_›⟩ h
        · rfl
      · rfl
    rw [this, zero_mul, add_zero, gm_ne _ _ hne]

/-- The derivative times a function of the family is integrable. -/
theorem dv_mem (hI : IntLaw F.D I) (hm : MemLaw2 e F I) (hp : ParLaw e F I np sh dv pgi) {k l : Nat} {u w : U}
    (hu : F.P k u) (hw : F.P k w) (hl : l < np u) : I.V k (fun x => dv u l x * e.ev w x) := by
  have h1 := hm k _ w (hp.mem k u l 1 hu hl) hw
  have h2 := (hI.smul k (-1) _ (hm k u w hu hw)).1
  refine (hI.congr k _ _ (fun x hx => ?_) (hI.add k _ _ h1 h2).1).1
  rw [hp.ev k u l 1 x hu hl hx]; ring

/-- The inner product is affine in the parameter, with the integral of the derivative times `A` as slope. -/
theorem ipr_shift (hI : IntLaw F.D I) (hm : MemLaw2 e F I) (hp : ParLaw e F I np sh dv pgi) {a b : FT K U} (ha : a.Ok F)
    (hb : b.Ok F) (hab : a.dim = b.dim) {k i0 c0 l : Nat} {Q B : Qma U} (hQ : a.cores[k]? = some Q)
    (hB : b.cores[k]? = some B) {T : List K} (hT : Fwd e I a b k T) (hi0 : i0 < a.rk k) (hc0 : c0 < a.rk (k + 1)) {u : U}
    (hu : Q.funcs[c0 * a.rk k + i0]? = some u) (hl : l < np u) {A : X → K}
    (hA : ∀ x, F.D k x → A x = ∑ j ∈ range (b.rk k), ∑ d ∈ range (b.rk (k + 1)),
      ent (b.rk k) T j i0 * B.val e x j d * ichain2 e I (k + 1) (a.cores.drop (k + 1)) (b.cores.drop (k + 1)) c0 d)
    (t : K) :
    ipr e I (shiftF sh a k (c0 * a.rk k + i0) l t) b = ipr e I a b + t * I.J k (fun x => dv u l x * A x) := by
  have hk : k < a.dim := by rw [ha.wf.dim]; exact (List.getElem?_eq_some_iff.1 hQ).1
  obtain ⟨Q', -, hQ', hQw, hQn, hQc, hQm, -⟩ := ha.get hk
  obtain ⟨B', -, hB', hBw, hBn, hBc, hBm, -⟩ := hb.get (hab ▸ hk)
  obtain rfl : Q' = Q := Option.some.inj (hQ'.symm.trans hQ)
  obtain rfl : B' = B := Option.some.inj (hB'.symm.trans hB)
  have hfn : fnAt a k (c0 * a.rk k + i0) = some u := by rw [fnAt, hQ]; exact hu
  have hs := shiftF_ok hp ha hfn hl t
  have hup : F.P k u := hQm u (List.mem_of_getElem? hu)
  rw [ipr_eq hI hm hs hb hab, ipr_eq hI hm ha hb hab]
  have hS : (shiftF sh a k (c0 * a.rk k + i0) l t).cores[k]?
      = some ⟨Q'.nrows, Q'.ncols, Q'.funcs.modify (c0 * Q'.nrows + i0) fun u => sh u l t⟩ := by
    show (a.cores.modify _ _)[k]? = _
    rw [gm_eq, hQ]
    simp only [Option.map_some, hQn]
  have hdrop : (shiftF sh a k (c0 * a.rk k + i0) l t).cores.drop (k + 1) = a.cores.drop (k + 1) := by
    apply List.ext_getElem?
    intro m
    rw [List.getElem?_drop, List.getElem?_drop]
    show (a.cores.modify _ _)[k + 1 + m]? = _
    exact gm_ne _ _ (by omega)
  rw [← hT.sum (shiftF sh a k (c0 * a.rk k + i0) l t).cores (fun m hm => by
      show (a.cores.modify _ _)[m]? = _
      exact gm_ne _ _ (by omega)),
    ← hT.sum a.cores (fun _ _ => rfl)]
  simp only [ichain2_step hQ hB, ichain2_step hS hB, hdrop, hQc, hBc]
  -- one integral
  have hJ : ∀ i < a.rk k, ∀ j < b.rk k, ∀ c < a.rk (k + 1), ∀ d < b.rk (k + 1),
      I.J k (fun x => Qma.val e (⟨Q'.nrows, a.rk (k + 1), Q'.funcs.modify (c0 * Q'.nrows + i0) fun u => sh u l t⟩ : Qma U) x i c
        * B'.val e x j d)
      = I.J k (fun x => Q'.val e x i c * B'.val e x j d)
        + (if i = i0 then if c = c0 then t else 0 else 0) * I.J k (fun x => dv u l x * B'.val e x j d) := by
    intro i hi j hj c hc d hd
    obtain ⟨w, -, w2, w3⟩ := hBw.get (e := e) (show j < B'.nrows by omega) (show d < B'.ncols by omega)
    have hV := dv_mem hI hm hp hup (hBm w w2) hl
    simp only [w3] at hV
    have h1 := hI.smul k (if i = i0 then if c = c0 then t else 0 else 0) _ hV
    have h0 := val_mem2 hm hQw hQm hBw hBm (show i < Q'.nrows by omega) (show c < Q'.ncols by omega)
      (show j < B'.nrows by omega) (show d < B'.ncols by omega)
    have h2 := hI.add k _ _ h0 h1.1
    rw [← h1.2, ← h2.2]
    refine (hI.congr k _ _ (fun x hx => ?_) h2.1).2.symm
    have := shift_val (i := i) (c := c) hp ⟨hQw, hQm⟩ (show i0 < Q'.nrows by omega) (show i < Q'.nrows by omega)
      (by rw [hQn]; exact hu) hl t hx
    rw [hQc] at this
    rw [this]; ring
  have hJA : I.J k (fun x => dv u l x * A x) = ∑ j ∈ range (b.rk k), ∑ d ∈ range (b.rk (k + 1)),
      (ent (b.rk k) T j i0 * ichain2 e I (k + 1) (a.cores.drop (k + 1)) (b.cores.drop (k + 1)) c0 d) *
        I.J k (fun x => dv u l x * B'.val e x j d) := by
    have h2 := J_sum2 hI (k := k) (b.rk k) (b.rk (k + 1))
      (w := fun j d => ent (b.rk k) T j i0 * ichain2 e I (k + 1) (a.cores.drop (k + 1)) (b.cores.drop (k + 1)) c0 d)
      (g := fun j d x => dv u l x * B'.val e x j d) (fun j hj d hd => by
        obtain ⟨w, -, w2, w3⟩ := hBw.get (e := e) (show j < B'.nrows by omega) (show d < B'.ncols by omega)
        have hV := dv_mem hI hm hp hup (hBm w w2) hl
        simpa only [w3] using hV)
    rw [← h2.2]
    refine (hI.congr k _ _ (fun x hx => ?_) h2.1).2.symm
    rw [hA x hx, mul_sum]
    refine sum_congr rfl fun j _ => ?_
    rw [mul_sum]
    exact sum_congr rfl fun d _ => by ring
  rw [hJA]
  have e1 : ∀ i ∈ range (a.rk k), ∀ j ∈ range (b.rk k),
      ent (b.rk k) T j i * ∑ c ∈ range (a.rk (k + 1)), ∑ d ∈ range (b.rk (k + 1)),
        I.J k (fun x => Qma.val e (⟨Q'.nrows, a.rk (k + 1), Q'.funcs.modify (c0 * Q'.nrows + i0) fun u => sh u l t⟩ : Qma U) x i c
          * B'.val e x j d) * ichain2 e I (k + 1) (a.cores.drop (k + 1)) (b.cores.drop (k + 1)) c d
      = ent (b.rk k) T j i * (∑ c ∈ range (a.rk (k + 1)), ∑ d ∈ range (b.rk (k + 1)),
          I.J k (fun x => Q'.val e x i c * B'.val e x j d)
            * ichain2 e I (k + 1) (a.cores.drop (k + 1)) (b.cores.drop (k + 1)) c d)
        + (if i = i0 then ent (b.rk k) T j i0 * ∑ d ∈ range (b.rk (k + 1)), t * I.J k (fun x => dv u l x * B'.val e x j d)
            * ichain2 e I (k + 1) (a.cores.drop (k + 1)) (b.cores.drop (k + 1)) c0 d else 0) := by
    intro i hi j hj
    have hi := mem_range.1 hi
    have hj := mem_range.1 hj
    have : ∀ c ∈ range (a.rk (k + 1)), (∑ d ∈ range (b.rk (k + 1)),
        I.J k (fun x => Qma.val e (⟨Q'.nrows, a.rk (k + 1), Q'.funcs.modify (c0 * Q'.nrows + i0) fun u => sh u l t⟩ : Qma U) x i c
          * B'.val e x j d) * ichain2 e I (k + 1) (a.cores.drop (k + 1)) (b.cores.drop (k + 1)) c d)
        = (∑ d ∈ range (b.rk (k + 1)), I.J k (fun x => Q'.val e x i c * B'.val e x j d)
            * ichain2 e I (k + 1) (a.cores.drop (k + 1)) (b.cores.drop (k + 1)) c d)
          + if c = c0 then (if i = i0 then ∑ d ∈ range (b.rk (k + 1)), t * I.J k (fun x => dv u l x * B'.val e x j d)
            * ichain2 e I (k + 1) (a.cores.drop (k + 1)) (b.cores.drop (k + 1)) c0 d else 0) else 0 := by
      intro c hc
      have hc := mem_range.1 hc
      rw [sum_congr rfl fun d hd => by rw [hJ i hi j hj c hc d (mem_range.1 hd), add_mul], sum_add_distrib]
      congr 1
      by_cases h1 : c = c0
      · subst h1
        by_cases h2 : i = i0
        · subst h2; simp
        · simp [h2]
      · simp [h1]
    rw [sum_congr rfl this, sum_add_distrib, sum_ite_eq', if_pos (mem_range.2 hc0), mul_add]
    congr 1
    by_cases h2 : i = i0
    · subst h2; simp
    · simp [h2]
  rw [sum_congr rfl fun i hi => sum_congr rfl (e1 i hi)]
  simp only [sum_add_distrib]
  congr 1
  have e2 : ∀ i ∈ range (a.rk k), (∑ j ∈ range (b.rk k), if i = i0 then
      ent (b.rk k) T j i0 * ∑ d ∈ range (b.rk (k + 1)), t * I.J k (fun x => dv u l x * B'.val e x j d)
            * ichain2 e I (k + 1) (a.cores.drop (k + 1)) (b.cores.drop (k + 1)) c0 d else 0)
      = if i = i0 then ∑ j ∈ range (b.rk k), ent (b.rk k) T j i0 * ∑ d ∈ range (b.rk (k + 1)),
          t * I.J k (fun x => dv u l x * B'.val e x j d)
            * ichain2 e I (k + 1) (a.cores.drop (k + 1)) (b.cores.drop (k + 1)) c0 d else 0 := by
    intro i _
    by_cases h : i = i0 <;> simp [h]
  rw [sum_congr rfl e2, sum_ite_eq', if_pos (mem_range.2 hi0), mul_sum]
  refine sum_congr rfl fun j _ => ?_
  rw [mul_sum, mul_sum]
  exact sum_congr rfl fun d _ => by ring

/-! ### The sweeps -/

/-- The first forward matrix. -/
theorem fwd_one (hin : InnerLaw e F I inner) {a b : FT K U} (ha : a.Ok F) (hb : b.Ok F) {A B : Qma U}
    (hA : a.cores[0]? = some A) (hB : b.cores[0]? = some B) (hd : 0 < a.dim) (hdb : 0 < b.dim) :
    ∃ T, kronInt inner A B = .ok T ∧ Fwd e I a b 1 T := by
  obtain ⟨A', -, hA2, -, hAn, hAc, -⟩ := ha.get hd
  obtain ⟨B', -, hB2, -, hBn, hBc, -⟩ := hb.get hdb
  obtain rfl : A' = A := Option.some.inj (hA2.symm.trans hA)
  obtain rfl : B' = B := Option.some.inj (hB2.symm.trans hB)
  rw [ha.wf.rk_zero] at hAn
  rw [hb.wf.rk_zero] at hBn
  refine ⟨_, kronInt_value hin (ha.qok hA2) (hb.qok hB2), by rw [cm_length, hAn, hBn, hAc, hBc]; ring, ?_⟩
  intro As hAs
  have hA3 : As[0]? = some A' := by rw [hAs 0 (by decide)]; exact hA2
  have h0 := ichain2_step (e := e) (I := I) (i := 0) (j := 0) hA3 hB2
  rw [List.drop_zero, List.drop_zero] at h0
  rw [h0, hAc, hBc]
  refine sum_congr rfl fun i hi => sum_congr rfl fun j hj => ?_
  have hi := mem_range.1 hi
  have hj := mem_range.1 hj
  rw [ent, getD_cm0 _ (i := 0) (j := i * b.rk 1 + j) (by rw [hAn, hBn]; decide)
    (by rw [Nat.mul_comm (a.rk _)]; exact cm_idx_lt hj hi) (by rw [hAn, hBn]; omega)]
  rw [hBn, Nat.zero_div, Nat.zero_mod, cm_div hj, cm_mod hj]

/-- One forward step. -/
theorem fwd_step (hI : IntLaw F.D I) (hL : LinLaw e o F) (hm : MemLaw2 e F I) (hin : InnerLaw e F I inner) {a b : FT K U}
    (ha : a.Ok F) (hb : b.Ok F) (hab : a.dim = b.dim) {k : Nat} {A B : Qma U} (hA : a.cores[k]? = some A)
    (hB : b.cores[k]? = some B) {T : List K} (hT : Fwd e I a b k T) :
    ∃ At t2 T', qmatm o B T A.nrows = .ok At ∧ qmaqmaInt inner At A = .ok t2 ∧ copyK (A.ncols * B.ncols) t2 = .ok T' ∧
      Fwd e I a b (k + 1) T' := by
  have hk : k < a.dim := by rw [ha.wf.dim]; exact (List.getElem?_eq_some_iff.1 hA).1
  obtain ⟨A', -, hA2, -, hAn, hAc, -, hApos, -⟩ := ha.get hk
  obtain ⟨B', -, hB2, -, hBn, hBc, -, hBpos, -⟩ := hb.get (hab ▸ hk)
  obtain rfl : A' = A := Option.some.inj (hA2.symm.trans hA)
  obtain rfl : B' = B := Option.some.inj (hB2.symm.trans hB)
  have qA := ha.qok hA2
  have qB := hb.qok hB2
  obtain ⟨Q, q1, q2⟩ := qmatm_value (e := e) hL qB hBpos (R := T) (b := A'.nrows) (by rw [hAn, hBn, hT.len])
  refine ⟨Q, _, _, q1, qmaqmaInt_value hin q2.qok qA q2.ncols, copyK_ok (by rw [cm_length, q2.nrows, Nat.mul_comm]), ?_, ?_⟩
  · rw [cm_length, q2.nrows, hAc, hBc]
  · intro As hAs
    have hA3 : As[k]? = some A' := by rw [hAs k (by omega)]; exact hA2
    rw [← hT.sum As (fun m hm => hAs m (by omega))]
    simp only [ichain2_step hA3 hB2, hAc, hBc]
    rw [← swap4 (T := fun i j => ent (b.rk k) T j i)]
    refine sum_congr rfl fun ja hja => sum_congr rfl fun jb hjb => ?_
    have hja := mem_range.1 hja
    have hjb := mem_range.1 hjb
    rw [q2.nrows, q2.ncols, hBc, ent, getD_cm0 _ hjb hja rfl, sum_comm, hAn]
    congr 1
    refine sum_congr rfl fun ia hia => ?_
    have hia := mem_range.1 hia
    have := (J_lin_left (v := fun ib x => B'.val e x ib jb) (w := fun ib => ent B'.nrows T ib ia)
      (g := fun x => A'.val e x ia ja) (n := B'.nrows) (u := fun x => Q.val e x jb ia * A'.val e x ia ja) hI
      (fun s hs => val_mem2 hm qB.wf qB.mem qA.wf qA.mem hs (by omega) (by omega) (by omega)) (fun x hx => by
        rw [q2.val x hx _ (by omega) _ (by omega)]
        exact congrArg (· * _) (sum_congr rfl fun s _ => mul_comm _ _))).2
    rw [this, hBn]
    refine sum_congr rfl fun s _ => ?_
    simp only [mul_comm]

/-- `A` is core `k` of `b` times the integrated product of the cores after `k`. -/
def BackAt (e : Ev K U X) (F : Fam U X) (I : Integ K X) (a b : FT K U) (k : Nat) (A : Qma U) : Prop :=
  ∀ B, b.cores[k]? = some B → Rep e F k (b.rk k) (a.rk (k + 1)) (fun x j c => ∑ d ∈ range (b.rk (k + 1)), B.val e x j d *
    ichain2 e I (k + 1) (a.cores.drop (k + 1)) (b.cores.drop (k + 1)) c d) A

/-- The backward sweep: the inner product, and the arrays for all cores but the last. -/
theorem gipBack_ok (hI : IntLaw F.D I) (hL : LinLaw e o F) (hm : MemLaw2 e F I) (hin : InnerLaw e F I inner)
    {a b : FT K U} (ha : a.Ok F) (hb : b.Ok F) (hab : a.dim = b.dim) :
    ∃ Ak t, gipBack o inner a b = .ok (Ak, t) ∧ rd t 0 = .ok (ipr e I a b) ∧ Ak.length = a.dim ∧
      Ak[a.dim - 1]? = some none ∧
      ∀ k, k + 1 < a.dim → ∃ A, Ak[k]? = some (some A) ∧ BackAt e F I a b k A := by
  have hd : 0 < a.dim := by rw [ha.wf.dim]; exact ha.wf.len_pos
  rw [ipr_eq hI hm ha hb hab]
  obtain ⟨A, hA1, hA2, -, hAn, hAc, -⟩ := ha.get (show a.dim - 1 < a.dim by omega)
  obtain ⟨B, hB1, hB2, -, hBn, hBc, -⟩ := hb.get (show a.dim - 1 < b.dim by omega)
  rw [show a.dim - 1 + 1 = a.dim by omega, ha.wf.rk_last] at hAc
  rw [show a.dim - 1 + 1 = a.dim by omega, hab, hb.wf.rk_last] at hBc
  rw [gipBack, hA1, bind_ok, hB1, bind_ok, kronInt_value hin (ha.qok hA2) (hb.qok hB2), bind_ok]
  obtain ⟨⟨Ak, t⟩, h1, h2, h3, h4, h5, h6⟩ := forR_spec
    (I := fun ii (s : List (Option (Qma U)) × List K) =>
      s.2.length = b.rk (a.dim - ii) * a.rk (a.dim - ii) ∧
      (∀ i < a.rk (a.dim - ii), ∀ j < b.rk (a.dim - ii), ent (b.rk (a.dim - ii)) s.2 j i =
        ichain2 e I (a.dim - ii) (a.cores.drop (a.dim - ii)) (b.cores.drop (a.dim - ii)) i j) ∧
      s.1.length = a.dim ∧ s.1[a.dim - 1]? = some none ∧
      ∀ k, a.dim - ii ≤ k → k + 1 < a.dim → ∃ A, s.1[k]? = some (some A) ∧ BackAt e F I a b k A)
    (a := 1) (b := a.dim) hd
    (s := (List.replicate a.dim none, cm (A.nrows * B.nrows) (A.ncols * B.ncols) fun i j =>
      I.J (a.dim - 1) (fun x => A.val e x (i / B.nrows) (j / B.ncols) * B.val e x (i % B.nrows) (j % B.ncols))))
    (body := fun ii s => do
      let F ← rd a.cores (a.dim - 1 - ii)
      let G ← rd b.cores (a.dim - 1 - ii)
      let A ← qmam o G s.2 F.ncols
      let t2 ← qmaqmatInt inner A F
      let t ← copyK (F.nrows * G.nrows) t2
      let Ak ← wr s.1 (a.dim - 1 - ii) (some A)
      pure (Ak, t))
    (by
      refine ⟨by rw [cm_length, hAn, hBn, hAc, hBc]; ring, ?_, by simp, ?_, fun k h1 h2 => by omega⟩
      · intro i hi j hj
        rw [ichain2_step hA2 hB2, hAc, hBc, sum_range_one, sum_range_one, show a.dim - 1 + 1 = a.dim by omega,
          ichain2_end (by rw [← ha.wf.dim]), if_pos rfl, mul_one, mul_one]
        dsimp only
        rw [ent, getD_cm0 _ (i := i * b.rk (a.dim - 1) + j) (j := 0)
          (by rw [hAn, hBn, Nat.mul_comm (a.rk _)]; exact cm_idx_lt hj hi) (by omega) (by omega)]
        rw [hBn, cm_div hj, cm_mod hj, Nat.zero_div, Nat.zero_mod, mul_one]
      · show (List.replicate a.dim none)[a.dim - 1]? = _
        rw [List.getElem?_replicate, if_pos (by omega)])
    (by
      rintro ii hi1 hi2 ⟨Ak, t⟩ ⟨ht1, ht2, ht3, ht4, ht5⟩
      simp only at ht1 ht2 ht3 ht4 ht5
      rw [show a.dim - ii = a.dim - 1 - ii + 1 by omega] at ht1 ht2
      rw [show a.dim - (ii + 1) = a.dim - 1 - ii by omega]
      obtain ⟨A, hA1, hA2, -, hAn, hAc, -, -, hApos⟩ := ha.get (show a.dim - 1 - ii < a.dim by omega)
      obtain ⟨B, hB1, hB2, -, hBn, hBc, -, -, hBpos⟩ := hb.get (show a.dim - 1 - ii < b.dim by omega)
      have qA := ha.qok hA2
      have qB := hb.qok hB2
      obtain ⟨Q, q1, q2⟩ := qmam_value (e := e) hL qB hBpos (R := t) (b := A.ncols) (by rw [hAc, hBc, ht1])
      have hw : wr Ak (a.dim - 1 - ii) (some Q) = .ok (Ak.set (a.dim - 1 - ii) (some Q)) := wr_ok _ (by omega)
      simp only [hA1, hB1, bind_ok]
      rw [q1, bind_ok, qmaqmatInt_value hin q2.qok qA q2.ncols, bind_ok, q2.nrows, q2.ncols,
        copyK_ok (by rw [cm_length, Nat.mul_comm]), bind_ok, hw, bind_ok, pure_eq_ok]
      refine ⟨_, rfl, ?_, ?_, ?_, ?_, ?_⟩
      · dsimp only
        rw [cm_length, hAn, hBn]
      · intro i hi j hj
        dsimp only
        rw [ichain2_step hA2 hB2, ent, hBn, getD_cm0 _ hj (by omega) rfl]
        refine sum_congr rfl fun ja hja => ?_
        have hja := mem_range.1 hja
        have := (J_lin_left (v := fun jb x => B.val e x j jb) (w := fun jb => ent B.ncols t jb ja)
          (g := fun x => A.val e x i ja) (n := B.ncols) (u := fun x => Q.val e x j ja * A.val e x i ja) hI
          (fun s hs => val_mem2 hm qB.wf qB.mem qA.wf qA.mem (by omega) hs (by omega) (by omega)) (fun x hx => by
            rw [q2.val x hx _ (by omega) _ (by omega)]
            exact congrArg (· * _) (sum_congr rfl fun s _ => mul_comm _ _))).2
        rw [this]
        refine sum_congr rfl fun jb hjb => ?_
        have hjb := mem_range.1 hjb
        rw [hBc, ht2 ja (by omega) jb (by omega)]
        simp only [mul_comm]
      · show (Ak.set _ _).length = _
        rw [List.length_set]; exact ht3
      · show (Ak.set _ _)[a.dim - 1]? = _
        rw [List.getElem?_set_ne (by omega)]; exact ht4
      · intro k hk1 hk2
        show ∃ A, (Ak.set _ _)[k]? = _ ∧ _
        by_cases hk : k = a.dim - 1 - ii
        · subst hk
          refine ⟨Q, by rw [List.getElem?_set_self (by omega)], ?_⟩
          intro B' hB'
          obtain rfl : B = B' := Option.some.inj (hB2.symm.trans hB')
          refine ⟨q2.nrows.trans hBn, q2.ncols.trans hAc, q2.wf, q2.mem, fun x hx j hj c hc => ?_⟩
          rw [q2.val x hx j (by omega) c (by omega), hBc]
          exact sum_congr rfl fun d hd => by rw [ht2 c hc d (mem_range.1 hd)]
        · obtain ⟨A', hA', hA''⟩ := ht5 k (by omega) hk2
          exact ⟨A', by rw [List.getElem?_set_ne (by omega)]; exact hA', hA''⟩)
  simp only at h2 h3 h4 h5 h6
  refine ⟨Ak, t, h1, ?_, h4, h5, fun k hk => h6 k (by omega) hk⟩
  rw [Nat.sub_self, ha.wf.rk_zero, hb.wf.rk_zero] at h2 h3
  have h4 := h3 0 (by decide) 0 (by decide)
  rw [List.drop_zero, List.drop_zero] at h4
  rw [rd_getD 0 (by omega), ← h4]; rfl

/-! ### Writing the gradient -/

/-- The state after the entries `L` have been written. -/
def wrote (grad L : List K) : List K × Nat := (L ++ grad.drop L.length, L.length)

theorem putGrad_ok {grad L blk : List K} {u v : U} (h : pgi u v = .ok blk) (hlen : L.length + blk.length ≤ grad.length) :
    putGrad pgi u v (wrote grad L) = .ok (wrote grad (L ++ blk)) := by
  rw [putGrad, h, bind_ok]
  have h2 := forN_fill (n := blk.length) (off := L.length) (a := L ++ grad.drop L.length)
    (body := fun i gr => do
      let v ← rd blk i
      wr gr ((wrote grad L).2 + i) v) (fun i => blk.getD i 0) (by simp; omega)
    (fun i hi b _ => by rw [rd_getD 0 hi, bind_ok]; rfl)
  have h3 : forN blk.length (fun i gr => do
      let v ← rd blk i
      wr gr ((wrote grad L).2 + i) v) (wrote grad L).1 = _ := h2
  rw [h3, bind_ok, pure_eq_ok]
  have h4 : (List.range blk.length).map (fun i => blk.getD i 0) = blk := by
    apply List.ext_getElem?
    intro i
    rw [List.getElem?_map]
    by_cases hi : i < blk.length
    · rw [List.getElem?_range hi, List.getElem?_eq_getElem hi]
      simp [List.getD_eq_getElem?_getD, List.getElem?_eq_getElem hi]
    · rw [List.getElem?_eq_none (by simp; omega), List.getElem?_eq_none (by omega)]; rfl
  rw [h4, List.take_left' rfl, List.drop_length_add_append, List.drop_drop]
  rw [wrote, wrote, List.length_append]

/-- A loop that writes one block per step. -/
theorem blocks_ok {grad : List K} {n : Nat} {body : Nat → List K × Nat → C (List K × Nat)} (pb : Nat → List K)
    (h : ∀ p < n, ∀ L : List K, L.length + (pb p).length ≤ grad.length →
      body p (wrote grad L) = .ok (wrote grad (L ++ pb p))) :
    ∀ {L : List K}, L.length + ((List.range n).flatMap pb).length ≤ grad.length →
      forN n body (wrote grad L) = .ok (wrote grad (L ++ (List.range n).flatMap pb)) := by
  induction n with
  | zero => intro L _; simp
  | succ n ih =>
    intro L hL
    rw [List.range_succ, List.flatMap_append, List.flatMap_cons, List.flatMap_nil, List.append_nil] at hL ⊢
    rw [List.length_append] at hL
    rw [forN_succ, ih (fun p hp => h p (by omega)) (by omega), ebind_ok,
      h n (by omega) _ (by rw [List.length_append]; omega), List.append_assoc]

theorem flatMap_cm (pb : Nat → List K) (r0 r1 : Nat) :
    (List.range r1).flatMap (fun col => (List.range r0).flatMap fun row => pb (col * r0 + row))
      = (List.range (r0 * r1)).flatMap pb := by
  induction r1 with
  | zero => simp
  | succ r1 ih =>
    rw [List.range_succ, List.flatMap_append, ih, Nat.mul_succ, List.range_add, List.flatMap_append, List.flatMap_map]
    simp [Nat.mul_comm r1]

theorem flatMap_le (pb : Nat → List K) {m n : Nat} (h : m ≤ n) :
    ((List.range m).flatMap pb).length ≤ ((List.range n).flatMap pb).length := by
  obtain ⟨d, rfl⟩ := Nat.exists_eq_add_of_le h
  rw [List.range_add, List.flatMap_append, List.length_append]; omega

/-- The univariate routine returns the slopes of one function. -/
theorem pgi_blk (hI : IntLaw F.D I) (hm : MemLaw2 e F I) (hp : ParLaw e F I np sh dv pgi) {a b : FT K U} (ha : a.Ok F)
    (hb : b.Ok F) (hab : a.dim = b.dim) {k i0 c0 : Nat} {Q B : Qma U} (hQ : a.cores[k]? = some Q)
    (hB : b.cores[k]? = some B) {T : List K} (hT : Fwd e I a b k T) (hi0 : i0 < a.rk k) (hc0 : c0 < a.rk (k + 1)) {u : U}
    (hu : Q.funcs[c0 * a.rk k + i0]? = some u) {A : U} (hAP : F.P k A)
    (hA : ∀ x, F.D k x → e.ev A x = ∑ j ∈ range (b.rk k), ∑ d ∈ range (b.rk (k + 1)),
      ent (b.rk k) T j i0 * B.val e x j d * ichain2 e I (k + 1) (a.cores.drop (k + 1)) (b.cores.drop (k + 1)) c0 d) :
    pgi u A = .ok (fnBlk e I np sh a b k (c0 * a.rk k + i0)) := by
  have hup : F.P k u := ha.mem k Q hQ u (List.mem_of_getElem? hu)
  have hfn : fnAt a k (c0 * a.rk k + i0) = some u := by rw [fnAt, hQ]; exact hu
  rw [hp.grad k u A hup hAP, fnBlk, hfn]
  congr 1
  refine List.map_congr_left fun l hl => ?_
  rw [slope, ipr_shift hI hm hp ha hb hab hQ hB hT hi0 hc0 hu (List.mem_range.1 hl) hA 1]
  ring

theorem getAk_ok {Ak : List (Option (Qma U))} {k : Nat} {A : Qma U} (h : Ak[k]? = some (some A)) : getAk Ak k = .ok A := by
  rw [getAk, rd_of_getElem? h, bind_ok]

theorem fn_get {a : FT K U} (ha : a.Ok F) {k i c : Nat} {Q : Qma U} (hQ : a.cores[k]? = some Q) (hi : i < a.rk k)
    (hc : c < a.rk (k + 1)) :
    ∃ u, Q.funcs[c * a.rk k + i]? = some u := by
  have hk : k < a.dim := by rw [ha.wf.dim]; exact (List.getElem?_eq_some_iff.1 hQ).1
  obtain ⟨Q', -, hQ2, hQw, hQn, hQc, -⟩ := ha.get hk
  obtain rfl : Q' = Q := Option.some.inj (hQ2.symm.trans hQ)
  have : c * a.rk k + i < Q'.funcs.length := by rw [hQw, hQn, hQc]; exact cm_idx_lt hi hc
  exact ⟨_, List.getElem?_eq_getElem this⟩

/-- **C127** `ft_param_grad_inner`, at least two dimensions: it returns the inner product of the represented functions and
writes, core by core and function by function, the slopes of the inner product as a function of the parameters; the rest of
the array is unchanged. Missing: one dimension (see `gradInner_dim1_counterexample`). -/
theorem gradInner_value_partial (hI : IntLaw F.D I) (hL : LinLaw e o F) (hm : MemLaw2 e F I) (hin : InnerLaw e F I inner)
    (hp : ParLaw e F I np sh dv pgi) {a b : FT K U} (ha : a.Ok F) (hb : b.Ok F) (hab : a.dim = b.dim) (h2 : 2 ≤ a.dim)
    {grad : List K} (hg : (gradSpec e I np sh a b).length ≤ grad.length) :
    gradInner o inner pgi a b grad = .ok (ipr e I a b,
      gradSpec e I np sh a b ++ grad.drop (gradSpec e I np sh a b).length) := by
  have hd : 0 < a.dim := by omega
  obtain ⟨Ak, t, k1, k2, k3, -, k4⟩ := gipBack_ok hI hL hm hin ha hb hab
  have hle : ∀ m, m ≤ a.dim → ((List.range m).flatMap (coreBlk e I np sh a b)).length ≤ grad.length :=
    fun m hm => le_trans (flatMap_le _ hm) hg
  -- first core
  obtain ⟨A, hA1, hA2, -, hAn, hAc, -⟩ := ha.get hd
  obtain ⟨B, hB1, hB2, -, hBn, hBc, -⟩ := hb.get (hab ▸ hd)
  obtain ⟨A0, hA0, hBA0⟩ := k4 0 (by omega)
  have hr0 := hBA0 B hB2
  have hra : a.rk 0 = 1 := ha.wf.rk_zero
  have hrb : b.rk 0 = 1 := hb.wf.rk_zero
  have hF : gipFirst pgi a Ak grad = .ok (wrote grad (coreBlk e I np sh a b 0)) := by
    rw [gipFirst, rd_of_getElem? (ha.wf.rk_get (show 1 ≤ a.dim by omega)), bind_ok]
    have := blocks_ok (grad := grad) (n := a.rk 1) (body := fun ii st => do
      let F ← rd a.cores 0
      let u ← rd F.funcs ii
      let A ← getAk Ak 0
      let v ← rd A.funcs ii
      putGrad pgi u v st) (fnBlk e I np sh a b 0) (fun c hc L hlen => by
        obtain ⟨u, hu⟩ := fn_get (i := 0) (c := c) ha hA2 (by omega) hc
        rw [hra, Nat.mul_one, Nat.add_zero] at hu
        obtain ⟨v, v1, v2, v3⟩ := hr0.qok.get (e := e) (i := 0) (j := c) (p := c) (by rw [hr0.nrows]; omega)
          (by rw [hr0.ncols]; exact hc) (by rw [hr0.nrows, hrb]; omega)
        rw [hA1, bind_ok, rd_of_getElem? hu, bind_ok, getAk_ok hA0, bind_ok, v1, bind_ok]
        refine putGrad_ok ?_ hlen
        have := pgi_blk hI hm hp ha hb hab hA2 hB2 (fwd_zero ha.wf hb.wf) (i0 := 0) (c0 := c) (by omega) hc
          (by rw [hra, Nat.mul_one, Nat.add_zero]; exact hu) v2 (fun x hx => by
            rw [v3 x hx, hr0.val x hx 0 (by omega) c hc, hrb, sum_range_one]
            refine sum_congr rfl fun d _ => ?_
            simp [ent])
        rw [this, hra, Nat.mul_one, Nat.add_zero]) (L := []) (by
          have := hle 1 (by omega)
          rw [List.range_one, List.flatMap_cons, List.flatMap_nil, List.append_nil, coreBlk, hra, Nat.one_mul] at this
          simpa using this)
    rw [coreBlk, hra, Nat.one_mul]
    exact this
  obtain ⟨T1, hT1, hf1⟩ := fwd_one (e := e) (I := I) hin ha hb hA2 hB2 hd (hab ▸ hd)
  -- inner cores
  obtain ⟨w, w1, T, w2, w3⟩ := forR_spec
    (I := fun k (w : (List K × Nat) × List K) => ∃ T,
      w = (wrote grad ((List.range k).flatMap (coreBlk e I np sh a b)), T) ∧ Fwd e I a b k T)
    (a := 1) (b := a.dim - 1) (by omega)
    (s := (wrote grad (coreBlk e I np sh a b 0), T1)) (body := gradMid o inner pgi a b Ak)
    ⟨T1, by rw [List.range_one, List.flatMap_cons, List.flatMap_nil, List.append_nil], hf1⟩
    (by
      rintro k hk1 hk2 w ⟨T, rfl, hT⟩
      obtain ⟨A, hA1, hA2, -, hAn, hAc, -, hApos, -⟩ := ha.get (show k < a.dim by omega)
      obtain ⟨B, hB1, hB2, -, hBn, hBc, -, hBpos, -⟩ := hb.get (show k < b.dim by omega)
      obtain ⟨Q, hQ, hBQ⟩ := k4 k (by omega)
      have hr := hBQ B hB2
      obtain ⟨Ct, c1, c2⟩ := qmatm_value (e := e) hL hr.qok (by rw [hr.nrows]; omega) (R := T) (b := A.nrows)
        (by rw [hr.nrows, hAn, hT.len])
      obtain ⟨At, t2, T', f1, f2, f3, f4⟩ := fwd_step hI hL hm hin ha hb hab hA2 hB2 hT
      have hcn : Ct.nrows = a.rk (k + 1) := c2.nrows.trans hr.ncols
      have hcc : Ct.ncols = a.rk k := c2.ncols.trans hAn
      have hC : gipCore pgi (a.rk k) (a.rk (k + 1)) A Ct (wrote grad ((List.range k).flatMap (coreBlk e I np sh a b)))
          = .ok (wrote grad ((List.range (k + 1)).flatMap (coreBlk e I np sh a b))) := by
        have hlen := hle (k + 1) (by omega)
        rw [List.range_succ, List.flatMap_append, List.flatMap_cons, List.flatMap_nil, List.append_nil] at hlen ⊢
        rw [List.length_append] at hlen
        rw [coreBlk, ← flatMap_cm] at hlen ⊢
        rw [gipCore]
        refine blocks_ok _ (fun col hcol L hL => ?_) hlen
        refine blocks_ok _ (fun row hrow L hL => ?_) hL
        obtain ⟨u, hu⟩ := fn_get (i := row) (c := col) ha hA2 hrow hcol
        obtain ⟨v, v1, v2, v3⟩ := c2.qok.get (e := e) (i := col) (j := row) (p := col + row * a.rk (k + 1))
          (by omega) (by omega) (by rw [hcn]; omega)
        rw [rd_of_getElem? (show A.funcs[row + col * a.rk k]? = some u by rw [Nat.add_comm]; exact hu), bind_ok, v1, bind_ok]
        refine putGrad_ok ?_ hL
        refine pgi_blk hI hm hp ha hb hab hA2 hB2 hT hrow hcol hu v2 (fun x hx => ?_)
        rw [v3 x hx, c2.val x hx col (by rw [hr.ncols]; exact hcol) row (by omega), hr.nrows]
        refine sum_congr rfl fun j hj => ?_
        rw [hr.val x hx j (mem_range.1 hj) col hcol, sum_mul]
        exact sum_congr rfl fun d _ => by ring
      refine ⟨_, ?_, T', rfl, f4⟩
      rw [gradMid, hA1, bind_ok, getAk_ok hQ, bind_ok]
      dsimp only
      rw [c1, bind_ok, rd_of_getElem? (ha.wf.rk_get (show k + 1 ≤ a.dim by omega)), bind_ok,
        rd_of_getElem? (ha.wf.rk_get (show k ≤ a.dim by omega)), bind_ok, hC, bind_ok, hB1, bind_ok, f1, bind_ok, f2, bind_ok,
        f3, bind_ok, pure_eq_ok])
  -- last core
  obtain ⟨A', hA1', hA2', -, hAn', hAc', -, hApos', -⟩ := ha.get (show a.dim - 1 < a.dim by omega)
  obtain ⟨B', hB1', hB2', -, hBn', hBc', -, hBpos', -⟩ := hb.get (show a.dim - 1 < b.dim by omega)
  have hla : a.rk (a.dim - 1 + 1) = 1 := by rw [show a.dim - 1 + 1 = a.dim by omega]; exact ha.wf.rk_last
  have hlb : b.rk (a.dim - 1 + 1) = 1 := by rw [show a.dim - 1 + 1 = b.dim by omega]; exact hb.wf.rk_last
  have hG : gradLast o pgi a b w = .ok (wrote grad (gradSpec e I np sh a b)) := by
    subst w2
    obtain ⟨At, c1, c2⟩ := qmatm_value (e := e) hL (hb.qok hB2') hBpos' (R := T) (b := A'.nrows) (by rw [hAn', hBn', w3.len])
    rw [gradLast, hB1', bind_ok, hA1', bind_ok]
    dsimp only
    rw [c1, bind_ok, rd_of_getElem? (ha.wf.rk_get (show a.dim - 1 ≤ a.dim by omega)), bind_ok]
    have hlen := hle a.dim (le_refl _)
    rw [gradSpec]
    conv_rhs => rw [show a.dim = a.dim - 1 + 1 by omega]
    rw [show List.range a.dim = List.range (a.dim - 1 + 1) by rw [show a.dim - 1 + 1 = a.dim by omega]] at hlen
    rw [List.range_succ, List.flatMap_append, List.flatMap_cons, List.flatMap_nil, List.append_nil] at hlen ⊢
    rw [List.length_append] at hlen
    rw [coreBlk, hla, Nat.mul_one] at hlen ⊢
    refine blocks_ok _ (fun row hrow L hL => ?_) hlen
    obtain ⟨u, hu⟩ := fn_get (i := row) (c := 0) ha hA2' hrow (by omega)
    have hu' := hu
    rw [Nat.zero_mul, Nat.zero_add] at hu
    have hcn : At.nrows = 1 := by rw [c2.nrows, hBc', hlb]
    obtain ⟨v, v1, v2, v3⟩ := c2.qok.get (e := e) (i := 0) (j := row) (p := row) (by omega) (by rw [c2.ncols]; omega)
      (by rw [hcn]; omega)
    rw [rd_of_getElem? hu, bind_ok, v1, bind_ok]
    refine putGrad_ok ?_ hL
    have := pgi_blk hI hm hp ha hb hab hA2' hB2' w3 hrow (show 0 < a.rk (a.dim - 1 + 1) by omega) hu' v2 (fun x hx => by
      rw [v3 x hx, c2.val x hx 0 (by omega) row (by omega), hBn']
      refine sum_congr rfl fun j hj => ?_
      rw [hlb, sum_range_one, ichain2_end (by rw [← ha.wf.dim]; omega), if_pos rfl, mul_one, mul_one, mul_comm])
    rw [this, Nat.zero_mul, Nat.zero_add]
  rw [gradInner, cassert_of (decide_eq_true hab), bind_ok, k1, bind_ok]
  dsimp only
  rw [k2, bind_ok, hF, bind_ok, hA1, bind_ok, hB1, bind_ok, hT1, bind_ok, w1, bind_ok, hG, bind_ok, pure_eq_ok]
  rfl

/-- **C127** The inner product is an affine function of each parameter, with the entry of the gradient as slope. -/
theorem gradInner_affine (hI : IntLaw F.D I) (hL : LinLaw e o F) (hm : MemLaw2 e F I) (hin : InnerLaw e F I inner)
    (hp : ParLaw e F I np sh dv pgi) {a b : FT K U} (ha : a.Ok F) (hb : b.Ok F) (hab : a.dim = b.dim) {k p l : Nat} {u : U}
    (hu : fnAt a k p = some u) (hl : l < np u) (t : K) :
    ipr e I (shiftF sh a k p l t) b = ipr e I a b + t * slope e I sh a b k p l := by
  rw [fnAt] at hu
  obtain ⟨Q, hQ, hu⟩ := Option.bind_eq_some_iff.1 hu
  have hk : k < a.dim := by rw [ha.wf.dim]; exact (List.getElem?_eq_some_iff.1 hQ).1
  obtain ⟨Q', -, hQ2, hQw, hQn, hQc, -⟩ := ha.get hk
  obtain ⟨B, -, hB2, -⟩ := hb.get (hab ▸ hk)
  obtain rfl : Q' = Q := Option.some.inj (hQ2.symm.trans hQ)
  have hpl : p < a.rk k * a.rk (k + 1) := by rw [← hQn, ← hQc, ← hQw]; exact (List.getElem?_eq_some_iff.1 hu).1
  obtain ⟨g1, g2, g3⟩ := divmod_of_lt hpl
  have hT : ∀ m, m ≤ k → ∃ T, Fwd e I a b m T := by
    intro m
    induction m with
    | zero => exact fun _ => ⟨_, fwd_zero ha.wf hb.wf⟩
    | succ m ih =>
      intro hm'
      obtain ⟨T, hT⟩ := ih (by omega)
      obtain ⟨A, -, hA2, -⟩ := ha.get (show m < a.dim by omega)
      obtain ⟨B, -, hB2, -⟩ := hb.get (show m < b.dim by omega)
      obtain ⟨-, -, T', -, -, -, h⟩ := fwd_step hI hL hm hin ha hb hab hA2 hB2 hT
      exact ⟨T', h⟩
  obtain ⟨T, hT⟩ := hT k (le_refl _)
  rw [← g3] at hu ⊢
  have h := fun t => ipr_shift (A := fun x => _) hI hm hp ha hb hab hQ hB2 hT g1 g2 hu hl (fun x _ => rfl) t
  rw [slope, h t, h 1]
  ring

/-- **C127** One dimension: the array of the first core does not exist and the routine dereferences a null pointer. -/
theorem gradInner_dim1_counterexample (hI : IntLaw F.D I) (hL : LinLaw e o F) (hm : MemLaw2 e F I)
    (hin : InnerLaw e F I inner) {a b : FT K U} (ha : a.Ok F) (hb : b.Ok F) (h1 : a.dim = 1) (hab : a.dim = b.dim)
    (grad : List K) : gradInner o inner pgi a b grad = .error .null := by
  obtain ⟨Ak, t, k1, k2, k3, k4, -⟩ := gipBack_ok hI hL hm hin ha hb hab
  obtain ⟨A, hA1, hA2, -, -⟩ := ha.get (show 0 < a.dim by omega)
  rw [h1, Nat.sub_self] at k4
  obtain ⟨u, hu⟩ := fn_get (i := 0) (c := 0) ha hA2 (by rw [ha.wf.rk_zero]; decide)
    (by rw [show (0 + 1) = a.dim from h1.symm, ha.wf.rk_last]; decide)
  rw [Nat.zero_mul] at hu
  have hr : a.rk 1 = 1 := by
    have := ha.wf.rk_last
    rwa [h1] at this
  rw [gradInner, cassert_of (decide_eq_true hab), bind_ok, k1, bind_ok]
  dsimp only
  rw [k2, bind_ok, gipFirst, rd_of_getElem? (ha.wf.rk_get (show 1 ≤ a.dim by omega)), bind_ok, hr, forN_succ, forN_zero,
    ebind_ok, hA1, bind_ok, rd_of_getElem? hu, bind_ok, getAk, rd_of_getElem? k4, bind_ok]
  rfl

end

/-- **C127** Over the reals: every entry of the gradient is the derivative of the inner product with respect to its
parameter. -/
theorem gradInner_hasDerivAt {U X : Type} {e : Ev ℝ U X} {F : Fam U X} {I : Integ ℝ X} {o : LOps ℝ U} {inner : U → U → C ℝ}
    {np : U → Nat} {sh : U → Nat → ℝ → U} {dv : U → Nat → X → ℝ} {pgi : U → U → C (List ℝ)} (hI : IntLaw F.D I)
    (hL : LinLaw e o F) (hm : MemLaw2 e F I) (hin : InnerLaw e F I inner) (hp : ParLaw e F I np sh dv pgi) {a b : FT ℝ U}
    (ha : a.Ok F) (hb : b.Ok F) (hab : a.dim = b.dim) {k p l : Nat} {u : U} (hu : fnAt a k p = some u) (hl : l < np u)
    (t : ℝ) : HasDerivAt (fun t => ipr e I (shiftF sh a k p l t) b) (slope e I sh a b k p l) t := by
  have h : (fun t => ipr e I (shiftF sh a k p l t) b) = fun t => ipr e I a b + t * slope e I sh a b k p l :=
    funext (gradInner_affine hI hL hm hin hp ha hb hab hu hl)
  rw [h]
  simpa using ((hasDerivAt_id t).mul_const (slope e I sh a b k p l)).const_add (ipr e I a b)

/-! ### The hypotheses are satisfiable -/

/-- Continuous functions with two parameters each, the coefficients of `1` and `x`. -/
theorem r_par : ParLaw rEv rFam (rInteg (fun _ => 0) (fun _ => 1)) (fun _ => 2) (fun f l t x => f x + t * x ^ l)
    (fun _ l x => x ^ l) (fun _ g => .ok [∫ x in (0 : ℝ)..1, x ^ 0 * g x, ∫ x in (0 : ℝ)..1, x ^ 1 * g x]) := by
  refine ⟨fun k f l t hf _ => ?_, fun _ _ _ _ _ _ _ _ => rfl, fun _ _ _ _ _ => rfl⟩
  exact Continuous.add hf (by fun_prop)

/-- The gradient of `∫∫ f g` at `f = g = x + y`, parameter `0` of the first function (`f + t · 1`, i.e. `x + t + y`). -/
example : ∃ v G, gradInner rOps (rInner 0 1) (fun _ g => .ok [∫ x in (0 : ℝ)..1, x ^ 0 * g x, ∫ x in (0 : ℝ)..1, x ^ 1 * g x])
    rFt rFt (List.replicate 9 5) = .ok (v, G) ∧ G.length = 9 ∧ G[8]? = some 5 := by
  have hlen : (gradSpec rEv (rInteg (fun _ => (0 : ℝ)) (fun _ => 1)) (fun _ => 2)
      (fun (f : ℝ → ℝ) l (t : ℝ) x => f x + t * x ^ l) rFt rFt).length = 8 := by
    simp [gradSpec, coreBlk, fnBlk, fnAt, rFt, FT.rk, List.range_succ]
  refine ⟨_, _, gradInner_value_partial (r_intLaw _ _) r_lin (r_mem2 _ _) (r_inner 0 1) r_par rFt_ok rFt_ok rfl (Nat.le_refl 2)
    (by rw [hlen]; simp), ?_, ?_⟩
  · rw [List.length_append, hlen]; simp
  · rw [List.getElem?_append_right (by omega), hlen]; simp

end C3.Ft
