/-
C71: adaptive projection (Gauss rules). Specification: the coefficients are discrete inner products with the basis for the rule of the
final size; the loop stops with small trailing coefficients or at a size limit.
-/
import Verif.Poly.MapProps

set_option linter.unusedSectionVars false

namespace C3.Poly
open Finset
open C3.Lin (dv dv_ok)
variable {K : Type} [Field K] [LinearOrder K] [IsStrictOrderedRing K]

/-- The coefficients of `r` are the discrete inner products of `g` with the basis, rule with one point more than polynomials. -/
def IsProj (Q : PT → Nat → Rule K) (g : K → K) (r : Ope K) : Prop :=
  ∀ k < r.num, r.coeff.getD k 0 = (∑ i ∈ range (r.num + 1), (Q r.fam.pt (r.num + 1)).wts.getD i 0 *
    (g (r.map.inv ((Q r.fam.pt (r.num + 1)).pts.getD i 0)) * r.fam.p k ((Q r.fam.pt (r.num + 1)).pts.getD i 0))) / r.fam.norm k

theorem vecRule_gauss (Q : PT → Nat → Rule K) (cc : Nat → Rule K) (f : Ope K) {o : Option Bool}
    (ho : o ≠ some true) (hn : f.num + 1 ≤ 199) : vecRule Q cc f o = .ok (some (f.num + 1, Q f.fam.pt (f.num + 1))) := by
  unfold vecRule
  dsimp only
  rw [if_neg (fun c => ho c.1), if_neg ho, if_neg (by omega)]
  split
  · rename_i h; rw [if_neg ho, if_pos hn, h]
  · rw [if_neg ho]

theorem approxVec_gauss {Q : PT → Nat → Rule K} {cc : Nat → Rule K} {F : List K → C (Option (List K))}
    {g : K → K} {D : K → Prop} (hF : ∀ l, (∀ x ∈ l, D x) → F l = .ok (some (l.map g))) {f : Ope K}
    (hD : ∀ n ≤ 199, ∀ x ∈ (Q f.fam.pt n).pts, D (f.map.inv x)) (hf : f.WF) {o : Option Bool} (ho : o ≠ some true)
    (hn : f.num + 1 ≤ 199) (hl : ∀ n, (Q f.fam.pt n).pts.length = n ∧ (Q f.fam.pt n).wts.length = n) (hnorm : ∀ k < f.num, f.fam.norm k ≠ 0)
    (hz : ∀ k < f.num, f.coeff.getD k 0 = 0) :
    ∃ co, approxVec Q cc F f o = .ok (some { f with coeff := co }) ∧ co.length = f.coeff.length ∧ IsProj Q g { f with coeff := co } := by
  obtain ⟨l1, l2⟩ := hl (f.num + 1)
  obtain ⟨pu, ep, lp, vp, -⟩ := forN_window (n := f.num + 1) (off := 0) (a := List.replicate (f.num + 1) (0 : K))
    (fun i _ => f.map.inv ((Q f.fam.pt (f.num + 1)).pts.getD i 0)) (by simp)
    (body := fun ii pu => do
      let p ← rd (Q f.fam.pt (f.num + 1)).pts ii
      wr pu ii (f.map.inv p))
    (fun i hi b hb => by
      rw [List.length_replicate] at hb
      rw [rd_getD 0 (by omega), bind_ok, wr_ok _ (by omega), Nat.zero_add])
  rw [List.length_replicate] at lp
  obtain ⟨fv, ef, lf, vf, -⟩ := forN_window (n := f.num + 1) (off := 0) (a := pu.map g)
    (fun i v => v * (Q f.fam.pt (f.num + 1)).wts.getD i 0) (by simp [lp])
    (body := fun ii fv => do
      let u ← rd fv ii
      let w ← rd (Q f.fam.pt (f.num + 1)).wts ii
      wr fv ii (u * w))
    (fun i hi b hb => by
      rw [List.length_map] at hb
      rw [rd_getD 0 (by omega), bind_ok, rd_getD 0 (by omega), bind_ok, wr_ok _ (by omega), Nat.zero_add])
  rw [List.length_map] at lf
  obtain ⟨co, ec, lc, vc⟩ := construct_ok hf (n := f.num + 1) (fvals := fv) (nodes := (Q f.fam.pt (f.num + 1)).pts) (by omega) (by omega) hnorm
  refine ⟨co, ?_, lc, fun k hk => ?_⟩
  · rw [approxVec, vecRule_gauss Q cc f ho hn, bind_ok]
    have hpu : ∀ x ∈ pu, D x := fun x hx => by
      obtain ⟨i, hi, rfl⟩ := List.getElem_of_mem hx
      have h2 := vp i (by omega)
      rw [Nat.zero_add, List.getD_eq_getElem?_getD, List.getElem?_eq_getElem hi, Option.getD_some] at h2
      rw [h2, List.getD_eq_getElem?_getD, List.getElem?_eq_getElem (show i < (Q f.fam.pt (f.num + 1)).pts.length by omega), Option.getD_some]
      exact hD _ hn _ (List.getElem_mem _)
    dsimp only
    rw [ep, bind_ok, hF _ hpu, bind_ok]
    dsimp only
    rw [ef, bind_ok, ec]; rfl
  · have hk' : k < f.num := hk
    dsimp only
    rw [vc k hk', hz k hk', zero_add]
    congr 1
    refine sum_congr rfl fun i hi => ?_
    have hi' : i < f.num + 1 := mem_range.1 hi
    have h1 := vf i hi'
    have h2 := vp i hi'
    rw [Nat.zero_add] at h1 h2
    rw [h1, List.getD_eq_getElem?_getD (l := pu.map g), List.getElem?_map, List.getElem?_eq_getElem (show i < pu.length by omega)]
    rw [List.getD_eq_getElem?_getD, List.getElem?_eq_getElem (show i < pu.length by omega)] at h2
    simp only [Option.getD_some] at h2
    simp only [Option.map_some, Option.getD_some, h2]
    ring

/-- The test on the trailing coefficients. -/
theorem tooBig_ok {coeff : List K} {N check : Nat} (tol : K) (hc : check ≤ N) (hN : N ≤ coeff.length) :
    ∃ b, tooBig coeff N check tol = .ok b ∧ (b = false ↔ ∀ i < check, |coeff.getD (N - 1 - i) 0| ≤ tol) := by
  obtain ⟨b, e, h⟩ := forN_spec (n := check) (s := false) (body := fun ii b => if b then pure true
    else if N < ii + 1 then .error .oob
    else do
      let c ← rd coeff (N - 1 - ii)
      pure (decide (|c| > tol)))
    (I := fun m b => (b = false ↔ ∀ i < m, |coeff.getD (N - 1 - i) 0| ≤ tol))
    ⟨fun _ i hi => absurd hi (Nat.not_lt_zero _), fun _ => rfl⟩
    (by
      intro m hm b hb
      cases b with
      | true =>
        refine ⟨true, rfl, ⟨fun h => (Bool.false_ne_true h.symm).elim, fun h => hb.2 fun i hi => h i (by omega)⟩⟩
      | false =>
        refine ⟨_, by rw [if_neg Bool.false_ne_true, if_neg (by omega), rd_getD 0 (by omega), bind_ok]; rfl, ?_⟩
        rw [decide_eq_false_iff_not, not_lt]
        exact ⟨fun h i hi => by
            rcases Nat.lt_or_eq_of_le (Nat.lt_succ_iff.1 hi) with h2 | rfl
            · exact hb.1 rfl i h2
            · exact h, fun h => h m (by omega)⟩)
  exact ⟨b, e, h⟩

theorem sumSq_ok (thr : K) {coeff : List K} {N : Nat} (hN : N ≤ coeff.length) :
    sumSq thr coeff N = .ok (max (∑ i ∈ range N, coeff.getD i 0 ^ 2) thr) := by
  have : forN N (fun ii s => do
      let c ← rd coeff ii
      pure (s + c ^ 2)) (0 : K) = .ok (∑ i ∈ range N, coeff.getD i 0 ^ 2) := by
    obtain ⟨s, e, h⟩ := forN_spec (n := N) (s := (0 : K)) (body := fun ii s => do
        let c ← rd coeff ii
        pure (s + c ^ 2)) (I := fun m s => s = ∑ i ∈ range m, coeff.getD i 0 ^ 2) rfl
      (by
        rintro m hm s rfl
        exact ⟨_, by rw [rd_getD 0 (by omega), bind_ok]; rfl, (sum_range_succ _ _).symm⟩)
    rw [e, h]
  rw [sumSq, this, bind_ok]; rfl

/-- What the loop guarantees about the expansion it returns: family, mapping, projection, size, and why it stopped. -/
structure Adapted (thr : K) (Q : PT → Nat → Rule K) (g : K → K) (o : Opts K) (f r : Ope K) : Prop where
  fam : r.fam = f.fam
  map : r.map = f.map
  lb : r.lb = f.lb
  ub : r.ub = f.ub
  krist : r.krist = f.krist
  wf : r.WF
  proj : IsProj Q g r
  num : f.num ≤ r.num
  num_le : r.num ≤ 198
  stop : (∀ i < o.check, |r.coeff.getD (r.num - 1 - i) 0| ≤ o.tol ∨
      |r.coeff.getD (r.num - 1 - i) 0| ≤ o.tol * max (∑ i ∈ range r.num, r.coeff.getD i 0 ^ 2) thr) ∨ o.maxnum ≤ r.num ∨ 100 < r.num

theorem adaptLoop_ok {thr : K} {Q : PT → Nat → Rule K} {cc : Nat → Rule K}
    {F : List K → C (Option (List K))} {g : K → K} {D : K → Prop} (hF : ∀ l, (∀ x ∈ l, D x) → F l = .ok (some (l.map g))) {o : Opts K} (ho : o.cc = false) :
    ∀ (fuel : Nat) {f : Ope K} {big : Bool} (_ : ∀ n ≤ 199, ∀ x ∈ (Q f.fam.pt n).pts, D (f.map.inv x)) (_ : f.WF) (_ : f.num ≤ 198) (_ : IsProj Q g f)
      (_ : ∀ n, (Q f.fam.pt n).pts.length = n ∧ (Q f.fam.pt n).wts.length = n) (_ : ∀ k, f.fam.norm k ≠ 0) (_ : o.check ≤ f.num)
      (_ : big = true → f.num ≤ 191) (_ : 200 - f.num < 7 * fuel)
      (_ : big = false → (∀ i < o.check, |f.coeff.getD (f.num - 1 - i) 0| ≤ o.tol ∨
          |f.coeff.getD (f.num - 1 - i) 0| ≤ o.tol * max (∑ i ∈ range f.num, f.coeff.getD i 0 ^ 2) thr) ∨ 100 < f.num),
      ∃ r, adaptLoop thr Q cc F o fuel big f = .ok r ∧ Adapted thr Q g o f r
  | 0, _, _, _, _, hle, _, _, _, _, _, hfu, _ => absurd hfu (by omega)
  | fuel + 1, f, big, hD, hf, hle, hp, hl, hn, hc, hb, hfu, hs => by
    rw [adaptLoop]
    by_cases h : big = true ∧ f.num < o.maxnum
    · rw [if_pos h]
      have h191 := hb h.1
      dsimp only
      have hpos := hf.pos
      have wf' : (regrow f (f.num + 7)).WF := ⟨by show 1 ≤ f.num + 7; omega, by show f.num + 7 ≤ f.num + 7 + 50; omega,
        by show f.num + 7 + 50 ≤ (List.replicate (f.num + 7 + 50) (0 : K)).length; rw [List.length_replicate], hf.cheb⟩
      obtain ⟨co, e1, l1, pr⟩ := approxVec_gauss (cc := cc) hF (f := regrow f (f.num + 7)) hD wf' (o := some o.cc) (by rw [ho]; simp)
        (by show f.num + 7 + 1 ≤ 199; omega) hl (fun k _ => hn k)
        (fun k hk => by
          show (List.replicate (f.num + 7 + 50) (0 : K)).getD k 0 = 0
          rw [List.getD_eq_getElem?_getD, List.getElem?_replicate]; split <;> rfl)
      have lco : co.length = f.num + 7 + 50 := by
        rw [l1]; show (List.replicate (f.num + 7 + 50) (0 : K)).length = _; rw [List.length_replicate]
      have hN : (if o.cc = true then f.num * 2 - 1 else f.num + 7) = f.num + 7 := by rw [ho]; rfl
      obtain ⟨b, eb, hbb⟩ := tooBig_ok (coeff := co) (N := f.num + 7) (check := o.check)
        (o.tol * max (∑ i ∈ range (f.num + 7), co.getD i 0 ^ 2) thr) (by omega) (by omega)
      have wf2 : Ope.WF { regrow f (f.num + 7) with coeff := co } := ⟨wf'.pos, wf'.num_le, by
        show f.num + 7 + 50 ≤ co.length; omega, hf.cheb⟩
      obtain ⟨r, er, hr⟩ := adaptLoop_ok (thr := thr) (cc := cc) hF ho fuel
        (f := { regrow f (f.num + 7) with coeff := co }) (big := b && !decide (f.num + 7 > 100)) hD wf2 (by show f.num + 7 ≤ 198; omega) pr hl hn
        (by show o.check ≤ f.num + 7; omega)
        (fun hbig => by
          rw [Bool.and_eq_true, Bool.not_eq_true', decide_eq_false_iff_not] at hbig
          show f.num + 7 ≤ 191; omega)
        (by show 200 - (f.num + 7) < 7 * fuel; omega)
        (fun hbig => by
          show (∀ i < o.check, |co.getD (f.num + 7 - 1 - i) 0| ≤ o.tol ∨
            |co.getD (f.num + 7 - 1 - i) 0| ≤ o.tol * max (∑ i ∈ range (f.num + 7), co.getD i 0 ^ 2) thr) ∨ 100 < f.num + 7
          rw [Bool.and_eq_false_iff] at hbig
          rcases hbig with hbig | hbig
          · exact Or.inl fun i hi => Or.inr (hbb.1 hbig i hi)
          · right; simpa using hbig)
      refine ⟨r, ?_, hr.fam, hr.map, hr.lb, hr.ub, hr.krist, hr.wf, hr.proj, ?_, hr.num_le, hr.stop⟩
      · rw [hN, approxKeep, e1, bind_ok]
        dsimp only [Option.getD]
        rw [pure_eq_ok, bind_ok]
        dsimp only
        rw [sumSq_ok thr (coeff := co) (by omega), bind_ok, eb, bind_ok]
        exact er
      · have : f.num + 7 ≤ r.num := hr.num
        omega
    · rw [if_neg h]
      refine ⟨f, rfl, rfl, rfl, rfl, rfl, rfl, hf, hp, le_refl _, hle, ?_⟩
      by_cases hbig : big = true
      · exact Or.inr (Or.inl (by
          by_contra c
          exact h ⟨hbig, by omega⟩))
      · rcases hs (by simpa using hbig) with h2 | h2
        · exact Or.inl h2
        · exact Or.inr (Or.inr h2)

/-- Options that make sense: expansions can be created. -/
structure Opts.Valid (o : Opts K) : Prop where
  herm : o.fam.pt = .herm → o.std ≠ 0
  other : o.fam.pt ≠ .herm → o.fam.lower < o.fam.upper ∧ o.lb < o.ub
  cheb : o.fam.pt = .cheb → ∃ pi, o.fam = chebFam pi

theorem initOpts_ok {o : Opts K} (hv : o.Valid) {num : Nat} (hn : 1 ≤ num) :
    ∃ f, initOpts o num = .ok f ∧ f.fam = o.fam ∧ f.num = num ∧ f.krist = o.krist ∧ f.map.Inv ∧ f.WF ∧ ∀ k, f.coeff.getD k 0 = 0 := by
  by_cases h : o.fam.pt = .herm
  · obtain ⟨f, e, h1, h2, h3, h4, -, -, h5, h6⟩ := initOpts_herm o num h (hv.herm h)
    exact ⟨f, e, h1, h2, h3, h4, h5 hn, h6⟩
  · obtain ⟨p, e, h1, h2, -, -, -, -, -, h3, -, -, -, h4, h5⟩ := init_map o.fam num h (hv.other h).1 (hv.other h).2
    have hw := h4 hn hv.cheb
    exact ⟨_, initOpts_other o num h e, h1, h2, rfl, h3, ⟨hw.pos, hw.num_le, hw.alloc_le, hw.cheb⟩, h5⟩

/-- Adaptive projection with Gauss rules: the loop ends, and the result is the projection of the function with the final number of
polynomials; the trailing coefficients are below the tolerance unless the size limit was reached. The optional final rounding is
described by `round_value`. The function need only be known at points satisfying `D`, provided the points of the rules do. -/
theorem approxAdapt_gauss {thr : K} {Q : PT → Nat → Rule K} {cc : Nat → Rule K}
    {F : List K → C (Option (List K))} {g : K → K} {D : K → Prop} (hF : ∀ l, (∀ x ∈ l, D x) → F l = .ok (some (l.map g))) {o : Opts K} (hv : o.Valid) (ho : o.cc = false)
    (hD : ∀ f, initOpts o o.start = .ok f → ∀ n ≤ 199, ∀ x ∈ (Q o.fam.pt n).pts, D (f.map.inv x))
    (hl : ∀ n, (Q o.fam.pt n).pts.length = n ∧ (Q o.fam.pt n).wts.length = n) (hn : ∀ k, o.fam.norm k ≠ 0)
    (h1 : 1 ≤ o.start) (h2 : o.start ≤ 191) (hc : o.check ≤ o.start) {fuel : Nat} (hfu : 30 ≤ fuel) :
    ∃ f r, initOpts o o.start = .ok f ∧ Adapted thr Q g o f r ∧
      approxAdapt thr Q cc F o fuel = if o.final then round thr r else .ok r := by
  obtain ⟨f, e, f1, f2, f3, f4, wf, f5⟩ := initOpts_ok hv h1
  obtain ⟨co, e1, l1, pr⟩ := approxVec_gauss (cc := cc) hF (f := f) (by rw [f1]; exact hD f e) wf (o := some o.cc) (by rw [ho]; simp)
    (by rw [f2]; omega) (by rw [f1]; exact hl) (fun k _ => by rw [f1]; exact hn k) (fun k _ => f5 k)
  have hlen := wf.num_le.trans wf.alloc_le
  obtain ⟨b, eb, hb⟩ := tooBig_ok (coeff := co) (N := o.start) (check := o.check) o.tol hc (by omega)
  obtain ⟨r, er, hr⟩ := adaptLoop_ok (thr := thr) (cc := cc) hF ho fuel (f := { f with coeff := co }) (big := b)
    (by show ∀ n ≤ 199, ∀ x ∈ (Q f.fam.pt n).pts, D (f.map.inv x); rw [f1]; exact hD f e)
    ⟨wf.pos, wf.num_le, by rw [l1]; exact wf.alloc_le, wf.cheb⟩ (by show f.num ≤ 198; omega) pr (by rw [← f1] at hl; exact hl) (by rw [← f1] at hn; exact hn)
    (by show o.check ≤ f.num; omega) (fun _ => by show f.num ≤ 191; omega) (by show 200 - f.num < 7 * fuel; omega)
    (fun hbig => Or.inl fun i hi => Or.inl (by
      have := hb.1 hbig i hi
      show |co.getD (f.num - 1 - i) 0| ≤ o.tol
      rw [f2]; exact this))
  refine ⟨f, r, e, ⟨hr.fam, hr.map, hr.lb, hr.ub, hr.krist, hr.wf, hr.proj, hr.num, hr.num_le, hr.stop⟩, ?_⟩
  rw [approxAdapt, e, bind_ok, approxKeep, e1, bind_ok]
  dsimp only [Option.getD]
  rw [pure_eq_ok, bind_ok, eb, bind_ok, er, bind_ok]
  rfl

/-- A projection with an orthogonal rule reproduces the functions of the span. -/
theorem IsProj.exact {Q : PT → Nat → Rule K} {g : K → K} {r : Ope K} (h : IsProj Q g r) (hn : ∀ k < r.num, r.fam.norm k ≠ 0)
    (ho : DiscOrth r.fam (Q r.fam.pt (r.num + 1)) (r.num + 1) r.num)
    (hc : r.fam.c0 ≠ 0) (hl : r.fam.l1 ≠ 0) (ha : ∀ n, 2 ≤ n → r.fam.an n ≠ 0) (q : Polynomial K) (hq : q.degree < r.num)
    (hg : ∀ i < r.num + 1, g (r.map.inv ((Q r.fam.pt (r.num + 1)).pts.getD i 0)) = q.eval ((Q r.fam.pt (r.num + 1)).pts.getD i 0)) (x : K) :
    r.val x = q.eval (r.map.slope * x + r.map.off) := by
  obtain ⟨a, ea⟩ := exists_series hc hl ha r.num q hq
  rw [ea, Ope.val]
  refine sum_congr rfl fun k hk => ?_
  have hk' : k < r.num := mem_range.1 hk
  congr 1
  rw [h k hk', div_eq_iff (hn k hk')]
  have e1 : ∑ i ∈ range (r.num + 1), (Q r.fam.pt (r.num + 1)).wts.getD i 0 *
      (g (r.map.inv ((Q r.fam.pt (r.num + 1)).pts.getD i 0)) * r.fam.p k ((Q r.fam.pt (r.num + 1)).pts.getD i 0))
      = ∑ j ∈ range r.num, a j * ∑ i ∈ range (r.num + 1), (Q r.fam.pt (r.num + 1)).wts.getD i 0 *
        (r.fam.p j ((Q r.fam.pt (r.num + 1)).pts.getD i 0) * r.fam.p k ((Q r.fam.pt (r.num + 1)).pts.getD i 0)) := by
    rw [sum_congr rfl (fun i hi => by rw [hg i (mem_range.1 hi), ea, sum_mul, mul_sum]), sum_comm]
    refine sum_congr rfl fun j _ => ?_
    rw [mul_sum]
    exact sum_congr rfl fun i _ => by ring
  rw [e1, sum_congr rfl (fun j hj => by rw [ho j (mem_range.1 hj) k hk', mul_ite, mul_zero]), sum_ite_eq' (range r.num) k,
    if_pos hk]

/-- Adaptive projection of a function that agrees with a polynomial of degree below the starting number of basis functions, at least
where it is evaluated, returns that polynomial (without rounding, or with a zero threshold). -/
theorem approxAdapt_local {thr : K} {Q : PT → Nat → Rule K} {cc : Nat → Rule K}
    {F : List K → C (Option (List K))} {g : K → K} {D : K → Prop} (hF : ∀ l, (∀ x ∈ l, D x) → F l = .ok (some (l.map g))) {o : Opts K} (hv : o.Valid) (ho : o.cc = false)
    (hfin : o.final = false ∨ thr = 0) (hD : ∀ f, initOpts o o.start = .ok f → ∀ n ≤ 199, ∀ x ∈ (Q o.fam.pt n).pts, D (f.map.inv x))
    (hl : ∀ n, (Q o.fam.pt n).pts.length = n ∧ (Q o.fam.pt n).wts.length = n) (hn : ∀ k, o.fam.norm k ≠ 0)
    (hc0 : o.fam.c0 ≠ 0) (hl1 : o.fam.l1 ≠ 0) (han : ∀ n, 2 ≤ n → o.fam.an n ≠ 0)
    (hQ : ∀ n, DiscOrth o.fam (Q o.fam.pt (n + 1)) (n + 1) n)
    (h1 : 1 ≤ o.start) (h2 : o.start ≤ 191) (hc : o.check ≤ o.start) {fuel : Nat} (hfu : 30 ≤ fuel)
    (q : Polynomial K) (hq : q.degree < o.start) (hg : ∀ f, initOpts o o.start = .ok f → ∀ x, D x → g x = q.eval (f.map.slope * x + f.map.off)) :
    ∃ f r, initOpts o o.start = .ok f ∧ approxAdapt thr Q cc F o fuel = .ok r ∧ r.WF ∧ r.fam = f.fam ∧ r.map = f.map ∧ r.lb = f.lb ∧ r.ub = f.ub ∧
      r.krist = f.krist ∧ r.num ≤ 198 ∧ ∀ x, r.val x = q.eval (f.map.slope * x + f.map.off) := by
  obtain ⟨f, r, e, hr, ea⟩ := approxAdapt_gauss (thr := thr) (cc := cc) hF hv ho hD hl hn h1 h2 hc hfu
  obtain ⟨f', e', f1, f2, -, f4, -, -⟩ := initOpts_ok hv h1
  rw [e] at e'
  obtain rfl := Except.ok.inj e'
  have hfam : r.fam = o.fam := hr.fam.trans f1
  have hnum : o.start ≤ r.num := f2 ▸ hr.num
  have key : ∀ x, r.val x = q.eval (r.map.slope * x + r.map.off) := by
   refine hr.proj.exact (fun k _ => by rw [hfam]; exact hn k) (by rw [hfam]; exact hQ _)
     (by rw [hfam]; exact hc0) (by rw [hfam]; exact hl1) (by rw [hfam]; exact han) q
     (lt_of_lt_of_le hq (by exact_mod_cast hnum)) (fun i hi => ?_)
   have hm : (Q r.fam.pt (r.num + 1)).pts.getD i 0 ∈ (Q r.fam.pt (r.num + 1)).pts := by
     rw [List.getD_eq_getElem?_getD, List.getElem?_eq_getElem (by rw [hfam, (hl _).1]; exact hi), Option.getD_some]
     exact List.getElem_mem _
   rw [hr.map, hg f e _ (hD f e _ (Nat.succ_le_succ hr.num_le) _ (by rw [← hfam]; exact hm)), f4.right]
  rw [hr.map] at key
  rcases Bool.eq_false_or_eq_true o.final with hb | hb
  · rw [hb, if_pos rfl, hfin.resolve_left (by rw [hb]; simp)] at ea
    have hlen := hr.wf.num_le.trans hr.wf.alloc_le
    obtain ⟨r', er, hro, -⟩ := round_ok (thr := (0 : K)) hr.wf.pos hlen
    obtain ⟨r'', er', rw', rv⟩ := round_exact hr.wf
    have : r'' = r' := Except.ok.inj (er'.symm.trans er)
    subst this
    refine ⟨f, r'', e, ?_, rw', by rw [hro.fam, hr.fam], by rw [hro.map, hr.map], by rw [hro.lb, hr.lb], by rw [hro.ub, hr.ub],
      by rw [hro.krist, hr.krist], hro.le.trans hr.num_le, fun x => (rv x).trans (key x)⟩
    rw [← er, ← ea, hfin.resolve_left (by rw [hb]; simp)]
  · rw [hb] at ea
    exact ⟨f, r, e, ea, hr.wf, hr.fam, hr.map, hr.lb, hr.ub, hr.krist, hr.num_le, key⟩


/-- Adaptive projection of a polynomial of degree below the starting number of basis functions returns that polynomial (without
rounding). -/
theorem approxAdapt_exact {thr : K} {Q : PT → Nat → Rule K} {cc : Nat → Rule K}
    {F : List K → C (Option (List K))} {g : K → K} (hF : ∀ l, F l = .ok (some (l.map g))) {o : Opts K} (hv : o.Valid) (ho : o.cc = false)
    (hfin : o.final = false)
    (hl : ∀ n, (Q o.fam.pt n).pts.length = n ∧ (Q o.fam.pt n).wts.length = n) (hn : ∀ k, o.fam.norm k ≠ 0)
    (hc0 : o.fam.c0 ≠ 0) (hl1 : o.fam.l1 ≠ 0) (han : ∀ n, 2 ≤ n → o.fam.an n ≠ 0)
    (hQ : ∀ n, DiscOrth o.fam (Q o.fam.pt (n + 1)) (n + 1) n)
    (h1 : 1 ≤ o.start) (h2 : o.start ≤ 191) (hc : o.check ≤ o.start) {fuel : Nat} (hfu : 30 ≤ fuel)
    (q : Polynomial K) (hq : q.degree < o.start) (hg : ∀ f, initOpts o o.start = .ok f → ∀ x, g x = q.eval (f.map.slope * x + f.map.off)) :
    ∃ r, approxAdapt thr Q cc F o fuel = .ok r ∧ r.WF ∧ ∀ x, r.val x = g x := by
  obtain ⟨f, r, e, ea, hw, -, -, -, -, -, -, hv⟩ := approxAdapt_local (thr := thr) (cc := cc) (D := fun _ => True) (fun l _ => hF l) hv ho (.inl hfin)
    (fun _ _ _ _ _ _ => trivial) hl hn hc0 hl1 han hQ h1 h2 hc hfu q hq (fun f e x _ => hg f e x)
  exact ⟨r, ea, hw, fun x => (hv x).trans (hg f e x).symm⟩

/-- More coefficients to check than polynomials at the start: an entry before the block is read. -/
theorem tooBig_counterexample : tooBig [(0 : ℚ), 0] 1 2 1 = .error .oob := by decide +kernel

/-- More than 199 polynomials at the start: the projection fails, its return code is ignored, and whatever the function is the result
is the zero function. -/
theorem approxAdapt_many_counterexample {thr : K} (Q : PT → Nat → Rule K) (cc : Nat → Rule K)
    (F : List K → C (Option (List K))) {o : Opts K} (hv : o.Valid) (ho : o.cc = false) (h1 : 200 ≤ o.start) (hc : o.check ≤ o.start)
    (ht : 0 ≤ o.tol) (hfin : o.final = false) (fuel : Nat) :
    ∃ r, approxAdapt thr Q cc F o (fuel + 1) = .ok r ∧ ∀ x, r.val x = 0 := by
  obtain ⟨f, e, f1, f2, f3, f4, wf, f5⟩ := initOpts_ok hv (num := o.start) (by omega)
  have hlen := wf.num_le.trans wf.alloc_le
  obtain ⟨b, eb, hb⟩ := tooBig_ok (coeff := f.coeff) (N := o.start) (check := o.check) o.tol hc (by omega)
  have hb' : b = false := hb.2 fun i _ => by rw [f5, abs_zero]; exact ht
  have ev : vecRule Q cc f (some o.cc) = .ok none := by
    have hne : some o.cc ≠ some true := by rw [ho]; simp
    unfold vecRule
    dsimp only
    rw [if_neg (fun c => hne c.1), if_neg hne, if_pos (by omega)]
  refine ⟨f, ?_, fun x => ?_⟩
  · rw [approxAdapt, e, bind_ok, approxKeep, approxVec, ev, bind_ok]
    dsimp only
    rw [pure_eq_ok, bind_ok, pure_eq_ok]
    dsimp only [Option.getD]
    rw [bind_ok, eb, bind_ok, hb', adaptLoop, if_neg (by simp), bind_ok, hfin]
    rfl
  · rw [Ope.val]
    exact sum_eq_zero fun k _ => by rw [f5, zero_mul]

/-- 199 Legendre polynomials: the rule with 200 points is accepted, but the table of rules has 199 entries and is read past its end. -/
theorem approxVec_table_counterexample (Q : PT → Nat → Rule K) (cc : Nat → Rule K) (F : List K → C (Option (List K))) {f : Ope K} (hf : f.fam.pt = .leg)
    (hn : f.num = 199) : approxVec Q cc F f (some false) = .error .oob := by
  have : vecRule Q cc f (some false) = .error .oob := by
    simp [vecRule, hf, hn]
  rw [approxVec, this]; rfl

/-- Clenshaw-Curtis with one polynomial at the start: the number of polynomials never grows, the loop does not end as long as the
coefficient stays above the tolerance. -/
theorem adaptLoop_cc_counterexample {thr : K} {Q : PT → Nat → Rule K} {cc : Nat → Rule K} {F : List K → C (Option (List K))}
    {o : Opts K} (ho : o.cc = true) (hmax : 1 < o.maxnum) {f f' : Ope K} (hf : f.num = 1) (hs : f'.num = 1)
    (hk : approxKeep Q cc F (regrow f 1) (some true) = .ok f') (hk' : approxKeep Q cc F (regrow f' 1) (some true) = .ok f')
    (hl : 1 ≤ f'.coeff.length) (hc : o.check = 1) (hbig : o.tol * max (f'.coeff.getD 0 0 ^ 2) thr < |f'.coeff.getD 0 0|) :
    ∀ fuel, adaptLoop thr Q cc F o fuel true f = .error .diverge := by
  have step : ∀ f : Ope K, f.num = 1 → approxKeep Q cc F (regrow f 1) (some true) = .ok f' → ∀ fuel,
      adaptLoop thr Q cc F o (fuel + 1) true f = adaptLoop thr Q cc F o fuel true f' := by
    intro f hf hk fuel
    rw [adaptLoop, if_pos ⟨rfl, by omega⟩]
    dsimp only
    obtain ⟨b, eb, hb⟩ := tooBig_ok (coeff := f'.coeff) (N := 1) (check := 1) (o.tol * max (f'.coeff.getD 0 0 ^ 2) thr) (by omega) hl
    have hb' : b = true := by
      by_contra c
      have := hb.1 (by simpa using c) 0 (by omega)
      simp only [Nat.sub_self] at this
      exact absurd hbig (not_lt.2 this)
    rw [ho, if_pos rfl, hf, show 1 * 2 - 1 = 1 from rfl, hk, bind_ok, sumSq_ok thr hl, bind_ok, sum_range_one, hc, eb, bind_ok, hb']
    rfl
  intro fuel
  cases fuel with
  | zero => rfl
  | succ n =>
    rw [step f hf hk]
    induction n with
    | zero => rfl
    | succ n ih => rw [step f' hs hk', ih]

end C3.Poly
