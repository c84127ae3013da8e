/-
C107: one pass of the loop of `ftapprox_cross` and the loop.
-/
import Verif.Xapp.Span

set_option linter.unusedSectionVars false

namespace C3.Xa
open Finset C3.Ft C3.Round C3.Mv C3.Fw C3.Ind
variable {U X : Type} [Zero X] {e : Ev ℝ U X} {F : Fam U X} {I : Integ ℝ X}

/-- The relative distance is always computed, and is zero for trains that agree. -/
theorem relnorm_ok {o : RdOps U} (h : Laws e F I o) (thr : ℝ) {a b : FT ℝ U} (ha : a.Ok F) (hb : b.Ok F) (hab : a.dim = b.dim)
    (h2 : 2 ≤ a.dim) :
    ∃ v, relnorm2diff o.lin o.inner thr a b = .ok v ∧ 0 ≤ v ∧
      ((∀ x : List X, x.length = a.dim → On F 0 x → value e a.cores x = value e b.cores x) → v = 0) := by
  have hz : (∀ x : List X, x.length = a.dim → On F 0 x → value e a.cores x = value e b.cores x) →
      iint I 0 a.dim (fun x => (value e a.cores x - value e b.cores x) ^ 2) = 0 := by
    intro hv
    have := (iint_congr (D := F.D) h.int (k := 0) (n := a.dim) (g := fun _ => 0)
      (h := fun x => (value e a.cores x - value e b.cores x) ^ 2) (fun xs hl hD => by
        rw [hv xs hl hD, sub_self]; norm_num) (iint_zero h.int).1).2
    rw [← this, (iint_zero h.int).2]
  by_cases hthr : thr < |iint I 0 a.dim (fun x => value e b.cores x ^ 2)|
  · refine ⟨_, relnorm2diff_value_partial h.int h.lin h.mem h.inner thr ha hb hab h2 hthr, by positivity, fun hv => ?_⟩
    rw [hz hv]; simp
  · refine ⟨_, relnorm2diff_small_partial h.int h.lin h.mem h.inner thr ha hb hab h2 (not_lt.1 hthr), by positivity, fun hv => ?_⟩
    rw [hz hv]; simp

/-- State between two passes: `Ss` are the right index sets. -/
structure Start (e : Ev ℝ U X) (F : Fam U X) (f : List X → ℝ) (d : Nat) (rk : Nat → Nat) (Ss : Nat → List (List X)) (s : Xs U X) :
    Prop extends St f d s where
  left : s.left[0]? = some none
  right : ∀ j < d, RightAt F d rk s.right j (Ss j)

/-- What a pass returns. -/
structure Pass (e : Ev ℝ U X) (F : Fam U X) (f : List X → ℝ) (d : Nat) (rk : Nat → Nat) (ranks : List Nat)
    (Ss' : Nat → List (List X)) (b : FT ℝ U) (s : Xs U X) : Prop extends Start e F f d rk Ss' s where
  clean : s.fw.fiberApprox = false
  ok : b.Ok F
  dim : b.dim = d
  ranks : b.ranks = ranks
  node : ∀ x, F.D 0 x → ∀ z < (Ss' 0).length, value e b.cores (x :: (Ss' 0).getD z []) = f (x :: (Ss' 0).getD z [])

/-- A train equals the function on the whole domain. -/
def Exact (e : Ev ℝ U X) (F : Fam U X) (f : List X → ℝ) (d : Nat) (b : FT ℝ U) : Prop :=
  ∀ x : List X, x.length = d → On F 0 x → value e b.cores x = f x

/-- All right index sets span. -/
def Spans (F : Fam U X) (f : List X → ℝ) (d : Nat) (Ss : Nat → List (List X)) : Prop :=
  ∀ j < d, RSpan F f d (j + 1) (Ss j)

theorem RightAt.end' {d : Nat} (hd : 0 < d) {rk : Nat → Nat} {right : List (Option (CIndex X))} {S : List (List X)}
    (h : RightAt F d rk right (d - 1) S) : S = [[]] := by
  obtain ⟨r, -, h2, -⟩ := h
  rcases h2.ptr with h | h
  · exact h.2.2
  · exact absurd h.1 (by omega)

theorem pass_ok {o : XOps U X} (h : XLaws e F I o) {d : Nat} (hd : 0 < d) {f : List X → ℝ} (hf : Fib e F d f) {ranks : List Nat}
    {rk : Nat → Nat} (hrk : RkOk d ranks rk) {Ss : Nat → List (List X)} {s : Xs U X} (hs : Start e F f d rk Ss s) :
    ∃ (s1 : Xs U X) (a : FT ℝ U) (s2 : Xs U X) (b : FT ℝ U) (Ss' : Nat → List (List X)), lrSweep e o d ranks s = .ok s1 ∧ ftDone d ranks s1.cores = .ok a ∧ a.Ok F ∧ a.dim = d ∧
      rlSweep e o d ranks s1 = .ok s2 ∧ ftDone d ranks s2.cores = .ok b ∧ Pass e F f d rk ranks Ss' b s2 ∧
      (Spans F f d Ss → Spans F f d Ss' ∧ Exact e F f d b) := by
  have hI0 : LrInv e F f d rk Ss 0 (fun _ => [[]]) (fun _ => ⟨0, 0, []⟩) s :=
    ⟨hs.toSt, fun j hj => by
      obtain rfl : j = 0 := by omega
      exact ⟨none, hs.left, Ix.empty, by rw [hrk.first]; rfl⟩, hs.right, fun j hj => absurd hj (by omega)⟩
  obtain ⟨s1, Ls, Qs, e1, i1, l1, c1, fib1⟩ := lrSweep_ok h hd hf hrk hI0
  have lenL : ∀ j < d, (Ls j).length = rk j := fun j hj => (i1.left j (by omega)).choose_spec.2.2
  have lenS : ∀ j < d, (Ss j).length = rk (j + 1) := fun j hj => (hs.right j hj).choose_spec.2.2
  obtain ⟨a, a1, a2, a3, -, -⟩ := ftDone_ok (F := F) hd hrk i1.cl (Qs := Qs) (fun j hj => by
      by_cases hj' : j < d - 1
      · exact (i1.cores j hj').1
      · obtain rfl : j = d - 1 := by omega
        exact c1) (fun j hj => by
      by_cases hj' : j < d - 1
      · have := (i1.cores j hj').2
        exact ⟨this.ok, by rw [this.nrows, lenL j hj], by rw [this.ncols, lenL _ (by omega)]⟩
      · obtain rfl : j = d - 1 := by omega
        exact ⟨⟨fib1.wf, fib1.mem⟩, by rw [fib1.nrows, lenL _ hj], by rw [fib1.ncols, lenS _ hj]⟩)
  have hR0 : RlInv e F f d rk Ls d Ss Qs s1 :=
    ⟨i1.toSt, fun j hj => i1.left j (by omega), fun j hj _ => i1.right j hj, fun j hj hj' => absurd hj (by omega)⟩
  obtain ⟨s2, Ss', Qs', e2, cl, i2, -, c2, fib2⟩ := rlSweep_ok h hd hf hrk hR0
  have lenS' : ∀ j < d, (Ss' j).length = rk (j + 1) := fun j hj => (i2.right j hj (by omega)).choose_spec.2.2
  obtain ⟨b, b1, b2, b3, b4, b5⟩ := ftDone_ok (F := F) hd hrk i2.cl (Qs := Qs') (fun j hj => by
      by_cases hj' : 1 ≤ j
      · exact (i2.cores j hj hj').1
      · obtain rfl : j = 0 := by omega
        exact c2) (fun j hj => by
      by_cases hj' : 1 ≤ j
      · have := (i2.cores j hj hj').2
        exact ⟨this.ok, by rw [this.nrows, lenS' _ (by omega), show j - 1 + 1 = j by omega], by rw [this.ncols, lenS' j hj]⟩
      · obtain rfl : j = 0 := by omega
        exact ⟨⟨fib2.wf, fib2.mem⟩, by rw [fib2.nrows, lenL _ hj], by rw [fib2.ncols, lenS' _ hj]⟩)
  have hend : Ss' (d - 1) = [[]] := (i2.right (d - 1) (by omega) (by omega)).end' hd
  refine ⟨s1, a, s2, b, Ss', e1, a1, a2, a3, e2, b1, ⟨⟨i2.toSt, ?_, fun j hj => i2.right j hj (by omega)⟩, cl, b2, b3, b4, ?_⟩, ?_⟩
  · obtain ⟨l, x1, x2, -⟩ := i2.left 0 hd
    rcases x2.ptr with h | h
    · rw [x1, h.2.1]
    · exact absurd h.1 (by omega)
  · intro x hx z hz
    rw [b5]
    exact value_node hd i2 hend l1 fib2 hx hz
  · intro hspan
    have hLsp := lspan_all i1 l1 hspan
    refine ⟨rspan_all i2 hend hLsp, fun x hx hxo => ?_⟩
    rw [b5]
    exact value_exact hd i2 hend l1 fib2 hLsp hx hxo

/-- One pass of the loop, up to the decision. -/
theorem xLoop_step {o : XOps U X} (h : XLaws e F I o) {d : Nat} (hd : 2 ≤ d) {f : List X → ℝ} (hf : Fib e F d f) {ranks : List Nat}
    {rk : Nat → Nat} (hrk : RkOk d ranks rk) {Ss : Nat → List (List X)} {s : Xs U X} (hs : Start e F f d rk Ss s) {eps : ℝ}
    (maxiter fuel iter : Nat) {fti : FT ℝ U} (h1 : fti.Ok F) (h1d : fti.dim = d) {fti2 : Option (FT ℝ U)}
    (h2 : ∀ g ∈ fti2, g.Ok F ∧ g.dim = d) :
    ∃ s2 b Ss' v v2, 0 ≤ v ∧ Pass e F f d rk ranks Ss' b s2 ∧ (Spans F f d Ss → Spans F f d Ss' ∧ Exact e F f d b) ∧
      (Exact e F f d b → Exact e F f d fti → v = 0) ∧
      (Exact e F f d b → Exact e F f d fti → (∀ g ∈ fti2, Exact e F f d g) → v2 = 0) ∧
      xLoop e o d ranks eps maxiter (fuel + 1) iter s fti fti2 =
        if v2 < eps ∧ v < eps then .ok (b, s2) else
          if iter + 1 = maxiter then .ok (b, s2)
          else xLoop e o d ranks eps maxiter fuel (iter + 1) s2 { b with sp1 := none, sp2 := none, sp3 := none }
            (some { fti with sp1 := none, sp2 := none, sp3 := none }) := by
  obtain ⟨s1, a, s2, b, Ss', q1, q2, q3, q4, q5, q6, q7, q8⟩ := pass_ok h (by omega) hf hrk hs
  obtain ⟨v, hv, hvn, hv0⟩ := relnorm_ok h.rd o.thr q7.ok h1 (by rw [q7.dim, h1d]) (by rw [q7.dim]; exact hd)
  have hz : Exact e F f d b → Exact e F f d fti → v = 0 := fun x y => hv0 fun p hp hpo => by
    rw [x p (by rw [hp, q7.dim]) hpo, y p (by rw [hp, q7.dim]) hpo]
  obtain ⟨v2, hv2, hv20⟩ : ∃ v2, oldDiff o b fti2 v = .ok v2 ∧
      (Exact e F f d b → Exact e F f d fti → (∀ g ∈ fti2, Exact e F f d g) → v2 = 0) := by
    cases fti2 with
    | none => exact ⟨v, rfl, fun x y _ => hz x y⟩
    | some g =>
      obtain ⟨g1, g2⟩ := h2 g rfl
      obtain ⟨v2, w1, -, w2⟩ := relnorm_ok h.rd o.thr q7.ok g1 (by rw [q7.dim, g2]) (by rw [q7.dim]; exact hd)
      exact ⟨v2, w1, fun x _ y => w2 fun p hp hpo => by
        rw [x p (by rw [hp, q7.dim]) hpo, y g rfl p (by rw [hp, q7.dim]) hpo]⟩
  refine ⟨s2, b, Ss', v, v2, hvn, q7, q8, hz, hv20, ?_⟩
  rw [xLoop, q1, bind_ok, q2, bind_ok,
    norm2diff_value_partial h.rd.int h.rd.lin h.rd.mem h.rd.inner q3 h1 (by rw [q4, h1d]) (by rw [q4]; exact hd), bind_ok,
    norm2_value h.rd.int h.rd.lin h.rd.mem h.rd.inner q3, bind_ok, q5, bind_ok, q6, bind_ok, hv, bind_ok, hv2, bind_ok]
  congr 1
  rw [copy_ok h1.wf, bind_ok, copy_ok q7.ok.wf, bind_ok]
  rfl

/-- The loop either runs for ever or returns the result of a pass; it cannot run longer than `maxiter` passes. -/
theorem xLoop_total {o : XOps U X} (h : XLaws e F I o) {d : Nat} (hd : 2 ≤ d) {f : List X → ℝ} (hf : Fib e F d f) {ranks : List Nat}
    {rk : Nat → Nat} (hrk : RkOk d ranks rk) {eps : ℝ} (maxiter : Nat) : ∀ (fuel iter : Nat) {Ss : Nat → List (List X)} {s : Xs U X},
    Start e F f d rk Ss s → ∀ {fti : FT ℝ U}, fti.Ok F → fti.dim = d → ∀ {fti2 : Option (FT ℝ U)}, (∀ g ∈ fti2, g.Ok F ∧ g.dim = d) →
    (∃ b s' Ss', xLoop e o d ranks eps maxiter fuel iter s fti fti2 = .ok (b, s') ∧ Pass e F f d rk ranks Ss' b s' ∧
      (Spans F f d Ss → Spans F f d Ss' ∧ Exact e F f d b)) ∨
    (xLoop e o d ranks eps maxiter fuel iter s fti fti2 = .error .diverge ∧ ¬ (iter < maxiter ∧ maxiter ≤ iter + fuel)) := by
  intro fuel
  induction fuel with
  | zero => intro iter Ss s hs fti h1 h1d fti2 h2; exact Or.inr ⟨by rw [xLoop], by omega⟩
  | succ fuel ih =>
    intro iter Ss s hs fti h1 h1d fti2 h2
    obtain ⟨s2, b, Ss', v, v2, -, p1, p2, -, -, p5⟩ := xLoop_step h hd hf hrk hs (eps := eps) maxiter fuel iter h1 h1d h2
    rw [p5]
    by_cases hc : v2 < eps ∧ v < eps
    · rw [if_pos hc]; exact Or.inl ⟨b, s2, Ss', rfl, p1, p2⟩
    · rw [if_neg hc]
      by_cases hm : iter + 1 = maxiter
      · rw [if_pos hm]; exact Or.inl ⟨b, s2, Ss', rfl, p1, p2⟩
      · rw [if_neg hm]
        rcases ih (iter + 1) p1.toStart (fti := { b with sp1 := none, sp2 := none, sp3 := none })
          ⟨⟨p1.ok.wf.dim, p1.ok.wf.pos, p1.ok.wf.ranks, p1.ok.wf.fits⟩, p1.ok.pos, p1.ok.mem⟩ p1.dim
          (fti2 := some { fti with sp1 := none, sp2 := none, sp3 := none })
          (fun g hg => by
            cases hg
            exact ⟨⟨⟨h1.wf.dim, h1.wf.pos, h1.wf.ranks, h1.wf.fits⟩, h1.pos, h1.mem⟩, h1d⟩) with
          ⟨b', s', Ss'', r1, r2, r3⟩ | ⟨r1, r2⟩
        · exact Or.inl ⟨b', s', Ss'', r1, r2, fun x => r3 (p2 x).1⟩
        · exact Or.inr ⟨r1, by omega⟩

/-- With spanning right index sets three passes are enough. -/
theorem xLoop_three {o : XOps U X} (h : XLaws e F I o) {d : Nat} (hd : 2 ≤ d) {f : List X → ℝ} (hf : Fib e F d f) {ranks : List Nat}
    {rk : Nat → Nat} (hrk : RkOk d ranks rk) {eps : ℝ} (he : 0 < eps) (maxiter n fuel iter : Nat) :
    ∀ {Ss : Nat → List (List X)} {s : Xs U X},
    Start e F f d rk Ss s → Spans F f d Ss → ∀ {fti : FT ℝ U}, fti.Ok F → fti.dim = d → ∀ {fti2 : Option (FT ℝ U)},
    (∀ g ∈ fti2, g.Ok F ∧ g.dim = d) → (n ≤ 1 → Exact e F f d fti) → (n = 0 → ∀ g ∈ fti2, Exact e F f d g) →
    ∃ r, xLoop e o d ranks eps maxiter (fuel + n + 1) iter s fti fti2 = .ok r := by
  induction n generalizing iter with
  | zero =>
    intro Ss s hs hsp fti h1 h1d fti2 h2 x1 x2
    obtain ⟨s2, b, Ss', v, v2, -, p1, p2, p3, p4, p5⟩ := xLoop_step h hd hf hrk hs (eps := eps) maxiter fuel iter h1 h1d h2
    have hb := (p2 hsp).2
    refine ⟨(b, s2), ?_⟩
    rw [Nat.add_zero, p5, if_pos ⟨by rw [p4 hb (x1 (by omega)) (x2 rfl)]; exact he, by rw [p3 hb (x1 (by omega))]; exact he⟩]
  | succ n ih =>
    intro Ss s hs hsp fti h1 h1d fti2 h2 x1 x2
    obtain ⟨s2, b, Ss', v, v2, -, p1, p2, p3, p4, p5⟩ := xLoop_step h hd hf hrk hs (eps := eps) maxiter (fuel + n + 1) iter h1 h1d h2
    have hb := p2 hsp
    rw [show fuel + (n + 1) + 1 = fuel + n + 1 + 1 by omega, p5]
    by_cases hc : v2 < eps ∧ v < eps
    · rw [if_pos hc]; exact ⟨_, rfl⟩
    · rw [if_neg hc]
      by_cases hm : iter + 1 = maxiter
      · rw [if_pos hm]; exact ⟨_, rfl⟩
      · rw [if_neg hm]
        refine ih (iter + 1) p1.toStart hb.1
          ⟨⟨p1.ok.wf.dim, p1.ok.wf.pos, p1.ok.wf.ranks, p1.ok.wf.fits⟩, p1.ok.pos, p1.ok.mem⟩ p1.dim ?_ (fun _ => hb.2) ?_
        · intro g hg
          cases hg
          exact ⟨⟨⟨h1.wf.dim, h1.wf.pos, h1.wf.ranks, h1.wf.fits⟩, h1.pos, h1.mem⟩, h1d⟩
        · intro hn g hg
          cases hg
          exact x1 (by omega)

/-- Without a limit on the number of passes and without a positive tolerance the loop never ends. -/
theorem xLoop_never {o : XOps U X} (h : XLaws e F I o) {d : Nat} (hd : 2 ≤ d) {f : List X → ℝ} (hf : Fib e F d f) {ranks : List Nat}
    {rk : Nat → Nat} (hrk : RkOk d ranks rk) {eps : ℝ} (he : eps ≤ 0) : ∀ (fuel iter : Nat) {Ss : Nat → List (List X)} {s : Xs U X},
    Start e F f d rk Ss s → ∀ {fti : FT ℝ U}, fti.Ok F → fti.dim = d → ∀ {fti2 : Option (FT ℝ U)}, (∀ g ∈ fti2, g.Ok F ∧ g.dim = d) →
    xLoop e o d ranks eps 0 fuel iter s fti fti2 = .error .diverge := by
  intro fuel
  induction fuel with
  | zero => intro iter Ss s hs fti h1 h1d fti2 h2; rw [xLoop]
  | succ fuel ih =>
    intro iter Ss s hs fti h1 h1d fti2 h2
    obtain ⟨s2, b, Ss', v, v2, hv, p1, -, -, -, p5⟩ := xLoop_step h hd hf hrk hs (eps := eps) 0 fuel iter h1 h1d h2
    rw [p5, if_neg (fun hc => absurd (lt_of_lt_of_le hc.2 he) (not_lt.2 hv)), if_neg (Nat.succ_ne_zero _)]
    exact ih (iter + 1) p1.toStart (fti := { b with sp1 := none, sp2 := none, sp3 := none }) ⟨⟨p1.ok.wf.dim, p1.ok.wf.pos, p1.ok.wf.ranks, p1.ok.wf.fits⟩, p1.ok.pos, p1.ok.mem⟩ p1.dim
      (fti2 := some { fti with sp1 := none, sp2 := none, sp3 := none }) (fun g hg => by
        cases hg
        exact ⟨⟨⟨h1.wf.dim, h1.wf.pos, h1.wf.ranks, h1.wf.fits⟩, h1.pos, h1.mem⟩, h1d⟩)

end C3.Xa
