/-
C107: cross approximation of a function of `d` variables.
-/
import Verif.Xapp.Loop
import Verif.Mv.Inst

set_option linter.unusedSectionVars false

namespace C3.Xa
open Finset C3.Ft C3.Round C3.Mv C3.Fw C3.Ind
variable {U X : Type} [Zero X] {e : Ev ℝ U X} {F : Fam U X} {I : Integ ℝ X}

/-- What the caller hands to `ftapprox_cross`: the wrapped function `f`, whose one-dimensional fibers all belong to the
families of functions used; the ranks, positive and 1 at both ends; the right index sets, in position `j` as many points
of the last `d-1-j` coordinates as rank `j+1` says (no set in the last position); no left index set in the first position
(the other left index sets are never read before they are written); a reference train. -/
structure Input (e : Ev ℝ U X) (F : Fam U X) (f : List X → ℝ) (d : Nat) (ranks : List Nat) (fw : Fwrap X ℝ)
    (left right : List (Option (CIndex X))) (Ss : Nat → List (List X)) (ref : FT ℝ U) : Prop where
  two : 2 ≤ d
  fib : Fib e F d f
  rlen : ranks.length = d + 1
  rfirst : ranks[0]? = some 1
  rlast : ranks[d]? = some 1
  rpos : ∀ r ∈ ranks, 0 < r
  fw : FwOk f d fw
  llen : left.length = d
  lfirst : left[0]? = some none
  slen : right.length = d
  slast : right[d - 1]? = some none
  sets : ∀ j < d - 1, right[j]? = some (some (Ind.mk (d - 1 - j) (Ss j))) ∧ ranks[j + 1]? = some (Ss j).length
  setsEnd : Ss (d - 1) = [[]]
  pts : ∀ j < d - 1, ∀ r ∈ Ss j, r.length = d - 1 - j ∧ On F (j + 1) r
  rdim : ref.dim = d
  ref : ref.Ok F

theorem Input.rk {f : List X → ℝ} {d : Nat} {ranks : List Nat} {fw : Fwrap X ℝ} {left right : List (Option (CIndex X))}
    {Ss : Nat → List (List X)} {ref : FT ℝ U} (h : Input e F f d ranks fw left right Ss ref) :
    RkOk d ranks (fun k => ranks.getD k 0) := by
  refine ⟨?_, ?_, ?_, ?_⟩
  · refine List.ext_getElem? fun k => ?_
    by_cases hk : k < d + 1
    · rw [List.getElem?_map, List.getElem?_range hk, Option.map_some, List.getD_eq_getElem?_getD,
        List.getElem?_eq_getElem (by rw [h.rlen]; exact hk), Option.getD_some]
    · rw [List.getElem?_eq_none (by rw [h.rlen]; omega), List.getElem?_eq_none (by simp; omega)]
  · simp only [List.getD_eq_getElem?_getD, h.rfirst]; rfl
  · simp only [List.getD_eq_getElem?_getD, h.rlast]; rfl
  · intro k hk
    exact h.rpos _ (getD_mem' (by rw [h.rlen]; omega))
where
  getD_mem' {l : List Nat} {k : Nat} (hk : k < l.length) : l.getD k 0 ∈ l := by
    rw [List.getD_eq_getElem?_getD, List.getElem?_eq_getElem hk]; exact List.getElem_mem hk

theorem Input.start {f : List X → ℝ} {d : Nat} {ranks : List Nat} {fw : Fwrap X ℝ} {left right : List (Option (CIndex X))}
    {Ss : Nat → List (List X)} {ref : FT ℝ U} (h : Input e F f d ranks fw left right Ss ref) :
    Start e F f d (fun k => ranks.getD k 0) Ss ⟨fw, left, right, List.replicate d none⟩ := by
  have h2 := h.two
  refine ⟨⟨h.fw, h.llen, h.slen, List.length_replicate⟩, h.lfirst, fun j hj => ?_⟩
  by_cases hj' : j < d - 1
  · refine ⟨_, (h.sets j hj').1, ⟨fun r hr => (h.pts j hj' r hr).1, fun r hr => (h.pts j hj' r hr).2, Or.inr ⟨by omega, rfl⟩⟩, ?_⟩
    simp only [List.getD_eq_getElem?_getD, (h.sets j hj').2]; rfl
  · obtain rfl : j = d - 1 := by omega
    refine ⟨none, h.slast, ?_, ?_⟩
    · rw [h.setsEnd, show d - 1 - (d - 1) = 0 by omega]; exact Ix.empty
    · rw [h.setsEnd, show d - 1 + 1 = d by omega]
      simp only [List.getD_eq_getElem?_getD, h.rlast]; rfl

theorem cross_eq {o : XOps U X} {f : List X → ℝ} {d : Nat} {ranks : List Nat} {fw : Fwrap X ℝ} {left right : List (Option (CIndex X))}
    {Ss : Nat → List (List X)} {ref : FT ℝ U} (h : Input e F f d ranks fw left right Ss ref) (eps : ℝ) (maxiter fuel : Nat) :
    cross e o d ranks eps maxiter fuel fw left right ref =
      xLoop e o d ranks eps maxiter fuel 0 ⟨fw, left, right, List.replicate d none⟩
        { ref with sp1 := none, sp2 := none, sp3 := none } none := by
  rw [cross, copy_ok h.ref.wf, bind_ok]

theorem copy_Ok {a : FT ℝ U} (h : a.Ok F) : ({ a with sp1 := none, sp2 := none, sp3 := none } : FT ℝ U).Ok F :=
  ⟨⟨h.wf.dim, h.wf.pos, h.wf.ranks, h.wf.fits⟩, h.pos, h.mem⟩

/-- C107: with a limit on the number of passes cross approximation ends; the train it returns is well formed, has exactly
the ranks asked for, and agrees with `f` on all lines in the first coordinate through the nodes of the final right index
set, of which there are as many as the first rank says. The wrapper is no longer in fiber mode. -/
theorem cross_interpolates_partial {o : XOps U X} (h : XLaws e F I o) {f : List X → ℝ} {d : Nat} {ranks : List Nat} {fw : Fwrap X ℝ}
    {left right : List (Option (CIndex X))} {Ss : Nat → List (List X)} {ref : FT ℝ U} (hi : Input e F f d ranks fw left right Ss ref)
    (eps : ℝ) {maxiter fuel : Nat} (hm : 0 < maxiter) (hfu : maxiter ≤ fuel) :
    ∃ b s rows, cross e o d ranks eps maxiter fuel fw left right ref = .ok (b, s) ∧ b.Ok F ∧ b.dim = d ∧ b.ranks = ranks ∧
      s.fw.fiberApprox = false ∧ s.right[0]? = some (some (Ind.mk (d - 1) rows)) ∧ ranks[1]? = some rows.length ∧
      (∀ r ∈ rows, r.length = d - 1) ∧
      ∀ x, F.D 0 x → ∀ r ∈ rows, value e b.cores (x :: r) = f (x :: r) := by
  have h2 := hi.two
  rw [cross_eq hi]
  rcases xLoop_total h hi.two hi.fib hi.rk (eps := eps) maxiter fuel 0 hi.start
    (fti := { ref with sp1 := none, sp2 := none, sp3 := none }) (copy_Ok hi.ref) hi.rdim (fti2 := none) (by simp) with
    ⟨b, s, Ss', r1, r2, -⟩ | ⟨-, r2⟩
  · obtain ⟨r, q1, q2, q3⟩ := r2.right 0 (by omega)
    refine ⟨b, s, Ss' 0, r1, r2.ok, r2.dim, r2.ranks, r2.clean, ?_, ?_, fun r hr => q2.len r hr, fun x hx r hr => ?_⟩
    · rw [q1]
      rcases q2.ptr with q | q
      · exact absurd q.1 (by omega)
      · rw [q.2]; rfl
    · rw [hi.rk.get (show 1 ≤ d by omega), q3]
    · obtain ⟨z, hz, rfl⟩ := List.getElem_of_mem hr
      have := r2.node x hx z hz
      rwa [List.getD_eq_getElem?_getD, List.getElem?_eq_getElem hz] at this
  · exact absurd ⟨hm, by omega⟩ r2

/-- C107: when each section of `f` is a combination of the sections at the given nodes, three passes are enough for every
positive tolerance, whatever the limit on the number of passes, and the train that is returned equals `f` on the whole
domain. -/
theorem cross_exact_partial {o : XOps U X} (h : XLaws e F I o) {f : List X → ℝ} {d : Nat} {ranks : List Nat} {fw : Fwrap X ℝ}
    {left right : List (Option (CIndex X))} {Ss : Nat → List (List X)} {ref : FT ℝ U} (hi : Input e F f d ranks fw left right Ss ref)
    (hs : ∀ j < d - 1, RSpan F f d (j + 1) (Ss j)) {eps : ℝ} (he : 0 < eps) (maxiter : Nat) {fuel : Nat} (hfu : 3 ≤ fuel) :
    ∃ b s, cross e o d ranks eps maxiter fuel fw left right ref = .ok (b, s) ∧ b.Ok F ∧ b.dim = d ∧ b.ranks = ranks ∧
      ∀ x : List X, x.length = d → On F 0 x → value e b.cores x = f x := by
  have h2 := hi.two
  have hsp : Spans F f d Ss := fun j hj => by
    by_cases hj' : j < d - 1
    · exact hs j hj'
    · obtain rfl : j = d - 1 := by omega
      rw [hi.setsEnd, show d - 1 + 1 = d by omega]
      exact rspan_end
  obtain ⟨r, hr⟩ := xLoop_three h hi.two hi.fib hi.rk he maxiter 2 (fuel - 3) 0 hi.start hsp
    (fti := { ref with sp1 := none, sp2 := none, sp3 := none }) (copy_Ok hi.ref) hi.rdim (fti2 := none) (by simp) (by omega) (by omega)
  rw [show fuel - 3 + 2 + 1 = fuel by omega] at hr
  rcases xLoop_total h hi.two hi.fib hi.rk (eps := eps) maxiter fuel 0 hi.start
    (fti := { ref with sp1 := none, sp2 := none, sp3 := none }) (copy_Ok hi.ref) hi.rdim (fti2 := none) (by simp) with
    ⟨b, s, Ss', r1, r2, r3⟩ | ⟨r1, r2⟩
  · exact ⟨b, s, by rw [cross_eq hi]; exact r1, r2.ok, r2.dim, r2.ranks, (r3 hsp).2⟩
  · rw [r1] at hr; cases hr

/-- C107: and exactness does not depend on the tolerance: whatever is returned is exact. -/
theorem cross_exact_any {o : XOps U X} (h : XLaws e F I o) {f : List X → ℝ} {d : Nat} {ranks : List Nat} {fw : Fwrap X ℝ}
    {left right : List (Option (CIndex X))} {Ss : Nat → List (List X)} {ref : FT ℝ U} (hi : Input e F f d ranks fw left right Ss ref)
    (hs : ∀ j < d - 1, RSpan F f d (j + 1) (Ss j)) {eps : ℝ} {maxiter fuel : Nat} {r : FT ℝ U × Xs U X}
    (hr : cross e o d ranks eps maxiter fuel fw left right ref = .ok r) :
    ∀ x : List X, x.length = d → On F 0 x → value e r.1.cores x = f x := by
  have h2 := hi.two
  have hsp : Spans F f d Ss := fun j hj => by
    by_cases hj' : j < d - 1
    · exact hs j hj'
    · obtain rfl : j = d - 1 := by omega
      rw [hi.setsEnd, show d - 1 + 1 = d by omega]
      exact rspan_end
  rw [cross_eq hi] at hr
  rcases xLoop_total h hi.two hi.fib hi.rk (eps := eps) maxiter fuel 0 hi.start
    (fti := { ref with sp1 := none, sp2 := none, sp3 := none }) (copy_Ok hi.ref) hi.rdim (fti2 := none) (by simp) with
    ⟨b, s, Ss', r1, r2, r3⟩ | ⟨r1, r2⟩
  · rw [r1] at hr
    cases hr
    exact (r3 hsp).2
  · rw [r1] at hr; cases hr

/-- C107, disagreement: `maxiter = 0` is not a limit of zero passes but no limit at all, and then a tolerance that is not
positive makes the loop run for ever. -/
theorem cross_diverges {o : XOps U X} (h : XLaws e F I o) {f : List X → ℝ} {d : Nat} {ranks : List Nat} {fw : Fwrap X ℝ}
    {left right : List (Option (CIndex X))} {Ss : Nat → List (List X)} {ref : FT ℝ U} (hi : Input e F f d ranks fw left right Ss ref)
    {eps : ℝ} (he : eps ≤ 0) (fuel : Nat) : cross e o d ranks eps 0 fuel fw left right ref = .error .diverge := by
  rw [cross_eq hi]
  exact xLoop_never h hi.two hi.fib hi.rk he fuel 0 hi.start (copy_Ok hi.ref) hi.rdim (by simp)

/-- A sum of `r` products of a function of the head and a function of the tail is spanned by every `r` tails at which the
matrix of the tail functions has an inverse. -/
theorem rspan_of_sep {f : List X → ℝ} {d k : Nat} {S : List (List X)} (u v : Nat → List X → ℝ)
    (hf : ∀ y w, y.length = k → On F 0 y → w.length = d - k → On F k w → f (y ++ w) = ∑ i ∈ range S.length, u i y * v i w)
    (hS : ∀ r ∈ S, r.length = d - k ∧ On F k r) (W : Nat → Nat → ℝ)
    (hW : ∀ i < S.length, ∀ j < S.length, ∑ b ∈ range S.length, v i (S.getD b []) * W b j = if i = j then 1 else 0) :
    RSpan F f d k S := by
  intro w hw hwo
  refine ⟨fun b => ∑ j ∈ range S.length, W b j * v j w, fun y hy hyo => ?_⟩
  have key : ∀ b ∈ range S.length, (∑ j ∈ range S.length, W b j * v j w) * f (y ++ S.getD b []) =
      ∑ i ∈ range S.length, ∑ j ∈ range S.length, u i y * v j w * (v i (S.getD b []) * W b j) := by
    intro b hb
    rw [hf y _ hy hyo (hS _ (getD_mem (mem_range.1 hb))).1 (hS _ (getD_mem (mem_range.1 hb))).2, sum_mul_sum, sum_comm]
    exact sum_congr rfl fun i _ => sum_congr rfl fun j _ => by ring
  rw [hf y w hy hyo hw hwo, sum_congr rfl key, sum_comm]
  refine sum_congr rfl fun i hi => ?_
  have key2 : ∀ j ∈ range S.length, ∑ b ∈ range S.length, u i y * v j w * (v i (S.getD b []) * W b j) =
      if i = j then u i y * v j w else 0 := by
    intro j hj
    rw [← mul_sum, hW i (mem_range.1 hi) j (mem_range.1 hj), mul_ite, mul_one, mul_zero]
  rw [sum_comm, sum_congr rfl key2, Finset.sum_ite_eq, if_pos hi]

/-! ### Instance: square-summable sequences -/

open Classical in
/-- Some sequence with the values the wrapper gives, if there is one. -/
noncomputable def sApprox (_ : Nat) (ev : Nat → List ℕ → C (Int × List ℝ)) : C L2 :=
  if h : ∃ u : L2, ∀ x : ℕ, ev 1 [x] = .ok (0, [u x]) then .ok h.choose else .error .exit

theorem s_approx : ApproxLaw sEv sFam sApprox := by
  intro k ev g u hev _ hu
  have hg : ∀ x : ℕ, ev 1 [x] = .ok (0, [g x]) := fun x => hev [x] (fun _ _ => trivial)
  have hex : ∃ u : L2, ∀ x : ℕ, ev 1 [x] = .ok (0, [u x]) := ⟨u, fun x => by rw [hg x, ← hu x trivial]; rfl⟩
  refine ⟨hex.choose, by rw [sApprox, dif_pos hex], trivial, fun x _ => ?_⟩
  have h1 := hex.choose_spec x
  rw [hg x] at h1
  injection h1 with h1
  injection h1 with _ h1
  injection h1 with h1
  exact h1.symm

noncomputable def sXa : XOps L2 ℕ := ⟨sRd, sMv, sApprox, 0⟩

theorem s_xLaws : XLaws sEv sFam sInteg sXa := ⟨s_laws, s_mvLaws, s_approx⟩

/-- `e₀ ⊗ e₀ + e₁ ⊗ e₁` as a function. -/
def diag2 : List ℕ → ℝ
  | [x, y] => if x = y ∧ x < 2 then 1 else 0
  | _ => 0

def dfw : Fwrap ℕ ℝ := ⟨2, .nd, false, some diag2, none, none, none, 0, false, 0, 0, [], 0⟩

/-- Nodes for the second coordinate. -/
def dNodes (l : List (List ℕ)) : Nat → List (List ℕ) := fun j => if j = 0 then l else [[]]

theorem diag2_fib : Fib sEv sFam 2 diag2 := by
  have key : ∀ y x : ℕ, (if y < 2 then unit y else (0 : L2)) x = if x = y ∧ x < 2 then 1 else 0 := by
    intro y x
    by_cases hy : y < 2
    · rw [if_pos hy]
      by_cases hx : x = y
      · subst hx; simp [unit, hy]
      · rw [if_neg (fun h => hx h.1)]; simp [unit, lp.single_apply, Pi.single_apply, hx]
    · rw [if_neg hy, if_neg (by omega)]; rfl
  intro k hk y z hy hz _ _
  obtain rfl | rfl : k = 0 ∨ k = 1 := by omega
  · obtain ⟨c, rfl⟩ := List.length_eq_one_iff.1 hz
    rw [List.length_eq_zero_iff.1 hy]
    exact ⟨if c < 2 then unit c else 0, trivial, fun x _ => key c x⟩
  · obtain ⟨c, rfl⟩ := List.length_eq_one_iff.1 hy
    rw [List.length_eq_zero_iff.1 hz]
    refine ⟨if c < 2 then unit c else 0, trivial, fun x _ => ?_⟩
    show (if c < 2 then unit c else (0 : L2)) x = if c = x ∧ c < 2 then 1 else 0
    rw [key c x]
    congr 1
    simp only [eq_iff_iff]
    omega

theorem diag2_input (l : List (List ℕ)) (hl : ∀ r ∈ l, r.length = 1) (h0 : 0 < l.length) :
    Input sEv sFam diag2 2 [1, l.length, 1] dfw [none, none] [some (Ind.mk 1 l), none] (dNodes l) (sFt 1) where
  two := le_rfl
  fib := diag2_fib
  rlen := rfl
  rfirst := rfl
  rlast := rfl
  rpos := by intro r hr; simp at hr; omega
  fw := ⟨rfl, rfl, rfl⟩
  llen := rfl
  lfirst := rfl
  slen := rfl
  slast := rfl
  sets := by intro j hj; obtain rfl : j = 0 := by omega
             exact ⟨rfl, rfl⟩
  setsEnd := rfl
  pts := by
    intro j hj r hr
    obtain rfl : j = 0 := by omega
    exact ⟨hl r hr, fun _ _ _ => trivial⟩
  ref := sFt_ok 1
  rdim := rfl

/-- The two nodes 0 and 1 are enough for `e₀ ⊗ e₀ + e₁ ⊗ e₁`: it is recovered exactly. -/
example : ∃ b s, cross sEv sXa 2 [1, 2, 1] (1 / 10) 0 3 dfw [none, none] [some (Ind.mk 1 [[0], [1]]), none] (sFt 1) = .ok (b, s) ∧
    b.ranks = [1, 2, 1] ∧ ∀ x : List ℕ, x.length = 2 → value sEv b.cores x = diag2 x := by
  obtain ⟨b, s, h1, -, -, h4, h5⟩ := cross_exact_partial s_xLaws
    (diag2_input [[0], [1]] (by simp) (by simp)) (fun j hj => by
      obtain rfl : j = 0 := by omega
      refine rspan_of_sep (S := [[0], [1]]) (fun i y => if y = [i] then 1 else 0) (fun i w => if w = [i] then 1 else 0) ?_
        (by intro r hr; simp at hr; rcases hr with rfl | rfl <;> exact ⟨rfl, fun _ _ _ => trivial⟩)
        (fun b j => if b = j then 1 else 0) ?_
      · intro y w hy _ hw _
        obtain ⟨a, rfl⟩ := List.length_eq_one_iff.1 hy
        obtain ⟨c, rfl⟩ := List.length_eq_one_iff.1 hw
        show (if a = c ∧ a < 2 then (1 : ℝ) else 0) = _
        rw [show [[0], [1]].length = 2 from rfl, sum_range_succ, sum_range_one]
        simp only [List.cons.injEq, and_true]
        by_cases hac : a = c
        · subst hac
          rcases a with _ | _ | a
          · simp
          · simp
          · simp
        · rw [if_neg (fun h => hac h.1)]
          rcases a with _ | _ | a <;> rcases c with _ | _ | c <;> simp at hac ⊢
      · intro i hi j hj
        have hi' : i < 2 := hi
        have hj' : j < 2 := hj
        rw [show [[0], [1]].length = 2 from rfl, sum_range_succ, sum_range_one]
        obtain rfl | rfl : i = 0 ∨ i = 1 := by omega
        · obtain rfl | rfl : j = 0 ∨ j = 1 := by omega
          · simp
          · simp
        · obtain rfl | rfl : j = 0 ∨ j = 1 := by omega
          · simp
          · simp) (eps := 1 / 10) (by norm_num) 0 (fuel := 3) le_rfl
  exact ⟨b, s, h1, h4, fun x hx => h5 x hx fun _ _ _ => trivial⟩

/-- C107, disagreement with what the name of the tolerance suggests: no tolerance makes cross approximation accurate. With
rank 1 the function `e₀ ⊗ e₀ + e₁ ⊗ e₁` is approximated without any complaint, and the result differs from it. -/
theorem cross_tolerance_actual (eps : ℝ) {maxiter : Nat} (hm : 0 < maxiter) :
    ∃ b s, cross sEv sXa 2 [1, 1, 1] eps maxiter maxiter dfw [none, none] [some (Ind.mk 1 [[0]]), none] (sFt 1) = .ok (b, s) ∧
      ¬ ∀ x y : ℕ, value sEv b.cores [x, y] = diag2 [x, y] := by
  obtain ⟨b, s, rows, h1, h2, h3, h4, -⟩ := cross_interpolates_partial s_xLaws
    (diag2_input [[0]] (by simp) (by simp)) eps hm (le_refl maxiter)
  refine ⟨b, s, h1, fun h => ?_⟩
  have hd := h2.wf.dim
  rw [h3] at hd
  obtain ⟨A, B, hAB⟩ := List.length_eq_two.1 hd.symm
  have hr := h2.wf.ranks
  rw [h4, hAB] at hr
  have hA : A.ncols = 1 := by
    injection hr with _ hr
    injection hr with hr _
    exact hr.symm
  have hv : ∀ x y : ℕ, value sEv b.cores [x, y] = A.val sEv x 0 0 * chain (mats sEv [B] [y]) 0 := by
    intro x y
    rw [hAB, value, chain_cons, hA, sum_range_one]
  have e00 := h 0 0
  have e01 := h 0 1
  have e11 := h 1 1
  rw [hv] at e00 e01 e11
  simp only [diag2] at e00 e01 e11
  norm_num at e00 e01 e11
  rcases e01 with q | q
  · rw [q, zero_mul] at e00; exact zero_ne_one e00
  · rw [q, mul_zero] at e11; exact zero_ne_one e11

example : cross sEv sXa 2 [1, 2, 1] 0 0 5 dfw [none, none] [some (Ind.mk 1 [[0], [1]]), none] (sFt 1) = .error .diverge :=
  cross_diverges s_xLaws (diag2_input [[0], [1]] (by simp) (by simp)) le_rfl 5

end C3.Xa
