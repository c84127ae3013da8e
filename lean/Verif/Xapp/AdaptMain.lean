/-
C108: cross approximation with rank adaptation, main statements.
-/
import Verif.Xapp.AdaptProps

set_option linter.unusedSectionVars false

namespace C3.Xa
open Finset C3.Ft C3.Round C3.Mv C3.Fw C3.Ind
variable {U X : Type} [Zero X] {e : Ev ℝ U X} {F : Fam U X} {I : Integ ℝ X}

/-- How many units the ranks can be raised altogether. -/
def room (d : Nat) (ranks maxranks : List Nat) : Nat := ∑ j ∈ range (d - 1), (maxranks.getD j 0 - ranks.getD (j + 1) 0)

/-- Maximum of rank `j`. -/
def mxr (maxranks : List Nat) (j : Nat) : Nat := if j = 0 then 0 else maxranks.getD (j - 1) 0

theorem room_eq {d : Nat} (hd : 1 ≤ d) (ranks maxranks : List Nat) :
    ∑ j ∈ range d, (mxr maxranks j - ranks.getD j 0) = room d ranks maxranks := by
  obtain ⟨n, rfl⟩ : ∃ n, d = n + 1 := ⟨d - 1, by omega⟩
  rw [sum_range_succ', room, Nat.add_sub_cancel]
  simp [mxr]

theorem adapt_core {o : XOps U X} (h : XLaws e F I o) {f : List X → ℝ} {d : Nat} (hz : ZeroLaw e F d o.rd) {ranks : List Nat}
    {fw : Fwrap X ℝ} {left right : List (Option (CIndex X))} {Ss : Nat → List (List X)} {ref : FT ℝ U}
    (hi : Input e F f d ranks fw left right Ss ref) {a : CArgs} (had : a.dim = d) (hada : a.adapt = true) (hk : 0 < a.kickrank)
    (hm : 0 < a.maxiter) (hfu : a.maxiter ≤ a.fuel) (hml : d - 1 ≤ a.maxranks.length) {n : Nat} (hn : room d ranks a.maxranks ≤ n) :
    ∃ b t rk c s Ss', crossAdapt e o a n ranks fw left right ref = .ok (b, t) ∧
      Adapted e F o f d a (mxr a.maxranks) (fun k => ranks.getD k 0) (Spans F f d Ss) b t rk c s Ss' := by
  have h2 := hi.two
  have hmx : ∀ i, 1 ≤ i → i < d → a.maxranks[i - 1]? = some (mxr a.maxranks i) := by
    intro i h1 h3
    rw [mxr, if_neg (by omega), List.getD_eq_getElem?_getD, List.getElem?_eq_getElem (by omega)]; rfl
  have hst := hi.start
  have hK : KInv F d (fun k => ranks.getD k 0) Ss (⟨ranks, ranks, right, false⟩ : Ra X) := ⟨hi.rk, rfl, hst.rl, hst.right⟩
  obtain ⟨c, s, Ss1, c1, c2, c3⟩ := cross_pass h h2 hi.fib hK hi.fw hi.llen hi.lfirst hi.ref hi.rdim a.epsilon hm hfu
  obtain ⟨b, b1, b2, b3, b4⟩ := round_any h.rd hz c2.ok c2.dim h2 o.thr a.epsround
  have hk1 : KInv F d (fun k => ranks.getD k 0) Ss1 (⟨ranks, ranks.take (d + 1), s.right, false⟩ : Ra X) :=
    ⟨hi.rk, by dsimp only; rw [List.take_of_length_le (by rw [hi.rlen])], c2.rl, c2.right⟩
  obtain ⟨t', rk', Ss', k1, k2⟩ := kickAll_ok had (by omega) hmx (by rw [Ok_ranks_length b2, b3]; omega : d ≤ b.ranks.length) hk1
  obtain ⟨b', t'', rk'', c', s', Ss'', r1, r2, r3⟩ := raLoop_ok h hz h2 hi.fib had hk hm hfu hmx hi.ref hi.rdim
    (P := Spans F f d Ss) n (ftr := b) (t := t') (fw := s.fw) (left := s.left) k2.toKInv (fun p => k2.spans f (c3 p).1) c2.fw c2.ll c2.left
    (fun hta' => by
      obtain ⟨j, j1, j2, j3, j4⟩ := k2.grow hta' hk
      have := measure_lt k2.ge j2 j3 j4
      rw [← room_eq (by omega)] at hn
      omega)
    (fun hta' => by
      obtain ⟨q1, q2⟩ := k2.same hta'
      subst q1
      have heq : t'.ranks = ranks := by rw [k2.rko.eq]; exact hi.rk.eq.symm
      exact ⟨c, s, Ss1, ⟨k2.rko, by rw [heq]; exact c2, b1, fun p => (c3 p).2, fun _ => le_rfl, fun _ => le_max_left _ _, q2⟩⟩)
  refine ⟨b', t'', rk'', c', s', Ss'', ?_, r3.rko, r3.pass, r3.round, r3.exact, fun j => le_trans (k2.ge j) (r3.ge j), fun j => ?_, r3.resolved⟩
  · rw [crossAdapt, had, c1, bind_ok, if_pos hada]
    dsimp only
    rw [b1, bind_ok, k1, bind_ok, r1]
  · have := r3.le j
    have := k2.le j
    omega

/-- C108: with a positive kick and a limit on the passes, rank adaptation ends after at most as many further cross
approximations as the ranks can be raised by one. The train is well formed; no rank is ever lowered or raised above the
larger of its start value and its maximum; and at the end each rank either was found to be larger than needed (rounding made
it smaller) or has reached its maximum. -/
theorem crossAdapt_ranks_partial {o : XOps U X} (h : XLaws e F I o) {f : List X → ℝ} {d : Nat} (hz : ZeroLaw e F d o.rd)
    {ranks : List Nat} {fw : Fwrap X ℝ} {left right : List (Option (CIndex X))} {Ss : Nat → List (List X)} {ref : FT ℝ U}
    (hi : Input e F f d ranks fw left right Ss ref) {a : CArgs} (had : a.dim = d) (hada : a.adapt = true) (hk : 0 < a.kickrank)
    (hm : 0 < a.maxiter) (hfu : a.maxiter ≤ a.fuel) (hml : d - 1 ≤ a.maxranks.length) {n : Nat} (hn : room d ranks a.maxranks ≤ n) :
    ∃ b t, crossAdapt e o a n ranks fw left right ref = .ok (b, t) ∧ b.Ok F ∧ b.dim = d ∧ t.ranks.length = d + 1 ∧
      ∀ j, 1 ≤ j → j < d → b.ranks.getD j 0 ≤ t.ranks.getD j 0 ∧ ranks.getD j 0 ≤ t.ranks.getD j 0 ∧
        t.ranks.getD j 0 ≤ max (ranks.getD j 0) (a.maxranks.getD (j - 1) 0) ∧
        (b.ranks.getD j 0 < t.ranks.getD j 0 ∨ a.maxranks.getD (j - 1) 0 ≤ t.ranks.getD j 0) := by
  obtain ⟨b, t, rk, c, s, Ss', e1, q⟩ := adapt_core h hz hi had hada hk hm hfu hml hn
  obtain ⟨b', b1, b2, b3, b4⟩ := round_any h.rd hz q.pass.ok q.pass.dim hi.two o.thr a.epsround
  rw [q.round] at b1
  obtain rfl : b = b' := Except.ok.inj b1
  refine ⟨b, t, e1, b2, b3, by rw [q.rko.eq]; simp, fun j h1 h2 => ?_⟩
  have hrj : t.ranks.getD j 0 = rk j := by rw [List.getD_eq_getElem?_getD, q.rko.get (by omega)]; rfl
  have hbj := b4 j (by omega)
  rw [q.pass.ranks] at hbj
  refine ⟨hbj, by rw [hrj]; exact q.ge j, by
    have := q.le j
    rw [mxr, if_neg (by omega)] at this
    rw [hrj]; exact this, ?_⟩
  rw [hrj] at hbj ⊢
  rcases q.resolved j h1 h2 with hh | hh
  · left
    refine lt_of_le_of_ne hbj fun heq => hh ?_
    rw [← heq, List.getD_eq_getElem?_getD, List.getElem?_eq_getElem (by rw [Ok_ranks_length b2, b3]; omega)]
    rfl
  · rw [mxr, if_neg (by omega)] at hh
    exact Or.inr hh

theorem iv_diff {o : RdOps U} (h : Laws e F I o) {a b : FT ℝ U} (ha : a.Ok F) (hb : b.Ok F) (hab : a.dim = b.dim) :
    IV F.D I 0 a.dim (fun x => (value e a.cores x - value e b.cores x) ^ 2) := by
  have h1 := pair_iv h.int h.mem ha ha rfl
  have h2 := pair_iv h.int h.mem ha hb hab
  have h3 := pair_iv h.int h.mem hb hb rfl
  rw [← hab] at h3
  have h4 := (iint_add h.int (iint_add h.int h1 (iint_smul h.int (-2) h2).1).1 h3).1
  refine (iint_congr h.int (fun xs _ _ => ?_) h4).1
  ring

/-- C108: when each section of the function is a combination of its sections at the starting nodes, the result is the
function up to rounding: the squared distance is at most `sqrt(d-1)·‖f‖·epsround`. -/
theorem crossAdapt_exact_partial {o : XOps U X} (h : XLaws e F I o) {f : List X → ℝ} {d : Nat} (hz : ZeroLaw e F d o.rd)
    {ranks : List Nat} {fw : Fwrap X ℝ} {left right : List (Option (CIndex X))} {Ss : Nat → List (List X)} {ref : FT ℝ U}
    (hi : Input e F f d ranks fw left right Ss ref) {a : CArgs} (had : a.dim = d) (hada : a.adapt = true) (hk : 0 < a.kickrank)
    (hm : 0 < a.maxiter) (hfu : a.maxiter ≤ a.fuel) (hml : d - 1 ≤ a.maxranks.length) {n : Nat} (hn : room d ranks a.maxranks ≤ n)
    (hs : ∀ j < d - 1, RSpan F f d (j + 1) (Ss j)) (he : 0 ≤ a.epsround)
    (hthr : o.thr ≤ Real.sqrt |iint I 0 d (fun x => f x ^ 2)|) :
    ∃ b t, crossAdapt e o a n ranks fw left right ref = .ok (b, t) ∧
      iint I 0 d (fun x => (f x - value e b.cores x) ^ 2)
        ≤ Real.sqrt (d - 1) * Real.sqrt (iint I 0 d (fun x => f x ^ 2)) * a.epsround := by
  obtain ⟨b, t, rk, c, s, Ss', e1, q⟩ := adapt_core h hz hi had hada hk hm hfu hml hn
  have h2 := hi.two
  have hsp : Spans F f d Ss := fun j hj => by
    by_cases hj' : j < d - 1
    · exact hs j hj'
    · obtain rfl : j = d - 1 := by omega
      rw [hi.setsEnd, show d - 1 + 1 = d by omega]
      exact rspan_end
  have hc := q.exact hsp
  have hcd := q.pass.dim
  have hn2 : iint I 0 d (fun x => value e c.cores x ^ 2) = iint I 0 d (fun x => f x ^ 2) := by
    refine (iint_congr (D := F.D) h.rd.int (fun xs hl hD => by rw [hc xs hl hD]) ?_).2
    have := pair_iv h.rd.int h.rd.mem q.pass.ok q.pass.ok rfl
    rw [hcd] at this
    simpa only [sq] using this
  have hnrm : o.thr ≤ nrm e I c := by rw [nrm, hcd, hn2]; exact hthr
  obtain ⟨b', b1, b2, b3⟩ := round_partial h.rd q.pass.ok (by rw [hcd]; exact h2) hnrm he
  rw [q.round] at b1
  obtain rfl : b = b' := Except.ok.inj b1
  refine ⟨b, t, e1, ?_⟩
  have hdiff : iint I 0 d (fun x => (value e c.cores x - value e b.cores x) ^ 2) = iint I 0 d (fun x => (f x - value e b.cores x) ^ 2) := by
    refine (iint_congr (D := F.D) h.rd.int (fun xs hl hD => by rw [hc xs hl hD]) ?_).2
    have := iv_diff h.rd q.pass.ok b2.ok b2.dim.symm
    rwa [hcd] at this
  rw [hcd, hdiff, hn2] at b3
  exact b3

/-- C108: without adaptation the result is that of cross approximation, not rounded. -/
theorem crossAdapt_off {o : XOps U X} {a : CArgs} (hada : a.adapt = false) (n : Nat) (ranks : List Nat) (fw : Fwrap X ℝ)
    (left right : List (Option (CIndex X))) (ref : FT ℝ U) {c : FT ℝ U × Xs U X}
    (hc : cross e o a.dim ranks a.epsilon a.maxiter a.fuel fw left right ref = .ok c) :
    ∃ t, crossAdapt e o a n ranks fw left right ref = .ok (c.1, t) ∧ t.ranks = ranks ∧ t.right = c.2.right := by
  refine ⟨⟨ranks, ranks, c.2.right, false⟩, ?_, rfl, rfl⟩
  rw [crossAdapt, hc, bind_ok, hada]
  rfl

/-! ### Square-summable sequences -/

theorem s_iint_nonneg : ∀ {n k : Nat} {g : List ℕ → ℝ}, (∀ x, 0 ≤ g x) → 0 ≤ iint sInteg k n g
  | 0, _, _, h => h []
  | n + 1, k, g, h => by
    show 0 ≤ ∑' x, iint sInteg (k + 1) n (fun xs => g (x :: xs))
    exact tsum_nonneg fun x => s_iint_nonneg fun xs => h _

/-- A non-negative function with sum zero is zero. -/
theorem s_iint_zero : ∀ {n k : Nat} {g : List ℕ → ℝ}, (∀ x, 0 ≤ g x) → IV sFam.D sInteg k n g → iint sInteg k n g = 0 →
    ∀ xs : List ℕ, xs.length = n → g xs = 0
  | 0, _, _, _, _, hz, xs, hl => by rw [List.length_eq_zero_iff.1 hl]; exact hz
  | n + 1, k, g, h, hiv, hz, xs, hl => by
    obtain ⟨x, w, rfl⟩ := List.exists_cons_of_length_eq_add_one hl
    have hs : Summable fun x => iint sInteg (k + 1) n (fun xs => g (x :: xs)) := hiv.2
    have hz' : ∑' x, iint sInteg (k + 1) n (fun xs => g (x :: xs)) = 0 := hz
    have hh := hs.hasSum
    rw [hz', hasSum_zero_iff_of_nonneg fun x => s_iint_nonneg fun xs => h _] at hh
    exact s_iint_zero (fun xs => h (x :: xs)) (hiv.1 x trivial) (congrFun hh x) w (by simpa using hl)

/-- A train of rank 1 is not `e₀ ⊗ e₀ + e₁ ⊗ e₁`. -/
theorem diag2_rank {b : FT ℝ L2} (h2 : b.Ok sFam) (h3 : b.dim = 2) (h : ∀ x y : ℕ, value sEv b.cores [x, y] = diag2 [x, y]) :
    b.ranks[1]? ≠ some 1 := by
  intro h4
  have hd := h2.wf.dim
  rw [h3] at hd
  obtain ⟨A, B, hAB⟩ := List.length_eq_two.1 hd.symm
  have hr := h2.wf.ranks
  rw [hAB] at hr
  have hA : A.ncols = 1 := by
    rw [hr] at h4
    exact Option.some.inj h4
  have hv : ∀ x y : ℕ, value sEv b.cores [x, y] = A.val sEv x 0 0 * chain (mats sEv [B] [y]) 0 := by
    intro x y
    rw [hAB, value, chain_cons, hA, sum_range_one]
  have e00 := h 0 0
  have e01 := h 0 1
  have e11 := h 1 1
  rw [hv] at e00 e01 e11
  simp only [diag2] at e00 e01 e11
  norm_num at e00 e01 e11
  rcases e01 with q | q
  · rw [q, zero_mul] at e00; exact zero_ne_one e00
  · rw [q, mul_zero] at e11; exact zero_ne_one e11

theorem diag2_spans : Spans sFam diag2 2 (dNodes [[0], [1]]) := by
  intro j hj
  obtain rfl | rfl : j = 0 ∨ j = 1 := by omega
  · refine rspan_of_sep (S := [[0], [1]]) (fun i y => if y = [i] then 1 else 0) (fun i w => if w = [i] then 1 else 0) ?_
      (by intro r hr; simp at hr; rcases hr with rfl | rfl <;> exact ⟨rfl, fun _ _ _ => trivial⟩)
      (fun b j => if b = j then 1 else 0) ?_
    · intro y w hy _ hw _
      obtain ⟨a, rfl⟩ := List.length_eq_one_iff.1 hy
      obtain ⟨c, rfl⟩ := List.length_eq_one_iff.1 hw
      show (if a = c ∧ a < 2 then (1 : ℝ) else 0) = _
      rw [show [[0], [1]].length = 2 from rfl, sum_range_succ, sum_range_one]
      simp only [List.cons.injEq, and_true]
      by_cases hac : a = c
      · subst hac
        rcases a with _ | _ | a
        · simp
        · simp
        · simp
      · rw [if_neg (fun h => hac h.1)]
        rcases a with _ | _ | a <;> rcases c with _ | _ | c <;> simp at hac ⊢
    · intro i hi j hj
      have hi' : i < 2 := hi
      have hj' : j < 2 := hj
      rw [show [[0], [1]].length = 2 from rfl, sum_range_succ, sum_range_one]
      obtain rfl | rfl : i = 0 ∨ i = 1 := by omega
      · obtain rfl | rfl : j = 0 ∨ j = 1 := by omega
        · simp
        · simp
      · obtain rfl | rfl : j = 0 ∨ j = 1 := by omega
        · simp
        · simp
  · exact rspan_end

/-- The arguments of the witness: `kickrank = 0`, exact rounding, maximal rank 3. -/
noncomputable def args0 : CArgs := ⟨2, 1 / 10, 1, 1, true, 0, 0, [3]⟩

/-- One more cross approximation of `e₀ ⊗ e₀ + e₁ ⊗ e₁` with rank 2: the rank 2 is confirmed, so adaptation goes on. -/
theorem diag2_again {rk : Nat → Nat} (hrk : rk 1 = 2) {Ss : Nat → List (List ℕ)} {t : Ra ℕ} (ht : KInv sFam 2 rk Ss t)
    (hsp : Spans sFam diag2 2 Ss) {fw : Fwrap ℕ ℝ} (hfw : FwOk diag2 2 fw) {left : List (Option (CIndex ℕ))} (hl : left.length = 2)
    (hl0 : left[0]? = some none) (found : List Nat) (hfound : found = t.ranks) :
    ∃ c b t' Ss', cross sEv sXa 2 t.ranks args0.epsilon args0.maxiter args0.fuel fw left t.right (sFt 1) = .ok c ∧
      ftRound sXa.rd none sXa.thr c.1 args0.epsround = .ok b ∧
      (∀ ad, kickAll args0 b.ranks ⟨t.ranks, found, c.2.right, ad⟩ = .ok t') ∧ t'.adapt = true ∧ KInv sFam 2 rk Ss' t' ∧
      Spans sFam diag2 2 Ss' ∧ FwOk diag2 2 c.2.fw ∧ c.2.left.length = 2 ∧ c.2.left[0]? = some none := by
  obtain ⟨c, s, Ss1, c1, c2, c3⟩ := cross_pass s_xLaws le_rfl diag2_fib ht hfw hl hl0 (sFt_ok 1) rfl args0.epsilon
    (maxiter := args0.maxiter) (fuel := args0.fuel) Nat.one_pos le_rfl
  obtain ⟨d1, d2⟩ := c3 hsp
  obtain ⟨b, b1, b2, b3⟩ := round_exact s_laws c2.ok (by rw [c2.dim]) (thr := 0) (Real.sqrt_nonneg _)
  have hiv := iv_diff s_laws c2.ok b2.ok b2.dim.symm
  have hb : ∀ x y : ℕ, value sEv b.cores [x, y] = diag2 [x, y] := by
    intro x y
    have h0 := s_iint_zero (fun _ => sq_nonneg _) hiv b3 [x, y] (by rw [c2.dim]; rfl)
    rw [d2 [x, y] rfl fun _ _ _ => trivial] at h0
    have := pow_eq_zero_iff (two_ne_zero) |>.1 h0
    linarith
  have hbd : b.dim = 2 := by rw [b2.dim, c2.dim]
  have hlen : b.ranks.length = 3 := by rw [Ok_ranks_length b2.ok, hbd]
  have hb1 : b.ranks[1]? = some (rk 1) := by
    have h1 := diag2_rank b2.ok hbd hb
    have h2 := b2.ranks 1
    have hg : b.ranks[1]? = some (b.ranks[1]'(by omega)) := List.getElem?_eq_getElem _
    have h3 := b2.ok.pos 1 _ hg
    rw [c2.ranks, List.getD_eq_getElem?_getD, List.getD_eq_getElem?_getD, hg, ht.rko.get (show 1 ≤ 2 by omega), hrk] at h2
    rw [hg] at h1 ⊢
    have h1' : b.ranks[1]'(by omega) ≠ 1 := fun hh => h1 (by rw [hh])
    have h2' : b.ranks[1]'(by omega) ≤ 2 := h2
    rw [hrk]
    congr 1
    omega
  have hk1 : KInv sFam 2 rk Ss1 (⟨t.ranks, found, s.right, true⟩ : Ra ℕ) := ⟨ht.rko, hfound, c2.rl, c2.right⟩
  obtain ⟨t', rk', Ss', k1, k2⟩ := kickAll_ok (a := args0) (d := 2) (mx := fun _ => 3) rfl (by omega)
    (by intro i h1 h2; obtain rfl : i = 1 := by omega
        rfl) (by omega : 2 ≤ b.ranks.length) hk1
  have hz := k2.zero rfl
  rw [hz] at k2
  exact ⟨(c, s), b, t', Ss', c1, b1, fun ad => k1, k2.raised 1 le_rfl (by omega) hb1 (by show rk 1 < 3; omega), k2.toKInv,
    k2.spans diag2 d1, c2.fw, c2.ll, c2.left⟩

theorem raLoop_diag2 {rk : Nat → Nat} (hrk : rk 1 = 2) : ∀ (n : Nat) {ftr : FT ℝ L2} {Ss : Nat → List (List ℕ)} {t : Ra ℕ},
    KInv sFam 2 rk Ss t → Spans sFam diag2 2 Ss → ∀ {fw : Fwrap ℕ ℝ}, FwOk diag2 2 fw → ∀ {left : List (Option (CIndex ℕ))},
    left.length = 2 → left[0]? = some none → t.adapt = true → raLoop sEv sXa args0 (sFt 1) n ftr t fw left = .error .diverge := by
  intro n
  induction n with
  | zero => intro ftr Ss t _ _ fw _ left _ _ hta; rw [raLoop, if_pos hta]
  | succ n ih =>
    intro ftr Ss t ht hsp fw hfw left hl hl0 hta
    obtain ⟨c, b, t', Ss', q1, q2, q3, q4, q5, q6, q7, q8, q9⟩ := diag2_again hrk ht hsp hfw hl hl0 t.found ht.found
    rw [raLoop, if_pos hta]
    rw [show args0.dim = 2 from rfl, q1, bind_ok, q2, bind_ok, q3, bind_ok]
    exact ih q5 q6 q7 q8 q9 q4

/-- C108, disagreement: with `kickrank = 0` rank adaptation may never end: the rank is confirmed, is below its maximum, is
"raised" by nothing, and the same cross approximation starts again. -/
theorem crossAdapt_diverges (n : Nat) :
    crossAdapt sEv sXa args0 n [1, 2, 1] dfw [none, none] [some (Ind.mk 1 [[0], [1]]), none] (sFt 1) = .error .diverge := by
  have hi := diag2_input [[0], [1]] (by simp) (by simp)
  have hst := hi.start
  have hK : KInv sFam 2 (fun k => [1, 2, 1].getD k 0) (dNodes [[0], [1]])
      (⟨[1, 2, 1], [1, 2, 1], [some (Ind.mk 1 [[0], [1]]), none], false⟩ : Ra ℕ) := ⟨hi.rk, rfl, hst.rl, hst.right⟩
  obtain ⟨c, b, t', Ss', q1, q2, q3, q4, q5, q6, q7, q8, q9⟩ := diag2_again rfl hK diag2_spans hi.fw hi.llen hi.lfirst [1, 2, 1] rfl
  rw [crossAdapt, show args0.dim = 2 from rfl, q1, bind_ok, if_pos (show args0.adapt = true from rfl), q2, bind_ok]
  rw [show List.take (2 + 1) [1, 2, 1] = [1, 2, 1] from rfl, q3, bind_ok]
  exact raLoop_diag2 rfl n q5 q6 q7 q8 q9 q4

/-- The routines with the zero train of dimension 2. -/
noncomputable def sXa2 : XOps L2 ℕ :=
  { sXa with rd := { sRd with zero := .ok ⟨2, [1, 1, 1], [⟨1, 1, [0]⟩, ⟨1, 1, [0]⟩], none, none, none⟩ } }

theorem s_xLaws2 : XLaws sEv sFam sInteg sXa2 :=
  ⟨⟨s_int, s_mem2, s_lin, s_innerLaw, s_qr, s_lq, svdAny_law⟩, s_mvLaws, s_approx⟩

theorem s_zero2 : ZeroLaw sEv sFam 2 sXa2.rd := by
  refine ⟨_, rfl, ⟨⟨rfl, List.cons_ne_nil _ _, rfl, ?_⟩, ?_, fun _ _ _ _ _ => trivial⟩, rfl, rfl, ?_⟩
  · exact Fits.cons ⟨1, 1, [0]⟩ _ rfl (Fits.cons ⟨1, 1, [0]⟩ _ rfl (.nil _))
  · intro k r h
    change [1, 1, 1][k]? = some r at h
    rcases k with _ | _ | _ | k <;> simp at h <;> omega
  · intro x hx _
    obtain ⟨p, q, rfl⟩ := List.length_eq_two.1 hx
    rw [value, chain_cons]
    simp [Qma.val, sEv]

/-- Rank adaptation of `e₀ ⊗ e₀ + e₁ ⊗ e₁` from rank 2 with maximal rank 3. -/
example : ∃ b t, crossAdapt sEv sXa2 ⟨2, 1 / 10, 5, 5, true, 0, 1, [3]⟩ 1 [1, 2, 1] dfw [none, none]
      [some (Ind.mk 1 [[0], [1]]), none] (sFt 1) = .ok (b, t) ∧
    iint sInteg 0 2 (fun x => (diag2 x - value sEv b.cores x) ^ 2) ≤ 0 := by
  obtain ⟨b, t, h1, h2⟩ := crossAdapt_exact_partial s_xLaws2 s_zero2 (diag2_input [[0], [1]] (by simp) (by simp))
    (a := ⟨2, 1 / 10, 5, 5, true, 0, 1, [3]⟩) rfl rfl Nat.one_pos (by norm_num) le_rfl le_rfl (n := 1) (by decide)
    (fun j hj => diag2_spans j (by omega)) le_rfl (Real.sqrt_nonneg _)
  exact ⟨b, t, h1, by simpa using h2⟩

end C3.Xa
