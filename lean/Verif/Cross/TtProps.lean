/- C140: cross approximation of a discrete tensor reproduces the tensor when the index sets it starts from determine it. -/
import Verif.Cross.TtSteps

set_option linter.unusedSectionVars false

namespace C3.Tc
open C3.Cross C3.Sk C3.Arr Finset

section Props
variable {T : List Nat → ℝ} {A : Nat → List Nat → List ℝ} {p : P} {qr : Nat → Nat → List ℝ → List ℝ}
  {mv : List ℝ → Nat → Nat → List Nat → List ℝ → C (Int × List Nat × List ℝ)} {rnd : ℚ → ℚ}

theorem spanL_zero (hL : Law T A p) {L : List (List Nat)} (h : LSet p 0 L) : SpanL T p 0 L := by
  obtain ⟨x, rfl⟩ := List.length_eq_one_iff.1 (h.1.trans hL.r0)
  have hx := List.length_eq_zero_iff.1 ((h.2 x (by simp)).length (Nat.zero_le _))
  intro l hl
  have hl0 := List.length_eq_zero_iff.1 (hl.length (Nat.zero_le _))
  subst hx hl0
  refine ⟨fun _ => 1, fun s _ => ?_⟩
  rw [hL.r0, sum_range_one, mul_one]; rfl

theorem spanR_last (hL : Law T A p) {k : Nat} (hk : k + 1 = p.dim) {L : List (List Nat)} (h : RSet p k L) : SpanRt T p k L := by
  have hR : p.R (k + 1) = 1 := by rw [hk]; exact hL.rlast
  have hn : ∀ s, Suf p (k + 1) s → s = [] := fun s hs => List.length_eq_zero_iff.1 (hs.length.trans (by rw [hL.nv]; omega))
  obtain ⟨x, rfl⟩ := List.length_eq_one_iff.1 (h.1.trans hR)
  have hx := hn x (h.2 x (by simp))
  subst hx
  intro s hs
  rw [hn s hs]
  refine ⟨fun _ => 1, fun l _ => ?_⟩
  rw [hR, sum_range_one, mul_one]; rfl

/-- What a pass leaves: right sets that span, and cores that reproduce the tensor. -/
structure Good (T : List Nat → ℝ) (A : Nat → List Nat → List ℝ) (p : P) (s : S) : Prop where
  ws : WS A p s
  span : ∀ k < p.dim, SpanRt T p k (s.right.getD k [])
  core : ∀ k, k + 1 < p.dim → CoreGood T p (k + 1) (s.right.getD k []) (s.right.getD (k + 1) []) (s.cores.getD (k + 1) [])
  core0 : s.cores.getD 0 [] = cm (p.R 0 * p.N 0) (p.R 1) (fibL T p 0 (s.left.getD 0 []) (s.right.getD 0 []))

theorem pass_ok (hL : Law T A p) (hqr : QrLaw qr) (hmv : MvAll T qr mv p) (hr : RoundNearest rnd) {s : S} (h : WS A p s)
    (hsp : ∀ k < p.dim, SpanRt T p k (s.right.getD k [])) : ∃ s', pass qr mv rnd A p s = .ok s' ∧ Good T A p s' := by
  have hd := hL.d2
  obtain ⟨s1, a1, b1⟩ := firstLr_ok hL hqr hmv h (spanL_zero hL (h.lset 0 (by omega))) (hsp 0 (by omega))
  obtain ⟨s2, a2, w2, r2, l2⟩ := forN_spec (n := p.dim - 1 - 1) (s := s1) (body := fun t => coresLr qr mv rnd A p (t + 1))
    (I := fun t x => WS A p x ∧ x.right = s.right ∧ ∀ j ≤ t + 1, SpanL T p j (x.left.getD j []))
    ⟨b1.ws, b1.right, fun j hj => by
      rcases Nat.lt_or_ge j 1 with h1 | h1
      · have : j = 0 := by omega
        subst this
        exact spanL_zero hL (b1.ws.lset 0 (by omega))
      · have : j = 1 := by omega
        subst this
        exact b1.span⟩
    (by
      rintro t ht x ⟨hx, hxr, hxl⟩
      obtain ⟨x', e1, e2⟩ := coresLr_ok hL hqr hmv hr hx (k := t + 1) (by omega) (hxl _ le_rfl) (by rw [hxr]; exact hsp _ (by omega))
      refine ⟨x', e1, e2.ws, e2.right.trans hxr, fun j hj => ?_⟩
      by_cases e : j = t + 1 + 1
      · subst e; exact e2.span
      · rw [e2.left j e]; exact hxl j (by omega))
  obtain ⟨cs, a3, w3⟩ := rawCore_ok hL w2 (k := p.dim - 1) (by omega)
  set s3 : S := ⟨s2.left, s2.right, cs, s2.cores.set (p.dim - 1)
    (cm (p.R (p.dim - 1) * p.N (p.dim - 1)) (p.R (p.dim - 1 + 1)) (fibL T p (p.dim - 1) (s2.left.getD (p.dim - 1) []) (s2.right.getD (p.dim - 1) [])))⟩ with hs3
  have hl3 : ∀ j < p.dim, SpanL T p j (s3.left.getD j []) := fun j hj => l2 j (by omega)
  obtain ⟨s4, a4, b4⟩ := lastRl_ok hL hqr hmv w3 (k := p.dim - 2) (by omega) (hl3 _ (by omega))
    (spanR_last hL (by omega) (w3.rset _ (by omega)))
  obtain ⟨s5, a5, w5, -, p5, c5⟩ := forN_spec (n := p.dim - 2) (s := s4) (body := fun t => coresRl qr mv rnd A p (p.dim - 2 - t))
    (I := fun t x => WS A p x ∧ x.left = s3.left ∧ (∀ j, p.dim - 2 ≤ j + t → j < p.dim → SpanRt T p j (x.right.getD j [])) ∧
      ∀ j, p.dim - 2 ≤ j + t → j + 1 < p.dim → CoreGood T p (j + 1) (x.right.getD j []) (x.right.getD (j + 1) []) (x.cores.getD (j + 1) []))
    ⟨b4.ws, b4.left, fun j h1 h2 => by
      by_cases e : j = p.dim - 2
      · subst e; exact b4.span
      · exact spanR_last hL (by omega) (b4.ws.rset j h2), fun j h1 h2 => by
      have e : j = p.dim - 2 := by omega
      subst e; exact b4.core⟩
    (by
      rintro t ht x ⟨hx, hxl, hxp, hxc⟩
      have hk : p.dim - 2 - t = (p.dim - 3 - t) + 1 := by omega
      obtain ⟨x', e1, e2⟩ := coresRl_ok hL hqr hmv hr hx (k := p.dim - 3 - t) (by omega) (by rw [hxl]; exact hl3 _ (by omega))
        (hxp _ (by omega) (by omega))
      refine ⟨x', by rw [hk]; exact e1, e2.ws, e2.left.trans hxl, fun j h1 h2 => ?_, fun j h1 h2 => ?_⟩
      · by_cases e : j = p.dim - 3 - t
        · subst e; exact e2.span
        · rw [e2.right j e]; exact hxp j (by omega) h2
      · by_cases e : j = p.dim - 3 - t
        · subst e; exact e2.core
        · rw [e2.right j e, e2.right (j + 1) (by omega), e2.cores (j + 1) (by omega)]
          exact hxc j (by omega) h2)
  obtain ⟨cs6, a6, w6⟩ := rawCore_ok hL w5 (k := 0) (by omega)
  refine ⟨_, ?_, w6, fun k hk => p5 k (by omega) hk, fun k hk => ?_, ?_⟩
  · rw [pass, a1, bind_ok, a2, bind_ok, a3, bind_ok, a4, bind_ok, a5, bind_ok, a6]
  · have := c5 k (by omega) hk
    show CoreGood T p (k + 1) _ _ ((s5.cores.set 0 _).getD (k + 1) [])
    rw [getD_set (by rw [w5.cores]; omega), if_neg (by omega)]
    exact this
  · show (s5.cores.set 0 _).getD 0 [] = _
    rw [getD_set (by rw [w5.cores]; omega), if_pos rfl]

/-! ## The train -/

theorem train_ranks (hL : Law T A p) (s : S) : (train p s).ranks = p.ranks := by
  show 1 :: p.ranks.tail = p.ranks
  have h0 : p.ranks.getD 0 0 = 1 := hL.r0
  cases hr : p.ranks with
  | nil => rw [hr] at h0; simp at h0
  | cons a b => rw [hr] at h0; simp at h0; rw [List.tail_cons, h0]

theorem train_rk (hL : Law T A p) (s : S) (k : Nat) : (train p s).rk k = p.R k := by
  rw [Tt.TT.rk, train_ranks hL]; rfl

theorem train_core (hL : Law T A p) (s : S) {k : Nat} (hk : k < p.dim) :
    (train p s).cores[k]? = some ⟨p.R k, p.N k, p.R (k + 1), s.cores.getD k []⟩ := by
  have h0 := train_rk hL s k
  have h1 := train_rk hL s (k + 1)
  rw [← h0, ← h1]
  show ((List.range p.dim).map _)[k]? = _
  rw [List.getElem?_map, List.getElem?_range hk]; rfl

theorem train_wf (hL : Law T A p) {s : S} (h : WS A p s) : (train p s).WF := by
  refine ⟨show 0 < p.dim by have := hL.d2; omega, show ((List.range p.dim).map _).length = p.dim by simp, by rw [train_ranks hL]; exact hL.rk, hL.nv,
    by rw [train_rk hL]; exact hL.r0, by rw [train_rk hL]; exact hL.rlast, fun k hk => by rw [train_rk hL]; exact hL.rpos k hk, fun k Q hQ => ?_⟩
  have hk : k < p.dim := by
    have := (List.getElem?_eq_some_iff.1 hQ).1
    have h2 : (train p s).cores.length = p.dim := by show ((List.range p.dim).map _).length = p.dim; simp
    omega
  rw [train_core hL s hk] at hQ
  obtain rfl := Option.some.inj hQ
  exact ⟨h.csz k hk, (train_rk hL s k).symm, rfl, (train_rk hL s (k + 1)).symm⟩

theorem train_G (hL : Law T A p) (s : S) {k : Nat} (hk : k < p.dim) (i e j : Nat) :
    (train p s).G k i e j = (s.cores.getD k []).getD (i + e * p.R k + j * p.R k * p.N k) 0 := by
  rw [Tt.TT.G, train_core hL s hk]; rfl

theorem tail_exact (hL : Law T A p) {s : S} (h : Good T A p s) : ∀ (es : List Nat) (k : Nat), k + 1 ≤ p.dim → Suf p (k + 1) es →
    ∀ l, Pre p (k + 1) l → ∑ i ∈ range (p.R (k + 1)), T (l ++ (s.right.getD k []).getD i []) *
      Tt.tail (train p s).rk (train p s).G (k + 1) es i = T (l ++ es)
  | [], k, hk, hs, l, hl => by
    have hkd : k + 1 = p.dim := by
      have := hs.length
      rw [hL.nv, List.length_nil] at this; omega
    have hR : p.R (k + 1) = 1 := by rw [hkd]; exact hL.rlast
    have hx : (s.right.getD k []).getD 0 [] = [] :=
      List.length_eq_zero_iff.1 (((h.ws.rset k (by omega)).get (by omega)).length.trans (by rw [hL.nv]; omega))
    rw [hR, sum_range_one, hx]
    simp [Tt.tail]
  | e :: es, k, hk, hs, l, hl => by
    have hkd : k + 1 < p.dim := by
      have := hs.length
      rw [hL.nv, List.length_cons] at this; omega
    obtain ⟨e', es', h1, h2, h3⟩ := hs.uncons (by rw [hL.nv]; exact hkd)
    obtain ⟨rfl, rfl⟩ := List.cons.inj h1
    have ih := tail_exact hL h es (k + 1) (by omega) h3 (l ++ [e]) (hl.snoc (by rw [hL.nv]; exact hkd) h2)
    simp only [List.append_assoc, List.singleton_append] at ih
    rw [← ih]
    have hc : ∀ c ∈ range (p.R (k + 1 + 1)), T (l ++ e :: (s.right.getD (k + 1) []).getD c []) * Tt.tail (train p s).rk (train p s).G (k + 1 + 1) es c =
        ∑ i ∈ range (p.R (k + 1)), T (l ++ (s.right.getD k []).getD i []) *
          ((train p s).G (k + 1) i e c * Tt.tail (train p s).rk (train p s).G (k + 1 + 1) es c) := fun c hc => by
      rw [h.core k hkd l hl e h2 c (mem_range.1 hc), Finset.sum_mul]
      refine Finset.sum_congr rfl fun i _ => ?_
      rw [train_G hL s hkd]; ring
    rw [Finset.sum_congr rfl hc, Finset.sum_comm]
    refine Finset.sum_congr rfl fun i _ => ?_
    rw [Tt.tail, train_rk hL, Finset.mul_sum]

theorem good_exact (hL : Law T A p) {s : S} (h : Good T A p s) {es : List Nat} (hes : List.Forall₂ (· < ·) es p.nvals) :
    (train p s).elem es = T es := by
  have hd := hL.d2
  have hs : Suf p 0 es := by rw [Suf, List.drop_zero]; exact hes
  obtain ⟨e, s0, rfl, he, hs0⟩ := hs.uncons (by rw [hL.nv]; omega)
  have hpre : Pre p (0 + 1) ([] ++ [e]) := Pre.snoc (by rw [hL.nv]; omega) (by simp [Pre]) he
  have := tail_exact hL h s0 0 (by omega) hs0 _ hpre
  rw [List.nil_append, List.singleton_append] at this
  rw [← this, Tt.TT.elem, Tt.tail, train_rk hL]
  refine Finset.sum_congr rfl fun c hc => ?_
  have hc' := mem_range.1 hc
  congr 1
  rw [train_G hL s (by omega), h.core0]
  have hl0 : (s.left.getD 0 []).getD 0 [] = [] :=
    List.length_eq_zero_iff.1 (((h.ws.lset 0 (by omega)).get (by rw [hL.r0]; omega)).length (Nat.zero_le _))
  rw [hL.r0, show 0 + e * 1 + c * 1 * p.N 0 = c * (1 * p.N 0) + e by ring, getD_cm _ _ (by omega) hc', fibL, hL.r0, Nat.mod_one, Nat.div_one, hl0]
  rfl

theorem loop_ok (hL : Law T A p) (hqr : QrLaw qr) (hmv : MvAll T qr mv p) (hr : RoundNearest rnd) (below : Tt.TT ℝ → Tt.TT ℝ → Bool) (maxiter : Nat) :
    ∀ (fuel iter : Nat) (s : S), maxiter < iter + fuel → 0 < fuel → WS A p s → (∀ k < p.dim, SpanRt T p k (s.right.getD k [])) →
      ∃ s', loop qr mv rnd A p below maxiter fuel iter s = .ok s' ∧ Good T A p s'
  | 0, _, _, _, h, _, _ => absurd h (by omega)
  | fuel + 1, iter, s, hf, _, h, hsp => by
    obtain ⟨s', h1, h2⟩ := pass_ok hL hqr hmv hr h hsp
    rw [loop, h1, bind_ok]
    by_cases hc : below (train p s') (train p s) = true ∨ maxiter < iter + 1
    · rw [if_pos hc]
      exact ⟨s', rfl, h2⟩
    · rw [if_neg hc]
      exact loop_ok hL hqr hmv hr below maxiter fuel (iter + 1) s' (by omega) (by omega) h2.ws h2.span

/-- What the caller provides: index sets in range, right (for instance empty) lists of stored fibers, and right sets through which the slices of the
tensor span all slices. -/
structure Start (T : List Nat → ℝ) (A : Nat → List Nat → List ℝ) (p : P) (left right : List (List (List Nat))) (cache : List (Cache ℝ)) : Prop where
  nleft : left.length = p.dim
  nright : right.length = p.dim
  ncache : cache.length = p.dim
  lset : ∀ k < p.dim, LSet p k (left.getD k [])
  rset : ∀ k < p.dim, RSet p k (right.getD k [])
  inv : ∀ k < p.dim, Cross.Inv (A k) k (p.dim - k - 1) (cache.getD k ⟨[], []⟩)
  span : ∀ k, k + 1 < p.dim → SpanRt T p k (right.getD k [])

theorem setupCore_ok' (hL : Law T A p) {s : S} (hl : s.left.length = p.dim) (hr : s.right.length = p.dim) (hc : s.cache.length = p.dim)
    (h1 : ∀ k < p.dim, LSet p k (s.left.getD k [])) (h2 : ∀ k < p.dim, RSet p k (s.right.getD k []))
    (h3 : ∀ k < p.dim, Cross.Inv (A k) k (p.dim - k - 1) (s.cache.getD k ⟨[], []⟩)) {k : Nat} (hk : k < p.dim) :
    ∃ cs, setupCore A p k true s = .ok (cm (p.R k * p.N k) (p.R (k + 1)) (fibL T p k (s.left.getD k []) (s.right.getD k [])), { s with cache := cs }) ∧
      cs.length = p.dim ∧ ∀ j < p.dim, Cross.Inv (A j) j (p.dim - j - 1) (cs.getD j ⟨[], []⟩) := by
  let x : S := ⟨s.left, s.right, s.cache, (List.range p.dim).map fun k => List.replicate (p.R k * p.N k * p.R (k + 1)) 0⟩
  have hx : WS A p x := ⟨hl, hr, hc, by simp [x], h1, h2, h3, fun k hk => by simp [x, hk]⟩
  obtain ⟨cs, e1, e2⟩ := setupCore_ok hL hx hk true
  rw [if_pos rfl] at e1
  have hl' : k < s.left.length := by omega
  have hr' : k < s.right.length := by omega
  have hc' : k < s.cache.length := by omega
  refine ⟨cs, ?_, e2.cache, e2.inv⟩
  rw [setupCore, rd_R hL (by omega), bind_ok, rd_N hL hk, bind_ok, rd_R hL (by omega), bind_ok] at e1 ⊢
  simp only [x] at e1
  rw [rd_getD [] hl', bind_ok, rd_getD [] hr', bind_ok, rd_getD ⟨[], []⟩ hc', bind_ok] at e1 ⊢
  cases hset : setup (A k) ⟨p.R k, p.N k, p.R (k + 1), k, s.left.getD k [], p.dim - k - 1, s.right.getD k [], true⟩ (s.cache.getD k ⟨[], []⟩) with
  | error e => rw [hset] at e1; cases e1
  | ok t =>
    rw [hset, bind_ok, wr_ok _ hc', bind_ok] at e1
    rw [bind_ok, wr_ok _ hc', bind_ok]
    have e1' := Except.ok.inj e1
    have f1 := congrArg Prod.fst e1'
    have f2 := congrArg (fun q => q.2.cache) e1'
    simp only [] at f1 f2
    rw [f1, f2]

/-- **C140** `tt_cross`: for a tensor whose slices are spanned by those through the starting right index sets, every outcome of the convergence
test and every bound on the number of passes, the call ends after at most `maxiter + 1` passes with a well-formed train of the requested
ranks whose element is the tensor element at every multi-index; no fiber was asked for twice. Partial: exact arithmetic; the inner ranks
are equal (`updateRight_counterexample`), the selection of rows is assumed to work (`Sk.maxvol_good`). -/
theorem ttCross_exact_partial (hL : Law T A p) (hqr : QrLaw qr) (hmv : MvAll T qr mv p) (hr : RoundNearest rnd) (below : Tt.TT ℝ → Tt.TT ℝ → Bool)
    (maxiter : Nat) {left right : List (List (List Nat))} {cache : List (Cache ℝ)} (h : Start T A p left right cache) :
    ∃ t s', ttCross qr mv rnd A p below maxiter left right cache = .ok (t, s') ∧ t.WF ∧ t.nvals = p.nvals ∧ t.ranks = p.ranks ∧
      (∀ es, List.Forall₂ (· < ·) es p.nvals → t.elem es = T es) ∧ ∀ k < p.dim, (s'.cache.getD k ⟨[], []⟩).calls.Nodup := by
  obtain ⟨s, a1, hsl, hsr, hsc, hsi, hcl, hco⟩ := forN_spec (n := p.dim) (s := (⟨left, right, cache, []⟩ : S))
    (body := fun k s => do
      let t ← setupCore A p k true s
      .ok { t.2 with cores := t.2.cores ++ [t.1] })
    (I := fun k x => x.left = left ∧ x.right = right ∧ x.cache.length = p.dim ∧
      (∀ j < p.dim, Cross.Inv (A j) j (p.dim - j - 1) (x.cache.getD j ⟨[], []⟩)) ∧ x.cores.length = k ∧
      ∀ j < k, (x.cores.getD j []).length = p.R j * p.N j * p.R (j + 1))
    ⟨rfl, rfl, h.ncache, h.inv, rfl, fun j hj => absurd hj (by omega)⟩
    (by
      rintro k hk x ⟨h1, h2, h3, h4, h5, h6⟩
      obtain ⟨cs, e1, e2, e3⟩ := setupCore_ok' hL (s := x) (by rw [h1]; exact h.nleft) (by rw [h2]; exact h.nright) h3 (by rw [h1]; exact h.lset)
        (by rw [h2]; exact h.rset) h4 hk
      refine ⟨⟨x.left, x.right, cs, x.cores ++ [cm (p.R k * p.N k) (p.R (k + 1)) (fibL T p k (x.left.getD k []) (x.right.getD k []))]⟩,
        by rw [e1, bind_ok], h1, h2, e2, e3, by simp [h5], fun j hj => ?_⟩
      show ((x.cores ++ [_]).getD j []).length = _
      by_cases e : j < k
      · rw [List.getD_eq_getElem?_getD, List.getElem?_append_left (by omega), ← List.getD_eq_getElem?_getD]
        exact h6 j e
      · have : j = k := by omega
        subst this
        rw [List.getD_eq_getElem?_getD, List.getElem?_append_right (by omega), h5, Nat.sub_self]
        simp)
  have hws : WS A p s := ⟨by rw [hsl]; exact h.nleft, by rw [hsr]; exact h.nright, hsc, hcl, by rw [hsl]; exact h.lset, by rw [hsr]; exact h.rset, hsi, hco⟩
  have hspan : ∀ k < p.dim, SpanRt T p k (s.right.getD k []) := fun k hk => by
    by_cases e : k + 1 < p.dim
    · rw [hsr]; exact h.span k e
    · exact spanR_last hL (by omega) (hws.rset k hk)
  obtain ⟨s', b1, b2⟩ := loop_ok hL hqr hmv hr below maxiter (maxiter + 1) 0 s (by omega) (by omega) hws hspan
  exact ⟨train p s', s', by rw [ttCross, a1, bind_ok, b1, bind_ok], train_wf hL b2.ws, rfl, train_ranks hL s',
    fun es hes => good_exact hL b2 hes, fun k hk => (b2.ws.inv k hk).nodup⟩

end Props

/-- Three modes of two values, all entries one, ranks one, through `maxvol_rhs` itself. -/
theorem ttCross_ones {rnd : ℚ → ℚ} (hr : RoundNearest rnd) (below : Tt.TT ℝ → Tt.TT ℝ → Bool) :
    ∃ t s', ttCross qrId (maxvol (1 / 100) luId invAny) rnd (fun _ _ => [1, 1]) ⟨3, [2, 2, 2], [1, 1, 1, 1]⟩ below 5
      [[[]], [[0]], [[0, 0]]] [[[0, 0]], [[0]], [[]]] [⟨[], []⟩, ⟨[], []⟩, ⟨[], []⟩] = .ok (t, s') ∧ t.elem [1, 0, 1] = 1 ∧
      t.ranks = [1, 1, 1, 1] := by
  have hgood : ∀ g : Nat → Nat → ℝ, g 0 0 = 1 → g 1 0 = 1 → MvGood (maxvol (1 / 100) luId invAny) 2 1 (cm 2 1 g) := by
    intro g h0 h1
    have : cm 2 1 g = [1, 1] := by show [g 0 0, g 1 0] = _; rw [h0, h1]
    rw [this]
    refine maxvol_good (by norm_num) luId_law invAny_law (by norm_num) (by norm_num) rfl ?_
    have e : startRows 2 1 (luId 1 (([1, 1] : List ℝ).take (1 * 1))).2 = [1] := by
      show startRows 2 1 [1] = [1]
      decide
    rw [e, Matrix.det_fin_one]
    show (1 : ℝ) ≠ 0
    norm_num
  have c3 : ∀ {q : Nat → Prop}, q 0 → q 1 → q 2 → ∀ k < 3, q k := fun h0 h1 h2 k hk => by interval_cases k <;> assumption
  have hL : Law (fun _ => 1) (fun _ _ => [1, 1]) ⟨3, [2, 2, 2], [1, 1, 1, 1]⟩ := by
    refine ⟨by norm_num, rfl, rfl, rfl, rfl, c3 (fun _ => rfl) (fun _ => rfl) (fun _ => rfl), fun k hk l r e _ _ he => ?_, ?_, ?_, ?_, ?_, ?_⟩
    · have he' : e < 2 := by
        have hk' : k < 3 := hk
        interval_cases k <;> exact he
      interval_cases e <;> rfl
    · intro k hk
      have hk' : k ≤ 3 := hk
      interval_cases k <;> decide
    · intro k h1 h2
      have hk' : k + 1 < 3 := h2
      have : k = 1 := by omega
      subst this; rfl
    · intro k h2
      have hk' : k + 1 < 3 := h2
      have : k < 2 := by omega
      interval_cases k <;> decide
    · intro k h1 h2
      have hk' : k < 3 := h2
      interval_cases k <;> decide
    · refine c3 ?_ ?_ ?_ <;> exact ⟨by show 2 ≤ _; norm_num, by show 1 * 2 < _; norm_num, by show 1 < _; norm_num⟩
  obtain ⟨t, s', h1, -, -, h3, h2, -⟩ := ttCross_exact_partial (rnd := rnd) hL qrId_law (mv := maxvol (1 / 100) luId invAny)
    (c3 (fun L Rt _ _ _ _ => ⟨fun _ => hgood _ rfl rfl, fun _ => hgood _ rfl rfl⟩)
      (fun L Rt _ _ _ _ => ⟨fun _ => hgood _ rfl rfl, fun _ => hgood _ rfl rfl⟩)
      (fun L Rt _ _ _ _ => ⟨fun _ => hgood _ rfl rfl, fun _ => hgood _ rfl rfl⟩)) hr below 5
    (left := [[[]], [[0]], [[0, 0]]]) (right := [[[0, 0]], [[0]], [[]]]) (cache := [⟨[], []⟩, ⟨[], []⟩, ⟨[], []⟩])
    ⟨rfl, rfl, rfl,
      c3 ⟨rfl, by simp [Pre]⟩ ⟨rfl, by simp [Pre]⟩ ⟨rfl, by simp [Pre]⟩,
      c3 ⟨rfl, by simp [Suf]⟩ ⟨rfl, by simp [Suf]⟩ ⟨rfl, by simp [Suf]⟩,
      c3 ⟨by simp [Sized], by simp, rfl, List.nodup_nil⟩ ⟨by simp [Sized], by simp, rfl, List.nodup_nil⟩ ⟨by simp [Sized], by simp, rfl, List.nodup_nil⟩,
      fun k hk s _ => ⟨fun _ => 1, fun l _ => by
        have hk' : k + 1 < 3 := hk
        have : k < 2 := by omega
        interval_cases k <;> (show (1 : ℝ) = ∑ j ∈ range 1, (1 : ℝ) * 1; simp)⟩⟩
  exact ⟨t, s', h1, h2 _ (by simp), h3⟩

end C3.Tc
