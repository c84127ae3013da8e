/-
Rank adaptation: accepted steps never increase the cross validation error, ranks stay within bounds,
and the number of cross validations is bounded.
-/
import Verif.Sl.RankModel
import Verif.Sl.RestrictProps

namespace C3.Sl

variable {K T S : Type} [LinearOrder K]

theorem bind_ok_inv {α β : Type} {x : C α} {f : α → C β} {b : β} (h : (x >>= f) = .ok b) :
    ∃ a, x = .ok a ∧ f a = .ok b := by
  cases x with
  | error e => rw [bind_error] at h; cases h
  | ok a => exact ⟨a, rfl, h⟩

theorem forN_inv {α : Type} {n : Nat} {body : Nat → α → C α} {s s' : α} (I : α → Prop)
    (h : forN n body s = .ok s') (h0 : I s)
    (hs : ∀ i, ∀ a a', I a → body i a = .ok a' → I a') : I s' := by
  induction n generalizing s' with
  | zero => rw [forN_zero, Except.ok.injEq] at h; exact h ▸ h0
  | succ n ih =>
    rw [forN_succ] at h
    obtain ⟨a, h1, h2⟩ := bind_ok_inv h
    exact hs n a s' (ih h1) h2

theorem forN_inv_nat {α : Type} {n : Nat} {body : Nat → α → C α} {s s' : α} (I : Nat → α → Prop)
    (h : forN n body s = .ok s') (h0 : I 0 s)
    (hs : ∀ i, ∀ a a', I i a → body i a = .ok a' → I (i + 1) a') : I n s' := by
  induction n generalizing s' with
  | zero => rw [forN_zero, Except.ok.injEq] at h; exact h ▸ h0
  | succ n ih =>
    rw [forN_succ] at h
    obtain ⟨a, h1, h2⟩ := bind_ok_inv h
    exact hs n a s' (ih h1) h2

/-- The three ways a step can go. -/
theorem raStep_cases {L : RaOps K T S} {dim maxrank kick : Nat} {only : Bool} {q q' : Ra K T S}
    (h : raStep L dim maxrank kick only q = .ok q') :
    (q.done = true ∧ q' = q) ∨
    (q.done = false ∧ ∃ rounded am k, L.round q.ft q.st = .ok rounded ∧
      allMax dim maxrank q.ranks = .ok am ∧
      kickRanks dim maxrank kick (L.ranksOf rounded) q.ranks q.rs = .ok k ∧
      ((k.2.2 = false ∨ am = true) ∧ q' = { q with ranks := k.1, rs := k.2.1, done := true } ∨
       k.2.2 = true ∧ am = false ∧ ∃ s p e, L.reset k.1 q.st = .ok s ∧
        raStart L dim only rounded k.2.1 s = .ok p ∧ L.cv p.1 p.2 = .ok e ∧
        ((q.err < e.1 ∧ ∃ t, L.keep rounded e.2 = .ok t ∧ q' = ⟨t.1, q.err, k.1, p.1, t.2, true⟩) ∨
         (e.1 ≤ q.err ∧ ∃ t, L.fit p.1 e.2 = .ok t ∧ q' = ⟨t.1, e.1, k.1, p.1, t.2, false⟩)))) := by
  rw [raStep] at h
  by_cases hd : q.done = true
  · rw [if_pos hd, Except.ok.injEq] at h
    exact .inl ⟨hd, h.symm⟩
  · rw [if_neg hd] at h
    obtain ⟨rounded, h1, h⟩ := bind_ok_inv h
    obtain ⟨am, h2, h⟩ := bind_ok_inv h
    obtain ⟨k, h3, h⟩ := bind_ok_inv h
    refine .inr ⟨by simpa using hd, rounded, am, k, h1, h2, h3, ?_⟩
    by_cases hc : k.2.2 = false ∨ am = true
    · rw [if_pos hc, Except.ok.injEq] at h
      exact .inl ⟨hc, h.symm⟩
    · rw [if_neg hc, raTry] at h
      obtain ⟨s, h4, h⟩ := bind_ok_inv h
      obtain ⟨p, h5, h⟩ := bind_ok_inv h
      obtain ⟨e, h6, h⟩ := bind_ok_inv h
      rw [not_or] at hc
      refine .inr ⟨by simpa using hc.1, by simpa using hc.2, s, p, e, h4, h5, h6, ?_⟩
      by_cases he : q.err < e.1
      · rw [if_pos he] at h
        obtain ⟨t, h7, h⟩ := bind_ok_inv h
        rw [Except.ok.injEq] at h
        exact .inl ⟨he, t, h7, h.symm⟩
      · rw [if_neg he] at h
        obtain ⟨t, h7, h⟩ := bind_ok_inv h
        rw [Except.ok.injEq] at h
        exact .inr ⟨not_lt.1 he, t, h7, h.symm⟩

/-- A train and an error belong together: the error is that of a cross validation, the train was
fitted right after it, or is the rounding of the train fitted then. -/
def Belongs (L : RaOps K T S) (ft : T) (err : K) : Prop :=
  ∃ rs sa sb sc t, L.cv rs sa = .ok (err, sb) ∧ L.fit rs sb = .ok (t, sc) ∧
    (ft = t ∨ L.round t sc = .ok ft)

/-- Rank adaptation returns a train together with its cross validation error, or the rounding of such
a train, and the error is not larger than that of the initial ranks. -/
theorem raRun_err (L : RaOps K T S) (hk : ∀ t s q, L.keep t s = .ok q → q.1 = t)
    {dim maxrank kick : Nat} {only : Bool} {rs : List Nat} {s : S} {q : Ra K T S}
    (h : raRun L dim maxrank kick only rs s = .ok q) :
    ∃ e0 s1, L.cv rs s = .ok (e0, s1) ∧ q.err ≤ e0 ∧ Belongs L q.ft q.err := by
  rw [raRun] at h
  obtain ⟨e, h1, h⟩ := bind_ok_inv h
  obtain ⟨t, h2, h⟩ := bind_ok_inv h
  have hI := forN_inv (fun q : Ra K T S => q.err ≤ e.1 ∧ Belongs L q.ft q.err ∧
      (q.done = false → ∃ rs sa sb, L.cv rs sa = .ok (q.err, sb) ∧ L.fit rs sb = .ok (q.ft, q.st))) h
    ⟨le_rfl, ⟨rs, s, e.2, t.2, t.1, h1, h2, .inl rfl⟩, fun _ => ⟨rs, s, e.2, h1, h2⟩⟩ ?_
  · exact ⟨e.1, e.2, h1, hI.1, hI.2.1⟩
  · intro _ a a' ⟨i1, i2, i3⟩ hst
    rcases raStep_cases hst with ⟨_, rfl⟩ | ⟨hd, rounded, am, k, b1, _, _, hc⟩
    · exact ⟨i1, i2, i3⟩
    · rcases hc with ⟨_, rfl⟩ | ⟨_, _, s', p, e', _, _, c3, hc⟩
      · exact ⟨i1, i2, fun h => by cases h⟩
      · rcases hc with ⟨_, t', d1, rfl⟩ | ⟨d0, t', d1, rfl⟩
        · refine ⟨i1, ?_, fun h => by cases h⟩
          obtain ⟨ra, sa, sb, g1, g2⟩ := i3 hd
          exact ⟨ra, sa, sb, a.st, a.ft, g1, g2, .inr (by rw [b1, hk _ _ _ d1])⟩
        · exact ⟨d0.trans i1, ⟨p.1, p.2, e'.2, t'.2, t'.1, c3, d1, .inl rfl⟩,
            fun _ => ⟨p.1, p.2, e'.2, c3, d1⟩⟩

/-- At most eleven cross validations, whatever the data do: for every counter that only a cross
validation advances, and by one. -/
theorem raRun_count (L : RaOps K T S) (n : S → Nat)
    (hcv : ∀ r s q, L.cv r s = .ok q → n q.2 = n s + 1)
    (hfit : ∀ r s q, L.fit r s = .ok q → n q.2 = n s)
    (hreset : ∀ r s s', L.reset r s = .ok s' → n s' = n s)
    (hstart : ∀ t r s s', L.start t r s = .ok s' → n s' = n s)
    (hkeep : ∀ t s q, L.keep t s = .ok q → n q.2 = n s)
    {dim maxrank kick : Nat} {only : Bool} {rs : List Nat} {s : S} {q : Ra K T S}
    (h : raRun L dim maxrank kick only rs s = .ok q) : n q.st ≤ n s + 11 := by
  rw [raRun] at h
  obtain ⟨e, h1, h⟩ := bind_ok_inv h
  obtain ⟨t, h2, h⟩ := bind_ok_inv h
  have hI := forN_inv_nat (fun i (q : Ra K T S) => n q.st ≤ n s + 1 + i) h
    (by dsimp only; rw [hfit _ _ _ h2, hcv _ _ _ h1]) ?_
  · omega
  · intro i a a' hi hst
    rcases raStep_cases hst with ⟨_, rfl⟩ | ⟨_, rounded, am, k, _, _, _, hc⟩
    · omega
    · rcases hc with ⟨_, rfl⟩ | ⟨_, _, s', p, e', c1, c2, c3, hc⟩
      · dsimp only; omega
      · have hp : n p.2 = n s' := by
          rw [raStart] at c2
          split at c2
          · obtain ⟨w, w1, w2⟩ := bind_ok_inv c2
            rw [Except.ok.injEq] at w2
            rw [← w2]
            exact hstart _ _ _ _ w1
          · obtain ⟨w, w1, w2⟩ := bind_ok_inv c2
            rw [Except.ok.injEq] at w2
            rw [← w2]
        have := hreset _ _ _ c1
        have := hcv _ _ _ c3
        rcases hc with ⟨_, t', d1, rfl⟩ | ⟨_, t', d1, rfl⟩
        · have := hkeep _ _ _ d1
          dsimp only; omega
        · have := hfit _ _ _ d1
          dsimp only; omega

/-- Laws about the ranks `rk` of the parameterised train. -/
structure RankLaws (L : RaOps K T S) (rk : S → List Nat) (dim : Nat) : Prop where
  cv : ∀ r s q, L.cv r s = .ok q → rk q.2 = rk s
  fit : ∀ r s q, L.fit r s = .ok q → rk q.2 = rk s ∧ L.ranksOf q.1 = rk s
  round : ∀ t s t', L.round t s = .ok t' → (L.ranksOf t').length = (L.ranksOf t).length ∧
    ∀ k, (L.ranksOf t').getD k 0 ≤ (L.ranksOf t).getD k 0
  reset : ∀ r s s', L.reset r s = .ok s' → rk s' = r
  start : ∀ t r s s', L.start t r s = .ok s' → rk s' = rk s
  keep : ∀ t s q, L.keep t s = .ok q → q.1 = t

/-- The ranks of the result do not exceed the maximal rank, and every rank tried lies between the
initial rank and the maximal rank. -/
theorem raRun_ranks {L : RaOps K T S} {rk : S → List Nat} {dim : Nat} (H : RankLaws L rk dim)
    (hd : 0 < dim) {maxrank kick : Nat} {only : Bool} {rs : List Nat} (hrs : dim ≤ rs.length) {s : S}
    (hlen : (rk s).length = dim + 1) (hmax : ∀ k, 0 < k → k < dim → (rk s).getD k 0 ≤ maxrank)
    {q : Ra K T S} (h : raRun L dim maxrank kick only rs s = .ok q) :
    (L.ranksOf q.ft).length = dim + 1 ∧
    (∀ k, 0 < k → k < dim → (L.ranksOf q.ft).getD k 0 ≤ maxrank) ∧
    (∀ k, 0 < k → k < dim → (rk s).getD k 0 ≤ q.ranks.getD k 0 ∧ q.ranks.getD k 0 ≤ maxrank) ∧
    ∀ k, k = 0 ∨ dim ≤ k → q.ranks.getD k 0 = (rk s).getD k 0 := by
  rw [raRun] at h
  obtain ⟨e, h1, h⟩ := bind_ok_inv h
  obtain ⟨t, h2, h⟩ := bind_ok_inv h
  have e1 := H.cv _ _ _ h1
  have e2 := H.fit _ _ _ h2
  have hI := forN_inv (fun q : Ra K T S => dim ≤ q.rs.length ∧ q.ranks.length = dim + 1 ∧
      (L.ranksOf q.ft).length = dim + 1 ∧
      (∀ k, 0 < k → k < dim → (L.ranksOf q.ft).getD k 0 ≤ maxrank) ∧
      (∀ k, 0 < k → k < dim → (rk s).getD k 0 ≤ q.ranks.getD k 0 ∧ q.ranks.getD k 0 ≤ maxrank) ∧
      (∀ k, k = 0 ∨ dim ≤ k → q.ranks.getD k 0 = (rk s).getD k 0)) h ?_ ?_
  · exact ⟨hI.2.2.1, hI.2.2.2.1, hI.2.2.2.2.1, hI.2.2.2.2.2⟩
  · dsimp only
    rw [e2.2, e1]
    exact ⟨hrs, hlen, hlen, hmax, fun k a b => ⟨le_rfl, hmax k a b⟩, fun _ _ => rfl⟩
  · intro _ a a' ⟨i0, i1, i2, i3, i4, i5⟩ hst
    rcases raStep_cases hst with ⟨_, rfl⟩ | ⟨_, rounded, am, k, b1, _, b3, hc⟩
    · exact ⟨i0, i1, i2, i3, i4, i5⟩
    · have hr := H.round _ _ _ b1
      obtain ⟨k', c1, c2, c3, c4, _, _⟩ := kickRanks_ok (maxrank := maxrank) (kick := kick)
        (rounded := L.ranksOf rounded) (ranks := a.ranks) (rs := a.rs)
        (by rw [hr.1, i2]; omega) (by omega) i0 hd
      rw [b3, Except.ok.injEq] at c1
      subst c1
      have j1 : k.1.length = dim + 1 := by rw [c2, i1]
      have j4 : ∀ m, 0 < m → m < dim →
          (rk s).getD m 0 ≤ k.1.getD m 0 ∧ k.1.getD m 0 ≤ maxrank := by
        intro m m1 m2
        obtain ⟨x1, x2⟩ := i4 m m1 m2
        rw [List.getD_eq_getElem?_getD (l := k.1), c4 m]
        split
        · rw [Option.getD_some]
          exact ⟨by omega, by omega⟩
        · rw [← List.getD_eq_getElem?_getD]
          exact ⟨x1, x2⟩
      have j5 : ∀ m, m = 0 ∨ dim ≤ m → k.1.getD m 0 = (rk s).getD m 0 := by
        intro m hm
        rw [List.getD_eq_getElem?_getD (l := k.1), c4 m, if_neg (by omega),
          ← List.getD_eq_getElem?_getD, i5 m hm]
      have j0 : dim ≤ k.2.1.length := by omega
      rcases hc with ⟨_, rfl⟩ | ⟨_, _, s', p, e', d1, d2, d3, hc⟩
      · exact ⟨j0, j1, i2, i3, j4, j5⟩
      · have hp : rk p.2 = rk s' ∧ dim ≤ p.1.length := by
          rw [raStart] at d2
          split at d2
          · obtain ⟨w, w1, w2⟩ := bind_ok_inv d2
            rw [Except.ok.injEq] at w2
            rw [← w2]
            exact ⟨H.start _ _ _ _ w1, j0⟩
          · obtain ⟨w, w1, w2⟩ := bind_ok_inv d2
            rw [Except.ok.injEq] at w2
            rw [← w2]
            refine ⟨rfl, ?_⟩
            have := forN_inv (fun l : List Nat => dim ≤ l.length) w1 j0 (by
              intro i x x' hx hw
              by_cases hi : i < x.length
              · rw [wr_ok _ hi, Except.ok.injEq] at hw
                rw [← hw, List.length_set]; exact hx
              · rw [wr_oob _ (by omega)] at hw; cases hw)
            exact this
        rcases hc with ⟨_, t', g1, rfl⟩ | ⟨_, t', g1, rfl⟩
        · refine ⟨hp.2, j1, ?_, ?_, j4, j5⟩
          · rw [H.keep _ _ _ g1, hr.1, i2]
          · intro m m1 m2
            dsimp only
            rw [H.keep _ _ _ g1]
            exact (hr.2 m).trans (i3 m m1 m2)
        · have hf := (H.fit _ _ _ g1).2
          rw [H.cv _ _ _ d3, hp.1, H.reset _ _ _ d1] at hf
          refine ⟨hp.2, j1, ?_, ?_, j4, j5⟩
          · dsimp only; rw [hf, j1]
          · intro m m1 m2
            dsimp only
            rw [hf]
            exact (j4 m m1 m2).2

/-- Initial ranks that are all at or above the maximal rank are never lowered: the first fit is
returned, also above the maximal rank. -/
theorem raRun_above_actual (L : RaOps K T S) {dim maxrank kick : Nat} {only : Bool} {rs : List Nat}
    {s : S} {e : K × S} {t : T × S} (h1 : L.cv rs s = .ok e) (h2 : L.fit rs e.2 = .ok t) (hd : 0 < dim)
    (hlen : dim ≤ (L.ranksOf t.1).length)
    (ham : ∀ k, 0 < k → k < dim → maxrank ≤ (L.ranksOf t.1).getD k 0) {q : Ra K T S}
    (h : raRun L dim maxrank kick only rs s = .ok q) : q.ft = t.1 := by
  have hall : allMax dim maxrank (L.ranksOf t.1) = .ok true := by
    obtain ⟨b, hb, hI⟩ := forR_spec (a := 1) (b := dim) (s := true) (body := fun ii b =>
      if b then do
        let r ← rd (L.ranksOf t.1) ii
        .ok (decide (¬ r < maxrank))
      else .ok false) (I := fun _ b => b = true) (by omega) rfl (by
        intro k k1 k2 b hb
        refine ⟨true, ?_, rfl⟩
        have hk := ham k (by omega) k2
        rw [hb, if_pos rfl, rd_getD 0 (by omega), bind_ok]
        rw [decide_eq_true (not_lt.2 hk)])
    rw [allMax, hb, hI]
  rw [raRun, h1, bind_ok, h2, bind_ok] at h
  have hI := forN_inv (fun q : Ra K T S => q.ft = t.1 ∧
      (q.done = false → q.ranks = L.ranksOf t.1)) h ⟨rfl, fun _ => rfl⟩ (by
    intro _ a a' ⟨i1, i2⟩ hst
    rcases raStep_cases hst with ⟨_, rfl⟩ | ⟨hdn, rounded, am, k, _, b2, _, hc⟩
    · exact ⟨i1, i2⟩
    · rw [i2 hdn, hall, Except.ok.injEq] at b2
      rcases hc with ⟨_, rfl⟩ | ⟨_, c2, _⟩
      · exact ⟨i1, fun h => by cases h⟩
      · rw [← b2] at c2; cases c2)
  exact hI.1

/-- A learner whose error is the distance of the first interior rank from three. -/
def exOps : RaOps ℚ (List Nat) (List Nat) where
  cv _ s := .ok (|((s.getD 1 0 : Nat) : ℚ) - 3|, s)
  fit _ s := .ok (s, s)
  round t _ := .ok t
  ranksOf t := t
  reset r _ := .ok r
  start _ _ s := .ok s
  keep t _ := .ok (t, t)

/-- It raises the rank from one to three and rejects four. -/
example : (raRun exOps 2 10 1 true [0, 0] [1, 1, 1]).map (fun q => (q.ft, q.err, q.ranks)) =
    .ok ([1, 3, 1], 0, [1, 4, 1]) := by
  decide +kernel

example : RankLaws exOps (fun s => s) 2 where
  cv := fun r s q h => by cases h; rfl
  fit := fun r s q h => by cases h; exact ⟨rfl, rfl⟩
  round := fun t s t' h => by cases h; exact ⟨rfl, fun _ => le_rfl⟩
  reset := fun r s s' h => by cases h; rfl
  start := fun t r s s' h => by cases h; rfl
  keep := fun t s q h => by cases h; rfl

end C3.Sl
