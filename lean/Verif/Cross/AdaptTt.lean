/-
C147: the sweeps of the cross approximation (Cross/TtModel.lean) keep the shapes of the index sets, so that the theorems on the rank adaptation
hold for them.
-/
import Verif.Cross.AdaptProps
import Verif.Cross.TtProps

namespace C3.Adp
open C3.Cross C3.Tc

/-- The lengths of the indices of a set; the shapes of several sets. -/
def sh (s : List (List Nat)) : List Nat := s.map List.length
def shs (l : List (List (List Nat))) : List (List Nat) := l.map sh

theorem sh_set {s : List (List Nat)} {i : Nat} {ix ix' : List Nat} (h : s[i]? = some ix) (hl : ix'.length = ix.length) :
    sh (s.set i ix') = sh s := by
  unfold sh
  apply List.ext_getElem?
  intro k
  rw [List.getElem?_map, List.getElem?_map]
  by_cases e : i = k
  · subst e
    rw [List.getElem?_set_self (List.getElem?_eq_some_iff.1 h).1, h, Option.map_some, Option.map_some, hl]
  · rw [List.getElem?_set_ne e]

theorem shs_set {l : List (List (List Nat))} {i : Nat} {s s' : List (List Nat)} (h : l[i]? = some s) (hl : sh s' = sh s) :
    shs (l.set i s') = shs l := by
  unfold shs
  apply List.ext_getElem?
  intro k
  rw [List.getElem?_map, List.getElem?_map]
  by_cases e : i = k
  · subst e
    rw [List.getElem?_set_self (List.getElem?_eq_some_iff.1 h).1, h, Option.map_some, Option.map_some, hl]
  · rw [List.getElem?_set_ne e]

theorem setFirst_sh {N : Nat} {rows : List Nat} {s s' : List (List Nat)} (h : setFirst N rows s = .ok s') : sh s' = sh s := by
  unfold setFirst at h
  refine forN_inv (fun _ x => sh x = sh s) h rfl ?_
  intro i _ x x' hx hb
  obtain ⟨v, _, hb⟩ := bind_inv hb
  obtain ⟨ix, h2, hb⟩ := bind_inv hb
  obtain ⟨ix', h3, hb⟩ := bind_inv hb
  obtain ⟨_, rfl⟩ := wr_inv h3
  obtain ⟨_, rfl⟩ := wr_inv hb
  rw [sh_set (rd_inv h2) (by simp), hx]

theorem take_len {k : Nat} {l p : List Nat} (h : Cross.take k l = .ok p) : p.length = k := by
  unfold Cross.take at h
  split at h
  · cases h; simp; omega
  · exact absurd h (by simp)

theorem updateLeft_sh {rnd : ℚ → ℚ} {kk r n r' : Nat} {left s s' : List (List Nat)} {rows : List Nat}
    (h : updateLeft rnd kk r n left rows r' s = .ok s') : sh s' = sh s := by
  unfold updateLeft at h
  refine forN_inv (fun _ x => sh x = sh s) h rfl ?_
  intro i _ x x' hx hb
  obtain ⟨row, _, hb⟩ := bind_inv hb
  obtain ⟨m, _, hb⟩ := bind_inv hb
  obtain ⟨a, _, hb⟩ := bind_inv hb
  obtain ⟨b, _, hb⟩ := bind_inv hb
  obtain ⟨ix, h2, hb⟩ := bind_inv hb
  obtain ⟨src, _, hb⟩ := bind_inv hb
  obtain ⟨p, h3, hb⟩ := bind_inv hb
  have h3 := take_len h3
  dsimp only at hb
  split at hb
  · rw [bind_ok] at hb
    obtain ⟨ix2, h5, hb⟩ := bind_inv hb
    obtain ⟨_, rfl⟩ := wr_inv h5
    obtain ⟨_, rfl⟩ := wr_inv hb
    rw [sh_set (rd_inv h2) ?_, hx]
    simp [h3]; omega
  · exact absurd hb (by simp)

theorem updateRight_sh {rnd : ℚ → ℚ} {r n dr N : Nat} {right s s' : List (List Nat)} {rows : List Nat}
    (h : updateRight rnd r n dr right rows N s = .ok s') : sh s' = sh s := by
  unfold updateRight at h
  refine forN_inv (fun _ x => sh x = sh s) h rfl ?_
  intro i _ x x' hx hb
  obtain ⟨row, _, hb⟩ := bind_inv hb
  obtain ⟨m, _, hb⟩ := bind_inv hb
  obtain ⟨a, _, hb⟩ := bind_inv hb
  obtain ⟨b, _, hb⟩ := bind_inv hb
  obtain ⟨ix, h2, hb⟩ := bind_inv hb
  obtain ⟨src, _, hb⟩ := bind_inv hb
  obtain ⟨p, h3, hb⟩ := bind_inv hb
  have h3 := take_len h3
  dsimp only at hb
  split at hb
  · rw [bind_ok] at hb
    obtain ⟨ix2, h5, hb⟩ := bind_inv hb
    obtain ⟨_, rfl⟩ := wr_inv h5
    obtain ⟨_, rfl⟩ := wr_inv hb
    rw [sh_set (rd_inv h2) ?_, hx]
    simp [h3]; omega
  · exact absurd hb (by simp)

/-- The same shapes. -/
def Same (s s' : S) : Prop := shs s'.left = shs s.left ∧ shs s'.right = shs s.right

theorem Same.refl (s : S) : Same s s := ⟨rfl, rfl⟩
theorem Same.trans {s t u : S} (h : Same s t) (h' : Same t u) : Same s u := ⟨h'.1.trans h.1, h'.2.trans h.2⟩

variable {qr : Nat → Nat → List ℝ → List ℝ} {mv : List ℝ → Nat → Nat → List Nat → List ℝ → C (Int × List Nat × List ℝ)}
  {rnd : ℚ → ℚ} {A : Nat → List Nat → List ℝ} {p : P}

theorem setupCore_same {k : Nat} {lr : Bool} {s : S} {r : List ℝ × S} (h : setupCore A p k lr s = .ok r) :
    r.2.left = s.left ∧ r.2.right = s.right := by
  unfold setupCore at h
  obtain ⟨_, _, h⟩ := bind_inv h
  obtain ⟨_, _, h⟩ := bind_inv h
  obtain ⟨_, _, h⟩ := bind_inv h
  obtain ⟨_, _, h⟩ := bind_inv h
  obtain ⟨_, _, h⟩ := bind_inv h
  obtain ⟨_, _, h⟩ := bind_inv h
  obtain ⟨_, _, h⟩ := bind_inv h
  obtain ⟨_, _, h⟩ := bind_inv h
  cases h
  exact ⟨rfl, rfl⟩

theorem firstLr_same {s s' : S} (h : firstLr qr mv A p s = .ok s') : Same s s' := by
  unfold firstLr at h
  obtain ⟨t, h0, h⟩ := bind_inv h
  obtain ⟨_, _, h⟩ := bind_inv h
  obtain ⟨_, _, h⟩ := bind_inv h
  obtain ⟨_, _, h⟩ := bind_inv h
  obtain ⟨_, _, h⟩ := bind_inv h
  obtain ⟨_, _, h⟩ := bind_inv h
  obtain ⟨_, _, h⟩ := bind_inv h
  obtain ⟨_, _, h⟩ := bind_inv h
  obtain ⟨l1, g1, h⟩ := bind_inv h
  obtain ⟨l2, g2, h⟩ := bind_inv h
  obtain ⟨l3, g3, h⟩ := bind_inv h
  cases h
  obtain ⟨e1, e2⟩ := setupCore_same h0
  obtain ⟨_, rfl⟩ := wr_inv g3
  exact ⟨by dsimp only; rw [shs_set (rd_inv g1) (setFirst_sh g2), e1], by dsimp only; rw [e2]⟩

theorem coresLr_same {k : Nat} {s s' : S} (h : coresLr qr mv rnd A p k s = .ok s') : Same s s' := by
  unfold coresLr at h
  obtain ⟨t, h0, h⟩ := bind_inv h
  obtain ⟨_, _, h⟩ := bind_inv h
  obtain ⟨_, _, h⟩ := bind_inv h
  obtain ⟨_, _, h⟩ := bind_inv h
  obtain ⟨_, _, h⟩ := bind_inv h
  obtain ⟨_, _, h⟩ := bind_inv h
  obtain ⟨_, _, h⟩ := bind_inv h
  obtain ⟨_, _, h⟩ := bind_inv h
  obtain ⟨_, _, h⟩ := bind_inv h
  obtain ⟨l1, g1, h⟩ := bind_inv h
  obtain ⟨l2, g2, h⟩ := bind_inv h
  obtain ⟨l3, g3, h⟩ := bind_inv h
  cases h
  obtain ⟨e1, e2⟩ := setupCore_same h0
  obtain ⟨_, rfl⟩ := wr_inv g3
  exact ⟨by dsimp only; rw [shs_set (rd_inv g1) (updateLeft_sh g2), e1], by dsimp only; rw [e2]⟩

theorem selRl_same {k : Nat} {s : S} {r : List Nat × S} (h : selRl qr mv A p k s = .ok r) : r.2.left = s.left ∧ r.2.right = s.right := by
  unfold selRl at h
  obtain ⟨t, h0, h⟩ := bind_inv h
  obtain ⟨_, _, h⟩ := bind_inv h
  obtain ⟨_, _, h⟩ := bind_inv h
  obtain ⟨_, _, h⟩ := bind_inv h
  obtain ⟨_, _, h⟩ := bind_inv h
  obtain ⟨_, _, h⟩ := bind_inv h
  obtain ⟨_, _, h⟩ := bind_inv h
  obtain ⟨_, _, h⟩ := bind_inv h
  obtain ⟨_, _, h⟩ := bind_inv h
  cases h
  exact setupCore_same h0

theorem lastRl_same {s s' : S} (h : lastRl qr mv A p s = .ok s') : Same s s' := by
  unfold lastRl at h
  dsimp only at h
  split at h
  · exact absurd h (by simp)
  rw [bind_ok] at h
  obtain ⟨t, h0, h⟩ := bind_inv h
  obtain ⟨l1, g1, h⟩ := bind_inv h
  obtain ⟨l2, g2, h⟩ := bind_inv h
  obtain ⟨l3, g3, h⟩ := bind_inv h
  cases h
  obtain ⟨e1, e2⟩ := selRl_same h0
  obtain ⟨_, rfl⟩ := wr_inv g3
  exact ⟨by dsimp only; rw [e1], by dsimp only; rw [shs_set (rd_inv g1) (setFirst_sh g2), e2]⟩

theorem coresRl_same {k : Nat} {s s' : S} (h : coresRl qr mv rnd A p k s = .ok s') : Same s s' := by
  unfold coresRl at h
  obtain ⟨t, h0, h⟩ := bind_inv h
  obtain ⟨_, _, h⟩ := bind_inv h
  obtain ⟨_, _, h⟩ := bind_inv h
  obtain ⟨_, _, h⟩ := bind_inv h
  obtain ⟨l1, g1, h⟩ := bind_inv h
  obtain ⟨l2, g2, h⟩ := bind_inv h
  obtain ⟨l3, g3, h⟩ := bind_inv h
  cases h
  obtain ⟨e1, e2⟩ := selRl_same h0
  obtain ⟨_, rfl⟩ := wr_inv g3
  exact ⟨by dsimp only; rw [e1], by dsimp only; rw [shs_set (rd_inv g1) (updateRight_sh g2), e2]⟩

theorem rawCore_same {k : Nat} {s s' : S} (h : rawCore A p k s = .ok s') : Same s s' := by
  unfold rawCore at h
  obtain ⟨t, h0, h⟩ := bind_inv h
  obtain ⟨_, _, h⟩ := bind_inv h
  obtain ⟨_, _, h⟩ := bind_inv h
  obtain ⟨_, _, h⟩ := bind_inv h
  obtain ⟨_, _, h⟩ := bind_inv h
  obtain ⟨_, _, h⟩ := bind_inv h
  obtain ⟨_, _, h⟩ := bind_inv h
  cases h
  obtain ⟨e1, e2⟩ := setupCore_same h0
  exact ⟨by dsimp only; rw [e1], by dsimp only; rw [e2]⟩

theorem pass_same {s s' : S} (h : pass qr mv rnd A p s = .ok s') : Same s s' := by
  unfold pass at h
  obtain ⟨a, h1, h⟩ := bind_inv h
  obtain ⟨b, h2, h⟩ := bind_inv h
  obtain ⟨c, h3, h⟩ := bind_inv h
  obtain ⟨d, h4, h⟩ := bind_inv h
  obtain ⟨e, h5, h⟩ := bind_inv h
  have i2 : Same a b := forN_inv (fun _ x => Same a x) h2 (Same.refl _) fun i _ x y hx hb => hx.trans (coresLr_same hb)
  have i5 : Same d e := forN_inv (fun _ x => Same d x) h5 (Same.refl _) fun i _ x y hx hb => hx.trans (coresRl_same hb)
  exact ((((firstLr_same h1).trans i2).trans (rawCore_same h3)).trans (lastRl_same h4)).trans (i5.trans (rawCore_same h))

theorem tcLoop_same {below : Tt.TT ℝ → Tt.TT ℝ → Bool} {maxiter : Nat} : ∀ (fuel iter : Nat) (s s' : S),
    Tc.loop qr mv rnd A p below maxiter fuel iter s = .ok s' → Same s s' := by
  intro fuel
  induction fuel with
  | zero => intro iter s s' h; exact absurd h (by simp [Tc.loop])
  | succ fuel ih =>
    intro iter s s' h
    rw [Tc.loop] at h
    obtain ⟨a, h1, h⟩ := bind_inv h
    split at h
    · cases h; exact pass_same h1
    · exact (pass_same h1).trans (ih _ _ _ h)

/-- The cross approximation keeps the shapes of the index sets. -/
theorem ttCross_same {below : Tt.TT ℝ → Tt.TT ℝ → Bool} {maxiter : Nat} {left right : List (List (List Nat))} {cache : List (Cache ℝ)}
    {r : Tt.TT ℝ × S} (h : ttCross qr mv rnd A p below maxiter left right cache = .ok r) :
    shs r.2.left = shs left ∧ shs r.2.right = shs right := by
  unfold ttCross at h
  obtain ⟨a, h1, h⟩ := bind_inv h
  obtain ⟨b, h2, h⟩ := bind_inv h
  cases h
  have i1 : Same ⟨left, right, cache, []⟩ a := by
    refine forN_inv (fun _ x => Same ⟨left, right, cache, []⟩ x) h1 (Same.refl _) ?_
    intro i _ x y hx hb
    obtain ⟨t, g, hb⟩ := bind_inv hb
    cases hb
    obtain ⟨e1, e2⟩ := setupCore_same g
    exact ⟨by dsimp only; rw [e1]; exact hx.1, by dsimp only; rw [e2]; exact hx.2⟩
  exact i1.trans (tcLoop_same _ _ _ _ h2)

/-- `tt_cross` on the options of the adaptation; `rest` are the stored fibers and the number of calls. -/
noncomputable def crossOf (qr : Nat → Nat → List ℝ → List ℝ) (mv : List ℝ → Nat → Nat → List Nat → List ℝ → C (Int × List Nat × List ℝ))
    (rnd : ℚ → ℚ) (A : Nat → List Nat → List ℝ) (below : Tt.TT ℝ → Tt.TT ℝ → Bool) (maxit : Nat) (o : O (List (Cache ℝ) × Nat)) :
    C (Tt.TT ℝ × O (List (Cache ℝ) × Nat)) := do
  let r ← ttCross qr mv rnd A ⟨o.dim, o.nvals, o.ranks⟩ below maxit o.left o.right o.rest.1
  .ok (r.1, { o with left := r.2.left, right := r.2.right, rest := (r.2.cache, o.rest.2 + 1) })

theorem shs_get {l l' : List (List (List Nat))} (h : shs l' = shs l) {i n m : Nat}
    (hl : ∃ s, l[i]? = some s ∧ s.length = n ∧ ∀ ix ∈ s, ix.length = m) :
    ∃ s, l'[i]? = some s ∧ s.length = n ∧ ∀ ix ∈ s, ix.length = m := by
  obtain ⟨s, h1, h2, h3⟩ := hl
  have h4 : (shs l')[i]? = some (sh s) := by rw [h, shs, List.getElem?_map, h1]; rfl
  rw [shs, List.getElem?_map] at h4
  obtain ⟨s', h5, h6⟩ := Option.map_eq_some_iff.1 h4
  refine ⟨s', h5, ?_, fun ix hx => ?_⟩
  · have := congrArg List.length h6
    rw [sh, sh, List.length_map, List.length_map] at this
    rw [this, h2]
  · have : ix.length ∈ sh s := by rw [← h6]; exact List.mem_map.2 ⟨ix, hx, rfl⟩
    obtain ⟨iy, h7, h8⟩ := List.mem_map.1 this
    rw [← h8, h3 iy h7]

/-- **C147** The modelled sweeps satisfy the contract used for the adaptation. -/
theorem crossOf_law {below : Tt.TT ℝ → Tt.TT ℝ → Bool} {maxit : Nat} : CrossLaw (crossOf qr mv rnd A below maxit) (fun x => x.2) := by
  intro o a ho h
  unfold crossOf at h
  obtain ⟨r, h1, h⟩ := bind_inv h
  cases h
  obtain ⟨e1, e2⟩ := ttCross_same h1
  exact ⟨⟨ho.ranks, fun i hi => shs_get e1 (ho.left i hi), fun i hi => shs_get e2 (ho.right i hi)⟩, rfl, rfl, rfl, rfl⟩

/-- **C147** The adaptation over the modelled sweeps: every returned train is the rounding of a cross approximation with fitting options, the
sweeps ran at most `maxiter + 2` times, and fewer only when rounding changed every inner rank; in that case the options still fit. -/
theorem ttAdapt_value {below : Tt.TT ℝ → Tt.TT ℝ → Bool} {maxit kr maxiter : Nat} {round : Tt.TT ℝ → Tt.TT ℝ} {o : O (List (Cache ℝ) × Nat)}
    (ho : Fit o) {r : Tt.TT ℝ × O (List (Cache ℝ) × Nat)}
    (h : adapt (crossOf qr mv rnd A below maxit) round (fun t => t.ranks) kr maxiter o = .ok r) :
    o.rest.2 + 1 ≤ r.2.rest.2 ∧ r.2.rest.2 ≤ o.rest.2 + maxiter + 2 ∧
    (∃ (o₁ : O (List (Cache ℝ) × Nat)) (s : Tt.TT ℝ × S), Fit o₁ ∧ o₁.dim = o.dim ∧ o₁.nvals = o.nvals ∧
      ttCross qr mv rnd A ⟨o₁.dim, o₁.nvals, o₁.ranks⟩ below maxit o₁.left o₁.right o₁.rest.1 = .ok s ∧ r.1 = round s.1 ∧
      Kicked o.dim kr r.1.ranks o₁.ranks r.2.ranks) ∧
    (0 < maxiter → r.2.rest.2 < o.rest.2 + maxiter + 2 →
      Fit r.2 ∧ ∀ i, 1 ≤ i → i < o.dim → r.2.ranks.getD i 0 ≠ r.1.ranks.getD i 0) := by
  obtain ⟨k, d, h1, h2, h3, h4⟩ := adapt_value crossOf_law ho h
  have h1' := h1
  obtain ⟨o₁, a, g1, g2, g3, g4, g5, _, _, g8, _, _, _, _, g13, _⟩ := h1'
  dsimp only at g13
  refine ⟨by omega, by split at h3 <;> omega, ?_, ?_⟩
  · unfold crossOf at g4
    obtain ⟨s, g4', g⟩ := bind_inv g4
    cases g
    exact ⟨o₁, s, g1, g2, g3, g4', g5, g8⟩
  · intro hm hlt
    rw [if_neg (by omega)] at h4
    have hd : d = true := h4.resolve_right (by omega)
    rw [hd] at h1
    exact converged_fit (by simpa using h1)

/-- Three modes of two values, all entries one, ranks one, without further passes: the hypotheses are met and the rank was kept. -/
example {rnd : ℚ → ℚ} (hr : RoundNearest rnd) (below : Tt.TT ℝ → Tt.TT ℝ → Bool) :
    ∃ r, adapt (crossOf Sk.qrId (Sk.maxvol (1 / 100) Sk.luId Sk.invAny) rnd (fun _ _ => [1, 1]) below 5) id (fun t => t.ranks) 1 0
      ⟨3, [2, 2, 2], [1, 1, 1, 1], [[[]], [[0]], [[0, 0]]], [[[0, 0]], [[0]], [[]]], ([⟨[], []⟩, ⟨[], []⟩, ⟨[], []⟩], 0)⟩ = .ok r ∧
      r.2.rest.2 ≤ 2 ∧ r.2.ranks.getD 1 0 = 2 := by
  obtain ⟨t, s', h1, _, h3⟩ := ttCross_ones hr below
  have hf : Fit (⟨3, [2, 2, 2], [1, 1, 1, 1], [[[]], [[0]], [[0, 0]]], [[[0, 0]], [[0]], [[]]],
      ([⟨[], []⟩, ⟨[], []⟩, ⟨[], []⟩], 0)⟩ : O (List (Cache ℝ) × Nat)) := by
    refine ⟨rfl, fun i hi => ?_, fun i hi => ?_⟩
    · have : i < 3 := hi
      interval_cases i <;> exact ⟨_, rfl, rfl, by simp⟩
    · have : i < 3 := hi
      interval_cases i <;> exact ⟨_, rfl, rfl, by simp⟩
  have e : adapt (crossOf Sk.qrId (Sk.maxvol (1 / 100) Sk.luId Sk.invAny) rnd (fun _ _ => [1, 1]) below 5) id (fun t => t.ranks) 1 0
      ⟨3, [2, 2, 2], [1, 1, 1, 1], [[[]], [[0]], [[0, 0]]], [[[0, 0]], [[0]], [[]]], ([⟨[], []⟩, ⟨[], []⟩, ⟨[], []⟩], 0)⟩ =
      .ok (t, ⟨3, [2, 2, 2], [1, 2, 2, 1], s'.left, s'.right, (s'.cache, 1)⟩) := by
    rw [adapt, stage, crossOf]
    dsimp only
    rw [h1, bind_ok, bind_ok]
    dsimp only [id]
    rw [h3]
    rfl
  refine ⟨_, e, ?_, rfl⟩
  exact (ttAdapt_value hf e).2.1

end C3.Adp
