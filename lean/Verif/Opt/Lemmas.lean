/-
Helper lemmas for the optimizers: projected moves, norms, bound checks, counters.
-/
import Verif.Opt.Model
import Verif.Opt.Spec
import Verif.Lin.AlgProps
import Mathlib.Tactic.Linarith
import Mathlib.Tactic.Ring

set_option linter.unusedSectionVars false

namespace C3.Opt
open Finset

variable {K : Type} [Field K] [LinearOrder K] [IsStrictOrderedRing K]

/-- The buffers of the options have the right length and the bounds are ordered. -/
structure Par.WF (p : Par K) : Prop where
  lb : p.lb.length = p.d
  ub : p.ub.length = p.d
  le : ∀ i < p.d, p.lb.getD i 0 ≤ p.ub.getD i 0

theorem copy_ok {d : Nat} {x b : List K} (hx : x.length = d) (hb : b.length = d) :
    forN d (fun ii b => do
      let v ← rd x ii
      wr b ii v) b = .ok x := by
  rw [forN_fill_all (fun i => x.getD i 0) hb]
  · congr 1
    apply List.ext_getElem
    · simp [hx]
    · intro i h1 h2
      simp [h2]
  · intro i hi b hb
    rw [rd_getD 0 (by omega)]; rfl

theorem neg_ok {d : Nat} {x b : List K} (hx : x.length = d) (hb : b.length = d) :
    forN d (fun ii b => do
      let v ← rd x ii
      wr b ii (-v)) b = .ok (x.map (fun v => -v)) := by
  rw [forN_fill_all (fun i => -x.getD i 0) hb]
  · congr 1
    apply List.ext_getElem
    · simp [hx]
    · intro i h1 h2
      simp at h2
      simp [h2]
  · intro i hi b hb
    rw [rd_getD 0 (by omega)]; rfl

theorem projStep_length (d : Nat) (lb ub x dir : List K) (t : K) : (projStep d lb ub x dir t).length = d := by simp [projStep]

theorem projStep_getD {d i : Nat} (lb ub x dir : List K) (t : K) (hi : i < d) :
    (projStep d lb ub x dir t).getD i 0 = max (lb.getD i 0) (min (x.getD i 0 + t * dir.getD i 0) (ub.getD i 0)) := by
  simp [projStep, hi]

theorem projStep_inBox {d : Nat} {lb ub : List K} (x dir : List K) (t : K) (h : ∀ i < d, lb.getD i 0 ≤ ub.getD i 0) :
    InBox d lb ub (projStep d lb ub x dir t) := by
  intro i hi
  rw [projStep_getD _ _ _ _ _ hi]
  exact ⟨le_max_left _ _, max_le (h i hi) (min_le_right _ _)⟩

theorem wr_self {b : List K} {i : Nat} (h : i < b.length) : wr b i (b.getD i 0) = .ok b := by
  rw [wr_ok _ h]; congr 1
  simp [h]

/-- `c3opt_ls_x_move` computes the projected step. -/
theorem xMove_ok {d : Nat} (t : K) {dir x newx lb ub : List K} (hdir : dir.length = d) (hx : x.length = d)
    (hn : newx.length = d) (hl : lb.length = d) (hu : ub.length = d) (h : ∀ i < d, lb.getD i 0 ≤ ub.getD i 0) :
    xMove d t dir x newx lb ub = .ok (projStep d lb ub x dir t) := by
  rw [xMove, copy_ok hx hn, bind_ok]
  rw [C3.Lin.forN_inplace (body := fun ii b => do
    let v ← rd b ii
    let w ← rd dir ii
    wr b ii (v + t * w)) hx (fun i v => v + t * dir.getD i 0) (by
      intro i hi b hb e
      rw [rd_getD 0 (by omega), bind_ok, rd_getD 0 (by omega), bind_ok, e]), bind_ok]
  rw [C3.Lin.forN_inplace (a := (List.range d).map fun i => x.getD i 0 + t * dir.getD i 0) (by simp)
    (fun i v => max (lb.getD i 0) (min v (ub.getD i 0)))]
  · congr 1
    apply List.map_congr_left
    intro i hi
    have hi : i < d := by simpa using hi
    simp [hi]
  · intro i hi b hb e
    rw [rd_getD 0 (by omega), bind_ok, rd_getD 0 (by omega), bind_ok, e]
    have hle := h i hi
    split
    · next h1 => rw [max_eq_left (le_trans (min_le_left _ _) h1)]
    · next h1 =>
      rw [not_le] at h1
      rw [rd_getD 0 (by omega), bind_ok]
      split
      · next h2 => rw [min_eq_right h2, max_eq_right hle]
      · next h2 =>
        rw [ge_iff_le, not_le] at h2
        rw [min_eq_left h2.le, max_eq_right h1.le, ← e, wr_self (by omega)]; rfl

theorem norm2diff_ok (sq : K → K) {a b : List K} {n : Nat} (ha : a.length = n) (hb : b.length = n) :
    norm2diff sq a b n = .ok (sq (dist2 n a b)) := by
  rw [norm2diff, forN_sum (fun i => (a.getD i 0 - b.getD i 0) ^ 2)]
  · rw [bind_ok, zero_add]; rfl
  · intro i hi s
    rw [rd_getD 0 (by omega), bind_ok, rd_getD 0 (by omega), bind_ok]; rfl

theorem dot_ok {d : Nat} {x y : List K} (hx : x.length = d) (hy : y.length = d) : ddot d x 1 y 1 = .ok (dot d x y) := by
  rw [ddot_ok (by intro i hi; omega) (by intro i hi; omega)]
  simp [dot]

open Classical in
theorem violates_ok {d : Nat} {x lb ub : List K} (hx : x.length = d) (hl : lb.length = d) (hu : ub.length = d) :
    violates d x lb ub = .ok (decide (¬ InBox d lb ub x)) := by
  obtain ⟨b, h1, h2⟩ := forN_spec (body := fun ii bad =>
    if bad then pure true
    else do
      let v ← rd x ii
      let l ← rd lb ii
      if v < l then pure true
      else do
        let u ← rd ub ii
        pure (decide (v > u))) (n := d) (s := false) (I := fun k b => b = decide (¬ InBox k lb ub x))
    (by simp [InBox]) (by
      intro i hi s hs
      by_cases hb : InBox i lb ub x
      · have : s = false := by simpa [hb] using hs
        rw [this, if_neg (by simp)]
        rw [rd_getD 0 (by omega), bind_ok, rd_getD 0 (by omega), bind_ok]
        have key : InBox (i + 1) lb ub x ↔ lb.getD i 0 ≤ x.getD i 0 ∧ x.getD i 0 ≤ ub.getD i 0 := by
          constructor
          · intro h; exact h i (by omega)
          · intro h k hk
            by_cases e : k = i
            · rw [e]; exact h
            · exact hb k (by omega)
        split
        · next h1 => exact ⟨true, rfl, by rw [eq_comm, decide_eq_true_iff, key]; exact fun h => absurd h.1 (by first | exact not_le.mpr h1 | exact not_lt.mpr h1)⟩
        · next h1 =>
          rw [rd_getD 0 (by omega), bind_ok]
          exact ⟨_, rfl, by rw [decide_eq_decide, key, not_and, not_le]; exact ⟨fun h _ => h, fun h => h (not_lt.mp h1)⟩⟩
      · have : s = true := by simpa [hb] using hs
        rw [this, if_pos rfl]
        refine ⟨true, rfl, ?_⟩
        have : ¬ InBox (i + 1) lb ub x := fun h => hb (fun k hk => h k (by omega))
        simp [this])
  rw [violates, h1, h2]

open Classical in
theorem onBound_ok {d : Nat} {x lb ub : List K} (hx : x.length = d) (hl : lb.length = d) (hu : ub.length = d) :
    onBound d x lb ub = .ok (decide (¬ Inside d lb ub x)) := by
  obtain ⟨b, h1, h2⟩ := forN_spec (body := fun ii b =>
    if b then pure true
    else do
      let v ← rd x ii
      let l ← rd lb ii
      if v ≤ l then pure true
      else do
        let u ← rd ub ii
        pure (decide (v ≥ u))) (n := d) (s := false) (I := fun k b => b = decide (¬ Inside k lb ub x))
    (by simp [Inside]) (by
      intro i hi s hs
      by_cases hb : Inside i lb ub x
      · have : s = false := by simpa [hb] using hs
        rw [this, if_neg (by simp)]
        rw [rd_getD 0 (by omega), bind_ok, rd_getD 0 (by omega), bind_ok]
        have key : Inside (i + 1) lb ub x ↔ lb.getD i 0 < x.getD i 0 ∧ x.getD i 0 < ub.getD i 0 := by
          constructor
          · intro h; exact h i (by omega)
          · intro h k hk
            by_cases e : k = i
            · rw [e]; exact h
            · exact hb k (by omega)
        split
        · next h1 => exact ⟨true, rfl, by rw [eq_comm, decide_eq_true_iff, key]; exact fun h => absurd h.1 (by first | exact not_le.mpr h1 | exact not_lt.mpr h1)⟩
        · next h1 =>
          rw [rd_getD 0 (by omega), bind_ok]
          exact ⟨_, rfl, by rw [decide_eq_decide, key, not_and, ge_iff_le, ← not_lt]; exact ⟨fun h _ => h, fun h => h (not_le.mp h1)⟩⟩
      · have : s = true := by simpa [hb] using hs
        rw [this, if_pos rfl]
        refine ⟨true, rfl, ?_⟩
        have : ¬ Inside (i + 1) lb ub x := fun h => hb (fun k hk => h k (by omega))
        simp [this])
  rw [onBound, h1, h2]

/-- The counters after some more calls of the objective: at most `n` calls were added, all at points with property `P`, and each
was counted once. -/
def Tr.Ext (P : List K → Prop) (n : Nat) (a b : Tr K) : Prop :=
  ∃ L, b.pts = L ++ a.pts ∧ L.length ≤ n ∧ b.nev = a.nev + L.length ∧ a.ngv ≤ b.ngv ∧ b.ngv ≤ a.ngv + L.length ∧ ∀ y ∈ L, P y

theorem Tr.Ext.refl (P : List K → Prop) (n : Nat) (a : Tr K) : Tr.Ext P n a a := ⟨[], by simp⟩

theorem Tr.Ext.trans {P : List K → Prop} {n m k : Nat} {a b c : Tr K} (h : Tr.Ext P n a b) (h' : Tr.Ext P m b c) (hk : n + m ≤ k) :
    Tr.Ext P k a c := by
  obtain ⟨L, h1, h2, h3, h4, h5, h6⟩ := h
  obtain ⟨M, g1, g2, g3, g4, g5, g6⟩ := h'
  refine ⟨M ++ L, by rw [g1, h1, List.append_assoc], by simp; omega, by simp; omega, by omega, by simp; omega, ?_⟩
  intro y hy
  rcases List.mem_append.mp hy with hy | hy
  · exact g6 y hy
  · exact h6 y hy

theorem Tr.Ext.mono {P : List K → Prop} {n m : Nat} {a b : Tr K} (h : Tr.Ext P n a b) (hk : n ≤ m) : Tr.Ext P m a b :=
  h.trans (Tr.Ext.refl P 0 b) hk

theorem Tr.ev_ext {P : List K → Prop} (a : Tr K) {x : List K} (h : P x) : Tr.Ext P 1 a (a.ev x) :=
  ⟨[x], by simp [Tr.ev, h]⟩

theorem Tr.evg_ext {P : List K → Prop} (a : Tr K) {x : List K} (h : P x) : Tr.Ext P 1 a (a.evg x) :=
  ⟨[x], by simp [Tr.evg, h]⟩

theorem badPar_none {alpha beta : K} : badPar alpha beta = none ↔ 0 < alpha ∧ alpha < 1 / 2 := by
  rw [badPar]
  have hb : ¬ (beta ≤ 0 ∧ beta ≥ 1) := by
    rintro ⟨h1, h2⟩
    linarith
  by_cases h : alpha ≤ 0 ∨ alpha ≥ 1 / 2
  · rw [if_pos h]
    constructor
    · simp
    · rintro ⟨h1, h2⟩
      rcases h with h | h <;> linarith
  · rw [if_neg h, if_neg hb]
    push Not at h
    simp only [true_iff]
    exact ⟨h.1, h.2⟩

theorem badPar_some {alpha beta : K} {e : Int} (h : badPar alpha beta = some e) : e = -1 ∧ ¬ (0 < alpha ∧ alpha < 1 / 2) := by
  have hn : ¬ (0 < alpha ∧ alpha < 1 / 2) := by
    rw [← badPar_none (beta := beta), h]; simp
  have hb : ¬ (beta ≤ 0 ∧ beta ≥ 1) := by
    rintro ⟨h1, h2⟩
    linarith
  rw [badPar, if_neg hb] at h
  split at h
  · exact ⟨by simpa using h.symm, hn⟩
  · simp at h

end C3.Opt
