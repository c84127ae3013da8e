/-
C107: what the train made by a sweep is worth: it interpolates at the nodes, and it is exact when the nodes span.
-/
import Verif.Xapp.Sweep

set_option linter.unusedSectionVars false

namespace C3.Xa
open Finset C3.Ft C3.Round C3.Mv C3.Fw C3.Ind
variable {U X : Type} [Zero X] {e : Ev ℝ U X} {F : Fam U X} {I : Integ ℝ X}

/-- Product of the last `n` cores, starting with number `k`, first column. -/
noncomputable def tl (e : Ev ℝ U X) (Qs : Nat → Qma U) (k n : Nat) (w : List X) (z : Nat) : ℝ :=
  chain (mats e ((List.range' k n).map Qs) w) z

theorem tl_succ {Qs : Nat → Qma U} {k n : Nat} {x : X} {w : List X} {z : Nat} :
    tl e Qs k (n + 1) (x :: w) z = ∑ c ∈ range (Qs k).ncols, (Qs k).val e x z c * tl e Qs (k + 1) n w c := by
  rw [tl, List.range'_succ, List.map_cons, chain_cons]; rfl

/-- **Spanning from the right**: for each tail the function is a combination of its values at the tails in `S`. -/
def RSpan (F : Fam U X) (f : List X → ℝ) (d k : Nat) (S : List (List X)) : Prop :=
  ∀ w, w.length = d - k → On F k w → ∃ h : Nat → ℝ, ∀ y, y.length = k → On F 0 y →
    f (y ++ w) = ∑ b ∈ range S.length, h b * f (y ++ S.getD b [])

/-- **Spanning from the left**: for each head the function is a combination of its values at the heads in `L`. -/
def LSpan (F : Fam U X) (f : List X → ℝ) (d k : Nat) (L : List (List X)) : Prop :=
  ∀ y, y.length = k → On F 0 y → ∃ g : Nat → ℝ, ∀ w, w.length = d - k → On F k w →
    f (y ++ w) = ∑ a ∈ range L.length, g a * f (L.getD a [] ++ w)

theorem lspan_zero {f : List X → ℝ} {d : Nat} : LSpan F f d 0 [[]] := by
  intro y hy _
  refine ⟨fun _ => 1, fun w _ _ => ?_⟩
  rw [List.length_eq_zero_iff.1 hy]
  simp

theorem rspan_end {f : List X → ℝ} {d : Nat} : RSpan F f d d [[]] := by
  intro w hw _
  refine ⟨fun _ => 1, fun y _ _ => ?_⟩
  rw [List.length_eq_zero_iff.1 (by omega : w.length = 0)]
  simp

/-- The new left index set spans when the old one and the right one do. -/
theorem lspan_step {f : List X → ℝ} {d k : Nat} (hk : k < d) {L L' S : List (List X)} {Q : Qma U} (h : LrC e F f k L L' S Q)
    (hL : LSpan F f d k L) (hS : RSpan F f d (k + 1) S) (hLl : ∀ r ∈ L, r.length = k) (hLo : ∀ r ∈ L, On F 0 r)
    (hL'l : ∀ r ∈ L', r.length = k + 1) (hL'o : ∀ r ∈ L', On F 0 r) : LSpan F f d (k + 1) L' := by
  intro y' hy' hyo'
  obtain ⟨y, x, rfl⟩ : ∃ y x, y' = y ++ [x] :=
    ⟨_, _, (List.dropLast_append_getLast (List.ne_nil_of_length_pos (by omega : 0 < y'.length))).symm⟩
  rw [List.length_append, List.length_singleton] at hy'
  have hyl : y.length = k := by omega
  rw [On.append, hyl, Nat.zero_add, On.cons] at hyo'
  obtain ⟨g, hg⟩ := hL y hyl hyo'.1
  refine ⟨fun z => ∑ a ∈ range L.length, g a * Q.val e x a z, fun w hw hwo => ?_⟩
  obtain ⟨hh, hhh⟩ := hS w hw hwo
  rw [List.append_assoc, List.singleton_append, hg (x :: w) (by rw [List.length_cons]; omega) (On.cons.2 ⟨hyo'.2.1, hwo⟩)]
  have key : ∀ a < L.length, f (L.getD a [] ++ x :: w) = ∑ z ∈ range L'.length, Q.val e x a z * f (L'.getD z [] ++ w) := by
    intro a ha
    have h1 := hhh (L.getD a [] ++ [x]) (by rw [List.length_append, hLl _ (getD_mem ha)]; rfl)
      (On.append.2 ⟨hLo _ (getD_mem ha), by rw [hLl _ (getD_mem ha), Nat.zero_add]; exact On.cons.2 ⟨hyo'.2.1, On.nil⟩⟩)
    rw [List.append_assoc, List.singleton_append] at h1
    rw [h1, sum_congr rfl fun b hb => by
      rw [List.append_assoc, List.singleton_append, h.eq x hyo'.2.1 a ha b (mem_range.1 hb), mul_sum], sum_comm]
    refine sum_congr rfl fun z hz => ?_
    rw [hhh _ (hL'l _ (getD_mem (mem_range.1 hz))) (hL'o _ (getD_mem (mem_range.1 hz))), mul_sum]
    exact sum_congr rfl fun b _ => by ring
  rw [sum_congr rfl fun a ha => by rw [key a (mem_range.1 ha), mul_sum], sum_comm]
  refine sum_congr rfl fun z _ => ?_
  rw [sum_mul]
  exact sum_congr rfl fun a _ => by ring

theorem RightAt.len {d : Nat} {rk : Nat → Nat} {right : List (Option (CIndex X))} {j : Nat} {S : List (List X)}
    (h : RightAt F d rk right j S) : ∀ r ∈ S, r.length = d - 1 - j := h.choose_spec.2.1.len

theorem RightAt.on {d : Nat} {rk : Nat → Nat} {right : List (Option (CIndex X))} {j : Nat} {S : List (List X)}
    (h : RightAt F d rk right j S) : ∀ r ∈ S, On F (j + 1) r := h.choose_spec.2.1.on

theorem LeftAt.len {rk : Nat → Nat} {left : List (Option (CIndex X))} {j : Nat} {S : List (List X)}
    (h : LeftAt F rk left j S) : ∀ r ∈ S, r.length = j := h.choose_spec.2.1.len

theorem LeftAt.on {rk : Nat → Nat} {left : List (Option (CIndex X))} {j : Nat} {S : List (List X)}
    (h : LeftAt F rk left j S) : ∀ r ∈ S, On F 0 r := h.choose_spec.2.1.on

/-- All left index sets span after the sweep from left to right. -/
theorem lspan_all {f : List X → ℝ} {d : Nat} {rk : Nat → Nat} {Ss Ls : Nat → List (List X)} {Qs : Nat → Qma U} {s : Xs U X}
    (hs : LrInv e F f d rk Ss (d - 1) Ls Qs s) (h0 : Ls 0 = [[]]) (hS : ∀ j < d, RSpan F f d (j + 1) (Ss j)) :
    ∀ j < d, LSpan F f d j (Ls j) := by
  intro j
  induction j with
  | zero => intro _; rw [h0]; exact lspan_zero
  | succ j ih =>
    intro hj
    exact lspan_step (by omega) (hs.cores j (by omega)).2 (ih (by omega)) (hS j (by omega)) (hs.left j (by omega)).len
      (hs.left j (by omega)).on (hs.left (j + 1) (by omega)).len (hs.left (j + 1) (by omega)).on

/-- The cores of the sweep from right to left are the unit vectors at their nodes. -/
theorem tl_node {f : List X → ℝ} {d : Nat} {rk : Nat → Nat} {Ss Ls : Nat → List (List X)} {Qs : Nat → Qma U} {s : Xs U X}
    (hs : RlInv e F f d rk Ls 1 Ss Qs s) (hd : Ss (d - 1) = [[]]) :
    ∀ n k, k + n + 1 = d → ∀ z < (Ss k).length, ∀ z' < (Ss k).length,
      tl e Qs (k + 1) n ((Ss k).getD z []) z' = if z' = z then 1 else 0 := by
  intro n
  induction n with
  | zero =>
    intro k hk z hz z' hz'
    have : k = d - 1 := by omega
    subst this
    rw [hd] at hz hz' ⊢
    simp at hz hz'
    subst hz; subst hz'
    rfl
  | succ n ih =>
    intro k hk z hz z' hz'
    have hC := (hs.cores (k + 1) (by omega) (by omega)).2
    rw [Nat.add_sub_cancel] at hC
    obtain ⟨b, x, hb, hx, e1, e2⟩ := hC.nest z hz
    rw [e1, tl_succ, hC.ncols, sum_congr rfl fun c hc => by
      rw [ih (k + 1) (by omega) b hb c (mem_range.1 hc)]]
    simp only [mul_ite, mul_one, mul_zero]
    rw [Finset.sum_ite_eq' , if_pos (mem_range.2 hb), e2 z' hz']

/-- When the left index sets span, the cores of the sweep from right to left continue the function from its values at the
new right index set. -/
theorem tl_exact {f : List X → ℝ} {d : Nat} {rk : Nat → Nat} {Ss Ls : Nat → List (List X)} {Qs : Nat → Qma U} {s : Xs U X}
    (hs : RlInv e F f d rk Ls 1 Ss Qs s) (hd : Ss (d - 1) = [[]]) (hL : ∀ j < d, LSpan F f d j (Ls j)) :
    ∀ n k, k + n + 1 = d → ∀ w, w.length = n → On F (k + 1) w → ∀ y, y.length = k + 1 → On F 0 y →
      f (y ++ w) = ∑ z ∈ range (Ss k).length, f (y ++ (Ss k).getD z []) * tl e Qs (k + 1) n w z := by
  intro n
  induction n with
  | zero =>
    intro k hk w hw _ y _ _
    have : k = d - 1 := by omega
    subst this
    rw [List.length_eq_zero_iff.1 hw, hd]
    simp [tl, mats, chain]
  | succ n ih =>
    intro k hk w' hw' hwo' y hy hyo
    obtain ⟨x, w, rfl⟩ := List.exists_cons_of_length_eq_add_one hw'
    rw [List.length_cons] at hw'
    rw [On.cons] at hwo'
    have hC := (hs.cores (k + 1) (by omega) (by omega)).2
    rw [Nat.add_sub_cancel] at hC
    have h1 := ih (k + 1) (by omega) w (by omega) hwo'.2 (y ++ [x]) (by rw [List.length_append, hy]; rfl)
      (On.append.2 ⟨hyo, by rw [hy, Nat.zero_add]; exact On.cons.2 ⟨hwo'.1, On.nil⟩⟩)
    rw [List.append_assoc, List.singleton_append] at h1
    obtain ⟨g, hg⟩ := hL (k + 1) (by omega) y hy hyo
    have hS := hs.right (k + 1) (by omega) (by omega)
    have hS' := hs.right k (by omega) (by omega)
    have key : ∀ b < (Ss (k + 1)).length, f (y ++ x :: (Ss (k + 1)).getD b []) =
        ∑ z ∈ range (Ss k).length, f (y ++ (Ss k).getD z []) * (Qs (k + 1)).val e x z b := by
      intro b hb
      rw [hg _ (by rw [List.length_cons, hS.len _ (getD_mem hb)]; omega) (On.cons.2 ⟨hwo'.1, hS.on _ (getD_mem hb)⟩),
        sum_congr rfl fun a ha => by rw [hC.eq x hwo'.1 a (mem_range.1 ha) b hb, mul_sum], sum_comm]
      refine sum_congr rfl fun z hz => ?_
      rw [hg _ (by rw [hS'.len _ (getD_mem (mem_range.1 hz))]; omega) (hS'.on _ (getD_mem (mem_range.1 hz))), sum_mul]
      exact sum_congr rfl fun a _ => by ring
    rw [h1, sum_congr rfl fun b hb => by
      rw [List.append_assoc, List.singleton_append, key b (mem_range.1 hb), sum_mul], sum_comm]
    refine sum_congr rfl fun z _ => ?_
    rw [tl_succ, hC.ncols, mul_sum]
    exact sum_congr rfl fun b _ => by ring

theorem rspan_all {f : List X → ℝ} {d : Nat} {rk : Nat → Nat} {Ss Ls : Nat → List (List X)} {Qs : Nat → Qma U} {s : Xs U X}
    (hs : RlInv e F f d rk Ls 1 Ss Qs s) (hd : Ss (d - 1) = [[]]) (hL : ∀ j < d, LSpan F f d j (Ls j)) :
    ∀ j < d, RSpan F f d (j + 1) (Ss j) := by
  intro j hj w hw hwo
  refine ⟨fun z => tl e Qs (j + 1) (d - (j + 1)) w z, fun y hy hyo => ?_⟩
  rw [tl_exact hs hd hL (d - (j + 1)) j (by omega) w hw hwo y hy hyo]
  exact sum_congr rfl fun z _ => mul_comm _ _

theorem value_split {Qs : Nat → Qma U} {d : Nat} (hd : 0 < d) {x : X} {w : List X} :
    value e ((List.range d).map Qs) (x :: w) = ∑ z ∈ range (Qs 0).ncols, (Qs 0).val e x 0 z * tl e Qs 1 (d - 1) w z := by
  obtain ⟨n, rfl⟩ : ∃ n, d = n + 1 := ⟨d - 1, by omega⟩
  rw [value, List.range_eq_range', List.range'_succ, List.map_cons, chain_cons]; rfl

/-- The train interpolates the function on the lines through the nodes. -/
theorem value_node {f : List X → ℝ} {d : Nat} (hd0 : 0 < d) {rk : Nat → Nat} {Ss Ls : Nat → List (List X)} {Qs : Nat → Qma U}
    {s : Xs U X} (hs : RlInv e F f d rk Ls 1 Ss Qs s) (hd : Ss (d - 1) = [[]]) (hL0 : Ls 0 = [[]])
    (h0 : FibC e F f 0 (Ls 0) (Ss 0) (Qs 0)) {x : X} (hx : F.D 0 x) {z : Nat} (hz : z < (Ss 0).length) :
    value e ((List.range d).map Qs) (x :: (Ss 0).getD z []) = f (x :: (Ss 0).getD z []) := by
  rw [value_split hd0, h0.ncols, sum_congr rfl fun c hc => by
    rw [tl_node hs hd (d - 1) 0 (by omega) z hz c (mem_range.1 hc)]]
  simp only [mul_ite, mul_one, mul_zero]
  rw [Finset.sum_ite_eq', if_pos (mem_range.2 hz), h0.val x hx 0 (by rw [hL0]; exact Nat.zero_lt_one) z hz, hL0]
  rfl

theorem value_exact {f : List X → ℝ} {d : Nat} (hd0 : 0 < d) {rk : Nat → Nat} {Ss Ls : Nat → List (List X)} {Qs : Nat → Qma U}
    {s : Xs U X} (hs : RlInv e F f d rk Ls 1 Ss Qs s) (hd : Ss (d - 1) = [[]]) (hL0 : Ls 0 = [[]])
    (h0 : FibC e F f 0 (Ls 0) (Ss 0) (Qs 0)) (hL : ∀ j < d, LSpan F f d j (Ls j)) {x : List X} (hx : x.length = d) (hxo : On F 0 x) :
    value e ((List.range d).map Qs) x = f x := by
  obtain ⟨x, w, rfl⟩ := List.exists_cons_of_ne_nil (List.ne_nil_of_length_pos (by omega : 0 < x.length))
  rw [List.length_cons] at hx
  rw [On.cons] at hxo
  have := tl_exact hs hd hL (d - 1) 0 (by omega) w (by omega) hxo.2 [x] rfl (On.cons.2 ⟨hxo.1, On.nil⟩)
  rw [List.singleton_append] at this
  rw [this, value_split hd0, h0.ncols]
  refine sum_congr rfl fun z hz => ?_
  rw [h0.val x hxo.1 0 (by rw [hL0]; exact Nat.zero_lt_one) z (mem_range.1 hz), hL0]
  rfl

end C3.Xa
