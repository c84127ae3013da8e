/-
C107: the sweeps.
-/
import Verif.Xapp.Step

set_option linter.unusedSectionVars false

namespace C3.Xa
open Finset C3.Ft C3.Round C3.Mv C3.Fw C3.Ind
variable {U X : Type} [Zero X] {e : Ev ℝ U X} {F : Fam U X} {I : Integ ℝ X}

/-- Ranks: one more than there are dimensions, positive, 1 at both ends. -/
structure RkOk (d : Nat) (ranks : List Nat) (rk : Nat → Nat) : Prop where
  eq : ranks = (List.range (d + 1)).map rk
  first : rk 0 = 1
  last : rk d = 1
  pos : ∀ k ≤ d, 0 < rk k

theorem RkOk.get {d : Nat} {ranks : List Nat} {rk : Nat → Nat} (h : RkOk d ranks rk) {k : Nat} (hk : k ≤ d) :
    ranks[k]? = some (rk k) := by
  rw [h.eq, List.getElem?_map, List.getElem?_range (by omega)]
  rfl

/-- Pointer number `j` stands for the left index set `L`. -/
def LeftAt (F : Fam U X) (rk : Nat → Nat) (left : List (Option (CIndex X))) (j : Nat) (L : List (List X)) : Prop :=
  ∃ l, left[j]? = some l ∧ Ix F 0 j l L ∧ L.length = rk j

/-- Pointer number `j` stands for the right index set `S`. -/
def RightAt (F : Fam U X) (d : Nat) (rk : Nat → Nat) (right : List (Option (CIndex X))) (j : Nat) (S : List (List X)) : Prop :=
  ∃ r, right[j]? = some r ∧ Ix F (j + 1) (d - 1 - j) r S ∧ S.length = rk (j + 1)

theorem LeftAt.set {rk : Nat → Nat} {left : List (Option (CIndex X))} {j i : Nat} {L : List (List X)} (h : LeftAt F rk left j L)
    (hij : i ≠ j) (v : Option (CIndex X)) : LeftAt F rk (left.set i v) j L := by
  obtain ⟨l, h1, h2⟩ := h
  exact ⟨l, by rw [List.getElem?_set_ne hij]; exact h1, h2⟩

theorem RightAt.set {d : Nat} {rk : Nat → Nat} {right : List (Option (CIndex X))} {j i : Nat} {S : List (List X)}
    (h : RightAt F d rk right j S) (hij : i ≠ j) (v : Option (CIndex X)) : RightAt F d rk (right.set i v) j S := by
  obtain ⟨l, h1, h2⟩ := h
  exact ⟨l, by rw [List.getElem?_set_ne hij]; exact h1, h2⟩

/-- What all states have in common. -/
structure St (f : List X → ℝ) (d : Nat) (s : Xs U X) : Prop where
  fw : FwOk f d s.fw
  ll : s.left.length = d
  rl : s.right.length = d
  cl : s.cores.length = d

/-- During the sweep from left to right: the cores before `k` are done. -/
structure LrInv (e : Ev ℝ U X) (F : Fam U X) (f : List X → ℝ) (d : Nat) (rk : Nat → Nat) (Ss : Nat → List (List X)) (k : Nat)
    (Ls : Nat → List (List X)) (Qs : Nat → Qma U) (s : Xs U X) : Prop extends St f d s where
  left : ∀ j ≤ k, LeftAt F rk s.left j (Ls j)
  right : ∀ j < d, RightAt F d rk s.right j (Ss j)
  cores : ∀ j < k, s.cores[j]? = some (some (Qs j)) ∧ LrC e F f j (Ls j) (Ls (j + 1)) (Ss j) (Qs j)

theorem lrStep_inv {o : XOps U X} (h : XLaws e F I o) {d : Nat} {f : List X → ℝ} (hf : Fib e F d f) {ranks : List Nat}
    {rk : Nat → Nat} (hrk : RkOk d ranks rk) {Ss : Nat → List (List X)} {k : Nat} (hk : k + 1 < d) {Ls : Nat → List (List X)}
    {Qs : Nat → Qma U} {s : Xs U X} (hs : LrInv e F f d rk Ss k Ls Qs s) :
    ∃ s' Ls' Qs', lrStep e o ranks k s = .ok s' ∧ LrInv e F f d rk Ss (k + 1) Ls' Qs' s' ∧ ∀ j ≤ k, Ls' j = Ls j := by
  obtain ⟨l, l1, l2, l3⟩ := hs.left k le_rfl
  obtain ⟨r, r1, r2, r3⟩ := hs.right k (by omega)
  obtain ⟨w, c, L', Q, e1, e2, -, e4, e5, e6⟩ := lrStep_ok h hf (by omega) hs.fw l1 r1 l2 r2
    (by rw [hrk.get (by omega), l3]) (by rw [hrk.get (by omega), r3]) (by rw [l3]; exact hrk.pos k (by omega))
    (by rw [r3]; exact hrk.pos (k + 1) (by omega)) (by rw [hs.ll]; exact hk) (by rw [hs.cl]; omega)
  have hLs : ∀ j ≤ k, Function.update Ls (k + 1) L' j = Ls j := fun j hj => Function.update_of_ne (by omega) _ _
  refine ⟨_, Function.update Ls (k + 1) L', Function.update Qs k Q, e1, ⟨⟨e2, ?_, hs.rl, ?_⟩, ?_, hs.right, ?_⟩, hLs⟩
  · rw [List.length_set]; exact hs.ll
  · rw [List.length_set]; exact hs.cl
  · intro j hj
    by_cases hjk : j = k + 1
    · subst hjk
      rw [Function.update_self]
      exact ⟨some c, List.getElem?_set_self (by rw [hs.ll]; exact hk), e4, by rw [e5, r3]⟩
    · rw [hLs j (by omega)]
      exact (hs.left j (by omega)).set (Ne.symm hjk) _
  · intro j hj
    by_cases hjk : j = k
    · subst hjk
      rw [Function.update_self, hLs j le_rfl, Function.update_self]
      exact ⟨List.getElem?_set_self (by rw [hs.cl]; omega), e6⟩
    · rw [Function.update_of_ne hjk, hLs j (by omega), hLs (j + 1) (by omega), List.getElem?_set_ne (Ne.symm hjk)]
      exact hs.cores j (by omega)

/-- A core that is just the array of fibers. -/
def FibC (e : Ev ℝ U X) (F : Fam U X) (f : List X → ℝ) (k : Nat) (L S : List (List X)) (Q : Qma U) : Prop :=
  Rep e F k L.length S.length (fun x a b => f (L.getD a [] ++ x :: S.getD b [])) Q

theorem lastStep_ok {o : XOps U X} (h : XLaws e F I o) {d : Nat} {f : List X → ℝ} (hf : Fib e F d f) {ranks : List Nat}
    {rk : Nat → Nat} (hrk : RkOk d ranks rk) {k : Nat} (hk : k < d) {s : Xs U X} (hs : St f d s) {L S : List (List X)}
    (hL : LeftAt F rk s.left k L) (hS : RightAt F d rk s.right k S) :
    ∃ w Q, lastStep o ranks k s = .ok ⟨w, s.left, s.right, s.cores.set k (some Q)⟩ ∧ FwOk f d w ∧ w.fiberApprox = false ∧
      FibC e F f k L S Q := by
  obtain ⟨l, l1, l2, l3⟩ := hL
  obtain ⟨r, r1, r2, r3⟩ := hS
  obtain ⟨T, w, p1, p2, p3, p4⟩ := prepCore_ok h.approx hf hk hs.fw l1 r1 l2 r2
  refine ⟨w, T, ?_, p2, p3, p4⟩
  rw [lastStep, rd_of_getElem? (hrk.get (show k ≤ d by omega)), bind_ok, rd_of_getElem? (hrk.get (show k + 1 ≤ d by omega)),
    bind_ok, ← l3, ← r3, p1, bind_ok, wr_ok (a := s.cores) _ (by rw [hs.cl]; exact hk), bind_ok, pure_eq_ok]

theorem lrSweep_ok {o : XOps U X} (h : XLaws e F I o) {d : Nat} (hd : 0 < d) {f : List X → ℝ} (hf : Fib e F d f) {ranks : List Nat}
    {rk : Nat → Nat} (hrk : RkOk d ranks rk) {Ss Ls : Nat → List (List X)} {Qs : Nat → Qma U} {s : Xs U X}
    (hs : LrInv e F f d rk Ss 0 Ls Qs s) :
    ∃ s' Ls' Qs', lrSweep e o d ranks s = .ok s' ∧ LrInv e F f d rk Ss (d - 1) Ls' Qs' s' ∧ Ls' 0 = Ls 0 ∧
      s'.cores[d - 1]? = some (some (Qs' (d - 1))) ∧ FibC e F f (d - 1) (Ls' (d - 1)) (Ss (d - 1)) (Qs' (d - 1)) := by
  obtain ⟨t, t1, Ls', Qs', t2, t3⟩ := forN_spec (body := lrStep e o ranks) (s := s) (n := d - 1)
    (I := fun k s' => ∃ Ls' Qs', LrInv e F f d rk Ss k Ls' Qs' s' ∧ Ls' 0 = Ls 0) ⟨Ls, Qs, hs, rfl⟩
    (fun k hk s' ⟨Ls', Qs', h1, h2⟩ => by
      obtain ⟨s'', Ls'', Qs'', a, b, c⟩ := lrStep_inv h hf hrk (k := k) (by omega) h1
      exact ⟨s'', a, Ls'', Qs'', b, by rw [c 0 (by omega), h2]⟩)
  obtain ⟨w, Q, w1, w2, -, w4⟩ := lastStep_ok h hf hrk (k := d - 1) (by omega) t2.toSt (t2.left _ le_rfl) (t2.right _ (by omega))
  refine ⟨⟨w, t.left, t.right, t.cores.set (d - 1) (some Q)⟩, Ls', Function.update Qs' (d - 1) Q, by rw [lrSweep, t1, bind_ok, w1], ⟨⟨w2, t2.ll, t2.rl, ?_⟩, t2.left, t2.right, ?_⟩, t3,
    ?_, ?_⟩
  · rw [List.length_set]; exact t2.cl
  · intro j hj
    rw [Function.update_of_ne (by omega), List.getElem?_set_ne (by omega)]
    exact t2.cores j hj
  · rw [Function.update_self]
    exact List.getElem?_set_self (by rw [t2.cl]; omega)
  · rw [Function.update_self]; exact w4

/-- During the sweep from right to left: the cores from `k` on are done. -/
structure RlInv (e : Ev ℝ U X) (F : Fam U X) (f : List X → ℝ) (d : Nat) (rk : Nat → Nat) (Ls : Nat → List (List X)) (k : Nat)
    (Ss : Nat → List (List X)) (Qs : Nat → Qma U) (s : Xs U X) : Prop extends St f d s where
  left : ∀ j < d, LeftAt F rk s.left j (Ls j)
  right : ∀ j < d, k ≤ j + 1 → RightAt F d rk s.right j (Ss j)
  cores : ∀ j < d, k ≤ j → s.cores[j]? = some (some (Qs j)) ∧ RlC e F f j (Ls j) (Ss j) (Ss (j - 1)) (Qs j)

theorem rlStep_inv {o : XOps U X} (h : XLaws e F I o) {d : Nat} {f : List X → ℝ} (hf : Fib e F d f) {ranks : List Nat}
    {rk : Nat → Nat} (hrk : RkOk d ranks rk) {Ls : Nat → List (List X)} {k : Nat} (hk : k + 1 < d) {Ss : Nat → List (List X)}
    {Qs : Nat → Qma U} {s : Xs U X} (hs : RlInv e F f d rk Ls (k + 2) Ss Qs s) :
    ∃ s' Ss' Qs', rlStep e o d ranks (k + 1) s = .ok s' ∧ RlInv e F f d rk Ls (k + 1) Ss' Qs' s' ∧ ∀ j > k, Ss' j = Ss j := by
  obtain ⟨l, l1, l2, l3⟩ := hs.left (k + 1) hk
  obtain ⟨r, r1, r2, r3⟩ := hs.right (k + 1) hk le_rfl
  obtain ⟨w, c, S', Q, e1, e2, -, e4, e5, e6⟩ := rlStep_ok h hf hk (by omega) hs.fw l1 r1 l2 r2
    (by rw [hrk.get (by omega), l3]) (by rw [hrk.get (by omega), r3]) (by rw [l3]; exact hrk.pos _ (by omega))
    (by rw [r3]; exact hrk.pos _ (by omega)) (by rw [hs.cl]; omega)
  rw [Nat.add_sub_cancel] at e1
  have hSs : ∀ j > k, Function.update Ss k S' j = Ss j := fun j hj => Function.update_of_ne (by omega) _ _
  refine ⟨_, Function.update Ss k S', Function.update Qs (k + 1) Q, e1, ⟨⟨e2, hs.ll, ?_, ?_⟩, hs.left, ?_, ?_⟩, hSs⟩
  · rw [List.length_set]; exact hs.rl
  · rw [List.length_set]; exact hs.cl
  · intro j hjd hj
    by_cases hjk : j = k
    · subst hjk
      rw [Function.update_self]
      exact ⟨some c, List.getElem?_set_self (by rw [hs.rl]; omega), by rw [show d - 1 - j = d - (j + 1) by omega]; exact e4,
        by rw [e5, l3]⟩
    · rw [hSs j (by omega)]
      exact (hs.right j hjd (by omega)).set (Ne.symm hjk) _
  · intro j hjd hj
    by_cases hjk : j = k + 1
    · subst hjk
      rw [Function.update_self, hSs (k + 1) (by omega), Nat.add_sub_cancel, Function.update_self]
      exact ⟨List.getElem?_set_self (by rw [hs.cl]; omega), e6⟩
    · rw [Function.update_of_ne hjk, hSs j (by omega), hSs (j - 1) (by omega), List.getElem?_set_ne (Ne.symm hjk)]
      exact hs.cores j hjd (by omega)

theorem rlSweep_ok {o : XOps U X} (h : XLaws e F I o) {d : Nat} (hd : 0 < d) {f : List X → ℝ} (hf : Fib e F d f) {ranks : List Nat}
    {rk : Nat → Nat} (hrk : RkOk d ranks rk) {Ss Ls : Nat → List (List X)} {Qs : Nat → Qma U} {s : Xs U X}
    (hs : RlInv e F f d rk Ls d Ss Qs s) :
    ∃ s' Ss' Qs', rlSweep e o d ranks s = .ok s' ∧ s'.fw.fiberApprox = false ∧ RlInv e F f d rk Ls 1 Ss' Qs' s' ∧
      Ss' (d - 1) = Ss (d - 1) ∧
      s'.cores[0]? = some (some (Qs' 0)) ∧ FibC e F f 0 (Ls 0) (Ss' 0) (Qs' 0) := by
  obtain ⟨t, t1, Ss', Qs', t2, t3⟩ := forR_spec (a := 1) (b := d) (body := fun c => rlStep e o d ranks (d - c)) (s := s)
    (I := fun c s' => ∃ Ss' Qs', RlInv e F f d rk Ls (d - c + 1) Ss' Qs' s' ∧ Ss' (d - 1) = Ss (d - 1)) hd
    ⟨Ss, Qs, by rw [show d - 1 + 1 = d by omega]; exact hs, rfl⟩
    (by
      rintro c h1 h2 s' ⟨Ss', Qs', a1, a2⟩
      obtain ⟨s'', Ss'', Qs'', a, b, c'⟩ := rlStep_inv h hf hrk (k := d - c - 1) (by omega) (s := s') (Ss := Ss') (Qs := Qs')
        (by rw [show d - c - 1 + 2 = d - c + 1 by omega]; exact a1)
      rw [show d - c - 1 + 1 = d - c by omega] at a b
      exact ⟨s'', a, Ss'', Qs'', by rw [show d - (c + 1) + 1 = d - c by omega]; exact b, by rw [c' _ (by omega), a2]⟩)
  rw [show d - d + 1 = 1 by omega] at t2
  obtain ⟨w, Q, w1, w2, w3, w4⟩ := lastStep_ok h hf hrk (k := 0) hd t2.toSt (t2.left _ hd) (t2.right _ hd (by omega))
  refine ⟨⟨w, t.left, t.right, t.cores.set 0 (some Q)⟩, Ss', Function.update Qs' 0 Q, by rw [rlSweep, t1, bind_ok, w1], w3, ⟨⟨w2, t2.ll, t2.rl, ?_⟩, t2.left, t2.right, ?_⟩, t3,
    ?_, ?_⟩
  · rw [List.length_set]; exact t2.cl
  · intro j hjd hj
    rw [Function.update_of_ne (by omega), List.getElem?_set_ne (by omega)]
    exact t2.cores j hjd hj
  · rw [Function.update_self]
    exact List.getElem?_set_self (by rw [t2.cl]; exact hd)
  · rw [Function.update_self]; exact w4

/-- The train of the cores. -/
theorem ftDone_ok {d : Nat} (hd : 0 < d) {ranks : List Nat} {rk : Nat → Nat} (hrk : RkOk d ranks rk) {cores : List (Option (Qma U))}
    (hcl : cores.length = d) {Qs : Nat → Qma U} (hc : ∀ j < d, cores[j]? = some (some (Qs j)))
    (hQ : ∀ j < d, QOk F j (Qs j) ∧ (Qs j).nrows = rk j ∧ (Qs j).ncols = rk (j + 1)) :
    ∃ a : FT ℝ U, ftDone d ranks cores = .ok a ∧ a.Ok F ∧ a.dim = d ∧ a.ranks = ranks ∧ a.cores = (List.range d).map Qs := by
  have hcs : cores = ((List.range d).map Qs).map some := by
    refine List.ext_getElem? fun j => ?_
    by_cases hj : j < d
    · rw [hc j hj, List.getElem?_map, List.getElem?_map, List.getElem?_range hj]; rfl
    · rw [List.getElem?_eq_none (by omega), List.getElem?_eq_none (by simp; omega)]
  have hget : ∀ (k : Nat) Q, ((List.range d).map Qs)[k]? = some Q → k < d ∧ Q = Qs k := by
    intro k Q hQ
    by_cases hk : k < d
    · rw [List.getElem?_map, List.getElem?_range hk] at hQ
      exact ⟨hk, (Option.some.inj hQ).symm⟩
    · rw [List.getElem?_eq_none (by simp; omega)] at hQ
      cases hQ
  refine ⟨⟨d, ranks, (List.range d).map Qs, none, none, none⟩, by rw [ftDone, hcs, allSome_map, bind_ok, pure_eq_ok],
    ⟨⟨by simp, ?_, ?_, ?_⟩, ?_, ?_⟩, rfl, rfl, rfl⟩
  · intro h0
    have := congrArg List.length h0
    simp at this
    omega
  · show ranks = _
    rw [hrk.eq, List.range_succ_eq_map, List.map_cons, hrk.first, List.map_map, List.map_map]
    congr 1
    refine List.map_congr_left fun j hj => ?_
    exact (hQ j (List.mem_range.1 hj)).2.2.symm
  · have := fits_of_get (cores := (List.range d).map Qs) (s := rk) (d := d) (by simp) (fun k Q hQ' => by
      obtain ⟨h1, rfl⟩ := hget k Q hQ'
      exact ⟨(hQ k h1).1.wf, (hQ k h1).2.1, (hQ k h1).2.2⟩)
    rw [hrk.first, hrk.last] at this
    exact this
  · intro k r hr
    change ranks[k]? = some r at hr
    by_cases hk : k ≤ d
    · rw [hrk.get hk] at hr
      rw [← Option.some.inj hr]; exact hrk.pos k hk
    · rw [List.getElem?_eq_none (by rw [hrk.eq]; simp; omega)] at hr
      cases hr
  · intro k Q hQ' g hg
    obtain ⟨h1, rfl⟩ := hget k Q hQ'
    exact (hQ k h1).1.mem g hg

end C3.Xa
