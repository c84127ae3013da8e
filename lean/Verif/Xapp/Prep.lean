/-
C107: the array of approximated fibers.
-/
import Verif.Xapp.Model
import Verif.Fwrap.Props
import Verif.Ind.Props
import Verif.Ft.MulProps

set_option linter.unusedSectionVars false

namespace C3.Xa
open Finset C3.Ft C3.Round C3.Mv C3.Fw C3.Ind
variable {U X : Type} [Zero X] {e : Ev ℝ U X} {F : Fam U X}

/-- Coordinates for the dimensions from `k` on lie in the domain. -/
def On (F : Fam U X) (k : Nat) (xs : List X) : Prop := ∀ (i : Nat) x, xs[i]? = some x → F.D (k + i) x

theorem On.nil {k : Nat} : On F k [] := fun i x h => by simp at h

theorem On.cons {k : Nat} {x : X} {xs : List X} : On F k (x :: xs) ↔ F.D k x ∧ On F (k + 1) xs := by
  constructor
  · intro h
    refine ⟨h 0 x rfl, fun i y hy => ?_⟩
    have := h (i + 1) y (by simpa using hy)
    rwa [show k + (i + 1) = k + 1 + i by omega] at this
  · rintro ⟨h1, h2⟩ i y hy
    cases i with
    | zero =>
      have : x = y := by simpa using hy
      rw [← this]; exact h1
    | succ i =>
      have := h2 i y (by simpa using hy)
      rwa [show k + 1 + i = k + (i + 1) by omega] at this

theorem On.append {k : Nat} {xs ys : List X} : On F k (xs ++ ys) ↔ On F k xs ∧ On F (k + xs.length) ys := by
  induction xs generalizing k with
  | nil => simp [On.nil]
  | cons x xs ih =>
    rw [List.cons_append, On.cons, ih, On.cons, List.length_cons, show k + 1 + xs.length = k + (xs.length + 1) by omega, and_assoc]

/-- The pointer stands for an index set with rows of length `n`, coordinates of the dimensions from `k` on; the set with
the one empty row is the NULL pointer. -/
structure Ix (F : Fam U X) (k n : Nat) (o : Option (CIndex X)) (rows : List (List X)) : Prop where
  len : ∀ r ∈ rows, r.length = n
  on : ∀ r ∈ rows, On F k r
  ptr : (n = 0 ∧ o = none ∧ rows = [[]]) ∨ (0 < n ∧ o = some (Ind.mk n rows))

theorem Ix.empty {k : Nat} : Ix F k 0 none [[]] :=
  ⟨fun r h => by rw [List.mem_singleton.1 h]; rfl, fun r h => by rw [List.mem_singleton.1 h]; exact On.nil,
    Or.inl ⟨rfl, rfl, rfl⟩⟩

theorem getD_mem {α : Type} {l : List α} {i : Nat} {d : α} (h : i < l.length) : l.getD i d ∈ l := by
  rw [List.getD_eq_getElem?_getD, List.getElem?_eq_getElem h]
  exact List.getElem_mem h

theorem Ix.nodeVal {k n : Nat} {o : Option (CIndex X)} {rows : List (List X)} (h : Ix F k n o rows) {i : Nat}
    (hi : i < rows.length) : nodeVal o i = .ok (rows.getD i [], n) := by
  rcases h.ptr with ⟨h1, h2, h3⟩ | ⟨h1, h2⟩
  · subst h1 h2 h3
    obtain rfl : i = 0 := by simpa using hi
    rfl
  · subst h2
    have hl := h.len _ (getD_mem (d := []) hi)
    have hg : getNodeValue (some (Ind.mk n rows)) i = .ok (some (rows.getD i [], n)) := by
      rw [List.getD_eq_getElem?_getD, List.getElem?_eq_getElem hi] at hl ⊢
      have h3 : (Ind.mk n rows).nodes = ofRows rows := rfl
      rw [getNodeValue, cassert, if_pos (decide_eq_true (show i < (Ind.mk n rows).n from hi)), bind_ok, h3,
        nodeGet_ofRows _ _ (Nat.le_of_lt hi), bind_ok, List.drop_eq_getElem_cons hi]
      show Except.ok (some (rows[i], (rows[i]).length)) = _
      rw [show (rows[i]).length = n from hl]
      rfl
    rw [Xa.nodeVal, hg, bind_ok]
    rfl

theorem bind_ok_inv' {α β : Type} {x : C α} {f : α → C β} {b : β} (h : (x >>= f) = .ok b) :
    ∃ a, x = .ok a ∧ f a = .ok b := by
  cases x with
  | error e => rw [bind_error] at h; cases h
  | ok a => exact ⟨a, rfl, h⟩

theorem addRun_append (h1 h2 : List (Nat × List X × List X)) (fw : Fwrap X ℝ) :
    addRun (h1 ++ h2) fw = (addRun h1 fw >>= addRun h2) := by
  induction h1 generalizing fw with
  | nil => rfl
  | cons a t ih =>
    obtain ⟨i, l, r⟩ := a
    rw [List.cons_append, addRun, addRun]
    cases h : addFiber fw i l.length l r.length r with
    | error x => rfl
    | ok w => rw [bind_ok, bind_ok, ih]

theorem forN_addRun {n : Nat} {body : Nat → Fwrap X ℝ → C (Fwrap X ℝ)} {h : Nat → List (Nat × List X × List X)}
    (hb : ∀ i < n, ∀ fw, body i fw = addRun (h i) fw) (fw : Fwrap X ℝ) :
    forN n body fw = addRun ((List.range n).flatMap h) fw := by
  induction n with
  | zero => rfl
  | succ n ih =>
    rw [forN_succ, ih (fun i hi => hb i (by omega)), List.range_succ, List.flatMap_append, addRun_append]
    congr 1
    funext w
    rw [hb n (by omega), List.flatMap_singleton]

/-- The registrations of `prepCore`. -/
def hist (L S : List (List X)) : List (Nat × List X × List X) :=
  (List.range S.length).flatMap fun jj => (List.range L.length).flatMap fun kk =>
    [(jj * L.length + kk, L.getD kk [], S.getD jj [])]

theorem mem_hist {L S : List (List X)} {t : Nat × List X × List X} :
    t ∈ hist L S ↔ ∃ b < S.length, ∃ a < L.length, t = (b * L.length + a, L.getD a [], S.getD b []) := by
  simp only [hist, List.mem_flatMap, List.mem_range, List.mem_singleton]

theorem addFibers_ok {k n m : Nat} {l r : Option (CIndex X)} {L S : List (List X)} (hL : Ix F 0 n l L) (hS : Ix F k m r S)
    (fw : Fwrap X ℝ) : addFibers L.length S.length l r fw = addRun (hist L S) fw := by
  rw [addFibers, hist]
  refine forN_addRun (fun jj hj w => ?_) fw
  rw [hS.nodeVal hj, bind_ok]
  refine forN_addRun (fun kk hk w => ?_) w
  rw [hL.nodeVal hk, bind_ok, addRun]
  dsimp only
  have h1 := hL.len _ (getD_mem (d := []) hk)
  have h2 := hS.len _ (getD_mem (d := []) hj)
  rw [h1, h2]
  cases addFiber w (jj * L.length + kk) n (L.getD kk []) m (S.getD jj []) <;> rfl

theorem find_unique {α : Type} {l : List α} {p : α → Bool} {a : α} (ha : a ∈ l) (hp : p a = true)
    (hu : ∀ b ∈ l, p b = true → b = a) : l.find? p = some a := by
  cases h : l.find? p with
  | none => exact absurd hp (by simpa using List.find?_eq_none.1 h a ha)
  | some b => rw [hu b (List.mem_of_find?_eq_some h) (List.find?_some h)]

theorem find_hist {L S : List (List X)} {a b : Nat} (ha : a < L.length) (hb : b < S.length) :
    (hist L S).reverse.find? (fun t => t.1 == b * L.length + a) = some (b * L.length + a, L.getD a [], S.getD b []) := by
  refine find_unique (List.mem_reverse.2 (mem_hist.2 ⟨b, hb, a, ha, rfl⟩)) (by simp) ?_
  intro t ht hp
  obtain ⟨b', hb', a', ha', rfl⟩ := mem_hist.1 (List.mem_reverse.1 ht)
  have h : b' * L.length + a' = b * L.length + a := by simpa using hp
  have h1 : a' = a := by
    have := congrArg (· % L.length) h
    rwa [cm_mod ha', cm_mod ha] at this
  have h2 : b' = b := by
    have := congrArg (· / L.length) h
    rwa [cm_div ha', cm_div ha] at this
  rw [h1, h2]

/-- The wrapper holds the function `f` of `d` variables. -/
structure FwOk (f : List X → ℝ) (d : Nat) (fw : Fwrap X ℝ) : Prop where
  f : fw.f = some f
  ty : fw.ftype = .nd
  d : fw.d = d

/-- Contract of the approximation of one fiber: a function of the family (on the domain) is found again. -/
def ApproxLaw (e : Ev ℝ U X) (F : Fam U X) (approx : Nat → (Nat → List X → C (Int × List ℝ)) → C U) : Prop :=
  ∀ k ev g u, (∀ xs : List X, (∀ x ∈ xs, F.D k x) → ev xs.length xs = .ok (0, xs.map g)) → F.P k u →
    (∀ x, F.D k x → e.ev u x = g x) → ∃ v, approx k ev = .ok v ∧ F.P k v ∧ ∀ x, F.D k x → e.ev v x = g x

/-- Every fiber of `f` is a function of the family. -/
def Fib (e : Ev ℝ U X) (F : Fam U X) (d : Nat) (f : List X → ℝ) : Prop :=
  ∀ k < d, ∀ y z : List X, y.length = k → z.length = d - 1 - k → On F 0 y → On F (k + 1) z →
    ∃ u, F.P k u ∧ ∀ x, F.D k x → e.ev u x = f (y ++ x :: z)

theorem prepCore_ok {o : XOps U X} (hap : ApproxLaw e F o.approx) {d k : Nat} {f : List X → ℝ} (hf : Fib e F d f) (hk : k < d)
    {fw : Fwrap X ℝ} (hfw : FwOk f d fw) {left right : List (Option (CIndex X))} {l r : Option (CIndex X)}
    (hl : left[k]? = some l) (hr : right[k]? = some r) {L S : List (List X)} (hL : Ix F 0 k l L) (hS : Ix F (k + 1) (d - 1 - k) r S) :
    ∃ Q w, prepCore o k L.length S.length fw left right = .ok (Q, w) ∧ FwOk f d w ∧ w.fiberApprox = false ∧
      Rep e F k L.length S.length (fun x a b => f (L.getD a [] ++ x :: S.getD b [])) Q := by
  have hval : ∀ t ∈ hist L S, Valid fw.d k (L.length * S.length) t := by
    intro t ht
    obtain ⟨b, hb, a, ha, rfl⟩ := mem_hist.1 ht
    have h1 := hL.len _ (getD_mem (d := []) ha)
    have h2 := hS.len _ (getD_mem (d := []) hb)
    refine ⟨cm_idx_lt ha hb, h1, ?_⟩
    have := hfw.d
    dsimp only
    omega
  obtain ⟨vals, v1, -⟩ := addRun_ok (initFiber fw k (L.length * S.length)) rfl (by simp [initFiber])
    (by
      intro v hv
      have := List.eq_of_mem_replicate hv
      simp [this, initFiber]) (hist L S) (fun t ht => hval t ht)
  obtain ⟨Q, q1, q2⟩ := fill_cols (e := e) (F := F) (k := k) (n := L.length) (m := S.length)
    (M := fun x a b => f (L.getD a [] ++ x :: S.getD b []))
    (g := fun b a => setWhich { initFiber fw k (L.length * S.length) with fiberVals := vals } (b * L.length + a) >>= fun w =>
      o.approx k (eval w))
    (fun b hb a ha => by
      have hrun : ∀ xs : List X, ∃ w, setWhich { initFiber fw k (L.length * S.length) with fiberVals := vals }
          (b * L.length + a) = .ok w ∧ eval w xs.length xs = .ok (0, xs.map fun x => f (L.getD a [] ++ x :: S.getD b [])) := by
        intro xs
        obtain ⟨w2, w3, h1, h2, h3⟩ := fiber_eval fw f hfw.f (Or.inl hfw.ty) k (L.length * S.length) (hist L S) hval
          (b * L.length + a) _ _ (find_hist ha hb) xs
        rw [v1] at h1
        rw [← Except.ok.inj h1] at h2
        exact ⟨w3, h2, h3⟩
      obtain ⟨w, hw, -⟩ := hrun []
      obtain ⟨u, u1, u2⟩ := hf k hk (L.getD a []) (S.getD b []) (hL.len _ (getD_mem ha)) (hS.len _ (getD_mem hb))
        (hL.on _ (getD_mem ha)) (hS.on _ (getD_mem hb))
      obtain ⟨v, h1, h2, h3⟩ := hap k (eval w) (fun x => f (L.getD a [] ++ x :: S.getD b [])) u (fun xs _ => by
        obtain ⟨w', hw', h⟩ := hrun xs
        rw [hw] at hw'
        rw [Except.ok.inj hw']
        exact h) u1 u2
      exact ⟨v, by dsimp only; rw [hw, bind_ok, h1], h2, h3⟩)
  refine ⟨Q, cleanFiber { initFiber fw k (L.length * S.length) with fiberVals := vals }, ?_, ⟨hfw.f, hfw.ty, hfw.d⟩, rfl, q2⟩
  rw [prepCore, rd_of_getElem? hr, bind_ok, rd_of_getElem? hl, bind_ok, addFibers_ok hL hS, v1, bind_ok]
  have hbody : approxFibers o k L.length S.length { initFiber fw k (L.length * S.length) with fiberVals := vals }
      = forN S.length (fun j => forN L.length (fun i c => do
        let f ← (setWhich { initFiber fw k (L.length * S.length) with fiberVals := vals } (j * L.length + i) >>= fun w =>
          o.approx k (eval w))
        wr c (j * L.length + i) (some f))) (List.replicate (L.length * S.length) none) := by
    rw [approxFibers]
    simp only [bind_assoc]
  rw [hbody]
  obtain ⟨c, c1, c2⟩ := bind_ok_inv' q1
  obtain ⟨fs, f1, f2⟩ := bind_ok_inv' c2
  rw [c1, bind_ok, f1, bind_ok]
  rw [pure_eq_ok] at f2
  rw [← Except.ok.inj f2]
  rfl

end C3.Xa
