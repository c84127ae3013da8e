/-
Execution model shared by all modules: outcomes of C code, bounds-checked arrays, counted loops.
-/
import Mathlib.Tactic.Common
import Mathlib.Data.List.Basic

namespace C3

/-- Abnormal outcomes of a C function. -/
inductive Err where
  /-- out-of-bounds array access (undefined behaviour) -/
  | oob
  /-- `assert` failed -/
  | assertFail
  /-- `exit(1)` -/
  | exit
  /-- NULL pointer dereference -/
  | null
  /-- other undefined behaviour (signed overflow, division by zero, use of freed memory, ...) -/
  | ub
  /-- the loop never terminates -/
  | diverge
  deriving DecidableEq, Repr

/-- Result of a C function: a value or an abnormal outcome. -/
abbrev C (α : Type) := Except Err α

instance {α : Type} [DecidableEq α] : DecidableEq (C α) := fun a b =>
  match a, b with
  | .ok x, .ok y => if h : x = y then isTrue (by rw [h]) else isFalse (by simpa using h)
  | .error x, .error y => if h : x = y then isTrue (by rw [h]) else isFalse (by simpa using h)
  | .ok _, .error _ => isFalse (by simp)
  | .error _, .ok _ => isFalse (by simp)

/-- `assert(b)`. -/
def cassert (b : Bool) : C Unit := if b then .ok () else .error .assertFail

/-- Read `a[i]`, out of bounds is an error. -/
def rd {α : Type} (a : List α) (i : Nat) : C α :=
  match a[i]? with
  | some v => .ok v
  | none => .error .oob

/-- Write `a[i] = v`, out of bounds is an error. -/
def wr {α : Type} (a : List α) (i : Nat) (v : α) : C (List α) :=
  if i < a.length then .ok (a.set i v) else .error .oob

/-- `for (i = 0; i < n; i++) body(i)` with loop state `s`. -/
def forN {σ : Type} : Nat → (Nat → σ → C σ) → σ → C σ
  | 0, _, s => .ok s
  | n + 1, body, s => (forN n body s).bind (body n)

/-- `for (i = a; i < b; i++) body(i)` with loop state `s`. -/
def forR {σ : Type} (a b : Nat) (body : Nat → σ → C σ) (s : σ) : C σ :=
  forN (b - a) (fun i => body (a + i)) s

@[simp] theorem bind_ok {α β : Type} (a : α) (f : α → C β) :
    (Except.ok a : C α) >>= f = f a := rfl
@[simp] theorem bind_error {α β : Type} (e : Err) (f : α → C β) :
    (Except.error e : C α) >>= f = .error e := rfl
@[simp] theorem ebind_ok {α β : Type} (a : α) (f : α → C β) :
    (Except.ok a : C α).bind f = f a := rfl
@[simp] theorem ebind_error {α β : Type} (e : Err) (f : α → C β) :
    (Except.error e : C α).bind f = .error e := rfl
@[simp] theorem pure_eq_ok {α : Type} (a : α) : (pure a : C α) = .ok a := rfl
@[simp] theorem cassert_true : cassert true = .ok () := rfl
@[simp] theorem cassert_false : cassert false = .error .assertFail := rfl

theorem cassert_of {b : Bool} (h : b = true) : cassert b = .ok () := by simp [h]

theorem rd_ok {α : Type} {a : List α} {i : Nat} (h : i < a.length) : rd a i = .ok a[i] := by
  simp [rd, List.getElem?_eq_getElem h]

theorem rd_of_getElem? {α : Type} {a : List α} {i : Nat} {v : α} (h : a[i]? = some v) :
    rd a i = .ok v := by simp [rd, h]

theorem rd_oob {α : Type} {a : List α} {i : Nat} (h : a.length ≤ i) : rd a i = .error .oob := by
  simp [rd, List.getElem?_eq_none h]

theorem wr_ok {α : Type} {a : List α} {i : Nat} (v : α) (h : i < a.length) :
    wr a i v = .ok (a.set i v) := by simp [wr, h]

theorem wr_oob {α : Type} {a : List α} {i : Nat} (v : α) (h : a.length ≤ i) :
    wr a i v = .error .oob := by simp [wr, Nat.not_lt.mpr h]

@[simp] theorem forN_zero {σ : Type} (body : Nat → σ → C σ) (s : σ) : forN 0 body s = .ok s := rfl
theorem forN_succ {σ : Type} (n : Nat) (body : Nat → σ → C σ) (s : σ) :
    forN (n + 1) body s = (forN n body s).bind (body n) := rfl

/-- Loop rule: an invariant that each iteration preserves (and under which each iteration
terminates normally) holds after the loop, which terminates normally. -/
theorem forN_spec {σ : Type} (I : Nat → σ → Prop) {n : Nat} {body : Nat → σ → C σ} {s : σ}
    (h0 : I 0 s)
    (hstep : ∀ i, i < n → ∀ s, I i s → ∃ s', body i s = .ok s' ∧ I (i + 1) s') :
    ∃ s', forN n body s = .ok s' ∧ I n s' := by
  induction n with
  | zero => exact ⟨s, rfl, h0⟩
  | succ n ih =>
    obtain ⟨s1, h1, hI⟩ := ih (fun i hi => hstep i (Nat.lt_succ_of_lt hi))
    obtain ⟨s2, h2, hI2⟩ := hstep n (Nat.lt_succ_self n) s1 hI
    exact ⟨s2, by rw [forN_succ, h1]; exact h2, hI2⟩

/-- Deterministic loop rule: the loop computes the trajectory `t`. -/
theorem forN_traj {σ : Type} (t : Nat → σ) {n : Nat} {body : Nat → σ → C σ}
    (hstep : ∀ i, i < n → body i (t i) = .ok (t (i + 1))) :
    forN n body (t 0) = .ok (t n) := by
  induction n with
  | zero => rfl
  | succ n ih =>
    rw [forN_succ, ih (fun i hi => hstep i (Nat.lt_succ_of_lt hi))]
    exact hstep n (Nat.lt_succ_self n)

theorem forR_spec {σ : Type} (I : Nat → σ → Prop) {a b : Nat} {body : Nat → σ → C σ} {s : σ}
    (hab : a ≤ b) (h0 : I a s)
    (hstep : ∀ i, a ≤ i → i < b → ∀ s, I i s → ∃ s', body i s = .ok s' ∧ I (i + 1) s') :
    ∃ s', forR a b body s = .ok s' ∧ I b s' := by
  have := forN_spec (fun i s => I (a + i) s) (n := b - a) (body := fun i => body (a + i)) (s := s)
    h0 (fun i hi s hs => by
      have := hstep (a + i) (by omega) (by omega) s hs
      simpa [Nat.add_assoc] using this)
  simpa [forR, Nat.add_sub_cancel' hab] using this

end C3
