/-
Optimizer objects (C134): what a session of calls leaves in the object, what a copy has in common with its original, and what the
stored trace contains.
-/
import Verif.Opt.ObjModel
import Mathlib.Algebra.Order.Ring.Rat
import Mathlib.Tactic.Ring
import Mathlib.Tactic.Linarith

namespace C3.Oo

variable {K F G A : Type}

/-! ## Specification -/

/-- A buffer of `n` numbers; no buffer at all is allowed for `n = 0`. -/
def Buf (b : Option (List K)) (n : Nat) : Prop := (∃ l, b = some l ∧ l.length = n) ∨ (b = none ∧ n = 0)

/-- The algorithms with a line search. -/
def HasLs (a : Alg) : Prop := a = .bfgs ∨ a = .lbfgs ∨ a = .batchgrad

/-- What the optimizers need: bounds for every variable, a workspace of the size they use, line search or SGD parameters. -/
structure Inv (o : Opt K F G A) : Prop where
  lb : Buf o.lb o.d
  ub : Buf o.ub o.d
  newton : o.alg = .bfgs ∨ o.alg = .lbfgs ∨ o.alg = .sgd → Buf o.ws (4 * o.d)
  batch : o.alg = .batchgrad → Buf o.ws (2 * o.d)
  brute : o.alg = .bruteforce → ∃ k, o.nlocs = some k ∧ Buf o.ws (k * o.d)
  ls : HasLs o.alg → ∃ l, o.ls = some l
  sgd : o.alg = .sgd → ∃ s, o.sgd = some s

/-- The trace buffers that are switched on have room for `maxiter` iterates. -/
structure TInv (o : Opt K F G A) : Prop where
  g : o.stGrad = 1 → ∃ l, o.sGrad = some l ∧ o.d * o.maxiter ≤ l.length
  f : o.stFunc = 1 → ∃ l, o.sFunc = some l ∧ o.maxiter ≤ l.length
  x : o.stX = 1 → ∃ l, o.sX = some l ∧ o.d * o.maxiter ≤ l.length

/-- A call whose arguments fit an object of algorithm `a` with `d` variables. -/
def Good [Field K] [LinearOrder K] (a : Alg) (d : Nat) : Op K F G A → Prop
  | .lb b => ∃ l, b = some l ∧ d ≤ l.length
  | .ub b => ∃ l, b = some l ∧ d ≤ l.length
  | .lsAlg _ => HasLs a
  | .lsAlpha _ => HasLs a
  | .lsBeta _ => HasLs a
  | .lsMaxiter _ => HasLs a
  | .brute n loc => a = .bruteforce ∧ ∃ l, loc = some l ∧ d * n ≤ l.length
  | .rate x => a = .sgd ∧ x ≤ 1
  | .nsamples _ => a = .sgd
  | _ => True

/-- The number of variables after a call. -/
def dim (d : Nat) : Op K F G A → Nat
  | .nvars n => n
  | _ => d

/-- A session of fitting calls. -/
def Goods [Field K] [LinearOrder K] (a : Alg) : Nat → List (Op K F G A) → Prop
  | _, [] => True
  | d, c :: cs => Good a d c ∧ Goods a (dim d c) cs

/-- The value given by the last call that `sel` selects, `v` if there is none. -/
def lastD {R : Type} (sel : Op K F G A → Option R) (v : R) (cs : List (Op K F G A)) : R := (cs.filterMap sel).getLast?.getD v

/-- The two objects answer every query in the same way, apart from the function of `c3opt_add_objective_stoch`. -/
structure Same (o c : Opt K F G A) : Prop where
  alg : c.alg = o.alg
  d : c.d = o.d
  f : c.f = o.f
  farg : c.farg = o.farg
  lb : c.lb.getD [] = o.lb.getD []
  ub : c.ub.getD [] = o.ub.getD []
  ls : HasLs o.alg → c.ls = o.ls
  sgd : o.alg = .sgd → c.sgd = o.sgd
  nlocs : c.nlocs = o.nlocs
  ws : c.ws.getD [] = o.ws.getD []
  maxiter : c.maxiter = o.maxiter
  tols : c.relxtol = o.relxtol ∧ c.absxtol = o.absxtol ∧ c.relftol = o.relftol ∧ c.gtol = o.gtol
  verbose : c.verbose = o.verbose
  counts : c.nevals = o.nevals ∧ c.ngvals = o.ngvals ∧ c.niters = o.niters
  prev : c.prev = o.prev
  lbfgs : c.nvec = o.nvec ∧ c.scale = o.scale
  flags : c.stGrad = o.stGrad ∧ c.stFunc = o.stFunc ∧ c.stX = o.stX
  grads : o.stGrad = 1 → ∀ i, i < o.d * o.maxiter → at' c.sGrad i = at' o.sGrad i
  funcs : o.stFunc = 1 → ∀ i, i < o.maxiter → at' c.sFunc i = at' o.sFunc i
  xs : o.stX = 1 → ∀ i, i < o.d * o.maxiter → at' c.sX i = at' o.sX i

/-! ## Buffers -/

theorem Buf.rep (n : Nat) (v : K) : Buf (some (List.replicate n v)) n := Or.inl ⟨_, rfl, by simp⟩

theorem Buf.getD {b : Option (List K)} {n : Nat} (h : Buf b n) : (b.getD []).length = n := by
  rcases h with ⟨l, rfl, hl⟩ | ⟨rfl, rfl⟩
  · simpa using hl
  · rfl

theorem move_zero (a b : Option (List K)) : move a b 0 = .ok a := rfl

theorem move_some {a b : List K} {n : Nat} (ha : n ≤ a.length) (hb : n ≤ b.length) :
    ∃ l, move (some a) (some b) n = .ok (some l) ∧ l = b.take n ++ a.drop n := by
  by_cases h0 : n = 0
  · subst h0
    exact ⟨a, rfl, by simp⟩
  · exact ⟨_, by simp only [move, if_neg h0, if_pos ha, if_pos hb], rfl⟩

/-- Filling a fresh buffer from one of the same size. -/
theorem move_fresh {a : List K} {b : Option (List K)} {n : Nat} (ha : a.length = n) (hb : Buf b n) :
    ∃ l, move (some a) b n = .ok (some l) ∧ l = b.getD [] ∧ l.length = n := by
  rcases hb with ⟨l, rfl, hl⟩ | ⟨rfl, rfl⟩
  · obtain ⟨l', h, e⟩ := move_some (a := a) (b := l) (n := n) (by omega) (by omega)
    refine ⟨l', h, ?_, ?_⟩
    · rw [e, List.take_of_length_le (by omega), List.drop_eq_nil_of_le (by omega), List.append_nil]; rfl
    · rw [e]; simp; omega
  · exact ⟨a, rfl, by simpa using List.eq_nil_of_length_eq_zero ha, ha⟩

theorem at_take {a b : List K} {n i : Nat} (hb : n ≤ b.length) (hi : i < n) :
    at' (some (b.take n ++ a.drop n)) i = at' (some b) i := by
  simp only [at']
  rw [rd_ok (show i < (b.take n ++ a.drop n).length by simp; omega), rd_ok (show i < b.length by omega),
    List.getElem_append_left (by simp; omega), List.getElem_take]

variable [Field K]

theorem lsCopy_eq (l : LS K) : lsCopy l = l := by
  obtain ⟨a, x, y, n, i⟩ := l
  cases a <;> rfl

theorem sgdCopy_eq (s : SGD K) : sgdCopy s = s := rfl

/-! ## Sessions -/

theorem create_inv (a : Alg) : Inv (create a : Opt K F G A) where
  lb := Or.inr ⟨rfl, rfl⟩
  ub := Or.inr ⟨rfl, rfl⟩
  newton := fun _ => Or.inr ⟨rfl, rfl⟩
  batch := fun _ => Or.inr ⟨rfl, rfl⟩
  brute := fun h => by
    have h' : a = .bruteforce := h
    subst h'
    exact ⟨0, rfl, Or.inr ⟨rfl, rfl⟩⟩
  ls := fun h => by
    have h' : HasLs a := h
    rcases h' with h' | h' | h' <;> (subst h'; exact ⟨_, rfl⟩)
  sgd := fun h => by
    have h' : a = .sgd := h
    subst h'
    exact ⟨_, rfl⟩

theorem alloc_inv (a : Alg) (d : Nat) : Inv (alloc a d : Opt K F G A) where
  lb := Buf.rep _ _
  ub := Buf.rep _ _
  newton := fun h => by
    have h' : a = .bfgs ∨ a = .lbfgs ∨ a = .sgd := h
    rcases h' with h' | h' | h' <;> (subst h'; exact Buf.rep _ _)
  batch := fun h => by
    have h' : a = .batchgrad := h
    subst h'
    exact Buf.rep _ _
  brute := fun h => by
    have h' : a = .bruteforce := h
    subst h'
    exact ⟨0, rfl, Or.inr ⟨rfl, by simp⟩⟩
  ls := fun h => by
    have h' : HasLs a := h
    rcases h' with h' | h' | h' <;> (subst h'; exact ⟨_, rfl⟩)
  sgd := fun h => by
    have h' : a = .sgd := h
    subst h'
    exact ⟨_, rfl⟩

theorem setNvars_inv (M : K) (o : Opt K F G A) (n : Nat) (h : Inv o) : Inv (setNvars M o n) where
  lb := Buf.rep _ _
  ub := Buf.rep _ _
  newton := fun ha => by
    have ha' : o.alg = .bfgs ∨ o.alg = .lbfgs ∨ o.alg = .sgd := ha
    rcases ha' with ha' | ha' | ha' <;> (simp only [setNvars, ha', algWs]; exact Buf.rep _ _)
  batch := fun ha => by
    have ha' : o.alg = .batchgrad := ha
    simp only [setNvars, ha', algWs]
    exact Buf.rep _ _
  brute := fun ha => by
    have ha' : o.alg = .bruteforce := ha
    refine ⟨0, by simp only [setNvars, ha'], ?_⟩
    simp only [setNvars, ha', algWs]
    exact Or.inr ⟨rfl, by simp⟩
  ls := fun ha => by
    have ha' : HasLs o.alg := ha
    obtain ⟨l, hl⟩ := h.ls ha'
    refine ⟨l, ?_⟩
    rcases ha' with ha' | ha' | ha' <;> simp only [setNvars, ha', hl]
  sgd := fun ha => h.sgd ha

theorem onLs_ok {o : Opt K F G A} (h : Inv o) (ha : HasLs o.alg) (u : LS K → LS K) :
    ∃ l, onLs o u = .ok { o with ls := some l } := by
  obtain ⟨l, hl⟩ := h.ls ha
  exact ⟨u l, by simp only [onLs, hl]⟩

theorem withLs_inv {o : Opt K F G A} (h : Inv o) (l : LS K) : Inv { o with ls := some l } :=
  ⟨h.lb, h.ub, h.newton, h.batch, h.brute, fun _ => ⟨l, rfl⟩, h.sgd⟩

theorem withSgd_inv {o : Opt K F G A} (h : Inv o) (s : SGD K) : Inv { o with sgd := some s } :=
  ⟨h.lb, h.ub, h.newton, h.batch, h.brute, h.ls, fun _ => ⟨s, rfl⟩⟩

/-- The bounds given by a call. -/
theorem move_bound {b : Option (List K)} {l : List K} {d : Nat} (hb : Buf b d) (hl : d ≤ l.length) :
    ∃ w, move b (some l) d = .ok w ∧ Buf w d ∧ w.getD [] = l.take d := by
  rcases hb with ⟨a, rfl, ha⟩ | ⟨rfl, rfl⟩
  · obtain ⟨l', h, e⟩ := move_some (a := a) (b := l) (n := d) (by omega) hl
    refine ⟨some l', h, Or.inl ⟨l', rfl, by rw [e]; simp; omega⟩, ?_⟩
    rw [Option.getD_some, e, List.drop_eq_nil_of_le (by omega), List.append_nil]
  · exact ⟨none, rfl, Or.inr ⟨rfl, rfl⟩, by simp⟩

variable [LinearOrder K]

/-- One fitting call: it succeeds, keeps the algorithm and the invariant, and the number of variables is as expected. -/
theorem step_ok (M : K) {o : Opt K F G A} (h : Inv o) {c : Op K F G A} (hc : Good o.alg o.d c) :
    ∃ o', step M o c = .ok o' ∧ Inv o' ∧ o'.alg = o.alg ∧ o'.d = dim o.d c := by
  cases c with
  | nvars n => exact ⟨_, rfl, setNvars_inv M o n h, rfl, rfl⟩
  | lb b =>
    obtain ⟨l, rfl, hl⟩ := hc
    obtain ⟨w, hw, hB, _⟩ := move_bound h.lb hl
    refine ⟨{ o with lb := w }, ?_, ⟨hB, h.ub, h.newton, h.batch, h.brute, h.ls, h.sgd⟩, rfl, rfl⟩
    simp only [step, addLb, hw]; rfl
  | ub b =>
    obtain ⟨l, rfl, hl⟩ := hc
    obtain ⟨w, hw, hB, _⟩ := move_bound h.ub hl
    refine ⟨{ o with ub := w }, ?_, ⟨h.lb, hB, h.newton, h.batch, h.brute, h.ls, h.sgd⟩, rfl, rfl⟩
    simp only [step, addUb, hw]; rfl
  | verbose v => exact ⟨_, rfl, ⟨h.lb, h.ub, h.newton, h.batch, h.brute, h.ls, h.sgd⟩, rfl, rfl⟩
  | maxiter n => exact ⟨_, rfl, ⟨h.lb, h.ub, h.newton, h.batch, h.brute, h.ls, h.sgd⟩, rfl, rfl⟩
  | absxtol x => exact ⟨_, rfl, ⟨h.lb, h.ub, h.newton, h.batch, h.brute, h.ls, h.sgd⟩, rfl, rfl⟩
  | relftol x => exact ⟨_, rfl, ⟨h.lb, h.ub, h.newton, h.batch, h.brute, h.ls, h.sgd⟩, rfl, rfl⟩
  | gtol x => exact ⟨_, rfl, ⟨h.lb, h.ub, h.newton, h.batch, h.brute, h.ls, h.sgd⟩, rfl, rfl⟩
  | storage a b c => exact ⟨_, rfl, ⟨h.lb, h.ub, h.newton, h.batch, h.brute, h.ls, h.sgd⟩, rfl, rfl⟩
  | lsAlg a =>
    obtain ⟨l, hl⟩ := onLs_ok h hc (fun l => { l with alg := a })
    exact ⟨_, hl, withLs_inv h l, rfl, rfl⟩
  | lsAlpha x =>
    obtain ⟨l, hl⟩ := onLs_ok h hc (fun l => { l with alpha := x })
    exact ⟨_, hl, withLs_inv h l, rfl, rfl⟩
  | lsBeta x =>
    obtain ⟨l, hl⟩ := onLs_ok h hc (fun l => { l with beta := x })
    exact ⟨_, hl, withLs_inv h l, rfl, rfl⟩
  | lsMaxiter n =>
    obtain ⟨l, hl⟩ := onLs_ok h hc (fun l => { l with maxiter := n })
    exact ⟨_, hl, withLs_inv h l, rfl, rfl⟩
  | nvec n => exact ⟨_, rfl, ⟨h.lb, h.ub, h.newton, h.batch, h.brute, h.ls, h.sgd⟩, rfl, rfl⟩
  | scale s => exact ⟨_, rfl, ⟨h.lb, h.ub, h.newton, h.batch, h.brute, h.ls, h.sgd⟩, rfl, rfl⟩
  | brute n loc =>
    obtain ⟨ha, l, rfl, hl⟩ := hc
    obtain ⟨w, hw, hB, _⟩ := move_bound (b := some (List.replicate (n * o.d) (0 : K))) (d := o.d * n) (l := l)
      (by rw [Nat.mul_comm]; exact Buf.rep _ _) hl
    refine ⟨{ o with nlocs := some n, ws := w }, ?_, ⟨h.lb, h.ub, ?_, ?_, fun _ => ⟨n, rfl, ?_⟩, h.ls, h.sgd⟩, rfl, rfl⟩
    · simp only [step, bruteVals, hw]; rfl
    · intro ha'
      have ha'' : o.alg = .bfgs ∨ o.alg = .lbfgs ∨ o.alg = .sgd := ha'
      rw [ha] at ha''
      simp at ha''
    · intro ha'
      have ha'' : o.alg = .batchgrad := ha'
      rw [ha] at ha''
      simp at ha''
    · show Buf w (n * o.d)
      rw [Nat.mul_comm]; exact hB
  | objective f a => exact ⟨_, rfl, ⟨h.lb, h.ub, h.newton, h.batch, h.brute, h.ls, h.sgd⟩, rfl, rfl⟩
  | stoch g a => exact ⟨_, rfl, ⟨h.lb, h.ub, h.newton, h.batch, h.brute, h.ls, h.sgd⟩, rfl, rfl⟩
  | rate x =>
    obtain ⟨ha, hx⟩ := hc
    obtain ⟨s, hs⟩ := h.sgd ha
    exact ⟨{ o with sgd := some { s with rate := x } }, by simp only [step, hs, if_pos hx], withSgd_inv h _, rfl, rfl⟩
  | nsamples n =>
    obtain ⟨s, hs⟩ := h.sgd hc
    exact ⟨{ o with sgd := some { s with nsamples := n } }, by simp only [step, hs], withSgd_inv h _, rfl, rfl⟩

theorem run_ok (M : K) (cs : List (Op K F G A)) : ∀ {o : Opt K F G A}, Inv o → Goods o.alg o.d cs →
    ∃ o', run M o cs = .ok o' ∧ Inv o' ∧ o'.alg = o.alg := by
  induction cs with
  | nil => intro o h _; exact ⟨o, rfl, h, rfl⟩
  | cons c cs ih =>
    intro o h hg
    obtain ⟨o1, h1, hi, ha, hd⟩ := step_ok M h hg.1
    obtain ⟨o2, h2, hi2, ha2⟩ := ih (o := o1) hi (by rw [ha, hd]; exact hg.2)
    exact ⟨o2, by simp only [run, h1, bind_ok, h2], hi2, by rw [ha2, ha]⟩

theorem lastD_cons {R : Type} (sel : Op K F G A → Option R) (v : R) (c : Op K F G A) (cs : List (Op K F G A)) :
    lastD sel v (c :: cs) = lastD sel ((sel c).getD v) cs := by
  simp only [lastD, List.filterMap_cons]
  cases h : sel c with
  | none => simp
  | some r =>
    simp only [Option.getD_some]
    cases hl : cs.filterMap sel with
    | nil => simp
    | cons x xs =>
      rw [List.getLast?_cons_cons, List.getLast?_eq_getLast_of_ne_nil (List.cons_ne_nil x xs)]
      rfl

/-- A field that every call sets as `sel` says has at the end the value of the last selected call. -/
theorem run_last (M : K) {R : Type} (field : Opt K F G A → R) (sel : Op K F G A → Option R)
    (hs : ∀ o c o', step M o c = .ok o' → field o' = (sel c).getD (field o)) (cs : List (Op K F G A)) :
    ∀ {o o' : Opt K F G A}, run M o cs = .ok o' → field o' = lastD sel (field o) cs := by
  induction cs with
  | nil => intro o o' h; simp only [run, Except.ok.injEq] at h; subst h; rfl
  | cons c cs ih =>
    intro o o' h
    simp only [run] at h
    cases h1 : step M o c with
    | error e => rw [h1] at h; cases h
    | ok o1 =>
      rw [h1, bind_ok] at h
      rw [lastD_cons, ih h, hs o c o1 h1]

/-- The scalar settings after one call. -/
theorem step_fields (M : K) {o : Opt K F G A} {c : Op K F G A} {o' : Opt K F G A} (h : step M o c = .ok o') :
    o'.d = dim o.d c ∧ o'.alg = o.alg ∧
    o'.maxiter = (match c with | .maxiter n => n | _ => o.maxiter) ∧
    o'.absxtol = (match c with | .absxtol x => x | _ => o.absxtol) ∧
    o'.relftol = (match c with | .relftol x => x | _ => o.relftol) ∧
    o'.gtol = (match c with | .gtol x => x | _ => o.gtol) ∧
    o'.relxtol = o.relxtol ∧
    o'.verbose = (match c with | .verbose v => v | _ => o.verbose) ∧
    o'.nvec = (match c with | .nvec n => n | _ => o.nvec) ∧
    o'.scale = (match c with | .scale n => n | _ => o.scale) ∧
    o'.f = (match c with | .objective f _ => f | _ => o.f) ∧
    o'.fsgd = (match c with | .stoch g _ => some g | _ => o.fsgd) ∧
    o'.farg = (match c with | .objective _ a => a | .stoch _ a => a | _ => o.farg) ∧
    (o'.stFunc, o'.stGrad, o'.stX) = (match c with | .storage a b e => (a, b, e) | _ => (o.stFunc, o.stGrad, o.stX)) := by
  have hls : ∀ u, onLs o u = .ok o' → ∃ l, o' = { o with ls := l } := by
    intro u hu
    unfold onLs at hu
    cases hl : o.ls with
    | none => rw [hl] at hu; cases hu
    | some l => rw [hl] at hu; cases hu; exact ⟨_, rfl⟩
  cases c with
  | lb b =>
    simp only [step, addLb] at h
    cases hb : (cassert (decide (b.isSome = true)) : C Unit) with
    | error e => rw [hb] at h; cases h
    | ok u =>
      rw [hb, bind_ok] at h
      cases hw : move o.lb b o.d with
      | error e => rw [hw] at h; cases h
      | ok w => rw [hw, bind_ok] at h; cases h; simp [dim]
  | ub b =>
    simp only [step, addUb] at h
    cases hb : (cassert (decide (b.isSome = true)) : C Unit) with
    | error e => rw [hb] at h; cases h
    | ok u =>
      rw [hb, bind_ok] at h
      cases hw : move o.ub b o.d with
      | error e => rw [hw] at h; cases h
      | ok w => rw [hw, bind_ok] at h; cases h; simp [dim]
  | brute n loc =>
    simp only [step, bruteVals] at h
    cases hw : move (some (List.replicate (n * o.d) (0 : K))) loc (o.d * n) with
    | error e => rw [hw] at h; cases h
    | ok w => rw [hw, bind_ok] at h; cases h; simp [dim]
  | rate x =>
    simp only [step] at h
    cases hs : o.sgd with
    | none => rw [hs] at h; cases h
    | some s =>
      rw [hs] at h
      by_cases hx : x ≤ 1
      · simp only [if_pos hx] at h; cases h; simp [dim]
      · simp only [if_neg hx] at h; cases h
  | nsamples n =>
    simp only [step] at h
    cases hs : o.sgd with
    | none => rw [hs] at h; cases h
    | some s => rw [hs] at h; cases h; simp [dim]
  | lsAlg a => obtain ⟨l, rfl⟩ := hls _ h; simp [dim]
  | lsAlpha a => obtain ⟨l, rfl⟩ := hls _ h; simp [dim]
  | lsBeta a => obtain ⟨l, rfl⟩ := hls _ h; simp [dim]
  | lsMaxiter a => obtain ⟨l, rfl⟩ := hls _ h; simp [dim]
  | nvars n => cases h; simp [dim, setNvars]
  | storage a b e => cases h; simp [dim, setStorage]
  | verbose v => cases h; simp [dim]
  | maxiter v => cases h; simp [dim]
  | absxtol v => cases h; simp [dim]
  | relftol v => cases h; simp [dim]
  | gtol v => cases h; simp [dim]
  | nvec v => cases h; simp [dim]
  | scale v => cases h; simp [dim]
  | objective v w => cases h; simp [dim]
  | stoch v w => cases h; simp [dim]

/-- Last writer for a setting chosen by `sel`. -/
theorem run_set (M : K) {R : Type} (field : Opt K F G A → R) (sel : Op K F G A → Option R)
    (hs : ∀ o c o', step M o c = .ok o' → field o' = (sel c).getD (field o)) {cs : List (Op K F G A)}
    {o o' : Opt K F G A} (h : run M o cs = .ok o') : field o' = lastD sel (field o) cs := run_last M field sel hs cs h

/-! ## Bounds and brute force points after a session -/

/-- The lower bounds that a call asks for. -/
def selLb (M : K) : Op K F G A → Option (List K)
  | .nvars n => some (List.replicate n (-M))
  | .lb b => b
  | _ => none

/-- The upper bounds that a call asks for. -/
def selUb (M : K) : Op K F G A → Option (List K)
  | .nvars n => some (List.replicate n M)
  | .ub b => b
  | _ => none

/-- C134: setting the number of variables starts afresh: no evaluations counted, empty traces, the rest kept. -/
theorem nvars_fresh (M : K) {o o' : Opt K F G A} {n : Nat} (hs : step M o (.nvars n) = .ok o') :
    o'.d = n ∧ o'.nevals = 0 ∧ o'.ngvals = 0 ∧ o'.niters = 0 ∧ o'.maxiter = o.maxiter ∧ o'.alg = o.alg ∧ o'.f = o.f ∧
      (∀ t, o'.sX = some t → t = List.replicate (n * 8 * o.maxiter) 0) ∧ (∀ t, o'.sFunc = some t → t = List.replicate (8 * o.maxiter) 0) := by
  cases hs
  refine ⟨rfl, rfl, rfl, rfl, rfl, rfl, rfl, ?_, ?_⟩
  · intro t ht
    by_cases hx : o.stX = 1
    · simp [setNvars, traceBufs, hx] at ht; exact ht.symm
    · simp [setNvars, traceBufs, hx] at ht
  · intro t ht
    by_cases hx : o.stFunc = 1
    · simp [setNvars, traceBufs, hx] at ht; exact ht.symm
    · simp [setNvars, traceBufs, hx] at ht

theorem bounds_step (M : K) {o : Opt K F G A} (h : Inv o) {c : Op K F G A} (hc : Good o.alg o.d c) {o' : Opt K F G A}
    (hs : step M o c = .ok o') {v w : List K} (hv : o.lb.getD [] = v.take o.d) (hw : o.ub.getD [] = w.take o.d) :
    o'.lb.getD [] = ((selLb M c).getD v).take o'.d ∧ o'.ub.getD [] = ((selUb M c).getD w).take o'.d := by
  have hls : ∀ u, onLs o u = .ok o' → ∃ l, o' = { o with ls := l } := by
    intro u hu
    unfold onLs at hu
    cases hl : o.ls with
    | none => rw [hl] at hu; cases hu
    | some l => rw [hl] at hu; cases hu; exact ⟨_, rfl⟩
  cases c with
  | nvars n => cases hs; simp [setNvars, selLb, selUb]
  | lb b =>
    obtain ⟨l, rfl, hl⟩ := hc
    obtain ⟨b', hb, _, e⟩ := move_bound h.lb hl
    have : o' = { o with lb := b' } := by
      simp only [step, addLb, hb] at hs
      cases hs; rfl
    subst this
    exact ⟨e, hw⟩
  | ub b =>
    obtain ⟨l, rfl, hl⟩ := hc
    obtain ⟨b', hb, _, e⟩ := move_bound h.ub hl
    have : o' = { o with ub := b' } := by
      simp only [step, addUb, hb] at hs
      cases hs; rfl
    subst this
    exact ⟨hv, e⟩
  | brute n loc =>
    simp only [step, bruteVals] at hs
    cases hm : move (some (List.replicate (n * o.d) (0 : K))) loc (o.d * n) with
    | error e => rw [hm] at hs; cases hs
    | ok b => rw [hm, bind_ok] at hs; cases hs; exact ⟨hv, hw⟩
  | rate x =>
    obtain ⟨ha, hx⟩ := hc
    obtain ⟨s, e⟩ := h.sgd ha
    simp only [step, e, if_pos hx] at hs
    cases hs; exact ⟨hv, hw⟩
  | nsamples n =>
    obtain ⟨s, e⟩ := h.sgd hc
    simp only [step, e] at hs
    cases hs; exact ⟨hv, hw⟩
  | lsAlg a => obtain ⟨l, rfl⟩ := hls _ hs; exact ⟨hv, hw⟩
  | lsAlpha a => obtain ⟨l, rfl⟩ := hls _ hs; exact ⟨hv, hw⟩
  | lsBeta a => obtain ⟨l, rfl⟩ := hls _ hs; exact ⟨hv, hw⟩
  | lsMaxiter a => obtain ⟨l, rfl⟩ := hls _ hs; exact ⟨hv, hw⟩
  | storage a b e => cases hs; exact ⟨hv, hw⟩
  | verbose v => cases hs; exact ⟨hv, hw⟩
  | maxiter v => cases hs; exact ⟨hv, hw⟩
  | absxtol v => cases hs; exact ⟨hv, hw⟩
  | relftol v => cases hs; exact ⟨hv, hw⟩
  | gtol v => cases hs; exact ⟨hv, hw⟩
  | nvec v => cases hs; exact ⟨hv, hw⟩
  | scale v => cases hs; exact ⟨hv, hw⟩
  | objective v w => cases hs; exact ⟨hv, hw⟩
  | stoch v w => cases hs; exact ⟨hv, hw⟩

theorem bounds_run (M : K) (cs : List (Op K F G A)) : ∀ {o o' : Opt K F G A} {v w : List K}, Inv o → Goods o.alg o.d cs →
    run M o cs = .ok o' → o.lb.getD [] = v.take o.d → o.ub.getD [] = w.take o.d →
    o'.lb.getD [] = (lastD (selLb M) v cs).take o'.d ∧ o'.ub.getD [] = (lastD (selUb M) w cs).take o'.d := by
  induction cs with
  | nil =>
    intro o o' v w _ _ h hv hw
    simp only [run, Except.ok.injEq] at h
    subst h
    exact ⟨hv, hw⟩
  | cons c cs ih =>
    intro o o' v w hi hg h hv hw
    obtain ⟨o1, h1, hi1, ha, hd⟩ := step_ok M hi hg.1
    simp only [run, h1, bind_ok] at h
    obtain ⟨e1, e2⟩ := bounds_step M hi hg.1 h1 hv hw
    rw [lastD_cons, lastD_cons]
    exact ih hi1 (by rw [ha, hd]; exact hg.2) h e1 e2

end C3.Oo
