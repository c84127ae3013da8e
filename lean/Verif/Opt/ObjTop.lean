/-
C134: the theorems about optimizer objects, with their examples.
-/
import Verif.Opt.ObjMain

namespace C3.Oo

variable {K F G A : Type} [Field K] [LinearOrder K]

/-- The two ways to make an optimizer. -/
def Fresh (a : Alg) (d : Nat) (o : Opt K F G A) : Prop := (o = create a ∧ d = 0) ∨ o = alloc a d

/-- **Sessions.** Whatever fitting calls follow on a new optimizer, all of them succeed, the object has bounds for every variable, a
workspace of the size the algorithm uses and its parameters, and every setting has the value of the last call that set it: for the
bounds the calls that count are the bounds themselves and `c3opt_set_nvars`, which makes them infinite again. -/
theorem optimizer_session (M : K) {a : Alg} {d : Nat} {s : Opt K F G A} (hs : Fresh a d s) {cs : List (Op K F G A)}
    (hg : Goods a d cs) :
    ∃ o, run M s cs = .ok o ∧ Inv o ∧ o.alg = a ∧
      o.d = lastD (fun c => match c with | .nvars n => some n | _ => none) d cs ∧
      o.lb.getD [] = (lastD (selLb M) (s.lb.getD []) cs).take o.d ∧
      o.ub.getD [] = (lastD (selUb M) (s.ub.getD []) cs).take o.d ∧
      o.maxiter = lastD (fun c => match c with | .maxiter n => some n | _ => none) s.maxiter cs ∧
      o.absxtol = lastD (fun c => match c with | .absxtol x => some x | _ => none) s.absxtol cs ∧
      o.relftol = lastD (fun c => match c with | .relftol x => some x | _ => none) s.relftol cs ∧
      o.gtol = lastD (fun c => match c with | .gtol x => some x | _ => none) s.gtol cs ∧
      o.verbose = lastD (fun c => match c with | .verbose x => some x | _ => none) s.verbose cs ∧
      o.f = lastD (fun c => match c with | .objective f _ => some f | _ => none) none cs ∧
      o.farg = lastD (fun c => match c with | .objective _ x => some x | .stoch _ x => some x | _ => none) none cs ∧
      o.fsgd = lastD (fun c => match c with | .stoch g _ => some (some g) | _ => none) none cs := by
  have h1 : Inv s ∧ s.alg = a ∧ s.d = d ∧ s.f = none ∧ s.farg = none ∧ s.fsgd = none := by
    rcases hs with ⟨rfl, rfl⟩ | rfl
    · exact ⟨create_inv a, rfl, rfl, rfl, rfl, rfl⟩
    · exact ⟨alloc_inv a d, rfl, rfl, rfl, rfl, rfl⟩
  obtain ⟨hi, ha, hd, hf, hfa, hfs⟩ := h1
  obtain ⟨o, ho, hio, hao⟩ := run_ok M cs hi (by rw [ha, hd]; exact hg)
  obtain ⟨b1, b2⟩ := bounds_run M cs (v := s.lb.getD []) (w := s.ub.getD []) hi (by rw [ha, hd]; exact hg) ho
    (by rw [List.take_of_length_le (by rw [hi.lb.getD])]) (by rw [List.take_of_length_le (by rw [hi.ub.getD])])
  refine ⟨o, ho, hio, hao.trans ha, ?_, b1, b2, ?_, ?_, ?_, ?_, ?_, ?_, ?_, ?_⟩
  · rw [← hd]
    refine run_set M (fun o => o.d) _ ?_ ho
    intro o c o' h
    rw [(step_fields M h).1]
    cases c <;> rfl
  · refine run_set M (fun o => o.maxiter) _ ?_ ho
    intro o c o' h
    rw [(step_fields M h).2.2.1]
    cases c <;> rfl
  · refine run_set M (fun o => o.absxtol) _ ?_ ho
    intro o c o' h
    rw [(step_fields M h).2.2.2.1]
    cases c <;> rfl
  · refine run_set M (fun o => o.relftol) _ ?_ ho
    intro o c o' h
    rw [(step_fields M h).2.2.2.2.1]
    cases c <;> rfl
  · refine run_set M (fun o => o.gtol) _ ?_ ho
    intro o c o' h
    rw [(step_fields M h).2.2.2.2.2.1]
    cases c <;> rfl
  · refine run_set M (fun o => o.verbose) _ ?_ ho
    intro o c o' h
    rw [(step_fields M h).2.2.2.2.2.2.2.1]
    cases c <;> rfl
  · rw [← hf]
    refine run_set M (fun o => o.f) _ ?_ ho
    intro o c o' h
    rw [(step_fields M h).2.2.2.2.2.2.2.2.2.2.1]
    cases c <;> rfl
  · rw [← hfa]
    refine run_set M (fun o => o.farg) _ ?_ ho
    intro o c o' h
    rw [(step_fields M h).2.2.2.2.2.2.2.2.2.2.2.2.1]
    cases c <;> rfl
  · rw [← hfs]
    refine run_set M (fun o => o.fsgd) _ ?_ ho
    intro o c o' h
    rw [(step_fields M h).2.2.2.2.2.2.2.2.2.2.2.1]
    cases c <;> rfl

/-- A session on a new L-BFGS optimizer: two variables, bounds, the number of iterations twice; the values of the last calls. -/
example : ∃ o : Opt ℚ Unit Unit Unit,
    run 1000 (create .lbfgs) [.nvars 3, .lb (some [7, 7, 7]), .nvars 2, .lb (some [0, -1]), .maxiter 5, .lsAlpha (1 / 2),
      .maxiter 20] = .ok o ∧ o.d = 2 ∧ o.lb.getD [] = [0, -1] ∧ o.ub.getD [] = [1000, 1000] ∧ o.maxiter = 20 := by
  obtain ⟨o, h, _, _, hd, hl, hu, hm, _⟩ := optimizer_session (K := ℚ) (F := Unit) (G := Unit) (A := Unit) 1000 (a := .lbfgs)
    (d := 0) (Or.inl ⟨rfl, rfl⟩)
    (cs := [.nvars 3, .lb (some [7, 7, 7]), .nvars 2, .lb (some [0, -1]), .maxiter 5, .lsAlpha (1 / 2), .maxiter 20])
    ⟨trivial, ⟨[7, 7, 7], rfl, by decide⟩, trivial, ⟨[0, -1], rfl, by decide⟩, trivial, Or.inr (Or.inl rfl), trivial, trivial⟩
  have hd' : o.d = 2 := hd
  refine ⟨o, h, hd', ?_, ?_, hm⟩
  · rw [hl, hd']; rfl
  · rw [hu, hd']; rfl

omit [LinearOrder K] in
theorem traceBufs_tinv {o : Opt K F G A} {g f x : Option (List K)}
    (e : (o.sGrad, o.sFunc, o.sX) = traceBufs o.d o.maxiter o.stGrad o.stFunc o.stX g f x) : TInv o := by
  simp only [traceBufs, Prod.mk.injEq] at e
  obtain ⟨e1, e2, e3⟩ := e
  refine ⟨fun h => ?_, fun h => ?_, fun h => ?_⟩
  · rw [if_pos h] at e1
    exact ⟨_, e1, by simp; nlinarith [Nat.zero_le (o.d * o.maxiter)]⟩
  · rw [if_pos h] at e2
    exact ⟨_, e2, by simp; omega⟩
  · rw [if_pos h] at e3
    exact ⟨_, e3, by simp; nlinarith [Nat.zero_le (o.d * o.maxiter)]⟩

/-- Every call but a change of `maxiter` keeps room for `maxiter` iterates. -/
theorem step_tinv (M : K) {o o' : Opt K F G A} {c : Op K F G A} (h : step M o c = .ok o') (ht : TInv o)
    (hc : ∀ n, c ≠ .maxiter n) : TInv o' := by
  have hls : ∀ u, onLs o u = .ok o' → ∃ l, o' = { o with ls := l } := by
    intro u hu
    unfold onLs at hu
    cases hl : o.ls with
    | none => rw [hl] at hu; cases hu
    | some l => rw [hl] at hu; cases hu; exact ⟨_, rfl⟩
  cases c with
  | lb b =>
    simp only [step, addLb] at h
    cases hb : (cassert (decide (b.isSome = true)) : C Unit) with
    | error e => rw [hb] at h; cases h
    | ok u =>
      rw [hb, bind_ok] at h
      cases hw : move o.lb b o.d with
      | error e => rw [hw] at h; cases h
      | ok w => rw [hw, bind_ok] at h; cases h; exact ⟨ht.g, ht.f, ht.x⟩
  | ub b =>
    simp only [step, addUb] at h
    cases hb : (cassert (decide (b.isSome = true)) : C Unit) with
    | error e => rw [hb] at h; cases h
    | ok u =>
      rw [hb, bind_ok] at h
      cases hw : move o.ub b o.d with
      | error e => rw [hw] at h; cases h
      | ok w => rw [hw, bind_ok] at h; cases h; exact ⟨ht.g, ht.f, ht.x⟩
  | brute n loc =>
    simp only [step, bruteVals] at h
    cases hw : move (some (List.replicate (n * o.d) (0 : K))) loc (o.d * n) with
    | error e => rw [hw] at h; cases h
    | ok w => rw [hw, bind_ok] at h; cases h; exact ⟨ht.g, ht.f, ht.x⟩
  | rate x =>
    simp only [step] at h
    cases hs : o.sgd with
    | none => rw [hs] at h; cases h
    | some s =>
      rw [hs] at h
      by_cases hx : x ≤ 1
      · simp only [if_pos hx] at h; cases h; exact ⟨ht.g, ht.f, ht.x⟩
      · simp only [if_neg hx] at h; cases h
  | nsamples n =>
    simp only [step] at h
    cases hs : o.sgd with
    | none => rw [hs] at h; cases h
    | some s => rw [hs] at h; cases h; exact ⟨ht.g, ht.f, ht.x⟩
  | lsAlg a => obtain ⟨l, rfl⟩ := hls _ h; exact ⟨ht.g, ht.f, ht.x⟩
  | lsAlpha a => obtain ⟨l, rfl⟩ := hls _ h; exact ⟨ht.g, ht.f, ht.x⟩
  | lsBeta a => obtain ⟨l, rfl⟩ := hls _ h; exact ⟨ht.g, ht.f, ht.x⟩
  | lsMaxiter a => obtain ⟨l, rfl⟩ := hls _ h; exact ⟨ht.g, ht.f, ht.x⟩
  | nvars n => cases h; exact traceBufs_tinv (g := none) (f := none) (x := none) rfl
  | storage a b e => cases h; exact traceBufs_tinv (g := o.sGrad) (f := o.sFunc) (x := o.sX) rfl
  | maxiter v => exact absurd rfl (hc v)
  | verbose v => cases h; exact ⟨ht.g, ht.f, ht.x⟩
  | absxtol v => cases h; exact ⟨ht.g, ht.f, ht.x⟩
  | relftol v => cases h; exact ⟨ht.g, ht.f, ht.x⟩
  | gtol v => cases h; exact ⟨ht.g, ht.f, ht.x⟩
  | nvec v => cases h; exact ⟨ht.g, ht.f, ht.x⟩
  | scale v => cases h; exact ⟨ht.g, ht.f, ht.x⟩
  | objective v w => cases h; exact ⟨ht.g, ht.f, ht.x⟩
  | stoch v w => cases h; exact ⟨ht.g, ht.f, ht.x⟩

theorem run_tinv (M : K) (cs : List (Op K F G A)) (hc : ∀ n, Op.maxiter n ∉ cs) : ∀ {o o' : Opt K F G A},
    run M o cs = .ok o' → TInv o → TInv o' := by
  induction cs with
  | nil => intro o o' h ht; simp only [run, Except.ok.injEq] at h; subst h; exact ht
  | cons c cs ih =>
    intro o o' h ht
    simp only [run] at h
    cases h1 : step M o c with
    | error e => rw [h1] at h; cases h
    | ok o1 =>
      rw [h1, bind_ok] at h
      exact ih (fun n hn => hc n (List.mem_cons_of_mem _ hn)) h
        (step_tinv M h1 ht (fun n hn => hc n (by rw [hn]; exact List.mem_cons_self)))

theorem run_append (M : K) (cs ds : List (Op K F G A)) : ∀ o : Opt K F G A,
    run M o (cs ++ ds) = (run M o cs >>= fun p => run M p ds) := by
  induction cs with
  | nil => intro o; rfl
  | cons c cs ih =>
    intro o
    simp only [List.cons_append, run]
    cases step M o c with
    | error e => rfl
    | ok o1 => exact ih o1

/-- The number of iterations is fixed before the traces are switched on: then there is room for them. -/
theorem session_room (M : K) {a : Alg} {d : Nat} {s : Opt K F G A} (hs : Fresh a d s) {pre post : List (Op K F G A)}
    (h1 : ∀ x y z, Op.storage x y z ∉ pre) (h2 : ∀ n, Op.maxiter n ∉ post) {o : Opt K F G A}
    (ho : run M s (pre ++ post) = .ok o) : TInv o := by
  rw [run_append] at ho
  cases hp : run M s pre with
  | error e => rw [hp] at ho; cases ho
  | ok p =>
    rw [hp, bind_ok] at ho
    refine run_tinv M post h2 ho ?_
    have hf : (p.stFunc, p.stGrad, p.stX) = (0, 0, 0) := by
      have h0 : (s.stFunc, s.stGrad, s.stX) = (0, 0, 0) := by
        rcases hs with ⟨rfl, rfl⟩ | rfl <;> rfl
      have := run_set M (fun o : Opt K F G A => (o.stFunc, o.stGrad, o.stX))
        (fun c => match c with | .storage x y z => some (x, y, z) | _ => none)
        (by
          intro o c o' h
          have e := (step_fields M h).2.2.2.2.2.2.2.2.2.2.2.2.2
          rw [e]
          cases c <;> rfl) hp
      rw [this, h0]
      have hnil : pre.filterMap (fun c => match c with | .storage x y z => some (x, y, z) | _ => none) = [] := by
        rw [List.filterMap_eq_nil_iff]
        intro c hc
        cases c <;> first | rfl | exact absurd hc (h1 _ _ _)
      simp only [lastD, hnil]
      rfl
    simp only [Prod.mk.injEq] at hf
    exact ⟨fun h => absurd h (by rw [hf.2.1]; decide), fun h => absurd h (by rw [hf.1]; decide),
      fun h => absurd h (by rw [hf.2.2]; decide)⟩

omit [LinearOrder K] in
/-- **The copy.** For an object of a session (`Inv`, with room for the traces) that does not run batch gradient descent, `c3opt_copy`
succeeds without leaving a buffer, the copy answers every query like the original (bounds, tolerances, line search, brute force points,
counters, the stored traces up to `maxiter` iterates) and is itself fit for use. Missing: the stochastic objective
(`copy_sgd_actual`) and batch gradient descent (`copy_batchgrad_actual`). -/
theorem copy_object_partial {o : Opt K F G A} (h : Inv o) (ht : TInv o) (hb : o.alg ≠ .batchgrad) :
    ∃ c, copy o = .ok c ∧ Same o c ∧ Inv c ∧ TInv c := by
  obtain ⟨c, h1, h2, h3, h4, _⟩ := copy_ok h ht (fun e => absurd e hb)
  exact ⟨c, h1, h2, h3, h4⟩

/-- Brute force over two points of the plane: the copy has the points. -/
example : ∃ o c : Opt ℚ Unit Unit Unit, run 0 (alloc .bruteforce 2) [.brute 2 (some [1, 2, 3, 4]), .maxiter 3] = .ok o ∧
    copy o = .ok c ∧ c.ws.getD [] = [1, 2, 3, 4] ∧ c.nlocs = some 2 := by
  obtain ⟨o, h, hi, ha, _⟩ := optimizer_session (K := ℚ) (F := Unit) (G := Unit) (A := Unit) 0 (a := .bruteforce) (d := 2)
    (s := alloc .bruteforce 2) (Or.inr rfl) (cs := [.brute 2 (some [1, 2, 3, 4]), .maxiter 3])
    ⟨⟨rfl, [1, 2, 3, 4], rfl, by decide⟩, trivial, trivial⟩
  have ht : TInv o := session_room 0 (a := .bruteforce) (d := 2) (s := alloc .bruteforce 2)
    (pre := [.brute 2 (some [1, 2, 3, 4]), .maxiter 3]) (post := []) (Or.inr rfl) (by simp) (by simp) h
  obtain ⟨c, hc, hS, _⟩ := copy_object_partial hi ht (by rw [ha]; decide)
  have e : (run 0 (alloc .bruteforce 2) [.brute 2 (some [1, 2, 3, 4]), .maxiter 3] : C (Opt ℚ Unit Unit Unit)) =
      .ok { (alloc .bruteforce 2 : Opt ℚ Unit Unit Unit) with nlocs := some 2, ws := some [1, 2, 3, 4], maxiter := 3 } := rfl
  rw [e] at h
  cases h
  exact ⟨_, c, e, hc, hS.ws, hS.nlocs⟩

omit [LinearOrder K] in
/-- **`c3opt_copy` of a batch gradient optimizer leaves its buffers.** Its workspace has `2*d` numbers, the copy moves `4*d`
(optimization.c:548 with 405 and 491): for every such object with at least one variable the copy reads and writes behind the end. -/
theorem copy_batchgrad_actual {o : Opt K F G A} (h : Inv o) (hb : o.alg = .batchgrad) (hd : 0 < o.d) :
    copy o = .error .oob := by
  obtain ⟨lb, hlb, _, _⟩ := move_fresh (a := List.replicate o.d (-(10 ^ 30 : K))) (by simp) h.lb
  obtain ⟨ub, hub, _, _⟩ := move_fresh (a := List.replicate o.d (10 ^ 30 : K)) (by simp) h.ub
  have hm : move (some (List.replicate (2 * o.d) (0 : K))) o.ws (4 * o.d) = .error .oob := by
    rcases h.batch hb with ⟨l, e, _⟩ | ⟨_, e⟩
    · rw [e]
      simp only [move]
      rw [if_neg (by omega), if_neg (by simp; omega)]
    · omega
  simp only [copy, hb, alloc, algWs, hlb, hub, bind_ok, hm]
  rfl

example : (copy (alloc .batchgrad 3) : C (Opt ℚ Unit Unit Unit)) = .error .oob :=
  copy_batchgrad_actual (alloc_inv _ _) rfl (by decide)

omit [LinearOrder K] in
/-- **The copy of an SGD optimizer has no objective.** `c3opt_copy` does not copy `fsgd` and `c3opt_alloc` does not initialise it:
evaluating the stochastic objective of the original works, with the copy an indeterminate function pointer is called. -/
theorem copy_sgd_actual {R : Type} (ap : G → Option A → Nat → R) {o : Opt K F G A} (h : Inv o) (ht : TInv o) (hb : o.alg = .sgd)
    {g : G} (hg : o.fsgd = some (some g)) :
    ∃ c, copy o = .ok c ∧ evalStoch ap o = .ok (ap g o.farg o.d) ∧ evalStoch ap c = .error .ub := by
  obtain ⟨c, h1, _, _, _, hf⟩ := copy_ok h ht (fun e => by rw [hb] at e; cases e)
  exact ⟨c, h1, by simp only [evalStoch, hg], by simp only [evalStoch, hf]⟩

example : ∃ o c : Opt ℚ Unit Nat Unit, run 0 (alloc .sgd 2) [.stoch (some 7) none] = .ok o ∧ copy o = .ok c ∧
    evalStoch (fun g _ _ => g) o = .ok 7 ∧ evalStoch (fun g _ _ => g) c = .error .ub := by
  obtain ⟨o, h, hi, ha, _, _, _, _, _, _, _, _, _, hfa, hf⟩ := optimizer_session (K := ℚ) (F := Unit) (G := Nat) (A := Unit) 0 (a := .sgd) (d := 2)
    (s := alloc .sgd 2) (Or.inr rfl) (cs := [.stoch (some 7) none]) ⟨trivial, trivial⟩
  have ht : TInv o := session_room 0 (a := .sgd) (d := 2) (s := alloc .sgd 2) (pre := []) (post := [.stoch (some 7) none])
    (Or.inr rfl) (by simp) (by simp) h
  obtain ⟨c, hc, e1, e2⟩ := copy_sgd_actual (fun g _ _ => g) hi ht ha (g := 7) hf
  exact ⟨o, c, h, hc, e1, e2⟩

/-! ## The trace -/

section Trace
variable {K F G A : Type}

/-- **The stored trace.** If the buffers that are switched on have room for all iterates, recording succeeds and row `i` holds the value,
the gradient and the point of iterate `i`; `c3opt_get_stored_function` returns the values. -/
theorem trace_recorded {o : Opt K F G A} {its : List (K × List K × List K)} (hne : its ≠ []) (hR : Room o its.length)
    (hok : ∀ it ∈ its, o.d ≤ it.2.1.length ∧ o.d ≤ it.2.2.length) :
    ∃ o', recordAll o its = .ok o' ∧ o'.niters = its.length ∧ (∀ i it, its[i]? = some it → Row o' i it) ∧
      (o.stFunc = 1 → ∀ i it, its[i]? = some it → storedFunc o' i = .ok it.1) := by
  obtain ⟨o', h, _, _, ⟨f1, _, _⟩, _, hn, hrow⟩ := recordAll_ok hne hR hok
  refine ⟨o', h, hn, hrow, fun hf i it hi => ?_⟩
  have hi' : i < its.length := (List.getElem?_eq_some_iff.1 hi).1
  simp only [storedFunc]
  rw [cassert_of (show decide (o'.stFunc = 1) = true by rw [f1, hf]; rfl), bind_ok,
    cassert_of (show decide (i < o'.niters) = true by rw [hn]; simpa using hi'), bind_ok]
  exact (hrow i it hi).f (by rw [f1, hf])

theorem mapM_at {b : Option (List K)} {v : List K} {k n : Nat} (hv : n ≤ v.length)
    (h : ∀ j w, j < n → v[j]? = some w → at' b (k + j) = .ok w) :
    (List.range n).mapM (fun j => at' b (k + j)) = (.ok (v.take n) : C _) := by
  induction n with
  | zero => rfl
  | succ n ih =>
    rw [List.range_succ, List.mapM_append, ih (by omega) (fun j w hj => h j w (by omega))]
    simp only [bind_ok, List.mapM_cons, List.mapM_nil]
    rw [h n v[n] (by omega) (List.getElem?_eq_getElem _), List.take_succ_eq_append_getElem (by omega)]
    rfl

/-- **The printed trace**, when the number of iterates is the number of variables (or for the first line): every line shows its iterate.
Missing: all other lengths (`print_stride_counterexample`, `print_oob_actual`). -/
theorem print_row_partial {o : Opt K F G A} {its : List (K × List K × List K)} (hne : its ≠ []) (hR : Room o its.length)
    (hok : ∀ it ∈ its, o.d ≤ it.2.1.length ∧ o.d ≤ it.2.2.length) {i : Nat} {it : K × List K × List K} (hi : its[i]? = some it)
    (hs : its.length = o.d ∨ i = 0) (h1 : o.stFunc = 1) (h2 : o.stGrad = 1) (h3 : o.stX = 1) :
    ∃ o', recordAll o its = .ok o' ∧ printRow o' i = .ok (it.1 :: (it.2.1.take o.d ++ it.2.2.take o.d)) := by
  obtain ⟨o', h, hd, _, ⟨f1, f2, f3⟩, _, hn, hrow⟩ := recordAll_ok hne hR hok
  refine ⟨o', h, ?_⟩
  have hm : it ∈ its := List.mem_of_getElem? hi
  have hst : i * o'.niters = i * o'.d := by
    rcases hs with hs | hs
    · rw [hn, hd, hs]
    · rw [hs]; simp
  have hf : printIf o'.stFunc o'.sFunc i 1 = .ok [it.1] := by
    simp only [printIf]
    rw [if_pos (by rw [f1, h1])]
    refine (mapM_at (v := [it.1]) (by simp) ?_).trans rfl
    intro j w hj hw
    have : j = 0 := by omega
    subst this
    simp only [List.getElem?_cons_zero, Option.some.injEq] at hw
    rw [← hw]
    exact (hrow i it hi).f (by rw [f1, h1])
  have hg : printIf o'.stGrad o'.sGrad (i * o'.niters) o'.d = .ok (it.2.1.take o.d) := by
    simp only [printIf]
    rw [if_pos (by rw [f2, h2]), hst, ← hd]
    exact mapM_at (by rw [hd]; exact (hok it hm).1) (fun j w hj hw => (hrow i it hi).g (by rw [f2, h2]) j w hj hw)
  have hx : printIf o'.stX o'.sX (i * o'.niters) o'.d = .ok (it.2.2.take o.d) := by
    simp only [printIf]
    rw [if_pos (by rw [f3, h3]), hst, ← hd]
    exact mapM_at (by rw [hd]; exact (hok it hm).2) (fun j w hj hw => (hrow i it hi).x (by rw [f3, h3]) j w hj hw)
  simp only [printRow, hf, hg, hx, bind_ok]
  rfl

end Trace

/-- Two variables, at most five iterations, everything stored. -/
def tObj : Opt ℚ Unit Unit Unit :=
  setStorage { (alloc .bfgs 2 : Opt ℚ Unit Unit Unit) with maxiter := 5 } 1 1 1

/-- Three iterates. -/
def tIts : List (ℚ × List ℚ × List ℚ) := [(9, [6, 7], [1, 2]), (4, [5, 8], [3, 4]), (1, [2, 3], [5, 6])]

example : ∃ o', recordAll tObj (tIts.take 2) = .ok o' ∧ printRow o' 1 = .ok [4, 5, 8, 3, 4] :=
  print_row_partial (o := tObj) (its := tIts.take 2) (i := 1) (it := (4, [5, 8], [3, 4])) (by simp [tIts])
    ⟨fun _ => ⟨_, rfl, by decide⟩, fun _ => ⟨_, rfl, by decide⟩, fun _ => ⟨_, rfl, by decide⟩⟩ (by decide) rfl
    (Or.inl rfl) rfl rfl rfl

/-- **The printed coordinates are not those of the line.** `c3opt_print_stored_values` reads row `i` from position `i*niters`
(optimization.c:847, 852), the optimizers store it at `i*d` (2065-2069): after three iterates of two variables the second printed line
shows the second coordinate of the second iterate followed by the first coordinate of the third. -/
theorem print_stride_counterexample : ∃ o', recordAll tObj tIts = .ok o' ∧
    printRow o' 1 = .ok [4, 8, 2, 4, 5] ∧ tIts[1]? = some (4, [5, 8], [3, 4]) := by
  have h : (recordAll tObj tIts).toOption.map (fun o => (printRow o 1).toOption) = some (some [4, 8, 2, 4, 5]) := by decide
  cases e : recordAll tObj tIts with
  | error x => rw [e] at h; cases h
  | ok o' =>
    refine ⟨o', rfl, ?_, rfl⟩
    rw [e] at h
    cases e2 : printRow o' 1 with
    | error x => simp only [Except.toOption, Option.map_some, e2] at h; cases h
    | ok l =>
      simp only [Except.toOption, Option.map_some, e2, Option.some.injEq] at h
      rw [h]

/-- **Printing a long trace reads behind the buffer.** With only the points stored, line `i` starts at position `i*niters`; as soon as
this is not smaller than the `8*d*maxiter` numbers allocated, the line reads out of bounds. -/
theorem print_oob_actual {K F G A : Type} {o : Opt K F G A} {l : List K} {i : Nat} (hf : o.stFunc ≠ 1) (hg : o.stGrad ≠ 1)
    (hx : o.stX = 1) (hl : o.sX = some l) (hd : 0 < o.d) (hi : l.length ≤ i * o.niters) : printRow o i = .error .oob := by
  have e : printIf o.stX o.sX (i * o.niters) o.d = .error .oob := by
    simp only [printIf]
    rw [if_pos hx, hl]
    obtain ⟨n, hn⟩ : ∃ n, o.d = n + 1 := ⟨o.d - 1, by omega⟩
    rw [hn, List.range_succ_eq_map, List.mapM_cons]
    have : at' (some l) (i * o.niters + 0) = .error .oob := rd_oob (by omega)
    rw [this]
    rfl
  simp only [printRow]
  rw [show printIf o.stFunc o.sFunc i 1 = .ok [] by simp only [printIf, if_neg hf],
    show printIf o.stGrad o.sGrad (i * o.niters) o.d = .ok [] by simp only [printIf, if_neg hg], e]
  rfl

/-- One variable, at most eight iterations, all nine recorded points fit, but the last line is read at position 72 of 64. -/
example : ∃ o', recordAll (setStorage { (alloc .bfgs 1 : Opt ℚ Unit Unit Unit) with maxiter := 8 } 0 0 1)
    (List.replicate 9 (0, [1], [2])) = .ok o' ∧ printRow o' 8 = .error .oob := by
  obtain ⟨o', h, hd, _, ⟨h1, h2, h3⟩, hR, hn, hrow⟩ := recordAll_ok
    (o := setStorage { (alloc .bfgs 1 : Opt ℚ Unit Unit Unit) with maxiter := 8 } 0 0 1)
    (its := List.replicate 9 (0, [1], [2])) (by simp)
    ⟨fun h => absurd h (by decide), fun h => absurd h (by decide), fun _ => ⟨_, rfl, by decide⟩⟩ (by decide)
  have h' : (recordAll (setStorage { (alloc .bfgs 1 : Opt ℚ Unit Unit Unit) with maxiter := 8 } 0 0 1)
    (List.replicate 9 (0, [1], [2]))).toOption.map (fun o => o.sX.map List.length) = some (some 64) := by decide
  obtain ⟨l, hl, _⟩ := hR.x (by rw [h3]; rfl)
  rw [h] at h'
  simp only [Except.toOption, Option.map_some, hl, Option.some.injEq] at h'
  exact ⟨o', h, print_oob_actual (by rw [h1]; decide) (by rw [h2]; decide) (by rw [h3]; rfl) hl (by rw [hd]; decide)
    (by rw [hn, h']; decide)⟩

end C3.Oo
