/-
C53: a wrapper created for a kind of function accepts the setter of that kind only, and evaluates what was set.
-/
import Verif.Fwrap.Props

namespace C3.Fw
variable {K V : Type}

/-- The kinds of wrapped function of the user documentation: pointwise, pointwise on index vectors, vectorised,
vectorised with an output number, array of vectorised functions. -/
inductive Kind | point | index | vec | mo | arr
  deriving DecidableEq

/-- The type strings a user passes for each kind. -/
def Kind.names : Kind → List String
  | .point => ["general"]
  | .index => ["general-index"]
  | .vec => ["general-vec", "python"]
  | .mo => ["mo-vec"]
  | .arr => ["array-vec"]

/-- Unknown type strings end the program, the others give a wrapper. -/
theorem create_known (dim : Nat) (type : String) :
    (∃ fw : Fwrap K V, create dim type = .ok fw) ↔ ∃ k : Kind, type ∈ k.names := by
  constructor
  · rintro ⟨fw, h⟩
    by_contra hk
    have h1 : type ≠ "general" := fun e => hk ⟨.point, by simp [Kind.names, e]⟩
    have h2 : type ≠ "general-index" := fun e => hk ⟨.index, by simp [Kind.names, e]⟩
    have h3 : type ≠ "general-vec" := fun e => hk ⟨.vec, by simp [Kind.names, e]⟩
    have h4 : type ≠ "python" := fun e => hk ⟨.vec, by simp [Kind.names, e]⟩
    have h5 : type ≠ "mo-vec" := fun e => hk ⟨.mo, by simp [Kind.names, e]⟩
    have h6 : type ≠ "array-vec" := fun e => hk ⟨.arr, by simp [Kind.names, e]⟩
    simp [create, h1, h2, h3, h4, h5, h6] at h
  · rintro ⟨k, hk⟩
    cases k <;> simp only [Kind.names, List.mem_cons, List.not_mem_nil, or_false] at hk
    case vec => rcases hk with rfl | rfl <;> exact ⟨_, rfl⟩
    all_goals subst hk; exact ⟨_, rfl⟩

/-- The tag a kind gets. -/
private theorem create_ftype {dim : Nat} {type : String} {k : Kind} (hk : type ∈ k.names) {fw : Fwrap K V}
    (h : create dim type = .ok fw) :
    fw.d = dim ∧ fw.fiberApprox = false ∧
      fw.ftype = (match k with | .point => .nd | .index => .intnd | .vec => .vec | .mo => .movec | .arr => .arrvec) := by
  cases k <;> simp only [Kind.names, List.mem_cons, List.not_mem_nil, or_false] at hk
  case vec => rcases hk with rfl | rfl <;> (cases h; exact ⟨rfl, rfl, rfl⟩)
  all_goals subst hk; cases h; exact ⟨rfl, rfl, rfl⟩

/-- Each setter succeeds exactly on wrappers of its kind; on the others the program ends. -/
theorem setter_matches_kind {dim : Nat} {type : String} {k : Kind} (hk : type ∈ k.names) {fw : Fwrap K V}
    (h : create dim type = .ok fw) (f : List K → V) (vf : VecFun K V) (m : Nat → VecFun K V) (n : Nat) :
    (if k = .point then ∃ fw', setF fw f = .ok fw' else setF fw f = .error .exit) ∧
    (if k = .index then ∃ fw', setFindex fw f = .ok fw' else setFindex fw f = .error .exit) ∧
    (if k = .vec then ∃ fw', setFvec fw vf = .ok fw' else setFvec fw vf = .error .exit) ∧
    (if k = .mo then ∃ fw', setMofvec fw m = .ok fw' else setMofvec fw m = .error .exit) ∧
    (if k = .arr then ∃ fw', setNumFuncs fw n = .ok fw' else setNumFuncs fw n = .error .exit) := by
  obtain ⟨_, _, ht⟩ := create_ftype hk h
  cases k <;> simp only at ht <;> simp [setF, setFindex, setFvec, setMofvec, setNumFuncs, ht]

/-- C53, pointwise kinds: create, set, evaluate at any batch of points calls the function at each point. -/
theorem point_lifecycle [Zero K] (dim : Nat) (f : List K → V) (pts : List (List K)) (hp : ∀ p ∈ pts, p.length = dim) :
    (do let fw ← create dim "general"; let fw ← setF fw f; eval fw pts.length pts.flatten) = .ok (0, pts.map f) ∧
    (do let fw ← create dim "general-index"; let fw ← setFindex fw f; eval fw pts.length pts.flatten)
      = .ok (0, pts.map f) := by
  constructor
  · exact eval_plain (fw := ⟨dim, .nd, false, some f, none, none, none, 0, false, 0, 0, [], 0⟩) f rfl (Or.inl rfl) rfl pts hp
  · exact eval_plain (fw := ⟨dim, .intnd, false, some f, none, none, none, 0, false, 0, 0, [], 0⟩) f rfl (Or.inr rfl) rfl pts hp

/-- C53, vectorised kinds: the whole batch is passed to the function, with the selected output number. -/
theorem vec_lifecycle [Zero K] (dim : Nat) (vf : VecFun K V) (m : Nat → VecFun K V) (w n : Nat) (x : List K) :
    (∀ type ∈ Kind.vec.names,
      (do let fw ← create dim type; let fw ← setFvec fw vf; eval fw n x) = .ok (vf n x)) ∧
    (do let fw ← create dim "mo-vec"; let fw ← setMofvec fw m; eval (setWhichEval fw w) n x) = .ok (m w n x) := by
  constructor
  · intro type ht
    simp only [Kind.names, List.mem_cons, List.not_mem_nil, or_false] at ht
    rcases ht with rfl | rfl <;> rfl
  · rfl

/-- A run of `fwrap_set_func_array` calls. -/
def setRun : List (Nat × VecFun K V) → Fwrap K V → C (Fwrap K V)
  | [], fw => .ok fw
  | (i, f) :: h, fw => do
    let fw ← setFuncArray fw i f
    setRun h fw

private theorem setRun_ok (h : List (Nat × VecFun K V)) (fw : Fwrap K V) (fs : List (Option (VecFun K V)))
    (ht : fw.ftype = .arrvec) (hfs : fw.arrfuncs = some fs) (hv : ∀ e ∈ h, e.1 < fs.length) :
    ∃ fs', setRun h fw = .ok { fw with arrfuncs := some fs' } ∧ fs'.length = fs.length ∧
      ∀ j, fs'[j]? = match h.reverse.find? (fun e => e.1 == j) with
        | some e => if j < fs.length then some (some e.2) else none
        | none => fs[j]? := by
  induction h generalizing fw fs with
  | nil =>
    refine ⟨fs, ?_, rfl, fun j => by simp⟩
    cases fw; simp only at hfs; subst hfs; rfl
  | cons e h ih =>
    have he := hv e (by simp)
    obtain ⟨fs', e1, e2, e3⟩ := ih { fw with arrfuncs := some (fs.set e.1 (some e.2)) } (fs.set e.1 (some e.2)) ht rfl
      (fun e' h' => by rw [List.length_set]; exact hv e' (by simp [h']))
    refine ⟨fs', ?_, by rw [e2, List.length_set], ?_⟩
    · rw [setRun, setFuncArray, if_pos ht, hfs]
      simp only [need, bind_ok, cassert_of (decide_eq_true he), wr_ok _ he, pure_eq_ok]
      exact e1
    · intro j
      rw [e3 j, List.reverse_cons, List.find?_append]
      cases hc : h.reverse.find? (fun e => e.1 == j) with
      | some a => simp [List.length_set]
      | none =>
        simp only [Option.none_or, List.find?_cons, List.find?_nil]
        by_cases hj : e.1 = j
        · subst hj; simp [List.getElem?_set, he]
        · have : (e.1 == j) = false := by simpa using hj
          simp [this, List.getElem?_set, hj]

/-- C53, arrays of functions: after any sequence of assignments to slots, evaluation calls the function assigned last to
the selected slot. -/
theorem array_lifecycle [Zero K] (dim n w : Nat) (h : List (Nat × VecFun K V)) (hv : ∀ e ∈ h, e.1 < n)
    (vf : VecFun K V) (hw : h.reverse.find? (fun e => e.1 == w) = some (w, vf)) (k : Nat) (x : List K) :
    (do let fw ← create dim "array-vec"
        let fw ← setNumFuncs fw n
        let fw ← setRun h fw
        eval (setWhichEval fw w) k x) = .ok (vf k x) := by
  obtain ⟨fs', e1, e2, e3⟩ := setRun_ok (V := V) h
    ⟨dim, .arrvec, false, none, none, none, some (List.replicate n none), 0, false, 0, 0, [], 0⟩
    (List.replicate n none) rfl rfl (by simpa using hv)
  have hwn : w < n := hv (w, vf) (by simpa using List.mem_of_find?_eq_some hw)
  have e4 := e3 w
  rw [hw] at e4
  simp only [List.length_replicate, hwn, if_true] at e4
  have : (create dim "array-vec" : C (Fwrap K V)) = .ok ⟨dim, .arrvec, false, none, none, none, none, 0, false, 0, 0, [], 0⟩ := rfl
  rw [this, bind_ok]
  simp only [setNumFuncs, if_true, bind_ok, e1]
  simp only [setWhichEval, eval, dispatch, need, bind_ok, rd_of_getElem? e4, written, pure_eq_ok]
  rfl

/-- Selecting a slot beyond the array is not refused and reads outside it. -/
theorem which_eval_counterexample :
    (do let fw ← (create 1 "array-vec" : C (Fwrap Int Int))
        let fw ← setNumFuncs fw 1
        let fw ← setFuncArray fw 0 (fun _ x => (0, x))
        eval (setWhichEval fw 1) 1 [5]) = .error .oob := by rfl

/-- Non-trivial instance: two slots, slot 1 assigned twice. -/
example : ∃ h : List (Nat × VecFun Int Int), (∀ e ∈ h, e.1 < 2) ∧ h.length = 3 ∧
    h.reverse.find? (fun e => e.1 == 1) = some (1, fun _ x => (0, x.map (· + 1))) :=
  ⟨[(1, fun _ x => (0, x)), (0, fun _ x => (1, x)), (1, fun _ x => (0, x.map (· + 1)))],
    by intro e he; simp at he; rcases he with rfl | rfl | rfl <;> decide, rfl, rfl⟩

end C3.Fw
