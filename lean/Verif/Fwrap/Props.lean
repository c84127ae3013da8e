/-
C12: evaluating along a fiber substitutes one coordinate.
-/
import Verif.Fwrap.Model
import Verif.Core.Buf

namespace C3.Fw
variable {K V : Type}

/-! ### Lemmas -/

theorem memmove_ok {dst src : List K} {off n : Nat} (h1 : off + n ≤ dst.length) (h2 : n = src.length) :
    memmove dst off src n = .ok (dst.take off ++ src ++ dst.drop (off + n)) := by
  subst h2
  rcases src with _ | ⟨s0, ss⟩
  · simp [memmove]
  · rw [memmove, forN_fill (fun i => ((s0 :: ss)[i]?).getD s0) h1]
    · congr 3
      apply List.ext_getElem?
      intro i
      by_cases hi : i < (s0 :: ss).length
      · rw [List.getElem?_map, List.getElem?_range hi, Option.map_some, List.getElem?_eq_getElem hi]; rfl
      · rw [List.getElem?_eq_none (by simpa using hi), List.getElem?_eq_none (by simpa using hi)]
    · intro i hi b _
      rw [rd_ok hi, bind_ok, List.getElem?_eq_getElem hi]; rfl

/-- Writing two sides of a fiber leaves only the free coordinate. -/
theorem sides {fv l r : List K} (h : fv.length = l.length + r.length + 1) :
    ∃ z, ((fv.take 0 ++ l ++ fv.drop (0 + l.length)).take (l.length + 1) ++ r ++
      (fv.take 0 ++ l ++ fv.drop (0 + l.length)).drop (l.length + 1 + r.length)) = l ++ z :: r := by
  have hd : (fv.drop l.length).length = r.length + 1 := by simp; omega
  rcases e : fv.drop l.length with _ | ⟨z, rest⟩
  · rw [e] at hd; simp at hd
  · rw [e] at hd
    refine ⟨z, ?_⟩
    simp only [List.take_zero, List.nil_append, Nat.zero_add, e]
    have hr : rest.length = r.length := by simpa using hd
    have t1 : (l ++ z :: rest).take (l.length + 1) = l ++ [z] := by
      rw [List.take_append, List.take_of_length_le (l := l) (by omega)]
      simp
    have t2 : (l ++ z :: rest).drop (l.length + 1 + r.length) = [] := by
      apply List.drop_eq_nil_of_le; simp; omega
    rw [t1, t2]; simp

theorem addFiber_ok {fw : Fwrap K V} {ind : Nat} {l r : List K} (ha : fw.fiberApprox = true)
    (hd : l.length + r.length + 1 = fw.d) (hl : l.length = fw.fiberDim) (hi : ind < fw.nfibers)
    (hv : fw.fiberVals.length = fw.nfibers) (hrow : ∀ v ∈ fw.fiberVals, v.length = fw.d) :
    ∃ z, addFiber fw ind l.length l r.length r = .ok { fw with fiberVals := fw.fiberVals.set ind (l ++ z :: r) } := by
  have hlt : ind < fw.fiberVals.length := by omega
  have hfl := hrow _ (List.getElem_mem hlt)
  obtain ⟨z, hz⟩ := sides (fv := fw.fiberVals[ind]) (l := l) (r := r) (by omega)
  refine ⟨z, ?_⟩
  rw [addFiber, ha, cassert_true, bind_ok, cassert_of (decide_eq_true hd), bind_ok,
    cassert_of (decide_eq_true hl), bind_ok, cassert_of (decide_eq_true hi), bind_ok, rd_ok hlt, bind_ok,
    memmove_ok (by omega) rfl, bind_ok, memmove_ok (by simp; omega) rfl, bind_ok, hz, wr_ok _ hlt, bind_ok]
  rfl

/-- Table after a history: every row has the right length, registered rows hold the last registration. -/
theorem addRun_ok [Zero K] (fw : Fwrap K V) (ha : fw.fiberApprox = true) (hv : fw.fiberVals.length = fw.nfibers)
    (hrow : ∀ v ∈ fw.fiberVals, v.length = fw.d) (hist : List (Nat × List K × List K))
    (hh : ∀ e ∈ hist, e.1 < fw.nfibers ∧ e.2.1.length = fw.fiberDim ∧ e.2.1.length + e.2.2.length + 1 = fw.d) :
    ∃ vals, addRun hist fw = .ok { fw with fiberVals := vals } ∧ vals.length = fw.nfibers ∧
      (∀ v ∈ vals, v.length = fw.d) ∧
      ∀ j, match hist.reverse.find? (fun e => e.1 == j) with
        | some e => ∃ z, vals[j]? = some (e.2.1 ++ z :: e.2.2)
        | none => vals[j]? = fw.fiberVals[j]? := by
  induction hist generalizing fw with
  | nil => exact ⟨fw.fiberVals, rfl, hv, hrow, by simp⟩
  | cons e hist ih =>
    obtain ⟨ind, l, r⟩ := e
    obtain ⟨h1, h2, h3⟩ := hh _ List.mem_cons_self
    obtain ⟨z, hz⟩ := addFiber_ok ha h3 h2 h1 hv hrow
    obtain ⟨vals, e1, e2, e3, e4⟩ := ih { fw with fiberVals := fw.fiberVals.set ind (l ++ z :: r) } ha (by simpa using hv)
      (by
        intro v hvm
        rcases List.mem_or_eq_of_mem_set hvm with h | h
        · exact hrow v h
        · subst h; simp; simp at h3; omega)
      (fun e he => hh e (List.mem_cons_of_mem _ he))
    refine ⟨vals, by rw [addRun, hz, bind_ok, e1], e2, e3, ?_⟩
    intro j
    have := e4 j
    rw [List.reverse_cons, List.find?_append]
    rcases hf : hist.reverse.find? (fun e => e.1 == j) with _ | e'
    · rw [hf] at this
      simp only at this
      rw [hf]
      by_cases hj : ind = j
      · subst hj
        simp only [List.find?_cons, beq_self_eq_true, Option.none_or]
        refine ⟨z, ?_⟩
        simp only at h1
        rw [this, List.getElem?_set_self (by omega)]
      · have hb : (ind == j) = false := by simpa using hj
        simp only [List.find?_cons, hb, List.find?_nil, Option.none_or]
        rw [this, List.getElem?_set_ne hj]
    · rw [hf] at this
      rw [hf]
      simpa using this

theorem rows_length {rows : List (List K)} {d : Nat} (h : ∀ r ∈ rows, r.length = d) :
    rows.flatten.length = rows.length * d := by
  induction rows with
  | nil => simp
  | cons r rows ih =>
    have h1 := h r (by simp)
    have h2 := ih (fun r hr => h r (by simp [hr]))
    simp [h1, h2]; ring

theorem slice_rows {rows : List (List K)} {d i : Nat} (h : ∀ r ∈ rows, r.length = d) (hi : i < rows.length) :
    slice rows.flatten (i * d) d = .ok rows[i] := by
  have hl := rows_length h
  have hle : i * d + d ≤ rows.flatten.length := by
    rw [hl]; calc i * d + d = (i + 1) * d := by ring
      _ ≤ _ := Nat.mul_le_mul_right _ hi
  rw [slice, if_pos hle]
  congr 1
  have e : rows = rows.take i ++ rows[i] :: rows.drop (i + 1) := by simp
  have hp : (rows.take i).flatten.length = i * d := by
    rw [rows_length (fun r hr => h r (List.mem_of_mem_take hr))]; simp; left; omega
  conv_lhs => rw [e]
  rw [List.flatten_append, List.flatten_cons, List.drop_append, hp, Nat.sub_self, List.drop_of_length_le (by omega)]
  simp only [List.nil_append, List.drop_zero]
  have hr := h _ (List.getElem_mem hi)
  rw [List.take_append, hr, Nat.sub_self, List.take_of_length_le (by omega)]; simp

theorem evalLoop_rows {rows : List (List K)} {d : Nat} (f : List K → V) (h : ∀ r ∈ rows, r.length = d) :
    evalLoop f d rows.length rows.flatten = .ok (rows.map f) := by
  obtain ⟨s, h1, h2⟩ := forN_spec (I := fun i (out : List V) => out = (rows.take i).map f) (n := rows.length) (s := [])
    (body := fun ii out => do
      let p ← slice rows.flatten (ii * d) d
      pure (out ++ [f p])) (by simp)
    (by
      intro i hi out ho
      refine ⟨_, by rw [slice_rows h hi, bind_ok, pure_eq_ok], ?_⟩
      rw [ho, List.take_add_one (l := rows), List.getElem?_eq_getElem hi, List.map_append]; rfl)
  rw [evalLoop, h1, h2]; simp

/-- The buffer of points built for a fiber. -/
theorem fiber_rows [Zero K] {d fdim : Nat} {fv : List K} (hfv : fv.length = d) (hfd : fdim < d) (xs : List K) :
    forN xs.length (fun ii xe => do
      let xi ← rd xs ii
      fiberRow d fdim fv xi xe ii) (List.replicate (xs.length * d) 0)
      = .ok (xs.map (fun x => fv.set fdim x)).flatten := by
  have hrl : ∀ ys : List K, ∀ r ∈ ys.map (fun x => fv.set fdim x), r.length = d := by
    intro ys r hr
    obtain ⟨x, _, rfl⟩ := List.mem_map.1 hr
    simpa using hfv
  obtain ⟨s, h1, h2⟩ := forN_spec
    (I := fun i (xe : List K) => xe = ((xs.take i).map (fun x => fv.set fdim x)).flatten
        ++ List.replicate ((xs.length - i) * d) 0) (n := xs.length) (s := List.replicate (xs.length * d) 0)
    (body := fun ii xe => do
      let xi ← rd xs ii
      fiberRow d fdim fv xi xe ii) (by simp)
    (by
      intro i hi xe he
      have hpl : ((xs.take i).map (fun x => fv.set fdim x)).flatten.length = i * d := by
        rw [rows_length (hrl _)]; simp; left; omega
      have hsplit : (xs.length - i) * d = d + (xs.length - (i + 1)) * d := by
        have : xs.length - i = (xs.length - (i + 1)) + 1 := by omega
        rw [this]; ring
      have hxl : xe.length = i * d + (d + (xs.length - (i + 1)) * d) := by
        rw [he]; simp only [List.length_append, hpl, List.length_replicate, hsplit]
      have hfill := forN_fill (n := d) (off := i * d) (a := xe)
        (body := fun jj xe => do
          let v ← rd fv jj
          wr xe (i * d + jj) v) (fun jj => (fv[jj]?).getD 0) (by omega)
        (by
          intro jj hjj b _
          rw [rd_ok (by omega), bind_ok, List.getElem?_eq_getElem (by omega)]; rfl)
      have hmap : (List.range d).map (fun jj => (fv[jj]?).getD 0) = fv := by
        apply List.ext_getElem?
        intro k
        by_cases hk : k < d
        · rw [List.getElem?_map, List.getElem?_range hk, Option.map_some, List.getElem?_eq_getElem (by omega)]; rfl
        · rw [List.getElem?_eq_none (by simpa using hk), List.getElem?_eq_none (by omega)]
      have ht : xe.take (i * d) = ((xs.take i).map (fun x => fv.set fdim x)).flatten := by
        rw [he, ← hpl, List.take_left]
      have hdr : xe.drop (i * d + d) = List.replicate ((xs.length - (i + 1)) * d) 0 := by
        rw [he, List.drop_append, hpl, List.drop_of_length_le (by omega), hsplit]
        simp [List.drop_replicate]
      rw [hmap, ht, hdr] at hfill
      refine ⟨_, by
        rw [rd_ok hi, bind_ok, fiberRow, hfill, bind_ok, wr_ok _ (by simp only [List.length_append, hpl, hfv]; omega)], ?_⟩
      rw [List.append_assoc, List.set_append_right _ _ (by omega), hpl, Nat.add_sub_cancel_left,
        List.set_append_left _ _ (by omega), List.take_add_one (l := xs), List.getElem?_eq_getElem hi, List.map_append,
        List.flatten_append, List.append_assoc]
      simp only [Option.toList_some, List.map_cons, List.map_nil, List.flatten_cons, List.flatten_nil,
        List.append_nil])
  rw [h1, h2]; simp

/-! ### The property -/

/-- Well-formed registration for a wrapper of dimension `d` sliced along coordinate `ind` with `nf` fibers. -/
def Valid (d ind nf : Nat) (e : Nat × List K × List K) : Prop :=
  e.1 < nf ∧ e.2.1.length = ind ∧ e.2.1.length + e.2.2.length + 1 = d

/-- C12, general form: after slicing along coordinate `ind`, any well-formed history of registrations and selecting fiber
`j` whose last registration is `(l,r)`, evaluation at the points `xs` hands the wrapped function exactly the points
`l ++ x :: r`. -/
theorem fiber_eval_points [Zero K] (fw : Fwrap K V) (ind nf : Nat) (hist : List (Nat × List K × List K))
    (hv : ∀ e ∈ hist, Valid fw.d ind nf e) (j : Nat) (l r : List K)
    (hj : hist.reverse.find? (fun e => e.1 == j) = some (j, l, r)) (xs : List K) :
    ∃ fw2 fw3, addRun hist (initFiber fw ind nf) = .ok fw2 ∧ setWhich fw2 j = .ok fw3 ∧
      eval fw3 xs.length xs = dispatch fw xs.length (xs.map (fun x => l ++ x :: r)).flatten := by
  obtain ⟨vals, e1, e2, e3, e4⟩ := addRun_ok (initFiber fw ind nf) rfl (by simp [initFiber])
    (by
      intro v hv
      have := List.eq_of_mem_replicate hv
      simp [this, initFiber]) hist (fun e he => hv e he)
  have hjv := hv (j, l, r) (by
    have := List.mem_of_find?_eq_some hj
    simpa using this)
  obtain ⟨hj1, hj2, hj3⟩ := hjv
  simp only at hj1 hj2 hj3
  have h4 := e4 j
  rw [hj] at h4
  obtain ⟨z, hz⟩ := h4
  simp only at hz
  refine ⟨_, { initFiber fw ind nf with fiberVals := vals, onfiber := j }, e1, ?_, ?_⟩
  · rw [setWhich, cassert_of (show (initFiber fw ind nf).fiberApprox = true from rfl), bind_ok,
      cassert_of (decide_eq_true (show j < (initFiber fw ind nf).nfibers from hj1))]
    rfl
  · have hrows := fiber_rows (d := fw.d) (fdim := ind) (fv := l ++ z :: r) (by simp; omega) (by omega) xs
    have hset : ∀ x, (l ++ z :: r).set ind x = l ++ x :: r := by
      intro x; rw [← hj2, List.set_append_right _ _ (by omega)]; simp
    simp only [hset] at hrows
    simp only [eval, initFiber, if_true, evalFiber, rd_of_getElem? hz, bind_ok, hrows]
    rfl

/-- C12: for a pointwise wrapped function, the values returned along the fiber are the function's values at the fixed
point with the fiber coordinate replaced, for every batch of points. -/
theorem fiber_eval [Zero K] (fw : Fwrap K V) (f : List K → V) (hf : fw.f = some f)
    (hty : fw.ftype = .nd ∨ fw.ftype = .intnd) (ind nf : Nat) (hist : List (Nat × List K × List K))
    (hv : ∀ e ∈ hist, Valid fw.d ind nf e) (j : Nat) (l r : List K)
    (hj : hist.reverse.find? (fun e => e.1 == j) = some (j, l, r)) (xs : List K) :
    ∃ fw2 fw3, addRun hist (initFiber fw ind nf) = .ok fw2 ∧ setWhich fw2 j = .ok fw3 ∧
      eval fw3 xs.length xs = .ok (0, xs.map (fun x => f (l ++ x :: r))) := by
  obtain ⟨fw2, fw3, h1, h2, h3⟩ := fiber_eval_points fw ind nf hist hv j l r hj xs
  refine ⟨fw2, fw3, h1, h2, ?_⟩
  have hjv := hv (j, l, r) (by simpa using List.mem_of_find?_eq_some hj)
  have hrow : ∀ p ∈ xs.map (fun x => l ++ x :: r), p.length = fw.d := by
    intro p hp
    obtain ⟨x, _, rfl⟩ := List.mem_map.1 hp
    have := hjv.2.2
    simp at this ⊢; omega
  have hloop := evalLoop_rows f hrow
  rw [List.length_map] at hloop
  rw [h3]
  rcases hty with h | h <;>
    simp only [dispatch, h, hf, need, bind_ok, hloop, pure_eq_ok, List.map_map, Function.comp_def]

/-- C12 for vectorised functions: if the selected vectorised function computes `g` point by point with return code
`rc`, fiber evaluation returns `rc` and `g` at the substituted points. -/
theorem fiber_eval_vec [Zero K] (fw : Fwrap K V) (vf : VecFun K V) (g : List K → V) (rc : Int)
    (hsel : (fw.ftype = .vec ∧ fw.fvec = some vf) ∨
      (∃ m, fw.ftype = .movec ∧ fw.mofvec = some m ∧ m fw.evalfunc = vf) ∨
      (∃ fs, fw.ftype = .arrvec ∧ fw.arrfuncs = some fs ∧ fs[fw.evalfunc]? = some (some vf)))
    (hg : ∀ pts : List (List K), (∀ p ∈ pts, p.length = fw.d) → vf pts.length pts.flatten = (rc, pts.map g))
    (ind nf : Nat) (hist : List (Nat × List K × List K)) (hv : ∀ e ∈ hist, Valid fw.d ind nf e) (j : Nat)
    (l r : List K) (hj : hist.reverse.find? (fun e => e.1 == j) = some (j, l, r)) (xs : List K) :
    ∃ fw2 fw3, addRun hist (initFiber fw ind nf) = .ok fw2 ∧ setWhich fw2 j = .ok fw3 ∧
      eval fw3 xs.length xs = .ok (rc, xs.map (fun x => g (l ++ x :: r))) := by
  obtain ⟨fw2, fw3, h1, h2, h3⟩ := fiber_eval_points fw ind nf hist hv j l r hj xs
  refine ⟨fw2, fw3, h1, h2, ?_⟩
  have hjv := hv (j, l, r) (by simpa using List.mem_of_find?_eq_some hj)
  have hrow : ∀ p ∈ xs.map (fun x => l ++ x :: r), p.length = fw.d := by
    intro p hp
    obtain ⟨x, _, rfl⟩ := List.mem_map.1 hp
    have := hjv.2.2
    simp at this ⊢; omega
  have hvf := hg _ hrow
  rw [List.length_map] at hvf
  rw [h3]
  rcases hsel with ⟨ht, hs⟩ | ⟨m, ht, hs, hm⟩ | ⟨fs, ht, hs, hm⟩
  · simp only [dispatch, ht, hs, need, bind_ok, hvf, pure_eq_ok, List.map_map, Function.comp_def]
  · simp only [dispatch, ht, hs, need, bind_ok, hm, hvf, pure_eq_ok, List.map_map, Function.comp_def]
  · simp only [dispatch, ht, hs, need, written, bind_ok, rd_of_getElem? hm, hvf, pure_eq_ok, List.map_map, Function.comp_def]

/-- Without fibers the wrapped function is called at the given points. -/
theorem eval_plain [Zero K] (fw : Fwrap K V) (f : List K → V) (hf : fw.f = some f)
    (hty : fw.ftype = .nd ∨ fw.ftype = .intnd) (hfa : fw.fiberApprox = false) (pts : List (List K))
    (hp : ∀ p ∈ pts, p.length = fw.d) : eval fw pts.length pts.flatten = .ok (0, pts.map f) := by
  rcases hty with h | h <;>
    simp only [eval, hfa, dispatch, h, hf, need, bind_ok, evalLoop_rows f hp, pure_eq_ok] <;> rfl

/-- Cleaning up restores plain evaluation. -/
theorem clean_restores [Zero K] (fw : Fwrap K V) (n : Nat) (x : List K) :
    eval (cleanFiber fw) n x = dispatch fw n x := by
  simp only [eval, cleanFiber]; rfl

/-- Non-trivial instance: three dimensions, slicing along the middle one, fiber 1 registered twice, fiber 0 once. -/
def exFw : Fwrap Int Int := ⟨3, .nd, false, some (fun p => p.getD 0 0 * 100 + p.getD 1 0 * 10 + p.getD 2 0), none, none, none, 0,
  false, 0, 0, [], 0⟩
example : (∀ e ∈ [(1, [9], [9]), (0, [5], [6]), (1, [1], [3])], Valid exFw.d 1 2 e) ∧
    (([(1, [9], [9]), (0, [5], [6]), (1, [1], [3])] : List (Nat × List Int × List Int)).reverse.find? (fun e => e.1 == 1))
      = some (1, [1], [3]) := by
  constructor
  · intro e he
    simp only [List.mem_cons, List.not_mem_nil, or_false] at he
    rcases he with rfl | rfl | rfl <;> exact ⟨by decide, by decide, by decide⟩
  · decide
example : (do
    let fw ← addRun [(1, [9], [9]), (0, [5], [6]), (1, [1], [3])] (initFiber exFw 1 2)
    let fw ← setWhich fw 1
    eval fw 2 [7, 8]) = .ok (0, [173, 183]) := by rfl

/-- The selected fiber survives a re-initialisation: slicing again with fewer fibers and evaluating without selecting a
fiber reads outside the table of fibers. -/
theorem stale_fiber_counterexample :
    (do
      let fw ← setWhich (initFiber exFw 1 3) 2
      let fw := initFiber (cleanFiber fw) 1 1
      let fw ← addFiber fw 0 1 [1] 1 [3]
      eval fw 1 [7]) = .error .oob := by rfl

end C3.Fw
