/-
C149: bounding boxes hold the bounds they were given.
-/
import Verif.Box.Model
import Mathlib.Algebra.Ring.Rat
import Mathlib.Tactic.NormNum

namespace C3.Box

variable {K : Type}

/-- The box `∏ [l i, u i]` in `dim` dimensions. -/
def IsBox (b : Box K) (dim : Nat) (l u : Nat → K) : Prop :=
  b.dim = dim ∧ b.lb.length = dim ∧ b.ub.length = dim ∧ ∀ i < dim, b.lb[i]? = some (l i) ∧ b.ub[i]? = some (u i)

theorem fill [Ring K] {dim : Nat} {l u : Nat → K} {body : Nat → List K × List K → C (List K × List K)}
    (hb : ∀ i < dim, ∀ s, s.1.length = dim → s.2.length = dim → body i s = .ok (s.1.set i (l i), s.2.set i (u i))) :
    ∃ s, forN dim body (List.replicate dim 0, List.replicate dim 0) = .ok s ∧ IsBox ⟨dim, s.1, s.2⟩ dim l u := by
  obtain ⟨s, e, h1, h2, h3⟩ := forN_spec (n := dim) (body := body) (s := (List.replicate dim (0 : K), List.replicate dim (0 : K)))
    (I := fun k s => s.1.length = dim ∧ s.2.length = dim ∧ ∀ i < k, s.1[i]? = some (l i) ∧ s.2[i]? = some (u i))
    ⟨by simp, by simp, fun i hi => absurd hi (by omega)⟩ (by
      intro k hk s ⟨h1, h2, h3⟩
      refine ⟨_, hb k hk s h1 h2, by simpa using h1, by simpa using h2, fun i hi => ?_⟩
      dsimp only
      by_cases he : i = k
      · subst he
        exact ⟨List.getElem?_set_self (by omega), List.getElem?_set_self (by omega)⟩
      · rw [List.getElem?_set_ne (Ne.symm he), List.getElem?_set_ne (Ne.symm he)]
        exact h3 i (by omega))
  exact ⟨s, e, rfl, h1, h2, h3⟩

/-- **C149** The standard box is `[-1,1]` in every dimension. -/
theorem initStd_value [Ring K] (dim : Nat) : ∃ b : Box K, initStd dim = .ok b ∧ IsBox b dim (fun _ => -1) (fun _ => 1) := by
  obtain ⟨s, e, h⟩ := fill (K := K) (dim := dim) (l := fun _ => -1) (u := fun _ => 1) (body := fun ii s => do
    let l ← wr s.1 ii (-1)
    let u ← wr s.2 ii 1
    .ok (l, u)) (fun i hi s h1 h2 => by rw [wr_ok _ (by omega), bind_ok, wr_ok _ (by omega), bind_ok])
  exact ⟨_, by rw [initStd, e, bind_ok], h⟩

/-- **C149** The box with the same bounds in every dimension. -/
theorem init_value [Ring K] (dim : Nat) (lb ub : K) : ∃ b, init dim lb ub = .ok b ∧ IsBox b dim (fun _ => lb) (fun _ => ub) := by
  obtain ⟨s, e, h⟩ := fill (K := K) (dim := dim) (l := fun _ => lb) (u := fun _ => ub) (body := fun ii s => do
    let l ← wr s.1 ii lb
    let u ← wr s.2 ii ub
    .ok (l, u)) (fun i hi s h1 h2 => by rw [wr_ok _ (by omega), bind_ok, wr_ok _ (by omega), bind_ok])
  exact ⟨_, by rw [init, e, bind_ok], h⟩

/-- **C149** The box with given bounds. -/
theorem initVec_value [Ring K] {dim : Nat} {lb ub : List K} {l u : Nat → K} (hl : ∀ i < dim, lb[i]? = some (l i))
    (hu : ∀ i < dim, ub[i]? = some (u i)) : ∃ b, initVec dim lb ub = .ok b ∧ IsBox b dim l u := by
  obtain ⟨s, e, h⟩ := fill (K := K) (dim := dim) (l := l) (u := u) (body := fun ii s => do
    let a ← rd lb ii
    let l ← wr s.1 ii a
    let b ← rd ub ii
    let u ← wr s.2 ii b
    .ok (l, u)) (fun i hi s h1 h2 => by
      rw [rd_of_getElem? (hl i hi), bind_ok, wr_ok _ (by omega), bind_ok, rd_of_getElem? (hu i hi), bind_ok, wr_ok _ (by omega), bind_ok])
  exact ⟨_, by rw [initVec, e, bind_ok], h⟩

/-- **C149** What is read from a box. -/
theorem get_value {b : Box K} {dim : Nat} {l u : Nat → K} (h : IsBox b dim l u) :
    getDim (some b) = .ok dim ∧ getLb (some b) = .ok ((List.range dim).map l) ∧ getUb (some b) = .ok ((List.range dim).map u) ∧
      ∀ i < dim, getLbDim (some b) i = .ok (l i) ∧ getUbDim (some b) i = .ok (u i) := by
  obtain ⟨h1, h2, h3, h4⟩ := h
  have key : ∀ (v : List K) (f : Nat → K), v.length = dim → (∀ i < dim, v[i]? = some (f i)) → v = (List.range dim).map f := by
    intro v f hv hf
    apply List.ext_getElem?
    intro i
    by_cases hi : i < dim
    · rw [hf i hi, List.getElem?_map, List.getElem?_range hi]; rfl
    · rw [List.getElem?_eq_none (by omega), List.getElem?_eq_none (by simp; omega)]
  refine ⟨congrArg Except.ok h1, congrArg Except.ok (key _ l h2 fun i hi => (h4 i hi).1), congrArg Except.ok (key _ u h3 fun i hi => (h4 i hi).2),
    fun i hi => ⟨?_, ?_⟩⟩
  · exact rd_of_getElem? (h4 i hi).1
  · exact rd_of_getElem? (h4 i hi).2

/-- **C149** Setting one bound changes that bound and nothing else. -/
theorem set_value {b : Box K} {dim : Nat} {l u : Nat → K} (h : IsBox b dim l u) {k : Nat} (hk : k < dim) (v : K) :
    (∃ b', setLbDim (some b) k v = .ok b' ∧ IsBox b' dim (fun i => if i = k then v else l i) u) ∧
    ∃ b', setUbDim (some b) k v = .ok b' ∧ IsBox b' dim l (fun i => if i = k then v else u i) := by
  obtain ⟨h1, h2, h3, h4⟩ := h
  have key : ∀ (w : List K) (f : Nat → K), w.length = dim → (∀ i < dim, w[i]? = some (f i)) →
      ∀ i < dim, (w.set k v)[i]? = some (if i = k then v else f i) := by
    intro w f hw hf i hi
    by_cases he : i = k
    · rw [if_pos he, he]; exact List.getElem?_set_self (by omega)
    · rw [if_neg he, List.getElem?_set_ne (Ne.symm he), hf i hi]
  constructor
  · refine ⟨{ b with lb := b.lb.set k v }, ?_, h1, by simpa using h2, h3, fun i hi => ⟨key _ l h2 (fun i hi => (h4 i hi).1) i hi, (h4 i hi).2⟩⟩
    rw [setLbDim, notNull, bind_ok, wr_ok _ (by omega), bind_ok]
  · refine ⟨{ b with ub := b.ub.set k v }, ?_, h1, h2, by simpa using h3, fun i hi => ⟨(h4 i hi).1, key _ u h3 (fun i hi => (h4 i hi).2) i hi⟩⟩
    rw [setUbDim, notNull, bind_ok, wr_ok _ (by omega), bind_ok]

/-- **C149** A missing box is refused by every access. -/
theorem null_refused (k : Nat) (v : K) : getDim (none : Option (Box K)) = .error .assertFail ∧ getLb (none : Option (Box K)) = .error .assertFail ∧
    getUb (none : Option (Box K)) = .error .assertFail ∧ getLbDim (none : Option (Box K)) k = .error .assertFail ∧
    getUbDim (none : Option (Box K)) k = .error .assertFail ∧ setLbDim none k v = .error .assertFail ∧ setUbDim none k v = .error .assertFail :=
  ⟨rfl, rfl, rfl, rfl, rfl, rfl, rfl⟩

/-- **C149** finding: a dimension outside of the box is not refused but read and written beyond the end. -/
theorem dim_range_counterexample {b : Box K} {dim : Nat} {l u : Nat → K} (h : IsBox b dim l u) {k : Nat} (hk : dim ≤ k) (v : K) :
    getLbDim (some b) k = .error .oob ∧ getUbDim (some b) k = .error .oob ∧ setLbDim (some b) k v = .error .oob ∧
      setUbDim (some b) k v = .error .oob := by
  obtain ⟨_, h2, h3, _⟩ := h
  refine ⟨rd_oob (by omega), rd_oob (by omega), ?_, ?_⟩
  · rw [setLbDim, notNull, bind_ok, wr_oob _ (by omega)]; rfl
  · rw [setUbDim, notNull, bind_ok, wr_oob _ (by omega)]; rfl

/-- **C149** finding: the order of the bounds is not checked, an empty box is accepted. -/
theorem order_counterexample : ∃ b : Box ℚ, init 1 2 1 = .ok b ∧ getLbDim (some b) 0 = .ok 2 ∧ getUbDim (some b) 0 = .ok 1 := by
  obtain ⟨b, e, h⟩ := init_value 1 (2 : ℚ) 1
  exact ⟨b, e, ((get_value h).2.2.2 0 (by omega)).1, ((get_value h).2.2.2 0 (by omega)).2⟩

/-! ### Examples -/

example : ∃ b : Box ℚ, initVec 2 [0, 1] [3, 5] = .ok b ∧ getUb (some b) = .ok [3, 5] ∧
    ∃ b', setLbDim (some b) 1 4 = .ok b' ∧ getLb (some b') = .ok [0, 4] ∧ getUb (some b') = .ok [3, 5] := by
  obtain ⟨b, e, h⟩ := initVec_value (K := ℚ) (dim := 2) (lb := [0, 1]) (ub := [3, 5]) (l := fun i => i) (u := fun i => 3 + 2 * i)
    (by intro i hi; match i, hi with | 0, _ => simp | 1, _ => simp)
    (by intro i hi; match i, hi with | 0, _ => simp | 1, _ => norm_num)
  obtain ⟨⟨b', e', h'⟩, _⟩ := set_value h (k := 1) (by omega) 4
  refine ⟨b, e, ?_, b', e', ?_, ?_⟩
  · rw [(get_value h).2.2.1]; norm_num [List.range_succ]
  · rw [(get_value h').2.1]; norm_num [List.range_succ]
  · rw [(get_value h').2.2.1]; norm_num [List.range_succ]

example : ∃ b : Box ℚ, initStd 3 = .ok b ∧ getLbDim (some b) 3 = .error .oob := by
  obtain ⟨b, e, h⟩ := initStd_value (K := ℚ) 3
  exact ⟨b, e, (dim_range_counterexample h (le_refl _) 0).1⟩

end C3.Box
