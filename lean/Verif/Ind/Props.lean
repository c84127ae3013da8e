/-
C06-C09: cross-approximation index sets.
`mk d rows` is the index set of dimension `d` with the given rows (see Lemmas.lean).
-/
import Verif.Ind.Lemmas

namespace C3.Ind

variable {α : Type}

/-! ### C06 -/

/-- C06: after any insertion history the set reports the number of insertions and returns the i-th inserted
node (a copy) at position i; asking beyond the end fails the assertion. -/
theorem insertion_order (d : Nat) (xs : List (List α)) (hxs : ∀ x ∈ xs, x.length = d) :
    ∃ ci, xs.foldlM (fun ci x => addIndex ci d x) (indexAlloc d) = .ok ci ∧ ci.n = xs.length ∧ ci.d = d ∧
      (∀ i (h : i < xs.length), getNodeValue (some ci) i = .ok (some (xs[i], d))) ∧
      (∀ i, xs.length ≤ i → getNodeValue (some ci) i = .error .assertFail) := by
  have key : ∀ (xs pre : List (List α)), (∀ x ∈ xs, x.length = d) →
      xs.foldlM (fun ci x => addIndex ci d x) (mk d pre) = .ok (mk d (pre ++ xs)) := by
    intro xs
    induction xs with
    | nil => intro pre _; simp
    | cons x xs ih =>
      intro pre h
      have hx : x.length = d := h x (by simp)
      rw [List.foldlM_cons, addIndex_mk d pre x (by omega)]
      simp only [bind_ok]
      rw [ih _ (fun y hy => h y (by simp [hy])), List.take_of_length_le (by omega)]
      simp
  refine ⟨mk d xs, by simpa [indexAlloc_eq] using key xs [] hxs, rfl, rfl, ?_, ?_⟩
  · intro i h
    simp only [getNodeValue]
    rw [cassert_of (decide_eq_true (show i < (mk d xs).n from h))]
    simp only [bind_ok, mk]
    rw [nodeGet_ofRows _ _ (Nat.le_of_lt h), List.drop_eq_getElem_cons h]
    simp [ofRows, hxs _ (List.getElem_mem h)]
  · intro i h
    simp [getNodeValue, mk, Nat.not_lt.mpr h]

example : ∀ x ∈ ([[1, 2], [3, 4]] : List (List Nat)), x.length = 2 := by decide

/-- C06: a node of the wrong dimension is rejected. -/
theorem insertion_wrong_dim (ci : CIndex α) (d : Nat) (x : List α) (h : d ≠ ci.d) :
    addIndex ci d x = .error .assertFail := by
  simp [addIndex, h]

/-- C06: copying an index set gives an equal one. -/
theorem copy_equal (d : Nat) (rows : List (List α)) (h : ∀ r ∈ rows, r.length = d) :
    indexCopy (some (mk d rows)) = .ok (some (mk d rows)) := by
  unfold indexCopy
  have := forN_traj (fun i => mk d (rows.take i)) (n := rows.length)
    (body := fun ii (new : CIndex α) => do
      let nd ← getNode (mk d rows) ii
      let (n, x, _) ← deref nd
      addIndex new n x) (by
      intro i hi
      rw [getNode_mk hi]
      simp only [bind_ok, deref_ofRows hi]
      have hl := h _ (List.getElem_mem hi)
      rw [hl, addIndex_mk d _ _ (by omega), List.take_of_length_le (i := d) (by omega),
        List.take_append_getElem hi])
  simp only [List.take_zero, List.take_length] at this
  have e : (mk d rows).n = rows.length := rfl
  have e2 : (mk d rows).d = d := rfl
  simp only [e, e2, indexAlloc_eq, this, bind_ok, pure_eq_ok]

/-- Repeating the last node. -/
theorem copylast_spec (d : Nat) (rows : List (List α)) (r : List α) (h : r.length = d) (k : Nat) :
    copylast (some (mk d (rows ++ [r]))) k = .ok (some (mk d (rows ++ [r] ++ List.replicate k r))) := by
  unfold copylast
  have e : (mk d (rows ++ [r])).n = rows.length + 1 := by simp [mk]
  simp only [e, Nat.add_sub_cancel]
  rw [if_neg (by omega), getNode_mk (by simp)]
  have hd := deref_ofRows (rows := rows ++ [r]) (k := rows.length) (by simp)
  simp only [bind_ok, hd]
  have := forN_traj (fun i => mk d (rows ++ [r] ++ List.replicate i r)) (n := k)
    (body := fun _ ci => addIndex ci r.length r) (by
      intro i _
      rw [h, addIndex_mk d _ _ (by omega), List.take_of_length_le (by omega)]
      simp [List.replicate_succ'])
  simp only [List.replicate_zero, List.append_nil] at this
  simp [this]

/-! ### C07 -/

/-- C07, order "old node is the slow index" (`method = 1`): exactly `sizenew` rows, row `i` extends old node
`i / nopts` by option `i % nopts` (so no pair is repeated). -/
theorem create_nested_old_major (d : Nat) (left : Int) (sizenew nopts : Nat) (opts : List α)
    (old : List (List α)) (hold : ∀ r ∈ old, r.length = d) (hopts : nopts ≤ opts.length)
    (hsz : sizenew ≤ old.length * nopts) (hpos : 0 < sizenew) :
    ∃ rows, createNested 1 left sizenew nopts opts (mk d old) = .ok (some (mk (d + 1) rows)) ∧
      rows.length = sizenew ∧
      ∀ i, i < sizenew → ∃ o v, old[i / nopts]? = some o ∧ opts[i % nopts]? = some v ∧
        rows[i]? = some (if left = 0 then o ++ [v] else v :: o) := by
  obtain ⟨rows, hrun, h⟩ := nestedOldMajor_spec d left sizenew nopts opts old hold hopts
  have his : Is (rowOldMajor left old opts nopts) sizenew rows := by
    rcases h with h | ⟨_, h2⟩
    · exact h
    · omega
  refine ⟨rows, ?_, his.1, ?_⟩
  · unfold createNested
    rw [cassert_of (by simpa [mk] using hsz)]
    have e : (mk d old).d = d := rfl
    simp only [bind_ok, if_true, e, hrun, pure_eq_ok]
  · intro i hi
    have hn : 0 < nopts := by
      rcases Nat.eq_zero_or_pos nopts with h | h
      · subst h; omega
      · exact h
    have h1 : i / nopts < old.length := by
      rw [Nat.div_lt_iff_lt_mul hn]; omega
    have h2 : i % nopts < opts.length := by
      have := Nat.mod_lt i hn; omega
    refine ⟨old[i / nopts], opts[i % nopts], List.getElem?_eq_getElem h1, List.getElem?_eq_getElem h2, ?_⟩
    rw [his.2 i hi, rowOldMajor, pairRow_some h1 h2]
    rfl

/-- C07, order "option is the slow index" (`method = 0`). -/
theorem create_nested_opt_major (d : Nat) (left : Int) (sizenew nopts : Nat) (opts : List α)
    (old : List (List α)) (hold : ∀ r ∈ old, r.length = d) (hopts : nopts ≤ opts.length)
    (hsz : sizenew ≤ old.length * nopts) (hpos : 0 < sizenew) :
    ∃ rows, createNested 0 left sizenew nopts opts (mk d old) = .ok (some (mk (d + 1) rows)) ∧
      rows.length = sizenew ∧
      ∀ i, i < sizenew → ∃ o v, old[i % old.length]? = some o ∧ opts[i / old.length]? = some v ∧
        rows[i]? = some (if left = 0 then o ++ [v] else v :: o) := by
  obtain ⟨rows, hrun, h⟩ := nestedOptMajor_spec d left sizenew nopts opts old hold hopts
  rw [Nat.mul_comm] at hsz
  have his : Is (rowOptMajor left old opts) sizenew rows := by
    rcases h with h | ⟨_, h2⟩
    · exact h
    · omega
  refine ⟨rows, ?_, his.1, ?_⟩
  · unfold createNested
    rw [cassert_of (by simpa [mk, Nat.mul_comm] using hsz)]
    have e : (mk d old).d = d := rfl
    simp only [bind_ok, e, hrun, pure_eq_ok]
    rfl
  · intro i hi
    have hn : 0 < old.length := by
      rcases Nat.eq_zero_or_pos old.length with h | h
      · rw [h] at hsz; omega
      · exact h
    have h1 : i / old.length < opts.length := by
      have : i / old.length < nopts := by rw [Nat.div_lt_iff_lt_mul hn]; omega
      omega
    have h2 : i % old.length < old.length := Nat.mod_lt i hn
    refine ⟨old[i % old.length], opts[i / old.length], List.getElem?_eq_getElem h2,
      List.getElem?_eq_getElem h1, ?_⟩
    rw [his.2 i hi, rowOptMajor, pairRow_some h2 h1]
    rfl

/-- C07, pairing order (`method = 2`): row `i` uses option `i` and old node `i`, or the first old node once the
old nodes are exhausted. Also valid for `sizenew = 0`. -/
theorem create_nested_zip (d : Nat) (left : Int) (sizenew nopts : Nat) (opts : List α)
    (old : List (List α)) (hold : ∀ r ∈ old, r.length = d) (hopts : nopts ≤ opts.length)
    (hsz : sizenew ≤ nopts) (hold0 : 0 < old.length) :
    ∃ rows, createNested 2 left sizenew nopts opts (mk d old) = .ok (some (mk (d + 1) rows)) ∧
      rows.length = sizenew ∧ (∀ r ∈ rows, r.length = d + 1) ∧
      ∀ i, i < sizenew → ∃ o v, old[if i < old.length then i else 0]? = some o ∧ opts[i]? = some v ∧
        rows[i]? = some (if left = 0 then o ++ [v] else v :: o) := by
  have hmul : old.length * nopts ≥ sizenew := by
    calc sizenew ≤ nopts := hsz
      _ = 1 * nopts := by rw [Nat.one_mul]
      _ ≤ old.length * nopts := Nat.mul_le_mul_right _ hold0
  suffices h : ∃ rows, createNested 2 left sizenew nopts opts (mk d old) = .ok (some (mk (d + 1) rows)) ∧
      Is (rowZip left old opts) sizenew rows by
    obtain ⟨rows, hrun, his⟩ := h
    have hrow : ∀ i, i < sizenew → ∃ o v, old[if i < old.length then i else 0]? = some o ∧
        opts[i]? = some v ∧ rows[i]? = some (if left = 0 then o ++ [v] else v :: o) := by
      intro i hi
      have h1 : (if i < old.length then i else 0) < old.length := by split <;> omega
      have h2 : i < opts.length := by omega
      refine ⟨_, _, List.getElem?_eq_getElem h1, List.getElem?_eq_getElem h2, ?_⟩
      rw [his.2 i hi, rowZip, pairRow_some h1 h2]
      rfl
    refine ⟨rows, hrun, his.1, ?_, hrow⟩
    intro r hr
    obtain ⟨i, hi, rfl⟩ := List.getElem_of_mem hr
    obtain ⟨o, v, ho, _, hri⟩ := hrow i (by rw [← his.1]; exact hi)
    rw [List.getElem?_eq_getElem hi] at hri
    injection hri with hri
    have hol := hold o (List.mem_of_getElem? ho)
    rw [hri]
    split <;> simp [hol]
  unfold createNested
  rw [cassert_of (by simpa [mk] using hmul)]
  have e : (mk d old).d = d := rfl
  have e1 : (mk d old).n = old.length := rfl
  have e2 : (mk d old).nodes = ofRows old := rfl
  simp only [bind_ok, e, e1, e2]
  rw [if_neg (by decide), if_neg (by decide), if_pos (by trivial), cassert_of (by simpa using hsz)]
  simp only [bind_ok]
  by_cases hlt : old.length < sizenew
  · rw [if_pos hlt]
    obtain ⟨rows, hrun, his⟩ := nestedZip_spec d left old.length opts old hold (by omega) (Nat.le_refl _)
    rw [hrun]
    simp only [bind_ok]
    obtain ⟨ci, hrun2, rows2, hci, his2⟩ := forR_spec (a := old.length) (b := sizenew)
      (fun jj (ci : CIndex α) => ∃ rows, ci = mk (d + 1) rows ∧ Is (rowZip left old opts) jj rows)
      (body := fun jj ci => nestStep ci left (ofRows old) opts jj) (s := mk (d + 1) rows)
      (Nat.le_of_lt hlt) ⟨rows, rfl, his⟩ (by
        rintro jj h1 h2 ci ⟨rows, rfl, his⟩
        have hstep := nestStep_mk (k := 0) (out := rows) left hold0 (hold _ (List.getElem_mem hold0))
          (show jj < opts.length by omega)
        rw [List.drop_zero] at hstep
        refine ⟨_, hstep, _, rfl, his.snoc ?_⟩
        rw [rowZip, if_neg (by omega)]
        exact pairRow_some hold0 (by omega))
    rw [hrun2, hci]
    exact ⟨rows2, rfl, his2⟩
  · rw [if_neg hlt]
    obtain ⟨rows, hrun, his⟩ := nestedZip_spec d left sizenew opts old hold (by omega) (by omega)
    rw [hrun]
    exact ⟨rows, rfl, his⟩

example : createNested 1 0 3 2 [7, 8] (mk 1 [[1], [2]]) = .ok (some (mk 2 [[1, 7], [1, 8], [2, 7]])) := by decide
example : createNested 0 1 3 2 [7, 8] (mk 1 [[1], [2]]) = .ok (some (mk 2 [[7, 1], [7, 2], [8, 1]])) := by decide
example : createNested 2 0 3 3 [7, 8, 9] (mk 1 [[1], [2]])
    = .ok (some (mk 2 [[1, 7], [2, 8], [1, 9]])) := by decide

/-- C07: too large a request fails the assertion. -/
theorem create_nested_too_large (method left : Int) (sizenew nopts : Nat) (opts : List α) (old : CIndex α)
    (h : old.n * nopts < sizenew) : createNested method left sizenew nopts opts old = .error .assertFail := by
  simp [createNested, Nat.not_le.mpr h]

/-- C07 fails for a requested size of zero with the product orders: all pairs are returned. -/
theorem create_nested_zero_counterexample :
    ∃ rows : List (List Nat), createNested 1 0 0 2 [7, 8] (mk 1 [[1], [2]]) = .ok (some (mk 2 rows)) ∧
      rows.length = 4 := ⟨[[1, 7], [1, 8], [2, 7], [2, 8]], by decide, rfl⟩

/-- C07, `cross_index_create_nested_ind`: row `i` extends the selected old node by the `i`-th value. -/
theorem create_nested_ind_spec (d : Nat) (left : Int) (sizenew : Nat) (inds : List Nat) (newx : List α)
    (old : List (List α)) (hold : ∀ r ∈ old, r.length = d) (hi : sizenew ≤ inds.length)
    (hx : sizenew ≤ newx.length) (hin : ∀ i ∈ inds, i < old.length) :
    ∃ rows, createNestedInd left sizenew inds newx (mk d old) = .ok (mk (d + 1) rows) ∧
      rows.length = sizenew ∧
      ∀ i, i < sizenew → ∃ k o v, inds[i]? = some k ∧ old[k]? = some o ∧ newx[i]? = some v ∧
        rows[i]? = some (if left = 0 then o ++ [v] else v :: o) := by
  let spec : Nat → Option (List α) := fun i => do
    let k ← inds[i]?
    pairRow left old newx k i
  have hspec : ∀ i (h1 : i < inds.length) (h2 : i < newx.length),
      spec i = some (ext left (old[inds[i]]'(hin _ (List.getElem_mem h1))) newx[i]) := by
    intro i h1 h2
    simp only [spec, List.getElem?_eq_getElem h1, Option.bind_eq_bind, Option.bind_some]
    exact pairRow_some (hin _ (List.getElem_mem h1)) h2
  obtain ⟨ci, hrun, rows, rfl, his⟩ := forN_spec (n := sizenew)
    (fun i (ci : CIndex α) => ∃ rows, ci = mk (d + 1) rows ∧ Is spec i rows)
    (body := fun ii ci => do
      let i ← rd inds ii
      let cn ← getNode (mk d old) i
      let (n, x, _) ← deref cn
      addNested ci left n x 1 (newx.drop ii)) (s := indexAlloc (d + 1))
    ⟨[], rfl, Is.nil _⟩ (by
      rintro i hi' ci ⟨rows, rfl, his⟩
      have h1 : i < inds.length := by omega
      have h2 : i < newx.length := by omega
      have h3 := hin _ (List.getElem_mem h1)
      rw [rd_ok h1]
      simp only [bind_ok, getNode_mk h3, deref_ofRows h3]
      rw [addNested_mk left (hold _ (List.getElem_mem h3)) h2]
      exact ⟨_, rfl, _, rfl, his.snoc (hspec i h1 h2)⟩)
  refine ⟨rows, hrun, his.1, ?_⟩
  intro i hi'
  have h1 : i < inds.length := by omega
  have h2 : i < newx.length := by omega
  have h3 := hin _ (List.getElem_mem h1)
  refine ⟨_, _, _, List.getElem?_eq_getElem h1, List.getElem?_eq_getElem h3,
    List.getElem?_eq_getElem h2, ?_⟩
  rw [his.2 i hi', hspec i h1 h2]
  rfl

/-! ### C08 -/

theorem merge_row [Zero α] (l r : List α) (dl dr : Nat) (hl : l.length = dl) (hr : r.length = dr) :
    (do let v ← blit (List.replicate (dl + dr + 1) 0) 0 l dl
        blit v (dl + 1) r dr) = .ok (l ++ [0] ++ r) := by
  subst hl hr
  rw [blit_ok (by simp; omega) (by omega)]
  simp only [bind_ok]
  rw [blit_ok (by simp; omega) (by omega)]
  have e : (List.replicate (l.length + r.length + 1) (0 : α)).drop (0 + l.length)
      = 0 :: List.replicate r.length 0 := by
    rw [List.drop_replicate, show l.length + r.length + 1 - (0 + l.length) = r.length + 1 by omega,
      List.replicate_succ]
  rw [e, List.take_of_length_le (l := l) (by omega), List.take_of_length_le (l := r) (by omega)]
  have e2 : (List.take 0 (List.replicate (l.length + r.length + 1) (0 : α)) ++ l ++
      0 :: List.replicate r.length 0) = (l ++ [0]) ++ List.replicate r.length 0 := by simp
  rw [e2, List.take_append_of_le_length (by simp), List.take_of_length_le (by simp),
    List.drop_of_length_le (by simp; omega), List.append_nil]

/-- C08: both sides present: entry `i * n_left + j` is left row `j`, the free coordinate, right row `i`. -/
theorem merge_wspace_product [Zero α] (dl dr : Nat) (L R : List (List α)) (hL : ∀ r ∈ L, r.length = dl)
    (hR : ∀ r ∈ R, r.length = dr) :
    ∃ vals, mergeWspace (some (mk dl L)) (some (mk dr R)) = .ok vals ∧ vals.length = R.length * L.length ∧
      ∀ i j (hi : i < R.length) (hj : j < L.length),
        vals[i * L.length + j]? = some (some (L[j] ++ [0] ++ R[i])) := by
  let spec : Nat → Option (List α) := fun k => do
    let l ← L[k % L.length]?
    let r ← R[k / L.length]?
    some (l ++ [0] ++ r)
  have hspec : ∀ i j (hi : i < R.length) (hj : j < L.length),
      spec (i * L.length + j) = some (L[j] ++ [0] ++ R[i]) := by
    intro i j hi hj
    have h1 : (i * L.length + j) % L.length = j := by
      rw [Nat.mul_comm, Nat.mul_add_mod, Nat.mod_eq_of_lt hj]
    have h2 : (i * L.length + j) / L.length = i := by
      rw [Nat.mul_comm, Nat.mul_add_div (by omega), Nat.div_eq_of_lt hj, Nat.add_zero]
    simp only [spec, h1, h2, List.getElem?_eq_getElem hi, List.getElem?_eq_getElem hj,
      Option.bind_eq_bind, Option.bind_some]
  unfold mergeWspace
  have e1 : (mk dl L).d = dl := rfl
  have e2 : (mk dr R).d = dr := rfl
  have e3 : (mk dl L).n = L.length := rfl
  have e4 : (mk dr R).n = R.length := rfl
  have e5 : (mk dl L).nodes = ofRows L := rfl
  have e6 : (mk dr R).nodes = ofRows R := rfl
  simp only [e1, e2, e3, e4, e5, e6]
  obtain ⟨⟨vals, cr⟩, hrun, hfill, hcr⟩ := forN_spec (n := R.length)
    (fun i (st : List (Option (List α)) × CNode α) =>
      Filled spec (R.length * L.length) (i * L.length) st.1 ∧ st.2 = ofRows (R.drop i))
    (body := fun ii (st : List (Option (List α)) × CNode α) => do
      let (vals, _) ← forN L.length (fun jj (st2 : List (Option (List α)) × CNode α) => do
        let (_, xl, nl) ← deref st2.2
        let v ← blit (List.replicate (dl + dr + 1) 0) 0 xl dl
        let (_, xr, _) ← deref st.2
        let v ← blit v (dl + 1) xr dr
        let vals ← wr st2.1 (ii * L.length + jj) (some v)
        pure (vals, nl)) (st.1, ofRows L)
      let (_, _, nr) ← deref st.2
      pure (vals, nr)) (s := (List.replicate (R.length * L.length) none, ofRows R))
    ⟨by simpa using Filled.init spec _, rfl⟩ (by
      rintro i hi ⟨vals, cr⟩ ⟨hf, hcr⟩
      simp only at hf hcr
      subst hcr
      obtain ⟨⟨vals', cl'⟩, hrun, hf', hcl'⟩ := forN_spec (n := L.length)
        (fun j (st2 : List (Option (List α)) × CNode α) =>
          Filled spec (R.length * L.length) (i * L.length + j) st2.1 ∧ st2.2 = ofRows (L.drop j))
        (body := fun jj (st2 : List (Option (List α)) × CNode α) => do
          let (_, xl, nl) ← deref st2.2
          let v ← blit (List.replicate (dl + dr + 1) 0) 0 xl dl
          let (_, xr, _) ← deref (ofRows (R.drop i))
          let v ← blit v (dl + 1) xr dr
          let vals ← wr st2.1 (i * L.length + jj) (some v)
          pure (vals, nl)) (s := (vals, ofRows L))
        ⟨by simpa using hf, rfl⟩ (by
          rintro j hj ⟨vals, cl⟩ ⟨hf, hcl⟩
          simp only at hf hcl
          subst hcl
          have hm := merge_row L[j] R[i] dl dr (hL _ (List.getElem_mem hj)) (hR _ (List.getElem_mem hi))
          have hlt : i * L.length + j < R.length * L.length := by
            calc i * L.length + j < i * L.length + L.length := by omega
              _ = (i + 1) * L.length := by rw [Nat.succ_mul]
              _ ≤ R.length * L.length := Nat.mul_le_mul_right _ hi
          obtain ⟨vals', hw, hf'⟩ := hf.wr hlt (hspec i j hi hj)
          simp only [deref_ofRows hj, deref_ofRows hi, bind_ok]
          cases hb : blit (List.replicate (dl + dr + 1) 0) 0 L[j] dl with
          | error e => rw [hb] at hm; simp at hm
          | ok v =>
            rw [hb] at hm
            simp only [bind_ok] at hm ⊢
            rw [hm]
            simp only [bind_ok]
            rw [hw]
            exact ⟨_, rfl, hf', rfl⟩)
      rw [hrun]
      simp only [bind_ok, deref_ofRows hi]
      refine ⟨_, rfl, ?_, rfl⟩
      rw [Nat.succ_mul]; exact hf')
  rw [hrun]
  refine ⟨vals, rfl, hfill.1, ?_⟩
  intro i j hi hj
  have hlt : i * L.length + j < R.length * L.length := by
    calc i * L.length + j < i * L.length + L.length := by omega
      _ = (i + 1) * L.length := by rw [Nat.succ_mul]
      _ ≤ R.length * L.length := Nat.mul_le_mul_right _ hi
  rw [hfill.2 _ hlt, hspec i j hi hj]

example : mergeWspace (some (mk 1 [[1], [2]])) (some (mk 2 [[5, 6], [7, 8]])) =
    .ok [some [1, 0, 5, 6], some [2, 0, 5, 6], some [1, 0, 7, 8], some [2, 0, 7, 8]] := by decide

theorem Filled.map {β γ : Type} {f : γ → β} {R : List γ} {vals : List (Option β)}
    (h : Filled (fun i => R[i]?.map f) R.length R.length vals) : vals = R.map (fun r => some (f r)) := by
  apply List.ext_getElem?
  intro i
  by_cases hi : i < R.length
  · rw [h.2 i hi]
    simp [List.getElem?_eq_getElem hi]
  · rw [List.getElem?_eq_none (by rw [h.1]; omega), List.getElem?_eq_none (by simp; omega)]

/-- C08: no left side. -/
theorem merge_wspace_no_left [Zero α] (dr : Nat) (R : List (List α)) (hR : ∀ r ∈ R, r.length = dr) :
    mergeWspace none (some (mk dr R)) = .ok (R.map fun r => some (0 :: r)) := by
  unfold mergeWspace
  have e2 : (mk dr R).d = dr := rfl
  have e4 : (mk dr R).n = R.length := rfl
  have e6 : (mk dr R).nodes = ofRows R := rfl
  simp only [e2, e4, e6]
  obtain ⟨⟨vals, cr⟩, hrun, hfill, hcr⟩ := forN_spec (n := R.length)
    (fun i (st : List (Option (List α)) × CNode α) =>
      Filled (fun i => R[i]?.map (fun r => 0 :: r)) R.length i st.1 ∧ st.2 = ofRows (R.drop i))
    (body := fun ii (st : List (Option (List α)) × CNode α) => do
      let (_, x, next) ← deref st.2
      let v ← blit (List.replicate (dr + 1) 0) 1 x (dr + 1 - 1)
      let vals ← wr st.1 ii (some v)
      pure (vals, next)) (s := (List.replicate R.length none, ofRows R))
    ⟨Filled.init _ _, rfl⟩ (by
      rintro i hi ⟨vals, cr⟩ ⟨hf, hcr⟩
      simp only at hf hcr
      subst hcr
      have hl := hR _ (List.getElem_mem hi)
      simp only [deref_ofRows hi, bind_ok]
      rw [blit_ok (by simp; omega) (by omega)]
      simp only [bind_ok]
      have hv : (List.replicate (dr + 1) (0 : α)).take 1 ++ R[i].take (dr + 1 - 1) ++
          (List.replicate (dr + 1) (0 : α)).drop (1 + (dr + 1 - 1)) = 0 :: R[i] := by
        rw [List.take_of_length_le (l := R[i]) (by omega), List.drop_of_length_le (by simp; omega)]
        simp [List.replicate_succ]
      rw [hv]
      obtain ⟨vals', hw, hf'⟩ := hf.wr hi (v := 0 :: R[i]) (by simp [List.getElem?_eq_getElem hi])
      rw [hw]
      exact ⟨_, rfl, hf', rfl⟩)
  rw [hrun]
  simp only at hfill
  rw [hfill.map]
  rfl

/-- C08: no right side. -/
theorem merge_wspace_no_right [Zero α] (dl : Nat) (L : List (List α)) (hL : ∀ r ∈ L, r.length = dl) :
    mergeWspace (some (mk dl L)) none = .ok (L.map fun r => some (r ++ [0])) := by
  unfold mergeWspace
  have e2 : (mk dl L).d = dl := rfl
  have e4 : (mk dl L).n = L.length := rfl
  have e6 : (mk dl L).nodes = ofRows L := rfl
  simp only [e2, e4, e6]
  obtain ⟨⟨vals, cr⟩, hrun, hfill, hcr⟩ := forN_spec (n := L.length)
    (fun i (st : List (Option (List α)) × CNode α) =>
      Filled (fun i => L[i]?.map (fun r => r ++ [0])) L.length i st.1 ∧ st.2 = ofRows (L.drop i))
    (body := fun ii (st : List (Option (List α)) × CNode α) => do
      let (_, x, next) ← deref st.2
      let v ← blit (List.replicate (dl + 1) 0) 0 x (dl + 1 - 1)
      let vals ← wr st.1 ii (some v)
      pure (vals, next)) (s := (List.replicate L.length none, ofRows L))
    ⟨Filled.init _ _, rfl⟩ (by
      rintro i hi ⟨vals, cr⟩ ⟨hf, hcr⟩
      simp only at hf hcr
      subst hcr
      have hl := hL _ (List.getElem_mem hi)
      simp only [deref_ofRows hi, bind_ok]
      rw [blit_ok (by simp) (by omega)]
      simp only [bind_ok]
      have hv : (List.replicate (dl + 1) (0 : α)).take 0 ++ L[i].take (dl + 1 - 1) ++
          (List.replicate (dl + 1) (0 : α)).drop (0 + (dl + 1 - 1)) = L[i] ++ [0] := by
        rw [List.take_of_length_le (l := L[i]) (by omega)]
        simp
      rw [hv]
      obtain ⟨vals', hw, hf'⟩ := hf.wr hi (v := L[i] ++ [0]) (by simp [List.getElem?_eq_getElem hi])
      rw [hw]
      exact ⟨_, rfl, hf', rfl⟩)
  rw [hrun]
  simp only at hfill
  rw [hfill.map]
  rfl

/-- C08, `cross_index_merge` (pairing without a free coordinate), partial: row `i` is the *first* left row followed
by right row `i`. Missing: the `i`-th left row (false, next theorem). -/
theorem merge_pairs_partial [Zero α] (dl dr : Nat) (l : List α) (L R : List (List α)) (hl : l.length = dl)
    (hR : ∀ r ∈ R, r.length = dr) (hn : (l :: L).length = R.length) :
    merge (some (mk dl (l :: L))) (some (mk dr R)) = .ok (R.map fun r => some (l ++ r)) := by
  unfold merge
  have e1 : (mk dl (l :: L)).d = dl := rfl
  have e2 : (mk dr R).d = dr := rfl
  have e3 : (mk dl (l :: L)).n = (l :: L).length := rfl
  have e4 : (mk dr R).n = R.length := rfl
  have e5 : (mk dl (l :: L)).nodes = ofRows (l :: L) := rfl
  have e6 : (mk dr R).nodes = ofRows R := rfl
  simp only []
  rw [cassert_of (decide_eq_true (show (mk dl (l :: L)).n = (mk dr R).n from hn))]
  simp only [bind_ok, e1, e2, e4, e5, e6]
  obtain ⟨⟨vals, cr⟩, hrun, hfill, hcr⟩ := forN_spec (n := R.length)
    (fun i (st : List (Option (List α)) × CNode α) =>
      Filled (fun i => R[i]?.map (fun r => l ++ r)) R.length i st.1 ∧ st.2 = ofRows (R.drop i))
    (body := fun ii (st : List (Option (List α)) × CNode α) => do
      let (_, xl, _) ← deref (ofRows (l :: L))
      let v ← blit (List.replicate (dl + dr) 0) 0 xl dl
      let (_, xr, nr) ← deref st.2
      let v ← blit v dl xr dr
      let vals ← wr st.1 ii (some v)
      pure (vals, nr)) (s := (List.replicate R.length none, ofRows R))
    ⟨Filled.init _ _, rfl⟩ (by
      rintro i hi ⟨vals, cr⟩ ⟨hf, hcr⟩
      simp only at hf hcr
      subst hcr
      have hr := hR _ (List.getElem_mem hi)
      have h0 : deref (ofRows (l :: L)) = .ok (l.length, l, ofRows L) := rfl
      simp only [deref_ofRows hi, h0, bind_ok]
      rw [blit_ok (by simp) (by omega)]
      simp only [bind_ok]
      rw [blit_ok (by simp; omega) (by omega)]
      simp only [bind_ok]
      have hv : ((List.replicate (dl + dr) (0 : α)).take 0 ++ l.take dl ++
          (List.replicate (dl + dr) (0 : α)).drop (0 + dl)).take dl ++ R[i].take dr ++
          ((List.replicate (dl + dr) (0 : α)).take 0 ++ l.take dl ++
          (List.replicate (dl + dr) (0 : α)).drop (0 + dl)).drop (dl + dr) = l ++ R[i] := by
        rw [List.take_of_length_le (l := R[i]) (by omega), List.take_of_length_le (l := l) (by omega)]
        subst hl
        simp
      rw [hv]
      obtain ⟨vals', hw, hf'⟩ := hf.wr hi (v := l ++ R[i]) (by simp [List.getElem?_eq_getElem hi])
      rw [hw]
      exact ⟨_, rfl, hf', rfl⟩)
  rw [hrun]
  simp only at hfill
  rw [hfill.map]
  rfl

/-- `cross_index_merge` does not pair the i-th left node with the i-th right node. -/
theorem merge_pairs_counterexample :
    ∃ L R : List (List Nat), L.length = R.length ∧
      merge (some (mk 1 L)) (some (mk 1 R)) = .ok [some [1, 3], some [1, 4]] ∧
      (List.zipWith (fun l r => some (l ++ r)) L R) = [some [1, 3], some [2, 4]] :=
  ⟨[[1], [2]], [[3], [4]], rfl, by decide, by decide⟩

/-! ### C09 -/

theorem addAll_eq (n : Nat) (v : List α) (h : n ≤ v.length) :
    addAll n v = .ok (mk 1 ((v.take n).map fun x => [x])) := by
  have := forN_traj (n := n) (fun i => mk 1 ((v.take i).map fun x => [x]))
    (body := fun jj ci => addIndex ci 1 (v.drop jj)) (by
      intro i hi
      rw [addIndex_mk 1 _ _ (by simp; omega)]
      rw [← List.take_append_getElem (show i < v.length by omega)]
      rw [List.drop_eq_getElem_cons (show i < v.length by omega)]
      rw [List.map_append]
      rfl)
  simpa [addAll, indexAlloc_eq] using this

/-- The `j`-th node of a level extends node `j` of the neighbouring level (or its first node when there are fewer)
by the `j`-th option, on the side given by `left`. -/
def Extends (left : Int) (prev : List (List α)) (opts : List α) (rows : List (List α)) : Prop :=
  ∀ j, j < rows.length → ∃ o v, prev[if j < prev.length then j else 0]? = some o ∧ opts[j]? = some v ∧
    rows[j]? = some (if left = 0 then o ++ [v] else v :: o)

/-- C09, left-to-right initialisation: entry 0 is NULL; entry `k ≥ 1` holds `sizes[k-1]` nodes with `k` coordinates,
nested in entry `k-1` through the options of dimension `k-1`. -/
theorem array_initialize_forward (dim : Nat) (hdim : 2 ≤ dim) (ci : List (Option (CIndex α)))
    (hci : ci.length = dim) (sizes : List Nat) (vals : List (List α)) (rev : Int) (hrev : rev ≠ 1)
    (hsz : sizes.length = dim) (hv : vals.length = dim)
    (hok : ∀ i (h1 : i < sizes.length) (h2 : i < vals.length), 0 < sizes[i] ∧ sizes[i] ≤ vals[i].length) :
    ∃ (out : List (Option (CIndex α))) (rows : Nat → List (List α)), arrayInitialize dim ci 0 rev sizes vals = .ok out ∧ out.length = dim ∧
      out[0]? = some none ∧
      rows 1 = (vals[0].take sizes[0]).map (fun x => [x]) ∧
      (∀ k (_ : 1 ≤ k) (hk : k < dim), out[k]? = some (some (mk k (rows k))) ∧
        (rows k).length = sizes[k - 1] ∧ (∀ r ∈ rows k, r.length = k)) ∧
      (∀ k (_ : 2 ≤ k) (hk : k < dim), Extends 0 (rows (k - 1)) vals[k - 1] (rows k)) := by
  unfold arrayInitialize
  rw [if_neg (by decide), if_neg hrev, wr_ok _ (by omega), rd_ok (show 0 < sizes.length by omega),
    rd_ok (show 0 < vals.length by omega)]
  simp only [bind_ok]
  rw [addAll_eq _ _ (hok 0 (by omega) (by omega)).2]
  simp only [bind_ok]
  rw [wr_ok _ (by simp; omega)]
  simp only [bind_ok]
  obtain ⟨out, hrun, rows, hlen, h0, h1, hk1, hk2⟩ := forR_spec (a := 2) (b := dim)
    (fun i (out : List (Option (CIndex α))) => ∃ rows : Nat → List (List α), out.length = dim ∧
      out[0]? = some none ∧ rows 1 = (vals[0].take sizes[0]).map (fun x => [x]) ∧
      (∀ k (_ : 1 ≤ k) (_ : k < i) (hk : k < dim), out[k]? = some (some (mk k (rows k))) ∧
        (rows k).length = sizes[k - 1] ∧ (∀ r ∈ rows k, r.length = k)) ∧
      (∀ k (_ : 2 ≤ k) (_ : k < i) (hk : k < dim), Extends 0 (rows (k - 1)) vals[k - 1] (rows k)))
    (body := fun ii ci => do
      let s ← rd sizes (ii - 1)
      let v ← rd vals (ii - 1)
      let o ← rd ci (ii - 1)
      let o ← derefIndex o
      let c ← createNested 2 0 s s v o
      wr ci ii c)
    (s := (ci.set 0 none).set 1 (some (mk 1 ((vals[0].take sizes[0]).map fun x => [x])))) hdim
    (by
      refine ⟨fun _ => (vals[0].take sizes[0]).map fun x => [x], by simp [hci], ?_, rfl, ?_, ?_⟩
      · rw [List.getElem?_set_ne (by omega), List.getElem?_set_self (by omega)]
      · intro k h1 h2 hk
        have : k = 1 := by omega
        subst this
        refine ⟨by rw [List.getElem?_set_self (by simp; omega)], ?_, ?_⟩
        · have := (hok 0 (by omega) (by omega)).2
          simp [this]
        · intro r hr
          obtain ⟨x, _, rfl⟩ := List.mem_map.mp hr
          rfl
      · intro k h1 h2
        omega)
    (by
      rintro i hi2 hid out ⟨rows, hlen, h0, h1, hk1, hk2⟩
      obtain ⟨ho, hs, hrl⟩ := hk1 (i - 1) (by omega) (by omega) (by omega)
      have hp1 := hok (i - 2) (by omega) (by omega)
      have hp2 := hok (i - 1) (by omega) (by omega)
      rw [rd_ok (show i - 1 < sizes.length by omega), rd_ok (show i - 1 < vals.length by omega),
        rd_of_getElem? ho]
      simp only [bind_ok, derefIndex]
      obtain ⟨new, hrun, hnl, hnd, hnew⟩ := create_nested_zip (i - 1) 0 sizes[i - 1] sizes[i - 1] vals[i - 1]
        (rows (i - 1)) hrl hp2.2 (Nat.le_refl _) (by
          rw [hs]; exact hp1.1)
      rw [hrun]
      simp only [bind_ok]
      rw [wr_ok _ (by omega)]
      refine ⟨_, rfl, fun k => if k = i then new else rows k, by simp [hlen], ?_, ?_, ?_, ?_⟩
      · rw [List.getElem?_set_ne (by omega)]; exact h0
      · simp only; rw [if_neg (by omega)]; exact h1
      · intro k h1 h2 hk
        by_cases he : k = i
        · subst he
          simp only [if_true]
          refine ⟨?_, hnl, ?_⟩
          · rw [List.getElem?_set_self (by omega)]
            rw [show k - 1 + 1 = k by omega]
          · intro r hr
            have := hnd r hr
            omega
        · simp only [if_neg he]
          rw [List.getElem?_set_ne (by omega)]
          exact hk1 k h1 (by omega) hk
      · intro k h1 h2 hk
        by_cases he : k = i
        · subst he
          simp only [if_true]
          rw [if_neg (by omega)]
          intro j hj
          exact hnew j (by omega)
        · simp only [if_neg he]
          rw [if_neg (by omega)]
          exact hk2 k h1 (by omega) hk)
  exact ⟨out, rows, hrun, hlen, h0, h1, fun k a b => hk1 k a b b, fun k a b => hk2 k a b b⟩

/-- C09, right-to-left initialisation: the last entry is NULL; entry `dim-1-k` (`k ≥ 1`) holds `sizes[dim-k]` nodes with
`k` coordinates, nested in its right neighbour through the options of dimension `dim-k`. -/
theorem array_initialize_reverse (dim : Nat) (hdim : 2 ≤ dim) (ci : List (Option (CIndex α)))
    (hci : ci.length = dim) (sizes : List Nat) (vals : List (List α))
    (hsz : sizes.length = dim) (hv : vals.length = dim)
    (hok : ∀ i (h1 : i < sizes.length) (h2 : i < vals.length), 0 < sizes[i] ∧ sizes[i] ≤ vals[i].length) :
    ∃ (out : List (Option (CIndex α))) (rows : Nat → List (List α)), arrayInitialize dim ci 0 1 sizes vals = .ok out ∧ out.length = dim ∧
      out[dim - 1]? = some none ∧
      rows 1 = (vals[dim - 1].take sizes[dim - 1]).map (fun x => [x]) ∧
      (∀ k (_ : 1 ≤ k) (hk : k < dim), out[dim - 1 - k]? = some (some (mk k (rows k))) ∧
        (rows k).length = sizes[dim - k] ∧ (∀ r ∈ rows k, r.length = k)) ∧
      (∀ k (_ : 2 ≤ k) (hk : k < dim), Extends 1 (rows (k - 1)) vals[dim - k] (rows k)) := by
  unfold arrayInitialize
  rw [if_neg (by decide), if_pos rfl, cassert_of (by simp; omega), wr_ok _ (by omega),
    rd_ok (show dim - 1 < sizes.length by omega), rd_ok (show dim - 1 < vals.length by omega)]
  simp only [bind_ok]
  rw [addAll_eq _ _ (hok (dim - 1) (by omega) (by omega)).2]
  simp only [bind_ok]
  rw [wr_ok _ (by simp; omega)]
  simp only [bind_ok]
  obtain ⟨out, hrun, rows, hlen, h0, h1, hk1, hk2⟩ := forN_spec (n := dim - 2)
    (fun i (out : List (Option (CIndex α))) => ∃ rows : Nat → List (List α), out.length = dim ∧
      out[dim - 1]? = some none ∧ rows 1 = (vals[dim - 1].take sizes[dim - 1]).map (fun x => [x]) ∧
      (∀ k (_ : 1 ≤ k) (_ : k < i + 2) (hk : k < dim), out[dim - 1 - k]? = some (some (mk k (rows k))) ∧
        (rows k).length = sizes[dim - k] ∧ (∀ r ∈ rows k, r.length = k)) ∧
      (∀ k (_ : 2 ≤ k) (_ : k < i + 2) (hk : k < dim), Extends 1 (rows (k - 1)) vals[dim - k] (rows k)))
    (body := fun ii ci => do
      let s ← rd sizes (dim - 2 - (ii + 1) + 1)
      let v ← rd vals (dim - 2 - (ii + 1) + 1)
      let o ← rd ci (dim - 2 - (ii + 1) + 1)
      let o ← derefIndex o
      let c ← createNested 2 1 s s v o
      wr ci (dim - 2 - (ii + 1)) c)
    (s := (ci.set (dim - 1) none).set (dim - 2)
      (some (mk 1 ((vals[dim - 1].take sizes[dim - 1]).map fun x => [x]))))
    (by
      refine ⟨fun _ => (vals[dim - 1].take sizes[dim - 1]).map fun x => [x], by simp [hci], ?_, rfl, ?_, ?_⟩
      · rw [List.getElem?_set_ne (by omega), List.getElem?_set_self (by omega)]
      · intro k h1 h2 hk
        have : k = 1 := by omega
        subst this
        refine ⟨by rw [show dim - 1 - 1 = dim - 2 by omega, List.getElem?_set_self (by simp; omega)], ?_, ?_⟩
        · have := (hok (dim - 1) (by omega) (by omega)).2
          simp [this]
        · intro r hr
          obtain ⟨x, _, rfl⟩ := List.mem_map.mp hr
          rfl
      · intro k h1 h2
        omega)
    (by
      rintro i hid out ⟨rows, hlen, h0, h1, hk1, hk2⟩
      obtain ⟨ho, hs, hrl⟩ := hk1 (i + 1) (by omega) (by omega) (by omega)
      have hp1 := hok (dim - (i + 1)) (by omega) (by omega)
      have hp2 := hok (dim - (i + 2)) (by omega) (by omega)
      have e1 : dim - 2 - (i + 1) + 1 = dim - (i + 2) := by omega
      have e2 : dim - 1 - (i + 1) = dim - (i + 2) := by omega
      rw [e2] at ho
      simp only [e1]
      rw [rd_ok (show dim - (i + 2) < sizes.length by omega), rd_ok (show dim - (i + 2) < vals.length by omega),
        rd_of_getElem? ho]
      simp only [bind_ok, derefIndex]
      obtain ⟨new, hrun, hnl, hnd, hnew⟩ := create_nested_zip (i + 1) 1 sizes[dim - (i + 2)]
        sizes[dim - (i + 2)] vals[dim - (i + 2)]
        (rows (i + 1)) hrl hp2.2 (Nat.le_refl _) (by
          rw [hs]; exact hp1.1)
      rw [hrun]
      simp only [bind_ok]
      rw [wr_ok _ (by omega)]
      refine ⟨_, rfl, fun k => if k = i + 2 then new else rows k, by simp [hlen], ?_, ?_, ?_, ?_⟩
      · rw [List.getElem?_set_ne (by omega)]; exact h0
      · simp only; rw [if_neg (by omega)]; exact h1
      · intro k h1 h2 hk
        by_cases he : k = i + 2
        · subst he
          simp only [if_true]
          refine ⟨?_, hnl, ?_⟩
          · rw [show dim - 1 - (i + 2) = dim - 2 - (i + 1) by omega, List.getElem?_set_self (by omega)]
          · intro r hr
            have := hnd r hr
            omega
        · simp only [if_neg he]
          rw [List.getElem?_set_ne (by omega)]
          exact hk1 k h1 (by omega) hk
      · intro k h1 h2 hk
        by_cases he : k = i + 2
        · subst he
          simp only [if_true]
          rw [if_neg (by omega)]
          intro j hj
          exact hnew j (by omega)
        · simp only [if_neg he]
          rw [if_neg (by omega)]
          exact hk2 k h1 (by omega) hk)
  exact ⟨out, rows, hrun, hlen, h0, h1, fun k a b => hk1 k a (by omega) b, fun k a b => hk2 k a (by omega) b⟩

example : arrayInitialize 3 [none, none, none] 0 0 [2, 2, 1] [[1, 2], [3, 4], [5]] =
    .ok [none, some (mk 1 [[1], [2]]), some (mk 2 [[1, 3], [2, 4]])] := by decide

/-- C09 fails in one dimension: the forward initialisation writes past the array. -/
theorem array_initialize_dim1_counterexample :
    arrayInitialize 1 [none] 0 0 [1] [[(5 : Nat)]] = .error .oob := by decide

end C3.Ind
