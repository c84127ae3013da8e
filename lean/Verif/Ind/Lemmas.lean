import Verif.Ind.Model

namespace C3.Ind

variable {α : Type}

/-- The linked list holding the given rows. -/
def ofRows : List (List α) → CNode α
  | [] => .null
  | r :: rs => .node r.length r (ofRows rs)

/-- The index set of dimension `d` holding the given rows. -/
def mk (d : Nat) (rows : List (List α)) : CIndex α := ⟨d, rows.length, ofRows rows⟩

/-- Extend a node by one coordinate on the side selected by `left`. -/
def ext (left : Int) (o : List α) (v : α) : List α := if left = 0 then o ++ [v] else v :: o

theorem ext_length (left : Int) (o : List α) (v : α) : (ext left o v).length = o.length + 1 := by
  unfold ext; split <;> simp

theorem indexAlloc_eq (d : Nat) : (indexAlloc d : CIndex α) = mk d [] := rfl

theorem nodeAdd_ofRows (rows : List (List α)) (n : Nat) (x : List α) (h : n ≤ x.length) :
    nodeAdd (ofRows rows) n x = .ok (ofRows (rows ++ [x.take n])) := by
  induction rows with
  | nil => simp [ofRows, nodeAdd, h]
  | cons r rs ih => simp [ofRows, nodeAdd, ih]

theorem nodeGet_ofRows (rows : List (List α)) (k : Nat) (h : k ≤ rows.length) :
    nodeGet (ofRows rows) k = .ok (ofRows (rows.drop k)) := by
  induction k generalizing rows with
  | zero => cases rows <;> simp [nodeGet]
  | succ k ih =>
    cases rows with
    | nil => simp at h
    | cons r rs => simp only [ofRows, nodeGet]; simpa using ih rs (by simpa using h)

theorem deref_ofRows {rows : List (List α)} {k : Nat} (h : k < rows.length) :
    deref (ofRows (rows.drop k)) = .ok (rows[k].length, rows[k], ofRows (rows.drop (k + 1))) := by
  rw [List.drop_eq_getElem_cons h]
  rfl

theorem addIndex_mk (d : Nat) (rows : List (List α)) (x : List α) (h : d ≤ x.length) :
    addIndex (mk d rows) d x = .ok (mk d (rows ++ [x.take d])) := by
  simp [addIndex, mk, nodeAdd_ofRows _ _ _ h]

theorem getNode_mk {d : Nat} {rows : List (List α)} {k : Nat} (h : k < rows.length) :
    getNode (mk d rows) k = .ok (ofRows (rows.drop k)) := by
  simp [getNode, mk, h, nodeGet_ofRows _ _ (Nat.le_of_lt h)]

theorem addNested_mk {d : Nat} {out : List (List α)} (left : Int) {x : List α} {opts : List α} {jj : Nat}
    (hx : x.length = d) (hj : jj < opts.length) :
    addNested (mk (d + 1) out) left x.length x 1 (opts.drop jj)
      = .ok (mk (d + 1) (out ++ [ext left x opts[jj]])) := by
  have h1 : (opts.drop jj).take 1 = [opts[jj]] := by
    rw [List.drop_eq_getElem_cons hj]; rfl
  have h2 : 1 ≤ (opts.drop jj).length := by simp; omega
  unfold addNested
  rw [cassert_of (by simp [mk, hx])]
  simp only [bind_ok, nodeAddNested]
  rw [if_pos ⟨Nat.le_refl _, h2⟩, h1, List.take_length]
  unfold ext
  split
  · rw [mk, nodeAdd_ofRows _ _ _ (by simp), List.take_of_length_le (by simp)]
    simp [mk]
  · rw [mk, nodeAdd_ofRows _ _ _ (by simp +arith), List.take_of_length_le (by simp +arith)]
    simp [mk]

theorem nestStep_mk {d : Nat} {out old : List (List α)} (left : Int) {opts : List α} {k jj : Nat}
    (hk : k < old.length) (hd : old[k].length = d) (hj : jj < opts.length) :
    nestStep (mk (d + 1) out) left (ofRows (old.drop k)) opts jj
      = .ok (mk (d + 1) (out ++ [ext left old[k] opts[jj]])) := by
  unfold nestStep
  rw [deref_ofRows hk]
  exact addNested_mk left hd hj

/-- `rows` are the first `c` rows of the (partial) enumeration `spec`. -/
def Is (spec : Nat → Option (List α)) (c : Nat) (rows : List (List α)) : Prop :=
  rows.length = c ∧ ∀ i, i < c → rows[i]? = spec i

theorem Is.nil (spec : Nat → Option (List α)) : Is spec 0 [] := ⟨rfl, by simp⟩

theorem Is.snoc {spec : Nat → Option (List α)} {c : Nat} {rows : List (List α)} {r : List α}
    (h : Is spec c rows) (hr : spec c = some r) : Is spec (c + 1) (rows ++ [r]) := by
  refine ⟨by simp [h.1], fun i hi => ?_⟩
  by_cases hc : i = c
  · subst hc
    have h1 := h.1
    rw [List.getElem?_append_right (by omega), hr]; simp [h1]
  · rw [List.getElem?_append_left (by have := h.1; omega)]
    exact h.2 i (by omega)

/-- Row built from the `a`-th old node and the `b`-th option. -/
def pairRow (left : Int) (old : List (List α)) (opts : List α) (a b : Nat) : Option (List α) := do
  let o ← old[a]?
  let v ← opts[b]?
  some (ext left o v)

theorem pairRow_some {left : Int} {old : List (List α)} {opts : List α} {a b : Nat} (ha : a < old.length)
    (hb : b < opts.length) : pairRow left old opts a b = some (ext left old[a] opts[b]) := by
  simp [pairRow, List.getElem?_eq_getElem ha, List.getElem?_eq_getElem hb]

/-- Rows enumerated with the old nodes as the slow index. -/
def rowOldMajor (left : Int) (old : List (List α)) (opts : List α) (nopts i : Nat) : Option (List α) :=
  pairRow left old opts (i / nopts) (i % nopts)

theorem nestedOldMajor_spec (d : Nat) (left : Int) (sizenew nopts : Nat) (opts : List α)
    (old : List (List α)) (hold : ∀ r ∈ old, r.length = d) (hopts : nopts ≤ opts.length) :
    ∃ rows, nestedOldMajor (indexAlloc (d + 1)) left sizenew nopts opts (mk d old)
        = .ok (mk (d + 1) rows) ∧
      (Is (rowOldMajor left old opts nopts) sizenew rows ∨
        (Is (rowOldMajor left old opts nopts) (old.length * nopts) rows ∧
          (sizenew = 0 ∨ old.length * nopts < sizenew))) := by
  set spec := rowOldMajor left old opts nopts with hspec
  unfold nestedOldMajor
  have := forN_spec (n := old.length)
    (fun k (st : CIndex α × CNode α × Bool) => ∃ rows, st.1 = mk (d + 1) rows ∧
      ((st.2.2 = true ∧ Is spec sizenew rows) ∨
       (st.2.2 = false ∧ st.2.1 = ofRows (old.drop k) ∧ Is spec (k * nopts) rows ∧
         (sizenew = 0 ∨ k * nopts < sizenew))))
    (body := fun _ (st : CIndex α × CNode α × Bool) =>
      if st.2.2 then .ok st else do
        let st ← forN nopts (fun jj (st : CIndex α × CNode α × Bool) =>
          if st.2.2 then .ok st else do
            let ci ← nestStep st.1 left st.2.1 opts jj
            pure (ci, st.2.1, decide (ci.n = sizenew))) st
        if st.2.2 then .ok st else do
          let (_, _, next) ← deref st.2.1
          pure (st.1, next, false))
    (s := (mk (d + 1) [], ofRows old, false))
    ⟨[], rfl, Or.inr ⟨rfl, by simp, by simpa using Is.nil spec, by omega⟩⟩ (by
      rintro k hk ⟨ci, oc, ret⟩ ⟨rows, hci, h⟩
      simp only at hci h
      rcases h with ⟨hret, his⟩ | ⟨hret, hoc, his, hsz⟩
      · subst hret
        exact ⟨_, if_pos rfl, rows, hci, Or.inl ⟨rfl, his⟩⟩
      · subst hret hoc hci
        simp only [Bool.false_eq_true, if_false]
        obtain ⟨⟨ci', oc', ret'⟩, hrun, rows', hci', hoc', h'⟩ := forN_spec (n := nopts)
          (fun jj (st : CIndex α × CNode α × Bool) => ∃ rows, st.1 = mk (d + 1) rows ∧
            st.2.1 = ofRows (old.drop k) ∧
            ((st.2.2 = true ∧ Is spec sizenew rows) ∨
             (st.2.2 = false ∧ Is spec (k * nopts + jj) rows ∧
               (sizenew = 0 ∨ k * nopts + jj < sizenew))))
          (body := fun jj (st : CIndex α × CNode α × Bool) =>
            if st.2.2 then .ok st else do
              let ci ← nestStep st.1 left st.2.1 opts jj
              pure (ci, st.2.1, decide (ci.n = sizenew)))
          (s := (mk (d + 1) rows, ofRows (old.drop k), false))
          ⟨rows, rfl, rfl, Or.inr ⟨rfl, by simpa using his, by omega⟩⟩ (by
            rintro jj hjj ⟨ci, oc, ret⟩ ⟨rows, hci, hoc, h⟩
            simp only at hci hoc h
            subst hci hoc
            rcases h with ⟨hret, his⟩ | ⟨hret, his, hsz⟩
            · subst hret
              exact ⟨_, if_pos rfl, rows, rfl, rfl, Or.inl ⟨rfl, his⟩⟩
            · subst hret
              have hstep := nestStep_mk (out := rows) left hk (hold _ (List.getElem_mem hk))
                (show jj < opts.length by omega)
              simp only [Bool.false_eq_true, if_false, hstep, bind_ok, pure_eq_ok]
              have hr : spec (k * nopts + jj) = some (ext left old[k] opts[jj]) := by
                rw [hspec, rowOldMajor, Nat.mul_comm, Nat.mul_add_div (by omega),
                  Nat.mul_add_mod, Nat.div_eq_of_lt hjj, Nat.mod_eq_of_lt hjj]
                exact pairRow_some hk (by omega)
              have hs := his.snoc hr
              refine ⟨_, rfl, _, rfl, rfl, ?_⟩
              have hn : (mk (d + 1) (rows ++ [ext left old[k] opts[jj]])).n = k * nopts + jj + 1 := hs.1
              simp only [hn]
              by_cases he : k * nopts + jj + 1 = sizenew
              · left; simp only [he, decide_true, true_and]; rw [← he]; exact hs
              · right; exact ⟨by simp [he], hs, by omega⟩)
        rw [hrun]
        simp only at hci' hoc' h'
        simp only [bind_ok]
        rcases h' with ⟨hret, his'⟩ | ⟨hret, his', hsz'⟩
        · subst hret
          exact ⟨_, if_pos rfl, rows', hci', Or.inl ⟨rfl, his'⟩⟩
        · subst hret hoc'
          simp only [Bool.false_eq_true, if_false, deref_ofRows hk, bind_ok, pure_eq_ok]
          refine ⟨_, rfl, rows', hci', Or.inr ⟨rfl, rfl, ?_, ?_⟩⟩
          · rw [Nat.succ_mul]; exact his'
          · rw [Nat.succ_mul]; exact hsz')
  obtain ⟨⟨ci', oc', ret'⟩, hrun, rows', hci', h'⟩ := this
  refine ⟨rows', ?_, ?_⟩
  · rw [indexAlloc_eq]
    simp only [mk] at hrun ⊢
    rw [hrun]
    simpa [mk] using hci'
  · rcases h' with ⟨_, h⟩ | ⟨_, _, h, h2⟩
    · exact Or.inl h
    · exact Or.inr ⟨h, h2⟩

/-- Rows enumerated with the options as the slow index. -/
def rowOptMajor (left : Int) (old : List (List α)) (opts : List α) (i : Nat) : Option (List α) :=
  pairRow left old opts (i % old.length) (i / old.length)

theorem nestedOptMajor_spec (d : Nat) (left : Int) (sizenew nopts : Nat) (opts : List α)
    (old : List (List α)) (hold : ∀ r ∈ old, r.length = d) (hopts : nopts ≤ opts.length) :
    ∃ rows, nestedOptMajor (indexAlloc (d + 1)) left sizenew nopts opts (mk d old)
        = .ok (mk (d + 1) rows) ∧
      (Is (rowOptMajor left old opts) sizenew rows ∨
        (Is (rowOptMajor left old opts) (nopts * old.length) rows ∧
          (sizenew = 0 ∨ nopts * old.length < sizenew))) := by
  set spec := rowOptMajor left old opts with hspec
  unfold nestedOptMajor
  have := forN_spec (n := nopts)
    (fun k (st : CIndex α × Bool) => ∃ rows, st.1 = mk (d + 1) rows ∧
      ((st.2 = true ∧ Is spec sizenew rows) ∨
       (st.2 = false ∧ Is spec (k * old.length) rows ∧
         (sizenew = 0 ∨ k * old.length < sizenew))))
    (body := fun jj (st : CIndex α × Bool) =>
      if st.2 then .ok st else do
        let (ci, _, r) ← forN old.length (fun _ (st : CIndex α × CNode α × Bool) =>
          if st.2.2 then .ok st else do
            let ci ← nestStep st.1 left st.2.1 opts jj
            if ci.n = sizenew then pure (ci, st.2.1, true) else do
              let (_, _, next) ← deref st.2.1
              pure (ci, next, false)) (st.1, ofRows old, false)
        pure (ci, r))
    (s := (mk (d + 1) [], false))
    ⟨[], rfl, Or.inr ⟨rfl, by simpa using Is.nil spec, by omega⟩⟩ (by
      rintro k hk ⟨ci, ret⟩ ⟨rows, hci, h⟩
      simp only at hci h
      rcases h with ⟨hret, his⟩ | ⟨hret, his, hsz⟩
      · subst hret
        exact ⟨_, if_pos rfl, rows, hci, Or.inl ⟨rfl, his⟩⟩
      · subst hret hci
        simp only [Bool.false_eq_true, if_false]
        obtain ⟨⟨ci', oc', ret'⟩, hrun, rows', hci', h'⟩ := forN_spec (n := old.length)
          (fun jj (st : CIndex α × CNode α × Bool) => ∃ rows, st.1 = mk (d + 1) rows ∧
            ((st.2.2 = true ∧ Is spec sizenew rows) ∨
             (st.2.2 = false ∧ st.2.1 = ofRows (old.drop jj) ∧ Is spec (k * old.length + jj) rows ∧
               (sizenew = 0 ∨ k * old.length + jj < sizenew))))
          (body := fun _ (st : CIndex α × CNode α × Bool) =>
            if st.2.2 then .ok st else do
              let ci ← nestStep st.1 left st.2.1 opts k
              if ci.n = sizenew then pure (ci, st.2.1, true) else do
                let (_, _, next) ← deref st.2.1
                pure (ci, next, false))
          (s := (mk (d + 1) rows, ofRows old, false))
          ⟨rows, rfl, Or.inr ⟨rfl, by simp, by simpa using his, by omega⟩⟩ (by
            rintro jj hjj ⟨ci, oc, ret⟩ ⟨rows, hci, h⟩
            simp only at hci h
            subst hci
            rcases h with ⟨hret, his⟩ | ⟨hret, hoc, his, hsz⟩
            · subst hret
              exact ⟨_, if_pos rfl, rows, rfl, Or.inl ⟨rfl, his⟩⟩
            · subst hret hoc
              have hstep := nestStep_mk (out := rows) left hjj (hold _ (List.getElem_mem hjj))
                (show k < opts.length by omega)
              simp only [Bool.false_eq_true, if_false, hstep, bind_ok, pure_eq_ok]
              have hr : spec (k * old.length + jj) = some (ext left old[jj] opts[k]) := by
                rw [hspec, rowOptMajor, Nat.mul_comm, Nat.mul_add_div (by omega),
                  Nat.mul_add_mod, Nat.div_eq_of_lt hjj, Nat.mod_eq_of_lt hjj]
                exact pairRow_some hjj (by omega)
              have hs := his.snoc hr
              have hn : (mk (d + 1) (rows ++ [ext left old[jj] opts[k]])).n = k * old.length + jj + 1 := hs.1
              by_cases he : k * old.length + jj + 1 = sizenew
              · rw [if_pos (by rw [hn]; exact he)]
                exact ⟨_, rfl, _, rfl, Or.inl ⟨rfl, by rw [← he]; exact hs⟩⟩
              · rw [if_neg (by rw [hn]; exact he)]
                rw [deref_ofRows hjj]
                exact ⟨_, rfl, _, rfl, Or.inr ⟨rfl, rfl, hs, by omega⟩⟩)
        rw [hrun]
        simp only at hci' h'
        simp only [bind_ok, pure_eq_ok]
        refine ⟨_, rfl, rows', hci', ?_⟩
        rcases h' with ⟨hret, his'⟩ | ⟨hret, _, his', hsz'⟩
        · exact Or.inl ⟨hret, his'⟩
        · refine Or.inr ⟨hret, ?_, ?_⟩
          · rw [Nat.succ_mul]; exact his'
          · rw [Nat.succ_mul]; exact hsz')
  obtain ⟨⟨ci', ret'⟩, hrun, rows', hci', h'⟩ := this
  refine ⟨rows', ?_, ?_⟩
  · rw [indexAlloc_eq]
    simp only [mk] at hrun ⊢
    rw [hrun]
    simpa [mk] using hci'
  · rcases h' with ⟨_, h⟩ | ⟨_, h, h2⟩
    · exact Or.inl h
    · exact Or.inr ⟨h, h2⟩

/-- Rows pairing the `i`-th old node with the `i`-th option; beyond the old nodes the first one is reused. -/
def rowZip (left : Int) (old : List (List α)) (opts : List α) (i : Nat) : Option (List α) :=
  pairRow left old opts (if i < old.length then i else 0) i

theorem nestedZip_spec (d : Nat) (left : Int) (cnt : Nat) (opts : List α)
    (old : List (List α)) (hold : ∀ r ∈ old, r.length = d) (hopts : cnt ≤ opts.length)
    (hc : cnt ≤ old.length) :
    ∃ rows, nestedZip (indexAlloc (d + 1)) left cnt opts (mk d old) = .ok (mk (d + 1) rows) ∧
      Is (rowZip left old opts) cnt rows := by
  unfold nestedZip
  obtain ⟨⟨ci', oc'⟩, hrun, rows', hci', hoc', h'⟩ := forN_spec (n := cnt)
    (fun jj (st : CIndex α × CNode α) => ∃ rows, st.1 = mk (d + 1) rows ∧
      st.2 = ofRows (old.drop jj) ∧ Is (rowZip left old opts) jj rows)
    (body := fun jj (st : CIndex α × CNode α) => do
      let ci ← nestStep st.1 left st.2 opts jj
      let (_, _, next) ← deref st.2
      pure (ci, next))
    (s := (mk (d + 1) [], ofRows old))
    ⟨[], rfl, rfl, Is.nil _⟩ (by
      rintro jj hjj ⟨ci, oc⟩ ⟨rows, hci, hoc, his⟩
      simp only at hci hoc
      subst hci hoc
      have hk : jj < old.length := by omega
      have hstep := nestStep_mk (out := rows) left hk (hold _ (List.getElem_mem hk))
                (show jj < opts.length by omega)
      simp only [hstep, bind_ok, deref_ofRows hk, pure_eq_ok]
      refine ⟨_, rfl, _, rfl, rfl, his.snoc ?_⟩
      rw [rowZip, if_pos hk]
      exact pairRow_some hk (by omega))
  refine ⟨rows', ?_, h'⟩
  rw [indexAlloc_eq]
  simp only [mk] at hrun ⊢
  rw [hrun]
  simpa [mk] using hci'

theorem blit_ok {dst src : List α} {off n : Nat} (h : off + n ≤ dst.length) (h2 : n ≤ src.length) :
    blit dst off src n = .ok (dst.take off ++ src.take n ++ dst.drop (off + n)) := by
  simp [blit, h, h2]

/-- Invariant for arrays filled left to right: entries below `c` are set according to `spec`. -/
def Filled {β : Type} (spec : Nat → Option β) (len c : Nat) (vals : List (Option β)) : Prop :=
  vals.length = len ∧ ∀ i, i < c → vals[i]? = some (spec i)

theorem Filled.init {β : Type} (spec : Nat → Option β) (len : Nat) :
    Filled spec len 0 (List.replicate len none) := ⟨by simp, by simp⟩

theorem Filled.wr {β : Type} {spec : Nat → Option β} {len c : Nat} {vals : List (Option β)} {v : β}
    (h : Filled spec len c vals) (hc : c < len) (hv : spec c = some v) :
    ∃ vals', C3.wr vals c (some v) = .ok vals' ∧ Filled spec len (c + 1) vals' := by
  refine ⟨_, wr_ok _ (by rw [h.1]; exact hc), by simp [h.1], fun i hi => ?_⟩
  by_cases he : i = c
  · subst he
    rw [List.getElem?_set_self (by rw [h.1]; exact hc), hv]
  · rw [List.getElem?_set_ne (by omega)]
    exact h.2 i (by omega)

end C3.Ind
