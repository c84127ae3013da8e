/-
C26: reading and updating parameters use one fixed layout.
-/
import Verif.Ft.ParamLemmas

set_option linter.unusedSectionVars false

namespace C3.Ft
variable {K : Type} [Field K]

/-! ### Specification -/

/-- Parameters of an array of functions: function by function in storage order. -/
def qparams (Q : Qma (PFun K)) : List K := Q.funcs.flatMap params

/-- Parameters of a train: core by core. -/
def ftparams (ft : FT K (PFun K)) : List K := ft.cores.flatMap qparams

/-- Well-formed array of well-formed functions. -/
def QW (Q : Qma (PFun K)) : Prop := Q.WF ∧ ∀ f ∈ Q.funcs, f.WF

/-- Well-formed train as far as parameters are concerned (no condition on the ranks). -/
def FW (ft : FT K (PFun K)) : Prop := ft.dim = ft.cores.length ∧ ∀ Q ∈ ft.cores, QW Q

/-- Everything in an array which is not a parameter. -/
def qerase (Q : Qma (PFun K)) : Qma (PFun K) := { Q with funcs := Q.funcs.map erase }

/-- Everything in a train which is not a parameter. -/
def fterase (ft : FT K (PFun K)) : FT K (PFun K) := { ft with cores := ft.cores.map qerase }

/-! ### Lists -/

theorem take_succ_getElem {α : Type} {l : List α} {i : Nat} (h : i < l.length) : l.take (i + 1) = l.take i ++ [l[i]] := by
  rw [List.take_succ, List.getElem?_eq_getElem h]; rfl

theorem set_take_drop {α : Type} {l l0 : List α} {i : Nat} (h : i < l.length) (hd : l.drop i = l0.drop i) (v : α) :
    (l.set i v).take (i + 1) = l.take i ++ [v] ∧ (l.set i v).drop (i + 1) = l0.drop (i + 1) ∧ l[i]? = l0[i]? := by
  refine ⟨?_, ?_, ?_⟩
  · rw [List.take_set, take_succ_getElem h, List.set_append_right _ _ (by simp)]
    simp [List.length_take, Nat.min_eq_left (Nat.le_of_lt h)]
  · rw [List.drop_set_of_lt (by omega)]
    have := congrArg (List.drop 1) hd
    simpa [List.drop_drop, Nat.add_comm] using this
  · have := congrArg (fun l => l[0]?) hd
    simpa using this

theorem flatMap_params_length {l : List (PFun K)} (h : ∀ f ∈ l, f.WF) :
    (l.flatMap params).length = (l.map numParams).sum := by
  induction l with
  | nil => rfl
  | cons f l ih =>
    rw [List.flatMap_cons, List.length_append, ih (fun g hg => h g (by simp [hg])), params_length (h f (by simp))]; rfl

theorem map_numParams_of_erase {l l' : List (PFun K)} (h : l.map erase = l'.map erase) :
    l.map numParams = l'.map numParams := by
  induction l generalizing l' with
  | nil => cases l' with
    | nil => rfl
    | cons => simp at h
  | cons f l ih => cases l' with
    | nil => simp at h
    | cons g l' =>
      simp only [List.map_cons, List.cons.injEq] at h ⊢
      exact ⟨erase_numParams h.1, ih h.2⟩

/-- Total number of parameters of an array. -/
abbrev qnum (Q : Qma (PFun K)) : Nat := (qparams Q).length

theorem qnum_take {Q : Qma (PFun K)} (h : QW Q) : qnum Q = (Q.funcs.map numParams).sum := flatMap_params_length h.2

/-- Growing partial sums of parameter counts. -/
theorem numsum_succ {l : List (PFun K)} {i : Nat} (hi : i < l.length) :
    ((l.take (i + 1)).map numParams).sum = ((l.take i).map numParams).sum + numParams l[i] := by
  rw [take_succ_getElem hi, List.map_append, List.sum_append]; simp

theorem numsum_le {l : List (PFun K)} {i : Nat} (hi : i < l.length) :
    ((l.take i).map numParams).sum + numParams l[i] ≤ (l.map numParams).sum := by
  rw [← numsum_succ hi]
  conv_rhs => rw [← List.take_append_drop (i + 1) l, List.map_append, List.sum_append]
  omega

/-! ### Arrays -/

/-- Counting. -/
theorem qmaNparams_ok {Q : Qma (PFun K)} (h : QW Q) :
    ∃ m, qmaNparams Q = .ok (qnum Q, m) ∧ (∀ f ∈ Q.funcs, numParams f ≤ m) ∧ (m = 0 ∨ ∃ f ∈ Q.funcs, numParams f = m) := by
  have hl : Q.funcs.length = Q.nrows * Q.ncols := h.1
  obtain ⟨s, h1, h2, h3, h4⟩ := forN_spec (n := Q.nrows * Q.ncols) (s := ((0, 0) : Nat × Nat))
    (body := fun ii s => do
      let f ← rd Q.funcs ii
      pure (s.1 + numParams f, if numParams f > s.2 then numParams f else s.2))
    (I := fun i (s : Nat × Nat) => s.1 = ((Q.funcs.take i).map numParams).sum ∧
      (∀ f ∈ Q.funcs.take i, numParams f ≤ s.2) ∧ (s.2 = 0 ∨ ∃ f ∈ Q.funcs, numParams f = s.2))
    ⟨by simp, by simp, Or.inl rfl⟩ (by
      rintro i hi ⟨a, b⟩ ⟨e1, e2, e3⟩
      have hi' : i < Q.funcs.length := by omega
      refine ⟨_, by rw [rd_ok hi', bind_ok]; rfl, ?_, ?_, ?_⟩
      · rw [numsum_succ hi', ← e1]
      · intro f hf
        rw [take_succ_getElem hi', List.mem_append] at hf
        rcases hf with hf | hf
        · have := e2 f hf
          simp only at this ⊢
          split <;> omega
        · simp only [List.mem_singleton] at hf
          subst hf
          simp only
          split <;> omega
      · simp only
        split
        · exact Or.inr ⟨_, List.getElem_mem hi', rfl⟩
        · exact e3)
  rw [← hl, List.take_length] at h2 h3
  refine ⟨s.2, ?_, h3, h4⟩
  rw [qnum_take h, ← h2]
  exact h1

/-- Reading. -/
theorem qmaGetParams_ok {Q : Qma (PFun K)} (h : QW Q) {param : List K} {off : Nat} (hp : off + qnum Q ≤ param.length) :
    qmaGetParams Q param off = .ok (qnum Q, param.take off ++ qparams Q ++ param.drop (off + qnum Q)) := by
  have hl : Q.funcs.length = Q.nrows * Q.ncols := h.1
  obtain ⟨s, h1, h2, h3⟩ := forN_spec (n := Q.nrows * Q.ncols) (s := ((0, param) : Nat × List K))
    (body := fun ii s => do
      let f ← rd Q.funcs ii
      let r ← getParams f s.2 (off + s.1)
      pure (s.1 + r.1, r.2))
    (I := fun i (s : Nat × List K) => s.1 = ((Q.funcs.take i).map numParams).sum ∧
      s.2 = param.take off ++ (Q.funcs.take i).flatMap params ++ param.drop (off + s.1))
    ⟨by simp, by simp⟩ (by
      rintro i hi ⟨a, b⟩ ⟨e1, e2⟩
      simp only at e1 e2
      have hi' : i < Q.funcs.length := by omega
      have hw : (Q.funcs[i]).WF := h.2 _ (List.getElem_mem hi')
      have hlt : ((Q.funcs.take i).flatMap params).length = a := by
        rw [flatMap_params_length (fun f hf => h.2 f (List.mem_of_mem_take hf)), e1]
      have hle := numsum_le hi'
      rw [← e1, ← qnum_take h] at hle
      have hA : (param.take off ++ (Q.funcs.take i).flatMap params).length = off + a := by
        rw [List.length_append, hlt, List.length_take]; omega
      have hb : b.length = param.length := by
        rw [e2, List.length_append, hA, List.length_drop]; omega
      refine ⟨(a + numParams Q.funcs[i], param.take off ++ (Q.funcs.take (i + 1)).flatMap params
          ++ param.drop (off + (a + numParams Q.funcs[i]))), ?_, ?_, rfl⟩
      · rw [rd_ok hi', bind_ok, getParams_ok hw (by simp only; omega), bind_ok, pure_eq_ok]
        simp only [Except.ok.injEq, Prod.mk.injEq, true_and]
        rw [e2, List.take_append_of_le_length (by omega), List.take_of_length_le (by omega), List.drop_append, hA,
          List.drop_of_length_le (by omega), List.nil_append, List.drop_drop, take_succ_getElem hi', List.flatMap_append]
        simp only [List.flatMap_cons, List.flatMap_nil, List.append_nil, List.append_assoc]
        congr 4
        omega
      · simp only
        rw [numsum_succ hi', ← e1])
  rw [← hl, List.take_length] at h2 h3
  rw [← qnum_take h] at h2
  rw [h2] at h3
  show forN _ _ _ = _
  rw [h1, show s = (s.1, s.2) from rfl, h2, h3]; rfl

/-- Updating with finite values. -/
theorem qmaUpdate_ok {bad : K → Bool} {Q : Qma (PFun K)} (h : QW Q) {param : List K} {off : Nat}
    (hp : off + qnum Q ≤ param.length) (hb : ∀ v ∈ (param.drop off).take (qnum Q), bad v = false) (n : Nat) :
    if n = qnum Q then
      ∃ Q', qmaUpdate bad Q n param off = .ok Q' ∧ QW Q' ∧ qerase Q' = qerase Q ∧
        qparams Q' = (param.drop off).take (qnum Q)
    else qmaUpdate bad Q n param off = .error .exit := by
  have hl : Q.funcs.length = Q.nrows * Q.ncols := h.1
  obtain ⟨s, h1, h2, h3, h4, h5, h6⟩ := forN_spec (n := Q.nrows * Q.ncols) (s := ((Q.funcs, 0) : List (PFun K) × Nat))
    (body := fun ii s => do
      let f ← rd s.1 ii
      let g ← updateParams bad f (numParams f) param (off + s.2)
      let fs ← wr s.1 ii g
      pure (fs, s.2 + numParams f))
    (I := fun i (s : List (PFun K) × Nat) => s.2 = ((Q.funcs.take i).map numParams).sum ∧ s.1.map erase = Q.funcs.map erase ∧
      (∀ f ∈ s.1, f.WF) ∧ s.1.drop i = Q.funcs.drop i ∧ (s.1.take i).flatMap params = (param.drop off).take s.2)
    ⟨by simp, rfl, h.2, rfl, by simp⟩ (by
      rintro i hi ⟨fs, a⟩ ⟨e1, e2, e3, e4, e5⟩
      simp only at e1 e2 e3 e4 e5
      have hfl : fs.length = Q.funcs.length := by
        have := congrArg List.length e2; simpa using this
      have hi' : i < Q.funcs.length := by omega
      have hw : (Q.funcs[i]).WF := h.2 _ (List.getElem_mem hi')
      have hle := numsum_le hi'
      rw [← e1, ← qnum_take h] at hle
      have hsub : (param.drop (off + a)).take (numParams Q.funcs[i]) = ((((param.drop off).take (qnum Q)).drop a).take (numParams Q.funcs[i])) := by
        rw [List.drop_take, List.take_take, List.drop_drop, Nat.min_eq_left (by omega)]
      obtain ⟨g, u1, u2, u3, u4⟩ := updateParams_ok (bad := bad) hw (param := param) (off := off + a) (by omega) (by
        intro v hv
        rw [hsub] at hv
        exact hb v (List.mem_of_mem_drop (List.mem_of_mem_take hv)))
      obtain ⟨t1, t2, t3⟩ := set_take_drop (l := fs) (l0 := Q.funcs) (i := i) (by omega) e4 g
      have hfi : fs[i]? = some Q.funcs[i] := by rw [t3, List.getElem?_eq_getElem hi']
      refine ⟨(fs.set i g, a + numParams Q.funcs[i]), ?_, ?_, ?_, ?_, t2, ?_⟩
      · rw [rd_of_getElem? hfi, bind_ok, u1, bind_ok, wr_ok _ (by simp only; omega), bind_ok]; rfl
      · simp only; rw [numsum_succ hi', ← e1]
      · simp only
        rw [List.map_set, u3]
        apply List.ext_getElem?
        intro j
        by_cases hji : i = j
        · subst hji
          rw [List.getElem?_set_self (by simp; omega), List.getElem?_map, List.getElem?_eq_getElem hi']; rfl
        · rw [List.getElem?_set_ne hji, e2]
      · intro f hf
        rcases List.mem_or_eq_of_mem_set hf with hf | rfl
        · exact e3 f hf
        · exact u2
      · simp only
        rw [t1, List.flatMap_append, e5, List.take_add]
        simp only [List.flatMap_cons, List.flatMap_nil, List.append_nil, u4, List.drop_drop])
  rw [← hl, List.take_length, ← qnum_take h] at h2
  have hsl : s.1.length = Q.funcs.length := by
    have := congrArg List.length h3; simpa using this
  have hfull : s.1.take (Q.nrows * Q.ncols) = s.1 := List.take_of_length_le (by omega)
  rw [hfull] at h6
  have hrun : qmaUpdate bad Q n param off = (if s.2 ≠ n then .error .exit else pure { Q with funcs := s.1 }) := by
    rw [qmaUpdate, h1, bind_ok]
  rw [hrun, h2]
  by_cases hn : n = qnum Q
  · rw [if_pos hn, if_neg (by omega)]
    refine ⟨{ Q with funcs := s.1 }, rfl, ⟨?_, h4⟩, ?_, ?_⟩
    · show s.1.length = _
      rw [hsl, hl]
    · simp only [qerase, h3]
    · show s.1.flatMap params = _
      rw [h6, h2]
  · rw [if_neg hn, if_pos (fun e => hn e.symm)]

theorem qnum_of_erase {Q Q' : Qma (PFun K)} (h : QW Q) (h' : QW Q') (he : qerase Q' = qerase Q) : qnum Q' = qnum Q := by
  rw [qnum_take h, qnum_take h', map_numParams_of_erase (by simpa [qerase] using congrArg Qma.funcs he)]

theorem qma_eq_of {Q Q' : Qma (PFun K)} (h : QW Q) (h' : QW Q') (he : qerase Q' = qerase Q) (hp : qparams Q' = qparams Q) :
    Q' = Q := by
  have e1 : Q'.nrows = Q.nrows := by simpa [qerase] using congrArg Qma.nrows he
  have e2 : Q'.ncols = Q.ncols := by simpa [qerase] using congrArg Qma.ncols he
  have e3 : Q'.funcs.map erase = Q.funcs.map erase := by simpa [qerase] using congrArg Qma.funcs he
  have key : ∀ {l l' : List (PFun K)}, (∀ f ∈ l, f.WF) → (∀ f ∈ l', f.WF) → l'.map erase = l.map erase →
      l'.flatMap params = l.flatMap params → l' = l := by
    intro l
    induction l with
    | nil => intro l' _ _ h1 _; simpa using h1
    | cons f l ih =>
      intro l' w w' h1 h2
      cases l' with
      | nil => simp at h1
      | cons g l' =>
        simp only [List.map_cons, List.cons.injEq] at h1
        rw [List.flatMap_cons, List.flatMap_cons] at h2
        obtain ⟨p1, p2⟩ := List.append_inj h2 (by
          rw [params_length (w' g (by simp)), params_length (w f (by simp)), erase_numParams h1.1])
        rw [eq_of_erase_params (w' g (by simp)) (w f (by simp)) h1.1 p1,
          ih (fun x hx => w x (by simp [hx])) (fun x hx => w' x (by simp [hx])) h1.2 p2]
  have e4 := key h.2 h'.2 e3 hp
  cases Q; cases Q'; simp_all

/-! ### C26 -/

/-- Single functions: the right number of finite values is stored, the wrong number is rejected. -/
theorem uni_update {bad : K → Bool} {Q : Qma (PFun K)} (h : QW Q) {row col : Nat} (hr : row < Q.nrows) (hc : col < Q.ncols)
    {n : Nat} {param : List K} (hp : n ≤ param.length) (hb : ∀ v ∈ param.take n, bad v = false) :
    ∃ f, Q.funcs[col * Q.nrows + row]? = some f ∧
      (if numParams f = n then ∃ g, qmaUniUpdate bad Q row col n param
          = .ok { Q with funcs := Q.funcs.set (col * Q.nrows + row) g } ∧ erase g = erase f ∧ params g = param.take n
       else qmaUniUpdate bad Q row col n param = .error .exit) := by
  have hidx : col * Q.nrows + row < Q.funcs.length := by
    rw [h.1]; exact cm_idx_lt hr hc
  refine ⟨_, List.getElem?_eq_getElem hidx, ?_⟩
  split
  · rename_i e
    subst e
    obtain ⟨g, u1, -, u3, u4⟩ := updateParams_ok (bad := bad) (h.2 _ (List.getElem_mem hidx)) (param := param) (off := 0)
      (by omega) (by simpa using hb)
    refine ⟨g, ?_, u3, by simpa using u4⟩
    rw [qmaUniUpdate, rd_ok hidx, bind_ok, if_neg (by simp), u1, bind_ok, wr_ok _ hidx, bind_ok]; rfl
  · rename_i e
    rw [qmaUniUpdate, rd_ok hidx, bind_ok, if_pos e]

/-- Number of parameters. -/
theorem nparams_length {ft : FT K (PFun K)} (h : FW ft) : ftNparams ft = .ok (ftparams ft).length := by
  obtain ⟨s, h1, h2⟩ := forN_spec (n := ft.dim) (s := (0 : Nat))
    (body := fun ii tot => do
      let Q ← rd ft.cores ii
      let r ← qmaNparams Q
      pure (tot + r.1))
    (I := fun i (s : Nat) => s = ((ft.cores.take i).flatMap qparams).length) (by simp) (by
      rintro i hi a e1
      have hi' : i < ft.cores.length := by rw [← h.1]; exact hi
      obtain ⟨m, q1, -⟩ := qmaNparams_ok (h.2 _ (List.getElem_mem hi'))
      refine ⟨a + qnum ft.cores[i], ?_, ?_⟩
      · show (do
          let Q ← rd ft.cores i
          let r ← qmaNparams Q
          pure (a + r.1)) = _
        rw [rd_ok hi', bind_ok, q1, bind_ok]; rfl
      · rw [take_succ_getElem hi', e1, List.flatMap_append, List.length_append, List.flatMap_cons, List.flatMap_nil, List.append_nil])
  rw [h.1, List.take_length] at h2
  show forN _ _ _ = _
  rw [h1, h2]; rfl

/-- Reading writes exactly the parameters, in the fixed layout, into the caller's array and nothing else. -/
theorem get_params_layout {ft : FT K (PFun K)} (h : FW ft) {buf : List K} (hb : (ftparams ft).length ≤ buf.length) :
    ftGetParams ft buf = .ok ((ftparams ft).length, ftparams ft ++ buf.drop (ftparams ft).length) := by
  obtain ⟨s, h1, h2, h3⟩ := forN_spec (n := ft.dim) (s := ((0, buf) : Nat × List K))
    (body := fun ii s => do
      let Q ← rd ft.cores ii
      let r ← qmaGetParams Q s.2 s.1
      pure (s.1 + r.1, r.2))
    (I := fun i (s : Nat × List K) => s.1 = ((ft.cores.take i).flatMap qparams).length ∧
      s.2 = (ft.cores.take i).flatMap qparams ++ buf.drop s.1) (by simp) (by
      rintro i hi ⟨a, b⟩ ⟨e1, e2⟩
      simp only at e1 e2
      have hi' : i < ft.cores.length := by rw [← h.1]; exact hi
      have hle : a + qnum ft.cores[i] ≤ (ftparams ft).length := by
        have : ftparams ft = (ft.cores.take (i + 1)).flatMap qparams ++ (ft.cores.drop (i + 1)).flatMap qparams := by
          rw [← List.flatMap_append, List.take_append_drop]; rfl
        rw [this, take_succ_getElem hi', e1, List.length_append, List.flatMap_append, List.length_append, List.flatMap_cons,
          List.flatMap_nil, List.append_nil]
        exact Nat.le_add_right _ _
      have hbl : b.length = buf.length := by rw [e2, List.length_append, ← e1, List.length_drop]; omega
      refine ⟨(a + qnum ft.cores[i], (ft.cores.take (i + 1)).flatMap qparams ++ buf.drop (a + qnum ft.cores[i])), ?_, ?_, rfl⟩
      · show (do
          let Q ← rd ft.cores i
          let r ← qmaGetParams Q b a
          pure (a + r.1, r.2)) = _
        rw [rd_ok hi', bind_ok, qmaGetParams_ok (h.2 _ (List.getElem_mem hi')) (by omega), bind_ok, pure_eq_ok]
        simp only [Except.ok.injEq, Prod.mk.injEq, true_and]
        rw [e2, List.take_append_of_le_length (by omega), List.take_of_length_le (by omega), List.drop_append, ← e1,
          List.drop_of_length_le (by omega), List.nil_append, List.drop_drop, take_succ_getElem hi', List.flatMap_append]
        simp only [List.flatMap_cons, List.flatMap_nil, List.append_nil, List.append_assoc]
        congr 3
        omega
      · rw [take_succ_getElem hi', e1, List.flatMap_append, List.length_append, List.flatMap_cons, List.flatMap_nil, List.append_nil])
  rw [h.1, List.take_length] at h2 h3
  show forN _ _ _ = _
  rw [h1, show s = (s.1, s.2) from rfl, h3, h2]; rfl

/-- Updating with a vector of finite values makes that vector the parameters and changes nothing else. -/
theorem update_params_layout {bad : K → Bool} {ft : FT K (PFun K)} (h : FW ft) {p : List K}
    (hp : (ftparams ft).length ≤ p.length) (hb : ∀ v ∈ p.take (ftparams ft).length, bad v = false) :
    ∃ ft', ftUpdate bad ft p = .ok ((ftparams ft).length, ft') ∧ FW ft' ∧ fterase ft' = fterase ft ∧
      ftparams ft' = p.take (ftparams ft).length := by
  obtain ⟨s, h1, h2, h3, h4, h5, h6⟩ := forN_spec (n := ft.dim) (s := ((ft.cores, 0) : List (Qma (PFun K)) × Nat))
    (body := fun ii s => do
      let Q ← rd s.1 ii
      let r ← qmaNparams Q
      let Q' ← qmaUpdate bad Q r.1 p s.2
      let cs ← wr s.1 ii Q'
      pure (cs, s.2 + r.1))
    (I := fun i (s : List (Qma (PFun K)) × Nat) => s.2 = ((ft.cores.take i).flatMap qparams).length ∧
      s.1.map qerase = ft.cores.map qerase ∧ (∀ Q ∈ s.1, QW Q) ∧ s.1.drop i = ft.cores.drop i ∧
      (s.1.take i).flatMap qparams = p.take s.2)
    ⟨by simp, rfl, h.2, rfl, by simp⟩ (by
      rintro i hi ⟨cs, a⟩ ⟨e1, e2, e3, e4, e5⟩
      simp only at e1 e2 e3 e4 e5
      have hcl : cs.length = ft.cores.length := by
        have := congrArg List.length e2; simpa using this
      have hi' : i < ft.cores.length := by rw [← h.1]; exact hi
      have hw : QW (ft.cores[i]) := h.2 _ (List.getElem_mem hi')
      have hle : a + qnum ft.cores[i] ≤ (ftparams ft).length := by
        have : ftparams ft = (ft.cores.take (i + 1)).flatMap qparams ++ (ft.cores.drop (i + 1)).flatMap qparams := by
          rw [← List.flatMap_append, List.take_append_drop]; rfl
        rw [this, take_succ_getElem hi', e1, List.length_append, List.flatMap_append, List.length_append, List.flatMap_cons,
          List.flatMap_nil, List.append_nil]
        exact Nat.le_add_right _ _
      have hsub : (p.drop a).take (qnum ft.cores[i]) = ((p.take (ftparams ft).length).drop a).take (qnum ft.cores[i]) := by
        rw [List.drop_take, List.take_take, Nat.min_eq_left (by omega)]
      obtain ⟨m, q1, -⟩ := qmaNparams_ok hw
      have hu := qmaUpdate_ok (bad := bad) hw (param := p) (off := a) (by omega) (by
        intro v hv
        rw [hsub] at hv
        exact hb v (List.mem_of_mem_drop (List.mem_of_mem_take hv))) (qnum ft.cores[i])
      rw [if_pos rfl] at hu
      obtain ⟨Q', u1, u2, u3, u4⟩ := hu
      obtain ⟨t1, t2, t3⟩ := set_take_drop (l := cs) (l0 := ft.cores) (i := i) (by omega) e4 Q'
      have hci : cs[i]? = some ft.cores[i] := by rw [t3, List.getElem?_eq_getElem hi']
      refine ⟨(cs.set i Q', a + qnum ft.cores[i]), ?_, ?_, ?_, ?_, t2, ?_⟩
      · show (do
          let Q ← rd cs i
          let r ← qmaNparams Q
          let Q' ← qmaUpdate bad Q r.1 p a
          let cs ← wr cs i Q'
          pure (cs, a + r.1)) = _
        rw [rd_of_getElem? hci, bind_ok, q1, bind_ok, u1, bind_ok, wr_ok _ (by omega), bind_ok]; rfl
      · rw [take_succ_getElem hi', e1, List.flatMap_append, List.length_append, List.flatMap_cons, List.flatMap_nil, List.append_nil]
      · simp only
        rw [List.map_set, u3]
        apply List.ext_getElem?
        intro j
        by_cases hji : i = j
        · subst hji
          rw [List.getElem?_set_self (by simp; omega), List.getElem?_map, List.getElem?_eq_getElem hi']; rfl
        · rw [List.getElem?_set_ne hji, e2]
      · intro Q hQ
        rcases List.mem_or_eq_of_mem_set hQ with hQ | rfl
        · exact e3 Q hQ
        · exact u2
      · simp only
        rw [t1, List.flatMap_append, e5, List.take_add]
        simp only [List.flatMap_cons, List.flatMap_nil, List.append_nil, u4])
  have hsl : s.1.length = ft.cores.length := by
    have := congrArg List.length h3; simpa using this
  rw [h.1, List.take_length] at h2
  have hfull : s.1.take ft.dim = s.1 := List.take_of_length_le (by rw [h.1]; omega)
  rw [hfull, h2] at h6
  refine ⟨{ ft with cores := s.1 }, ?_, ⟨by rw [h.1]; exact hsl.symm, h4⟩, by simp only [fterase, h3], h6⟩
  rw [ftUpdate, h1, bind_ok, h2]; rfl

/-- C26: updating with a vector and reading back returns the vector. -/
theorem update_then_get {bad : K → Bool} {ft : FT K (PFun K)} (h : FW ft) {p buf : List K}
    (hp : p.length = (ftparams ft).length) (hb : ∀ v ∈ p, bad v = false) (hbuf : buf.length = p.length) :
    ∃ ft', ftUpdate bad ft p = .ok (p.length, ft') ∧ ftGetParams ft' buf = .ok (p.length, p) := by
  obtain ⟨ft', u1, u2, u3, u4⟩ := update_params_layout (bad := bad) h (p := p) (by omega)
    (fun v hv => hb v (List.mem_of_mem_take hv))
  rw [← hp, List.take_length] at u4
  refine ⟨ft', by rw [u1, hp], ?_⟩
  rw [get_params_layout u2 (by rw [u4]; omega), u4, List.drop_of_length_le (by omega), List.append_nil]

/-- C26: updating with the vector just read changes nothing. -/
theorem get_then_update {bad : K → Bool} {ft : FT K (PFun K)} (h : FW ft) {buf : List K}
    (hbuf : (ftparams ft).length = buf.length) (hb : ∀ v ∈ ftparams ft, bad v = false) :
    ∃ n p, ftGetParams ft buf = .ok (n, p) ∧ ftUpdate bad ft p = .ok (n, ft) := by
  refine ⟨(ftparams ft).length, ftparams ft, ?_, ?_⟩
  · rw [get_params_layout h (by omega), List.drop_of_length_le (by omega), List.append_nil]
  · obtain ⟨ft', u1, u2, u3, u4⟩ := update_params_layout (bad := bad) h (p := ftparams ft) (Nat.le_refl _)
      (fun v hv => hb v (List.mem_of_mem_take hv))
    rw [List.take_length] at u4
    rw [u1]
    congr 2
    have hc : ft'.cores.map qerase = ft.cores.map qerase := by simpa [fterase] using congrArg FT.cores u3
    have key : ∀ {l l' : List (Qma (PFun K))}, (∀ Q ∈ l, QW Q) → (∀ Q ∈ l', QW Q) → l'.map qerase = l.map qerase →
        l'.flatMap qparams = l.flatMap qparams → l' = l := by
      intro l
      induction l with
      | nil => intro l' _ _ h1 _; simpa using h1
      | cons Q l ih =>
        intro l' w w' h1 h2
        cases l' with
        | nil => simp at h1
        | cons Q' l' =>
          simp only [List.map_cons, List.cons.injEq] at h1
          rw [List.flatMap_cons, List.flatMap_cons] at h2
          obtain ⟨p1, p2⟩ := List.append_inj h2 (qnum_of_erase (w Q (by simp)) (w' Q' (by simp)) h1.1)
          rw [qma_eq_of (w Q (by simp)) (w' Q' (by simp)) h1.1 p1,
            ih (fun x hx => w x (by simp [hx])) (fun x hx => w' x (by simp [hx])) h1.2 p2]
    have := key h.2 u2.2 hc u4
    have e1 := congrArg FT.dim u3
    have e2 := congrArg FT.ranks u3
    have e3 := congrArg FT.sp1 u3
    have e4 := congrArg FT.sp2 u3
    have e5 := congrArg FT.sp3 u3
    cases ft; cases ft'; simp_all [fterase]

/-- C26: a core updated with the wrong number of parameters is rejected (the memory holding enough finite values), with
the right number the core gets them. -/
theorem core_update {bad : K → Bool} {ft : FT K (PFun K)} (h : FW ft) {core : Nat} (hc : core < ft.cores.length) {n : Nat}
    {p : List K} (hp : qnum ft.cores[core] ≤ p.length) (hb : ∀ v ∈ p.take (qnum ft.cores[core]), bad v = false) :
    if n = qnum ft.cores[core] then ∃ Q', ftCoreUpdate bad ft core n p = .ok { ft with cores := ft.cores.set core Q' } ∧
        qerase Q' = qerase ft.cores[core] ∧ qparams Q' = p.take n
    else ftCoreUpdate bad ft core n p = .error .exit := by
  have hu := qmaUpdate_ok (bad := bad) (h.2 _ (List.getElem_mem hc)) (param := p) (off := 0) (by omega) (by simpa using hb) n
  split
  · rename_i e
    rw [if_pos e] at hu
    obtain ⟨Q', u1, -, u3, u4⟩ := hu
    refine ⟨Q', ?_, u3, by rw [u4, e]; simp⟩
    rw [ftCoreUpdate, rd_ok hc, bind_ok, u1, bind_ok, wr_ok _ hc, bind_ok]; rfl
  · rename_i e
    rw [if_neg e] at hu
    rw [ftCoreUpdate, rd_ok hc, bind_ok, hu]; rfl

/-- Non-trivial instance: two cores with functions of four classes. -/
def exParFt : FT ℚ (PFun ℚ) :=
  ⟨2, [1, 2, 1],
    [⟨1, 2, [.poly 2 3 [1, 2, 9], .elem true 2 [0, 1] [3, 4]]⟩,
     ⟨2, 1, [.kern 1 [5] [(1, 1, 6)] true, .pw]⟩], none, none, none⟩

example : FW exParFt := by
  refine ⟨rfl, ?_⟩
  intro Q hQ
  simp only [exParFt, List.mem_cons, List.not_mem_nil, or_false] at hQ
  rcases hQ with rfl | rfl <;> refine ⟨rfl, ?_⟩ <;> intro f hf <;>
    simp only [List.mem_cons, List.not_mem_nil, or_false] at hf <;> rcases hf with rfl | rfl <;>
    simp [PFun.WF]
example : ftparams exParFt = [1, 2, 3, 4, 5, 6] := by rfl
example : ftGetParams exParFt [0, 0, 0, 0, 0, 0] = .ok (6, [1, 2, 3, 4, 5, 6]) := by rfl

/-! ### Updates that change the number of parameters -/

/-- **C26** A polynomial accepts any number of parameters: afterwards it has exactly these, and when their number did not
grow the coefficients it no longer uses are zero. -/
theorem poly_resize {bad : K → Bool} {m a : Nat} {c : List K} (hw : (PFun.poly m a c).WF) {n : Nat} {param : List K} {off : Nat}
    (hl : off + n ≤ param.length) (hok : ∀ i < n, bad (param.getD (off + i) 0) = false) :
    ∃ a' c', updateParams bad (.poly m a c) n param off = .ok (.poly n a' c') ∧ (PFun.poly n a' c').WF ∧
      params (.poly n a' c') = (param.drop off).take n ∧ (∀ i, n ≤ i → i < m → c'[i]? = some 0) ∧
      ∀ i, n ≤ i → m ≤ i → i < a' → c'[i]? = c[i]? := by
  simp only [PFun.WF] at hw
  have hs : scanBad bad n param off = .ok () := by
    obtain ⟨s, h1, _⟩ := forN_spec (n := n) (s := ()) (body := fun ii _ => do
        let v ← rd param (off + ii)
        if bad v then .error .exit else pure ()) (I := fun _ _ => True) trivial (by
          intro i hi s _
          refine ⟨(), ?_, trivial⟩
          rw [rd_getD 0 (by omega), bind_ok, hok i hi]; rfl)
    rw [scanBad, h1]
  have ht : ((param.drop off).take n).length = n := by simp; omega
  by_cases h1 : n ≤ m
  · have hmv : movTo n param off c 0 = .ok ((param.drop off).take n ++ c.drop n) := by
      rw [movTo_ok hl (by omega)]; simp
    obtain ⟨s, e1, e2, e3, e4⟩ := forR_spec (a := n) (b := m) (s := (param.drop off).take n ++ c.drop n)
      (body := fun ii c => wr c ii 0)
      (I := fun k s => s.length = a ∧ (∀ i, n ≤ i → i < k → s[i]? = some (0 : K)) ∧
        ∀ i, (i < n ∨ k ≤ i) → s[i]? = ((param.drop off).take n ++ c.drop n)[i]?)
      h1 ⟨by rw [List.length_append, ht, List.length_drop]; omega, fun i _ _ => by omega, fun _ _ => rfl⟩ (by
        rintro k hk1 hk2 s ⟨p1, p2, p3⟩
        refine ⟨_, wr_ok _ (by omega), by simpa using p1, ?_, ?_⟩
        · intro i hi1 hi2
          by_cases e : k = i
          · subst e; rw [List.getElem?_set_self (by omega)]
          · rw [List.getElem?_set_ne e]; exact p2 i hi1 (by omega)
        · intro i hi
          rw [List.getElem?_set_ne (by omega)]; exact p3 i (by omega))
    refine ⟨a, s, ?_, ⟨by omega, e2⟩, ?_, e3, ?_⟩
    · rw [updateParams, hs, bind_ok, updateCls, polyUpdate, if_pos h1, hmv, bind_ok, e1, bind_ok, pure_eq_ok]
    · show s.take n = _
      apply List.ext_getElem?
      intro i
      by_cases hi : i < n
      · rw [List.getElem?_take, if_pos hi, e4 i (.inl hi), List.getElem?_append_left (by omega)]
      · rw [List.getElem?_eq_none (by simp; omega), List.getElem?_eq_none (by omega)]
    · intro i hi1 hi2 hi3
      rw [e4 i (.inr hi2), List.getElem?_append_right (by omega), ht, List.getElem?_drop]
      congr 1; omega
  · by_cases h2 : n ≤ a
    · refine ⟨a, (param.drop off).take n ++ c.drop n, ?_, ⟨h2, by
        rw [List.length_append, ht, List.length_drop]; omega⟩, ?_, fun i _ _ => by omega, ?_⟩
      · rw [updateParams, hs, bind_ok, updateCls, polyUpdate, if_neg h1, if_pos h2, movTo_ok hl (by omega), bind_ok, pure_eq_ok]
        simp
      · show List.take n _ = _
        rw [List.take_append_of_le_length (by omega), List.take_of_length_le (by omega)]
      · intro i hi1 hi2 hi3
        rw [List.getElem?_append_right (by omega), ht, List.getElem?_drop]
        congr 1; omega
    · refine ⟨n, (param.drop off).take n, ?_, ⟨le_rfl, ht⟩, ?_, fun i _ _ => by omega, fun i _ _ _ => by omega⟩
      · rw [updateParams, hs, bind_ok, updateCls, polyUpdate, if_neg h1, if_neg h2, movTo_ok hl (by simp), bind_ok, pure_eq_ok]
        simp
      · show List.take n _ = _
        rw [List.take_of_length_le (by omega)]

/-- **C26** Linear and constant elements, and kernel expansions with fixed centres, refuse a wrong number of parameters. -/
theorem fixed_refuse {bad : K → Bool} {n : Nat} {param : List K} {off : Nat} (hl : off + n ≤ param.length)
    (hok : ∀ i < n, bad (param.getD (off + i) 0) = false) :
    (∀ l m x c, n ≠ m → updateParams bad (.elem l m x c) n param off = .error .assertFail) ∧
    ∀ m c ks, n ≠ m → updateParams bad (.kern m c ks false) n param off = .error .assertFail := by
  have hs : scanBad bad n param off = .ok () := by
    obtain ⟨s, h1, _⟩ := forN_spec (n := n) (s := ()) (body := fun ii _ => do
        let v ← rd param (off + ii)
        if bad v then .error .exit else pure ()) (I := fun _ _ => True) trivial (by
          intro i hi s _
          refine ⟨(), ?_, trivial⟩
          rw [rd_getD 0 (by omega), bind_ok, hok i hi]; rfl)
    rw [scanBad, h1]
  constructor
  · intro l m x c h
    rw [updateParams, hs, bind_ok, updateCls, elemUpdate, decide_eq_false (fun e => h e.symm), cassert_false, bind_error]
  · intro m c ks h
    rw [updateParams, hs, bind_ok, updateCls, kernUpdate, if_pos rfl, decide_eq_false (fun e => h e.symm), cassert_false,
      bind_error]

example := poly_resize (K := ℚ) (bad := fun _ => false) (m := 2) (a := 3) (c := [1, 2, 3]) ⟨by decide, rfl⟩ (n := 1)
  (param := [7, 8]) (off := 1) (by decide) (fun _ _ => rfl)
example := fixed_refuse (K := ℚ) (bad := fun _ => false) (n := 1) (param := [7, 8]) (off := 1) (by decide) (fun _ _ => rfl)

end C3.Ft
