/-
C103: search of the best regression settings by cross validation.
-/
import Verif.Sl.GridModel
import Verif.Core.Buf
import Mathlib.Algebra.Order.Field.Basic
import Mathlib.Tactic.Linarith
import Mathlib.Tactic.NormNum
import Mathlib.Data.List.Forall2

set_option linter.unusedSectionVars false

namespace C3.Sl

variable {K : Type}

/-! ### The cases are the cartesian product -/

/-- Specification: all combinations of one value per parameter, the last parameter changing
fastest. -/
def prodCases : List (String × List (Val K)) → List (Case K)
  | [] => [[]]
  | p :: t => p.2.flatMap (fun v => (prodCases t).map (fun c => (p.1, v) :: c))

theorem mem_prodCases (l : List (String × List (Val K))) (c : Case K) :
    c ∈ prodCases l ↔ List.Forall₂ (fun p q => q.1 = p.1 ∧ q.2 ∈ p.2) l c := by
  induction l generalizing c with
  | nil => simp [prodCases]
  | cons p t ih =>
    rw [prodCases, List.mem_flatMap]
    constructor
    · rintro ⟨v, hv, hc⟩
      obtain ⟨c', hc', rfl⟩ := List.mem_map.1 hc
      exact List.Forall₂.cons ⟨rfl, hv⟩ ((ih c').1 hc')
    · intro h
      cases h with
      | cons h1 h2 =>
        rename_i q c'
        refine ⟨q.2, h1.2, List.mem_map.2 ⟨c', (ih c').2 h2, ?_⟩⟩
        rw [← h1.1]

theorem length_prodCases (l : List (String × List (Val K))) :
    (prodCases l).length = (l.map (fun p => p.2.length)).prod := by
  induction l with
  | nil => rfl
  | cons p t ih =>
    rw [prodCases, List.length_flatMap]
    simp [ih]

theorem forN_push {α : Type} {n : Nat} {body : Nat → List α → C (List α)} (f : Nat → List α)
    (h : ∀ i, i < n → ∀ l, body i l = .ok ((f i).reverse ++ l)) (l : List α) :
    forN n body l = .ok (((List.range n).flatMap f).reverse ++ l) := by
  have := forN_traj (n := n) (fun m => ((List.range m).flatMap f).reverse ++ l) (body := body) (by
    intro i hi
    rw [h i hi, List.range_succ, List.flatMap_append, List.reverse_append]
    simp)
  simpa using this

theorem flatMap_range {α β : Type} (l : List α) (f : α → List β) (g : Nat → List β)
    (h : ∀ i (hi : i < l.length), g i = f l[i]) :
    (List.range l.length).flatMap g = l.flatMap f := by
  induction l generalizing g with
  | nil => rfl
  | cons a t ih =>
    rw [List.length_cons, List.range_succ_eq_map, List.flatMap_cons, List.flatMap_cons,
      h 0 (by simp), List.flatMap_map]
    congr 1
    exact ih (fun i => g (i + 1)) (fun i hi => h (i + 1) (by simpa using hi))

/-- The name is in the table. -/
def Known (name : String) : Prop := ∃ i, regInd name = some i

theorem caseAdd_ok {n : Nat} {c : Case K} {name : String} (h : Known name) (hc : c.length ≠ n)
    (v : Val K) : caseAdd n c name v = .ok (c ++ [(name, v)]) := by
  obtain ⟨i, hi⟩ := h
  rw [caseAdd, if_neg hc, hi]

/-- The list of cases holds every combination exactly once (in reverse order), for up to three known
parameters. -/
theorem setupCases_ok (g : Grid K) (hk : ∀ p ∈ g.pars, Known p.1) (h1 : 1 ≤ g.pars.length)
    (h3 : g.pars.length ≤ 3) : setupCases g = .ok (prodCases g.pars).reverse := by
  obtain ⟨cap, pars⟩ := g
  match pars, h1, h3, hk with
  | [(a, va)], _, _, hk =>
    have ha : Known a := hk (a, va) (by simp)
    rw [setupCases, if_pos (by simp)]
    simp only [gridN, rd, List.getElem?_cons_zero, bind_ok]
    rw [forN_push (fun ii => match va[ii]? with | some v => [[(a, v)]] | none => []) (by
      intro ii hi l
      rw [pushCase, forN_succ, forN_zero]
      simp only [gridVal, rd, List.getElem?_cons_zero, List.getElem?_eq_getElem hi, bind_ok]
      rw [ebind_ok, caseAdd_ok ha (by simp)]
      rfl)]
    rw [flatMap_range va (fun v => [[(a, v)]]) _ (fun i hi => by simp [hi])]
    simp [prodCases]
  | [(a, va), (b, vb)], _, _, hk =>
    have ha : Known a := hk (a, va) (by simp)
    have hb : Known b := hk (b, vb) (by simp)
    rw [setupCases, if_neg (by simp), if_pos (by simp)]
    simp only [gridN, rd, List.getElem?_cons_zero, List.getElem?_cons_succ, bind_ok]
    rw [forN_push (fun ii => match va[ii]? with
      | some v => vb.flatMap (fun w => [[(a, v), (b, w)]]) | none => []) (by
      intro ii hi l
      rw [forN_push (fun jj => match vb[jj]? with
        | some w => [[(a, va[ii]), (b, w)]] | none => []) (by
        intro jj hj l
        rw [pushCase, forN_succ, forN_succ, forN_zero]
        simp only [gridVal, rd, List.getElem?_cons_zero, List.getElem?_cons_succ,
          List.getElem?_eq_getElem hi, List.getElem?_eq_getElem hj, bind_ok]
        rw [ebind_ok, caseAdd_ok ha (by simp), ebind_ok, caseAdd_ok hb (by simp)]
        rfl)]
      rw [flatMap_range vb (fun w => [[(a, va[ii]), (b, w)]]) _ (fun i hi => by simp [hi]),
        List.getElem?_eq_getElem hi])]
    rw [flatMap_range va (fun v => vb.flatMap (fun w => [[(a, v), (b, w)]])) _
      (fun i hi => by simp [hi])]
    simp [prodCases, List.map_flatMap]
  | [(a, va), (b, vb), (c, vc)], _, _, hk =>
    have ha : Known a := hk (a, va) (by simp)
    have hb : Known b := hk (b, vb) (by simp)
    have hc : Known c := hk (c, vc) (by simp)
    rw [setupCases, if_neg (by simp), if_neg (by simp), if_pos (by simp)]
    simp only [gridN, rd, List.getElem?_cons_zero, List.getElem?_cons_succ, bind_ok]
    rw [forN_push (fun ii => match va[ii]? with
      | some v => vb.flatMap (fun w => vc.flatMap (fun z => [[(a, v), (b, w), (c, z)]]))
      | none => []) (by
      intro ii hi l
      rw [forN_push (fun jj => match vb[jj]? with
        | some w => vc.flatMap (fun z => [[(a, va[ii]), (b, w), (c, z)]]) | none => []) (by
        intro jj hj l
        rw [forN_push (fun kk => match vc[kk]? with
          | some z => [[(a, va[ii]), (b, vb[jj]), (c, z)]] | none => []) (by
          intro kk hk l
          rw [pushCase, forN_succ, forN_succ, forN_succ, forN_zero]
          simp only [gridVal, rd, List.getElem?_cons_zero, List.getElem?_cons_succ,
            List.getElem?_eq_getElem hi, List.getElem?_eq_getElem hj,
            List.getElem?_eq_getElem hk, bind_ok]
          rw [ebind_ok, caseAdd_ok ha (by simp), ebind_ok, caseAdd_ok hb (by simp), ebind_ok,
            caseAdd_ok hc (by simp)]
          rfl)]
        rw [flatMap_range vc (fun z => [[(a, va[ii]), (b, vb[jj]), (c, z)]]) _
          (fun i hi => by simp [hi]), List.getElem?_eq_getElem hj])]
      rw [flatMap_range vb (fun w => vc.flatMap (fun z => [[(a, va[ii]), (b, w), (c, z)]])) _
        (fun i hi => by simp [hi]), List.getElem?_eq_getElem hi])]
    rw [flatMap_range va
      (fun v => vb.flatMap (fun w => vc.flatMap (fun z => [[(a, v), (b, w), (c, z)]]))) _
      (fun i hi => by simp [hi])]
    simp [prodCases, List.map_flatMap]

/-- With no parameter or four (all that there are) there are no cases. -/
theorem setupCases_four_actual (g : Grid K) (h : g.pars.length = 0 ∨ 4 ≤ g.pars.length) :
    setupCases g = .ok [] := by
  rw [setupCases, if_neg (by omega), if_neg (by omega), if_neg (by omega)]

/-- Adding a parameter that is not in the table reads the table of types at `-1`. -/
theorem gridAdd_unknown_actual (g : Grid K) (name : String) (vals : List (Val K))
    (h : ¬ Known name) : gridAdd g name vals = .error .oob := by
  rw [gridAdd]
  cases hr : regInd name with
  | none => rfl
  | some i => exact absurd ⟨i, hr⟩ h

/-! ### The settings of a case -/

/-- Ranks with all interior ranks equal to `r`. -/
def flatRanks (dim r : Nat) : List Nat :=
  (List.range (dim + 1)).map (fun i => if i = 0 ∨ i = dim then 1 else r)

/-- The settings named in the case are replaced, all others stay. -/
theorem process_ok (c : Case K) (s : Settings K) (hr : s.ranks.length = s.dim + 1)
    (hn : s.npar.length = s.dim) (hd : 0 < s.dim) :
    process c s = .ok ⟨s.dim,
      (lookU "rank" c).elim s.ranks (flatRanks s.dim),
      (lookU "num_param" c).elim s.npar (List.replicate s.dim),
      (lookD "reg_weight" c).getD s.regw, (lookU "opt_maxiter" c).getD s.maxit⟩ := by
  have h1 : setRanks s (lookU "rank" c)
      = .ok ((lookU "rank" c).elim s.ranks (flatRanks s.dim)) := by
    cases lookU "rank" c with
    | none => rfl
    | some r =>
      rw [setRanks, wr_ok _ (by omega), bind_ok, wr_ok _ (by simp; omega), bind_ok]
      obtain ⟨l, hl, l1, l2⟩ := forR_spec (a := 1) (b := s.dim)
        (body := fun ii (l : List Nat) => wr l ii r)
        (s := (s.ranks.set 0 1).set s.dim 1)
        (I := fun n (l : List Nat) => l.length = s.dim + 1 ∧
          ∀ i, l[i]? = if 1 ≤ i ∧ i < n then some r else ((s.ranks.set 0 1).set s.dim 1)[i]?) hd
        ⟨by simpa using hr, fun i => by rw [if_neg (by omega)]⟩ (by
          intro n h1 h2 l ⟨a1, a2⟩
          refine ⟨l.set n r, wr_ok _ (by omega), by simpa using a1, fun i => ?_⟩
          by_cases hi : i = n
          · subst hi
            rw [List.getElem?_set_self (by omega), if_pos ⟨h1, by omega⟩]
          · rw [List.getElem?_set_ne (by omega), a2 i]
            by_cases hc : 1 ≤ i ∧ i < n
            · rw [if_pos hc, if_pos ⟨hc.1, by omega⟩]
            · rw [if_neg hc, if_neg (by omega)])
      rw [hl]
      congr 1
      refine List.ext_getElem? (fun i => ?_)
      rw [l2 i]
      show _ = (flatRanks s.dim r)[i]?
      rw [flatRanks, List.getElem?_map]
      by_cases hi : i < s.dim + 1
      · rw [List.getElem?_range hi, Option.map_some]
        by_cases h0 : i = 0
        · subst h0
          rw [if_neg (by omega), List.getElem?_set_ne (by omega), List.getElem?_set_self (by omega),
            if_pos (.inl rfl)]
        · by_cases h2 : i = s.dim
          · subst h2
            rw [if_neg (by omega), List.getElem?_set_self (by simp; omega), if_pos (.inr rfl)]
          · rw [if_pos (by omega), if_neg (by omega)]
      · rw [if_neg (by omega), List.getElem?_eq_none (by simp; omega),
          List.getElem?_eq_none (by simp; omega)]
        rfl
  have h2 : setNpar s (lookU "num_param" c)
      = .ok ((lookU "num_param" c).elim s.npar (List.replicate s.dim)) := by
    cases lookU "num_param" c with
    | none => rfl
    | some n =>
      rw [setNpar, forN_fill_all (fun _ => n) hn (fun i hi b hb => rfl)]
      congr 1
      simp
  rw [process, h1, bind_ok, h2, bind_ok]

/-- Processing a second case with the same names forgets the first. -/
theorem process_process (c c' : Case K) (s s' t : Settings K) (hr : s.ranks.length = s.dim + 1)
    (hn : s.npar.length = s.dim) (hd : 0 < s.dim) (h : process c' s = .ok s')
    (hU : ∀ name, (lookU name c').isSome → (lookU name c).isSome)
    (hD : ∀ name, (lookD name c').isSome → (lookD name c).isSome) (ht : process c s' = .ok t) :
    process c s = .ok t := by
  rw [process_ok c' s hr hn hd, Except.ok.injEq] at h
  subst h
  have ht' := ht
  rw [process_ok] at ht'
  rotate_left
  · dsimp only
    cases lookU "rank" c' <;> simp [hr, flatRanks]
  · dsimp only
    cases lookU "num_param" c' <;> simp [hn]
  · exact hd
  rw [← ht', process_ok c s hr hn hd]
  have a1 := hU "rank"
  have a2 := hU "num_param"
  have a3 := hU "opt_maxiter"
  have a4 := hD "reg_weight"
  congr 1
  congr 1
  · cases h1 : lookU "rank" c with
    | some r => rfl
    | none => rw [h1] at a1; cases h2 : lookU "rank" c' with
      | none => rfl
      | some r => rw [h2] at a1; exact absurd (a1 rfl) (by simp)
  · cases h1 : lookU "num_param" c with
    | some r => rfl
    | none => rw [h1] at a2; cases h2 : lookU "num_param" c' with
      | none => rfl
      | some r => rw [h2] at a2; exact absurd (a2 rfl) (by simp)
  · cases h1 : lookD "reg_weight" c with
    | some r => rfl
    | none => rw [h1] at a4; cases h2 : lookD "reg_weight" c' with
      | none => rfl
      | some r => rw [h2] at a4; exact absurd (a4 rfl) (by simp)
  · cases h1 : lookU "opt_maxiter" c with
    | some r => rfl
    | none => rw [h1] at a3; cases h2 : lookU "opt_maxiter" c' with
      | none => rfl
      | some r => rw [h2] at a3; exact absurd (a3 rfl) (by simp)

/-! ### The best case -/

variable [Field K] [LinearOrder K] [IsStrictOrderedRing K] {S : Type}

/-- The errors reported for the cases, one after the other, and the final state. -/
def trace (proc : Case K → S → C S) (cv : S → C (K × S)) : List (Case K) → S → C (List K × S)
  | [], s => .ok ([], s)
  | c :: t, s => do
    let s ← proc c s
    let q ← cv s
    let r ← trace proc cv t q.2
    .ok (q.1 :: r.1, r.2)

theorem trace_cons {proc : Case K → S → C S} {cv : S → C (K × S)} {c : Case K} {t : List (Case K)}
    {s s' : S} {errs : List K} (h : trace proc cv (c :: t) s = .ok (errs, s')) :
    ∃ s1 e s2 es, proc c s = .ok s1 ∧ cv s1 = .ok (e, s2) ∧ trace proc cv t s2 = .ok (es, s') ∧
      errs = e :: es := by
  rw [trace] at h
  cases h1 : proc c s with
  | error x => rw [h1, bind_error] at h; cases h
  | ok s1 =>
    rw [h1, bind_ok] at h
    cases h2 : cv s1 with
    | error x => rw [h2, bind_error] at h; cases h
    | ok q =>
      rw [h2, bind_ok] at h
      cases h3 : trace proc cv t q.2 with
      | error x => rw [h3, bind_error] at h; cases h
      | ok r =>
        rw [h3, bind_ok, Except.ok.injEq, Prod.mk.injEq] at h
        exact ⟨s1, q.1, q.2, r.1, rfl, h2, by rw [h3, ← h.2], h.1.symm⟩

theorem gridLoop_ok {fac : K} (hf0 : 0 ≤ fac) (hf1 : fac ≤ 1) {proc : Case K → S → C S}
    {cv : S → C (K × S)} :
    ∀ (cases : List (Case K)) (iter best : Nat) (err : K) (s s' : S) (errs : List K), 0 ≤ err →
      trace proc cv cases s = .ok (errs, s') → (∀ e ∈ errs, 0 ≤ e) →
      ∃ b e, gridLoop fac proc cv cases iter best err s = .ok (b, e, s') ∧ 0 ≤ e ∧ e ≤ err ∧
        (∀ e' ∈ errs, e * fac ≤ e') ∧
        ((b = best ∧ e = err ∧ ∀ e' ∈ errs, err * fac ≤ e') ∨
          ∃ i, errs[i]? = some e ∧ b = iter + i ∧ e < err * fac ∧
            ∀ i' e', i' < i → errs[i']? = some e' → e < e') := by
  intro cases
  induction cases with
  | nil =>
    intro iter best err s s' errs herr h _
    rw [trace, Except.ok.injEq, Prod.mk.injEq] at h
    refine ⟨best, err, by rw [gridLoop, h.2], herr, le_rfl, ?_, .inl ⟨rfl, rfl, ?_⟩⟩ <;>
    · intro e' he'; rw [← h.1] at he'; cases he'
  | cons c t ih =>
    intro iter best err s s' errs herr h hpos
    obtain ⟨s1, e1, s2, es, h1, h2, h3, rfl⟩ := trace_cons h
    have he1 : 0 ≤ e1 := hpos e1 (by simp)
    have hpos' : ∀ e ∈ es, 0 ≤ e := fun e he => hpos e (by simp [he])
    rw [gridLoop, h1, bind_ok, h2, bind_ok]
    dsimp only
    by_cases hc : e1 < err * fac
    · rw [if_pos hc]
      obtain ⟨b, e, a1, a0, a2, a3, a4⟩ := ih (iter + 1) iter e1 s2 s' es he1 h3 hpos'
      have hle : err * fac ≤ err := mul_le_of_le_one_right herr hf1
      have hle2 : e * fac ≤ e := mul_le_of_le_one_right a0 hf1
      refine ⟨b, e, a1, a0, le_trans a2 (by linarith), ?_, .inr ?_⟩
      · intro e' he'
        rcases List.mem_cons.1 he' with rfl | he'
        · linarith
        · exact a3 e' he'
      · rcases a4 with ⟨rfl, rfl, _⟩ | ⟨i, b1, b2, b3, b4⟩
        · exact ⟨0, rfl, rfl, hc, fun i' e' hi' => absurd hi' (by omega)⟩
        · have hlt : e < e1 := lt_of_lt_of_le b3 (mul_le_of_le_one_right he1 hf1)
          refine ⟨i + 1, b1, by omega, by linarith, ?_⟩
          intro i' e' hi' he'
          cases i' with
          | zero =>
            have : e1 = e' := by simpa using he'
            rw [← this]
            exact hlt
          | succ i' => exact b4 i' e' (by omega) (by simpa using he')
    · rw [if_neg hc]
      obtain ⟨b, e, a1, a0, a2, a3, a4⟩ := ih (iter + 1) best err s2 s' es herr h3 hpos'
      have hmono : e * fac ≤ err * fac := mul_le_mul_of_nonneg_right a2 hf0
      refine ⟨b, e, a1, a0, a2, ?_, ?_⟩
      · intro e' he'
        rcases List.mem_cons.1 he' with rfl | he'
        · linarith
        · exact a3 e' he'
      · rcases a4 with ⟨rfl, rfl, a5⟩ | ⟨i, b1, b2, b3, b4⟩
        · refine .inl ⟨rfl, rfl, fun e' he' => ?_⟩
          rcases List.mem_cons.1 he' with rfl | he'
          · linarith
          · exact a5 e' he'
        · refine .inr ⟨i + 1, b1, by omega, b3, ?_⟩
          intro i' e' hi' he'
          cases i' with
          | zero =>
            have : e1 = e' := by simpa using he'
            rw [← this]
            linarith
          | succ i' => exact b4 i' e' (by omega) (by simpa using he')

theorem trace_length {proc : Case K → S → C S} {cv : S → C (K × S)} :
    ∀ (cases : List (Case K)) (s s' : S) (errs : List K),
      trace proc cv cases s = .ok (errs, s') → errs.length = cases.length := by
  intro cases
  induction cases with
  | nil =>
    intro s s' errs h
    rw [trace, Except.ok.injEq, Prod.mk.injEq] at h
    rw [← h.1]; rfl
  | cons c t ih =>
    intro s s' errs h
    obtain ⟨s1, e1, s2, es, h1, h2, h3, rfl⟩ := trace_cons h
    rw [List.length_cons, List.length_cons, ih _ _ _ h3]

/-- The search visits all cases and finally sets the one with the least error, up to the factor
`fac`; among the cases before it all have a larger error. -/
theorem gridOpt_best {fac big : K} (hf0 : 0 ≤ fac) (hf1 : fac ≤ 1) (hb : 0 ≤ big)
    {proc : Case K → S → C S} {cv : S → C (K × S)} {cases : List (Case K)} {s s' : S}
    {errs : List K} (h : trace proc cv cases s = .ok (errs, s')) (hpos : ∀ e ∈ errs, 0 ≤ e)
    (hsome : ∃ e ∈ errs, e < big * fac) :
    ∃ b c e, cases[b]? = some c ∧ errs[b]? = some e ∧ gridOpt fac big proc cv cases s = proc c s' ∧
      (∀ e' ∈ errs, e * fac ≤ e') ∧
        ∀ (i' : Nat) (e' : K), i' < b → errs[i']? = some e' → e < e' := by
  obtain ⟨b, e, a1, _, _, a3, a4⟩ := gridLoop_ok hf0 hf1 cases 0 0 big s s' errs hb h hpos
  rcases a4 with ⟨_, _, a5⟩ | ⟨i, b1, b2, _, b4⟩
  · obtain ⟨e', he', hlt⟩ := hsome
    have := a5 e' he'
    linarith
  · have hl := trace_length _ _ _ _ h
    have hi : i < cases.length := by
      rw [← hl]
      exact (List.getElem?_eq_some_iff.1 b1).1
    have hbi : b = i := by omega
    subst hbi
    refine ⟨b, cases[b], e, List.getElem?_eq_getElem hi, b1, ?_, a3, b4⟩
    rw [gridOpt, a1, bind_ok]
    dsimp only
    rw [List.getElem?_eq_getElem hi]

/-- Without cases (none or four parameters, or an empty list of values) the NULL pointer is
dereferenced. -/
theorem gridOpt_empty_actual (fac big : K) (proc : Case K → S → C S) (cv : S → C (K × S)) (s : S) :
    gridOpt fac big proc cv [] s = .error .null := rfl

/-- All four parameters there are: the search ends with a NULL pointer. -/
theorem gridOpt_four_counterexample (fac big : ℚ) (proc : Case ℚ → S → C S) (cv : S → C (ℚ × S))
    (s : S) :
    (do
      let g ← gridAdd (K := ℚ) ⟨4, []⟩ "rank" [.u 2]
      let g ← gridAdd g "num_param" [.u 3]
      let g ← gridAdd g "opt_maxiter" [.u 10]
      let g ← gridAdd g "reg_weight" [.d 1]
      let l ← setupCases g
      gridOpt fac big proc cv l s) = .error .null := rfl

/-- Two parameters with two values each. -/
example : setupCases (K := ℚ) ⟨2, [("rank", [.u 2, .u 3]), ("reg_weight", [.d 0, .d 1])]⟩
    = .ok [[("rank", .u 3), ("reg_weight", .d 1)], [("rank", .u 3), ("reg_weight", .d 0)],
      [("rank", .u 2), ("reg_weight", .d 1)], [("rank", .u 2), ("reg_weight", .d 0)]] :=
  setupCases_ok _ (by
    intro p hp
    rcases List.mem_cons.1 hp with rfl | hp
    · exact ⟨0, rfl⟩
    · rcases List.mem_cons.1 hp with rfl | hp
      · exact ⟨3, rfl⟩
      · cases hp) (by simp) (by simp)

/-- Three cases with errors 3, 1, 2: the second is set. -/
example : gridOpt (S := Nat) (999999999 / 1000000000 : ℚ) 1000
    (fun c _ => .ok ((lookU "rank" c).getD 0)) (fun r => .ok (((r - 2) * (r - 2) + 1 : ℚ), r))
    [[("rank", .u 4)], [("rank", .u 2)], [("rank", .u 3)]] 0 = .ok 2 := by
  have h : trace (K := ℚ) (S := Nat) (fun c _ => .ok ((lookU "rank" c).getD 0))
      (fun r => .ok (((r - 2) * (r - 2) + 1 : ℚ), r))
      [[("rank", .u 4)], [("rank", .u 2)], [("rank", .u 3)]] 0
      = .ok ([(4 - 2) * (4 - 2) + 1, (2 - 2) * (2 - 2) + 1, (3 - 2) * (3 - 2) + 1], 3) := rfl
  obtain ⟨b, c, e, h1, h2, h3, h4, h5⟩ := gridOpt_best (fac := 999999999 / 1000000000)
    (big := 1000) (by norm_num) (by norm_num) (by norm_num) h (by
      intro e he
      simp only [List.mem_cons, List.not_mem_nil, or_false] at he
      rcases he with rfl | rfl | rfl <;> norm_num) ⟨(2 - 2) * (2 - 2) + 1, by simp, by norm_num⟩
  rw [h3]
  match b with
  | 0 =>
    have := h4 ((2 - 2) * (2 - 2) + 1) (by simp)
    have h2' : (4 - 2) * (4 - 2) + 1 = e := by simpa using h2
    rw [← h2'] at this
    norm_num at this
  | 1 =>
    have h1' : [("rank", Val.u 2)] = c := by simpa using h1
    rw [← h1']; rfl
  | 2 =>
    have := h4 ((2 - 2) * (2 - 2) + 1) (by simp)
    have h2' : (3 - 2) * (3 - 2) + 1 = e := by simpa using h2
    rw [← h2'] at this
    norm_num at this
  | n + 3 => simp at h1

end C3.Sl
