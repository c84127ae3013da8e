/- C15: evaluating a function train computes the product of its core matrices, whatever was evaluated before. -/
import Verif.Ft.Lemmas
import Mathlib.Tactic.NormNum

set_option linter.unusedSectionVars false

namespace C3.Ft
open Finset
variable {K U X : Type} [Field K]

/-- Same function, scratch spaces usable again. -/
structure SameFn (ft ft' : FT K U) : Prop where
  dim : ft'.dim = ft.dim
  ranks : ft'.ranks = ft.ranks
  cores : ft'.cores = ft.cores
  scratch : ft'.Scratch

theorem SameFn.wf {ft ft' : FT K U} (s : SameFn ft ft') (h : ft.WF) : ft'.WF :=
  ⟨by rw [s.dim, s.cores, h.dim], by rw [s.cores]; exact h.pos, by rw [s.ranks, s.cores, h.ranks],
    by rw [s.cores]; exact h.fits⟩

theorem eval_gen {e : Ev K U X} {ft : FT K U} (h : ft.WF) (hsc : ft.Scratch) (hsm : ∀ Q ∈ ft.cores, Qma.Small e Q)
    {x : List X} (hx : ft.cores.length ≤ x.length) (step : Nat → Scr K → C (Scr K))
    (hstep : ∀ (mr : Nat), (∀ (k r : Nat), ft.ranks[k]? = some r → r ≤ mr) → 1 ≤ mr → ∀ (s0 s : Scr K),
      mr * mr ≤ s0.t1.length → mr * mr ≤ s0.t2.length → mr * mr ≤ s0.t3.length → ∀ ii, 1 ≤ ii → ii < ft.cores.length →
      EvInv e ft x s0 ii s → ∃ s', step ii s = .ok s' ∧ EvInv e ft x s0 (ii + 1) s') :
    ∃ ft', (do
      let r0 ← rd ft.ranks 0
      cassert (decide (r0 = 1))
      let rd' ← rd ft.ranks ft.dim
      cassert (decide (rd' = 1))
      let s ← preEval ft
      let Q ← rd ft.cores 0
      let x0 ← rd x 0
      let t1 ← evalArr e (Q.nrows * Q.ncols) Q.funcs x0 s.t1
      let s ← forR 1 ft.dim step { s with t1 := t1 }
      let out ← readOut s
      let ft ← keepSpaces ft s
      pure (out, ft)) = .ok (value e ft.cores x, ft') ∧ SameFn ft ft' := by
  obtain ⟨mr, hm, hm1, hmr⟩ := maxrank_ok h.ranks_len
  have h0 := h.len_pos
  have hlen1 := spaceFor_len hsc.s1 (mr * mr)
  have hlen2 := spaceFor_len hsc.s2 (mr * mr)
  have hlen3 := spaceFor_len hsc.s3 (mr * mr)
  have hrl : ft.ranks[ft.dim]? = some 1 := by rw [h.dim]; exact h.rank_last
  have hQ := (h.fits.get h0).1
  have hmul : (ft.cores[0]'h0).nrows * (ft.cores[0]'h0).ncols ≤ mr * mr :=
    Nat.mul_le_mul (hmr _ _ (h.ranks_get h0)) (hmr _ _ (h.ranks_get' h0))
  have hpos : 0 < mr * mr := Nat.mul_pos hm1 hm1
  obtain ⟨s0, hs0⟩ : ∃ s0 : Scr K, s0 = ⟨(spaceFor ft.sp1 1 (mr * mr)).vals, (spaceFor ft.sp2 1 (mr * mr)).vals,
    (spaceFor ft.sp3 1 (mr * mr)).vals, 1⟩ := ⟨_, rfl⟩
  have e1 : s0.t1.length = (spaceFor ft.sp1 1 (mr * mr)).vals.length := by rw [hs0]
  have e2 : s0.t2.length = (spaceFor ft.sp2 1 (mr * mr)).vals.length := by rw [hs0]
  have e3 : s0.t3.length = (spaceFor ft.sp3 1 (mr * mr)).vals.length := by rw [hs0]
  have hpre : preEval ft = .ok s0 := by rw [preEval, hm, bind_ok, pure_eq_ok, hs0]
  have hl1 : ((ft.cores[0]'h0).funcs.map (fun f => e.ev f (x[0]'(by omega)))
      ++ s0.t1.drop ((ft.cores[0]'h0).nrows * (ft.cores[0]'h0).ncols)).length = s0.t1.length := by
    have : (ft.cores[0]'h0).funcs.length = _ := hQ
    rw [List.length_append, List.length_map, List.length_drop]; omega
  obtain ⟨s, hs, hinv⟩ := forR_spec (I := EvInv e ft x s0) (a := 1) (b := ft.dim) (body := step) (by rw [h.dim]; omega)
    (inv_first h hx (s := s0) (by rw [hs0]) hl1)
    (fun ii h1 h2 s hs => hstep mr hmr hm1 s0 s (by omega) (by omega) (by omega) ii h1 (by rw [← h.dim]; exact h2) hs)
  have hinv' : EvInv e ft x s0 ft.cores.length s := by rw [← h.dim]; exact hinv
  have hval := inv_last h hx hinv'
  have hout : readOut s = .ok (value e ft.cores x) := by
    rw [readOut]
    have l1 := hinv.l1; have l3 := hinv.l3
    rw [hinv'.on]
    by_cases hp : ft.cores.length % 2 = 1
    · rw [cur, if_pos hp] at hval
      rw [if_pos hp, if_neg (by omega), if_pos rfl, rd_getD 0 (by omega), hval]
    · rw [cur, if_neg hp] at hval
      rw [if_neg hp, if_pos rfl, rd_getD 0 (by omega), hval]
  refine ⟨{ ft with
    sp1 := some { spaceFor ft.sp1 1 (mr * mr) with vals := s.t1 }
    sp2 := some { spaceFor ft.sp2 1 (mr * mr) with vals := s.t2 }
    sp3 := some { spaceFor ft.sp3 1 (mr * mr) with vals := s.t3 } }, by
    rw [rd_of_getElem? h.rank_zero, bind_ok, cassert_of (decide_eq_true rfl), bind_ok, rd_of_getElem? hrl, bind_ok,
      cassert_of (decide_eq_true rfl), bind_ok, hpre, bind_ok, rd_ok h0, bind_ok,
      rd_ok (show 0 < x.length by omega), bind_ok, evalArr_ok hQ (hsm _ (List.getElem_mem h0)) _ (by omega), bind_ok, hs,
      bind_ok, hout, bind_ok, keepSpaces, hm, bind_ok, pure_eq_ok, bind_ok, pure_eq_ok], ⟨rfl, rfl, rfl, ?_, ?_, ?_⟩⟩
  · rintro sp ⟨⟩; rw [hinv.l1, e1]; exact hlen1.2
  · rintro sp ⟨⟩; rw [hinv.l2, e2]; exact hlen2.2
  · rintro sp ⟨⟩; rw [hinv.l3, e3]; exact hlen3.2

/-- **C15** `function_train_eval` returns the chain product of the core matrices at the point, for every dimension, all
ranks and every state of the scratch spaces left by earlier evaluations; the train represents the same function after.
Hypothesis `Small`: no core with more than 1000 functions all of which are polynomials (see the counterexample). -/
theorem eval_value {e : Ev K U X} {ft : FT K U} (h : ft.WF) (hsc : ft.Scratch) (hsm : ∀ Q ∈ ft.cores, Qma.Small e Q)
    {x : List X} (hx : ft.dim ≤ x.length) :
    ∃ ft', eval e ft x = .ok (value e ft.cores x, ft') ∧ SameFn ft ft' := by
  rw [h.dim] at hx
  exact eval_gen h hsc hsm hx (evalStep e ft x) fun mr hmr hm1 s0 s l1 l2 l3 ii hp hi hinv =>
    evalStep_ok h hsm hmr hm1 hx l1 l2 l3 hp hi hinv

/-- **C15/C23** `function_train_eval_ind` computes the same chain product with the cores read at nodes. -/
theorem evalInd_value {e : Ev K U X} {ft : FT K U} (h : ft.WF) (hsc : ft.Scratch) (hsm : ∀ Q ∈ ft.cores, Qma.Small e Q)
    {x : List X} (hx : ft.dim ≤ x.length) :
    ∃ ft', evalInd e ft x = .ok (value e ft.cores x, ft') ∧ SameFn ft ft' := by
  rw [h.dim] at hx
  exact eval_gen h hsc hsm hx (evalIndStep e ft x) fun mr hmr hm1 s0 s l1 l2 l3 ii _ hi hinv =>
    evalIndStep_ok h hsm hmr hm1 hx l1 l2 l3 hi hinv

theorem value_take (e : Ev K U X) (cores : List (Qma U)) (x : List X) :
    value e cores (x.take cores.length) = value e cores x := by
  rw [value, value]
  congr 1
  simp only [mats]
  apply List.ext_getElem?
  intro i
  simp only [List.getElem?_zipWith]
  by_cases hi : i < cores.length
  · rw [List.getElem?_take_of_lt hi]
  · rw [List.getElem?_eq_none (by omega : cores.length ≤ i)]

/-- **C15** `function_train_evals`: the `i`-th output is the value at the `i`-th point, for any number of points; the
shared scratch spaces do not carry information from one point to the next. -/
theorem evals_value {e : Ev K U X} {ft : FT K U} (h : ft.WF) (hsc : ft.Scratch) (hsm : ∀ Q ∈ ft.cores, Qma.Small e Q)
    {N : Nat} {x : List X} (hx : N * ft.dim ≤ x.length) :
    ∃ ft', evals e ft N x
      = .ok ((List.range N).map (fun i => value e ft.cores ((x.drop (i * ft.dim)).take ft.dim)), ft') ∧
      SameFn ft ft' := by
  obtain ⟨s, hs, h1, h2⟩ := forN_spec
    (I := fun i (s : List K × FT K U) =>
      s.1 = (List.range i).map (fun i => value e ft.cores ((x.drop (i * ft.dim)).take ft.dim)) ∧ SameFn ft s.2)
    (n := N) (s := ([], ft)) (body := fun ii (s : List K × FT K U) => do
      let r ← eval e s.2 (x.drop (ii * ft.dim))
      pure (s.1 ++ [r.1], r.2))
    ⟨rfl, rfl, rfl, rfl, hsc⟩
    (by
      rintro i hi ⟨l, f⟩ ⟨hl, hf⟩
      have hlen : ft.dim ≤ (x.drop (i * ft.dim)).length := by
        have : (i + 1) * ft.dim ≤ N * ft.dim := Nat.mul_le_mul_right _ hi
        rw [Nat.succ_mul] at this
        rw [List.length_drop]; omega
      obtain ⟨ft', he, hs⟩ := eval_value (e := e) (hf.wf h) hf.scratch (by rw [hf.cores]; exact hsm)
        (x := x.drop (i * ft.dim)) (by rw [hf.dim]; exact hlen)
      refine ⟨_, by rw [he, bind_ok, pure_eq_ok], ?_, ⟨?_, ?_, ?_, hs.scratch⟩⟩
      · rw [List.range_succ, List.map_append, ← hl, hf.cores]
        simp only [List.map_cons, List.map_nil]
        rw [h.dim, value_take]
      · exact hs.dim.trans hf.dim
      · exact hs.ranks.trans hf.ranks
      · exact hs.cores.trans hf.cores)
  exact ⟨s.2, by rw [evals, hs, ← h1], h2⟩

/-- The bound is needed: with a well-formed train whose first core holds 1001 polynomials the batched evaluation writes
outside its local array (lib_funcs/functions.c:1531-1543). -/
theorem eval_parr_counterexample {e : Ev K U X} (f : U) (hf : e.poly f = true) (x0 x1 : X) :
    let ft : FT K U := ⟨2, [1, 1001, 1],
      [⟨1, 1001, List.replicate 1001 f⟩, ⟨1001, 1, List.replicate 1001 f⟩], none, none, none⟩
    ft.WF ∧ ft.Scratch ∧ eval e ft [x0, x1] = .error .oob := by
  intro ft
  have hwf : ft.WF := by
    refine ⟨rfl, List.cons_ne_nil _ _, rfl, ?_⟩
    refine Fits.cons (⟨1, 1001, List.replicate 1001 f⟩ : Qma U) _ (by rw [Qma.WF, List.length_replicate]; simp only [Nat.one_mul, Nat.mul_one]) ?_
    exact Fits.cons (⟨1001, 1, List.replicate 1001 f⟩ : Qma U) _ (by rw [Qma.WF, List.length_replicate]; simp only [Nat.one_mul, Nat.mul_one]) (.nil _)
  refine ⟨hwf, ⟨by simp [SpOk, ft], by simp [SpOk, ft], by simp [SpOk, ft]⟩, ?_⟩
  have hm : maxrank ft = .ok 1001 := rfl
  have hev : ∀ o : List K, evalArr e (1 * 1001) (List.replicate 1001 f) x0 o = .error .oob := by
    intro o
    rw [evalArr, if_pos]
    refine ⟨by omega, ?_⟩
    rw [List.all_eq_true]
    intro g hg
    rw [List.eq_of_mem_replicate (List.mem_of_mem_take hg), hf]
  rw [eval, rd_of_getElem? hwf.rank_zero, bind_ok, cassert_of (decide_eq_true rfl), bind_ok,
    rd_of_getElem? (show ft.ranks[ft.dim]? = some 1 from rfl), bind_ok,
    cassert_of (decide_eq_true rfl), bind_ok, preEval, hm, bind_ok, pure_eq_ok, bind_ok,
    rd_of_getElem? (show ft.cores[0]? = some ⟨1, 1001, List.replicate 1001 f⟩ from rfl), bind_ok,
    rd_of_getElem? (show [x0, x1][0]? = some x0 from rfl), bind_ok, hev, bind_error]

/-- Non-vacuity: a two-dimensional train of rank 2 over the rationals, `x*1 + 1*y` evaluated at (3, 4) after an earlier
evaluation left data in the scratch spaces. -/
def exEv : Ev ℚ (ℚ × ℚ) ℚ := ⟨fun f x => f.1 + f.2 * x, fun _ => true⟩
def exFt : FT ℚ (ℚ × ℚ) :=
  ⟨2, [1, 2, 1], [⟨1, 2, [(0, 1), (1, 0)]⟩, ⟨2, 1, [(1, 0), (0, 1)]⟩], some ⟨1, 4, [9, 9, 9, 9]⟩, none, none⟩

theorem exFt_wf : exFt.WF := by
  refine ⟨rfl, List.cons_ne_nil _ _, rfl, ?_⟩
  refine Fits.cons (⟨1, 2, [(0, 1), (1, 0)]⟩ : Qma (ℚ × ℚ)) _ rfl ?_
  exact Fits.cons (⟨2, 1, [(1, 0), (0, 1)]⟩ : Qma (ℚ × ℚ)) _ rfl (.nil _)

theorem exFt_scratch : exFt.Scratch := ⟨by rintro _ ⟨⟩; rfl, by rintro _ ⟨⟩, by rintro _ ⟨⟩⟩

theorem exFt_small : ∀ Q ∈ exFt.cores, Qma.Small exEv Q := by
  intro Q hQ
  simp only [exFt, List.mem_cons, List.not_mem_nil, or_false] at hQ
  rcases hQ with rfl | rfl <;> simp [Qma.Small]

example : ∃ ft', eval exEv exFt [3, 4] = .ok (7, ft') ∧ SameFn exFt ft' := by
  have := eval_value (e := exEv) exFt_wf exFt_scratch exFt_small (x := [3, 4]) (by decide)
  have hv : value exEv exFt.cores [3, 4] = 7 := by
    simp [value, mats, chain, exFt, exEv, Qma.val, Finset.sum_range_succ]; norm_num
  rwa [hv] at this

example : ∃ ft', evals exEv exFt 2 [3, 4, 5, 6] = .ok ([7, 11], ft') ∧ SameFn exFt ft' := by
  have := evals_value (e := exEv) exFt_wf exFt_scratch exFt_small (N := 2) (x := [3, 4, 5, 6]) (by decide)
  have hv : (List.range 2).map (fun i => value exEv exFt.cores (([3, 4, 5, 6].drop (i * exFt.dim)).take exFt.dim))
      = [7, 11] := by
    simp [List.range_succ, value, mats, chain, exFt, exEv, Qma.val, Finset.sum_range_succ]; norm_num
  rwa [hv] at this

example : ∃ ft', evalInd exEv exFt [3, 4] = .ok (7, ft') := by
  obtain ⟨ft', h, -⟩ := evalInd_value (e := exEv) exFt_wf exFt_scratch exFt_small (x := [3, 4]) (by decide)
  have hv : value exEv exFt.cores [3, 4] = 7 := by
    simp [value, mats, chain, exFt, exEv, Qma.val, Finset.sum_range_succ]; norm_num
  exact ⟨ft', by rw [h, hv]⟩

end C3.Ft
