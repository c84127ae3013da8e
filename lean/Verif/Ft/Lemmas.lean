/- Helper lemmas for function-train evaluation. -/
import Verif.Ft.Spec

set_option linter.unusedSectionVars false

namespace C3.Ft
open Finset
variable {K U X : Type} [Field K]

theorem getD_append_left' {α : Type} {a b : List α} {i : Nat} (d : α) (h : i < a.length) :
    (a ++ b).getD i d = a.getD i d := by
  rw [List.getD_eq_getElem?_getD, List.getElem?_append_left h, ← List.getD_eq_getElem?_getD]

theorem evalArr_ok {e : Ev K U X} {Q : Qma U} (hQ : Q.WF) (hs : Q.Small e) (x : X) {out : List K}
    (ho : Q.nrows * Q.ncols ≤ out.length) :
    evalArr e (Q.nrows * Q.ncols) Q.funcs x out
      = .ok (Q.funcs.map (fun f => e.ev f x) ++ out.drop (Q.nrows * Q.ncols)) := by
  rw [evalArr, if_neg hs]
  rcases hf : Q.funcs with _ | ⟨f0, fs⟩
  · have : Q.nrows * Q.ncols = 0 := by rw [← hQ, hf]; rfl
    simp [this]
  · rw [← hf, forN_fill (off := 0) (fun i => e.ev (Q.funcs.getD i f0) x) (by omega)]
    · simp only [List.take_zero, List.nil_append, Nat.zero_add]
      congr 2
      apply List.ext_getElem?
      intro i
      by_cases hi : i < Q.funcs.length
      · rw [List.getElem?_map, List.getElem?_range (by rw [← hQ]; exact hi), List.getElem?_map,
          List.getElem?_eq_getElem hi]
        simp [hi]
      · rw [List.getElem?_eq_none (by have := hQ; rw [Qma.WF] at this; simp; omega), List.getElem?_eq_none (by simp; omega)]
    · intro i hi b _
      rw [rd_getD f0 (by rw [hQ]; exact hi), bind_ok, Nat.zero_add]

theorem map_getD_val {e : Ev K U X} {Q : Qma U} (x : X) (i j : Nat) :
    (Q.funcs.map (fun f => e.ev f x)).getD (j * Q.nrows + i) 0 = Q.val e x i j := by
  rw [List.getD_eq_getElem?_getD, List.getElem?_map, Qma.val]

theorem evalArr_getD {e : Ev K U X} {Q : Qma U} (hQ : Q.WF) (x : X) {i j : Nat} (hi : i < Q.nrows) (hj : j < Q.ncols)
    (l : List K) : (Q.funcs.map (fun f => e.ev f x) ++ l).getD (j * Q.nrows + i) 0 = Q.val e x i j := by
  rw [getD_append_left' _ (by rw [List.length_map, hQ]; exact cm_idx_lt hi hj), map_getD_val]

theorem Fits.get {r s : Nat} {cores : List (Qma U)} (h : Fits r cores s) {k : Nat} (hk : k < cores.length) :
    cores[k].WF ∧ (r :: cores.map (·.ncols))[k]? = some cores[k].nrows := by
  induction h generalizing k with
  | nil => simp at hk
  | cons Q Qs hQ hf ih =>
    rcases k with _ | k
    · exact ⟨hQ, rfl⟩
    · have := ih (k := k) (by simpa using hk)
      exact ⟨this.1, by simpa using this.2⟩

theorem Fits.last {r s : Nat} {cores : List (Qma U)} (h : Fits r cores s) :
    (r :: cores.map (·.ncols))[cores.length]? = some s := by
  induction h with
  | nil => rfl
  | cons Q Qs hQ hf ih => simpa using ih

theorem FT.WF.ranks_get {ft : FT K U} (h : ft.WF) {k : Nat} (hk : k < ft.cores.length) :
    ft.ranks[k]? = some ft.cores[k].nrows := by
  rw [h.ranks]; exact (h.fits.get hk).2

theorem FT.WF.ranks_get' {ft : FT K U} (h : ft.WF) {k : Nat} (hk : k < ft.cores.length) :
    ft.ranks[k + 1]? = some ft.cores[k].ncols := by
  rw [h.ranks]; simp [hk]

theorem maxrank_ok {ft : FT K U} (h : ft.ranks.length = ft.dim + 1) :
    ∃ mr, maxrank ft = .ok mr ∧ 1 ≤ mr ∧ ∀ (k r : Nat), ft.ranks[k]? = some r → r ≤ mr := by
  obtain ⟨mr, h1, h2, h3⟩ := forN_spec
    (I := fun i mr => 1 ≤ mr ∧ ∀ k < i, ∀ r, ft.ranks[k]? = some r → r ≤ mr) (n := ft.dim + 1) (s := 1)
    (body := fun ii mr => do
      let r ← rd ft.ranks ii
      pure (if r > mr then r else mr)) ⟨Nat.le_refl 1, by simp⟩
    (by
      rintro i hi mr ⟨hp, hmr⟩
      refine ⟨_, by rw [rd_ok (by omega), bind_ok, pure_eq_ok], ?_, ?_⟩
      · split <;> omega
      · intro k hk r hr
        by_cases hki : k = i
        · subst hki
          rw [List.getElem?_eq_getElem (by omega), Option.some.injEq] at hr
          split <;> omega
        · have := hmr k (by omega) r hr
          split <;> omega)
  refine ⟨mr, h1, h2, fun k r hr => h3 k ?_ r hr⟩
  have := (List.getElem?_eq_some_iff.1 hr).1
  omega

theorem spaceFor_len {s : Option (Space K)} (h : SpOk s) (n : Nat) :
    n ≤ (spaceFor s 1 n).vals.length ∧ (spaceFor s 1 n).vals.length = (spaceFor s 1 n).num * (spaceFor s 1 n).size := by
  rcases s with _ | s
  · simp [spaceFor, spaceAlloc]
  · simp only [spaceFor]
    split
    · simp [spaceAlloc]
    · rename_i hc
      simp only [not_or, not_lt, not_not] at hc
      have := h s rfl
      refine ⟨?_, this⟩
      rw [this, hc.2]; exact Nat.le_mul_of_pos_left _ hc.1

theorem mats_length {e : Ev K U X} {cores : List (Qma U)} {x : List X} (h : cores.length ≤ x.length) :
    (mats e cores x).length = cores.length := by simp [mats]; omega

theorem mats_drop {e : Ev K U X} {cores : List (Qma U)} {x : List X} (h : cores.length ≤ x.length) {k : Nat}
    (hk : k < cores.length) :
    (mats e cores x).drop k = (cores[k].ncols, cores[k].val e (x[k]'(by omega))) :: (mats e cores x).drop (k + 1) := by
  rw [List.drop_eq_getElem_cons (by rw [mats_length h]; exact hk)]
  simp [mats]

/-- Moving one core from the right part into the left vector. -/
theorem chain_step (n : Nat) (L : Nat → K) (A : Mat K) (rest : List (Mat K)) :
    ∑ c ∈ range A.1, (∑ i ∈ range n, A.2 i c * L i) * chain rest c
      = ∑ i ∈ range n, L i * chain (A :: rest) i := by
  simp only [chain, Finset.sum_mul, Finset.mul_sum]
  rw [Finset.sum_comm]
  refine sum_congr rfl fun i _ => sum_congr rfl fun c _ => by ring

/-- The buffer holding the current left vector before core `ii` is processed. -/
def cur (ii : Nat) (s : Scr K) : List K := if ii % 2 = 1 then s.t1 else s.t3

structure EvInv (e : Ev K U X) (ft : FT K U) (x : List X) (s0 : Scr K) (ii : Nat) (s : Scr K) : Prop where
  l1 : s.t1.length = s0.t1.length
  l2 : s.t2.length = s0.t2.length
  l3 : s.t3.length = s0.t3.length
  on : s.onsol = if ii % 2 = 1 then 1 else 2
  sum : ∀ r, ft.ranks[ii]? = some r →
    ∑ c ∈ range r, (cur ii s).getD c 0 * chain ((mats e ft.cores x).drop ii) c = value e ft.cores x

theorem nextCore_ok {e : Ev K U X} {ft : FT K U} (h : ft.WF) {k mr : Nat} (hk : k < ft.cores.length) (hpos : 0 < k)
    (hsm : (ft.cores[k]).Small e) (hmr : ∀ (k r : Nat), ft.ranks[k]? = some r → r ≤ mr) (hmr1 : 1 ≤ mr) (x : X)
    {prev space new : List K} (hp : mr * mr ≤ prev.length) (hsp : mr * mr ≤ space.length)
    (hn : mr * mr ≤ new.length) :
    ∃ sp nw, nextCore e ft k x prev space new = .ok (sp, nw) ∧ sp.length = space.length ∧ nw.length = new.length ∧
      ∀ c < ft.cores[k].ncols, nw.getD c 0 = ∑ i ∈ range ft.cores[k].nrows, ft.cores[k].val e x i c * prev.getD i 0 := by
  have hQ := (h.fits.get hk).1
  have hr1 := hmr _ _ (h.ranks_get hk)
  have hr2 := hmr _ _ (h.ranks_get' hk)
  have hmul : ft.cores[k].nrows * ft.cores[k].ncols ≤ mr * mr := Nat.mul_le_mul hr1 hr2
  have hmm : mr ≤ mr * mr := Nat.le_mul_of_pos_left _ hmr1
  have hl : (ft.cores[k].funcs.map (fun f => e.ev f x)).length = ft.cores[k].nrows * ft.cores[k].ncols := by
    rw [List.length_map, hQ]
  refine ⟨_, _, by
    rw [nextCore, cassert_of (decide_eq_true hpos), bind_ok, rd_ok hk, bind_ok, evalArr_ok hQ hsm x (by omega), bind_ok,
      dgemvT_ok (by simp only [List.length_append, hl]; omega) (by omega) (by omega), bind_ok, pure_eq_ok], ?_, ?_, ?_⟩
  · simp only [List.length_append, hl, List.length_drop]; omega
  · simp only [List.length_append, List.length_map, List.length_range, List.length_drop]; omega
  · intro c hc
    rw [getD_map_range _ _ _ hc]
    refine sum_congr rfl fun i hi => ?_
    rw [evalArr_getD hQ x (mem_range.1 hi) hc]

theorem evalIndCore_ok {e : Ev K U X} {ft : FT K U} (h : ft.WF) {k mr : Nat} (hk : k < ft.cores.length)
    (hsm : (ft.cores[k]).Small e) (hmr : ∀ (k r : Nat), ft.ranks[k]? = some r → r ≤ mr) (hmr1 : 1 ≤ mr) (x : X)
    {prev space new : List K} (hp : mr * mr ≤ prev.length) (hsp : mr * mr ≤ space.length)
    (hn : mr * mr ≤ new.length) :
    ∃ sp nw, evalArr e (ft.cores[k].nrows * ft.cores[k].ncols) ft.cores[k].funcs x space = .ok sp ∧
      dgemvT ft.cores[k].nrows ft.cores[k].ncols sp ft.cores[k].nrows prev new = .ok nw ∧
      sp.length = space.length ∧ nw.length = new.length ∧
      ∀ c < ft.cores[k].ncols, nw.getD c 0 = ∑ i ∈ range ft.cores[k].nrows, ft.cores[k].val e x i c * prev.getD i 0 := by
  have hQ := (h.fits.get hk).1
  have hr1 := hmr _ _ (h.ranks_get hk)
  have hr2 := hmr _ _ (h.ranks_get' hk)
  have hmul : ft.cores[k].nrows * ft.cores[k].ncols ≤ mr * mr := Nat.mul_le_mul hr1 hr2
  have hmm : mr ≤ mr * mr := Nat.le_mul_of_pos_left _ hmr1
  have hl : (ft.cores[k].funcs.map (fun f => e.ev f x)).length = ft.cores[k].nrows * ft.cores[k].ncols := by
    rw [List.length_map, hQ]
  refine ⟨_, _, evalArr_ok hQ hsm x (by omega),
    dgemvT_ok (by simp only [List.length_append, hl]; omega) (by omega) (by omega), ?_, ?_, ?_⟩
  · simp only [List.length_append, hl, List.length_drop]; omega
  · simp only [List.length_append, List.length_map, List.length_range, List.length_drop]; omega
  · intro c hc
    rw [getD_map_range _ _ _ hc]
    refine sum_congr rfl fun i hi => ?_
    rw [evalArr_getD hQ x (mem_range.1 hi) hc]

/-- The invariant is preserved when the new vector is written to the other buffer. -/
theorem inv_next {e : Ev K U X} {ft : FT K U} (h : ft.WF) {x : List X} (hx : ft.cores.length ≤ x.length)
    {s0 s s' : Scr K} {ii : Nat} (hi : ii < ft.cores.length) (hinv : EvInv e ft x s0 ii s)
    (h1 : s'.t1.length = s.t1.length) (h2 : s'.t2.length = s.t2.length) (h3 : s'.t3.length = s.t3.length)
    (hon : s'.onsol = if ii % 2 = 1 then 2 else 1)
    (hval : ∀ c < ft.cores[ii].ncols, (cur (ii + 1) s').getD c 0
      = ∑ i ∈ range ft.cores[ii].nrows, ft.cores[ii].val e (x[ii]'(by omega)) i c * (cur ii s).getD i 0) :
    EvInv e ft x s0 (ii + 1) s' := by
  refine ⟨h1.trans hinv.l1, h2.trans hinv.l2, h3.trans hinv.l3, ?_, ?_⟩
  · rw [hon]; split <;> split <;> omega
  · intro r hr
    rw [h.ranks_get' hi, Option.some.injEq] at hr
    subst hr
    have := hinv.sum _ (h.ranks_get hi)
    rw [← this, mats_drop hx hi, ← chain_step]
    refine sum_congr rfl fun c hc => ?_
    rw [hval c (mem_range.1 hc)]

theorem evalStep_ok {e : Ev K U X} {ft : FT K U} (h : ft.WF) (hsm : ∀ Q ∈ ft.cores, Qma.Small e Q) {mr : Nat}
    (hmr : ∀ (k r : Nat), ft.ranks[k]? = some r → r ≤ mr) (hmr1 : 1 ≤ mr)
    {x : List X} (hx : ft.cores.length ≤ x.length) {s0 s : Scr K} (h1 : mr * mr ≤ s0.t1.length)
    (h2 : mr * mr ≤ s0.t2.length) (h3 : mr * mr ≤ s0.t3.length) {ii : Nat} (hpos : 1 ≤ ii) (hi : ii < ft.cores.length)
    (hinv : EvInv e ft x s0 ii s) : ∃ s', evalStep e ft x ii s = .ok s' ∧ EvInv e ft x s0 (ii + 1) s' := by
  have l1 := hinv.l1; have l2 := hinv.l2; have l3 := hinv.l3
  have hsmi := hsm _ (List.getElem_mem hi)
  rw [evalStep, rd_ok (show ii < x.length by omega), bind_ok]
  by_cases hp : ii % 2 = 1
  · obtain ⟨sp, nw, hr, hl1, hl2, hv⟩ := nextCore_ok h hi hpos hsmi hmr hmr1 (x[ii]'(by omega))
      (prev := s.t1) (space := s.t2) (new := s.t3) (by omega) (by omega) (by omega)
    rw [if_pos hp, hr, bind_ok, pure_eq_ok]
    refine ⟨_, rfl, inv_next h hx hi hinv rfl hl1 hl2 (by simp [hp]) ?_⟩
    have hp' : ¬ (ii + 1) % 2 = 1 := by omega
    simpa only [cur, if_pos hp, if_neg hp'] using hv
  · obtain ⟨sp, nw, hr, hl1, hl2, hv⟩ := nextCore_ok h hi hpos hsmi hmr hmr1 (x[ii]'(by omega))
      (prev := s.t3) (space := s.t2) (new := s.t1) (by omega) (by omega) (by omega)
    rw [if_neg hp, hr, bind_ok, pure_eq_ok]
    refine ⟨_, rfl, inv_next h hx hi hinv hl2 hl1 rfl (by simp [hp]) ?_⟩
    have hp' : (ii + 1) % 2 = 1 := by omega
    simpa only [cur, if_neg hp, if_pos hp'] using hv

theorem evalIndStep_ok {e : Ev K U X} {ft : FT K U} (h : ft.WF) (hsm : ∀ Q ∈ ft.cores, Qma.Small e Q) {mr : Nat}
    (hmr : ∀ (k r : Nat), ft.ranks[k]? = some r → r ≤ mr) (hmr1 : 1 ≤ mr)
    {x : List X} (hx : ft.cores.length ≤ x.length) {s0 s : Scr K} (h1 : mr * mr ≤ s0.t1.length)
    (h2 : mr * mr ≤ s0.t2.length) (h3 : mr * mr ≤ s0.t3.length) {ii : Nat} (hi : ii < ft.cores.length)
    (hinv : EvInv e ft x s0 ii s) : ∃ s', evalIndStep e ft x ii s = .ok s' ∧ EvInv e ft x s0 (ii + 1) s' := by
  have l1 := hinv.l1; have l2 := hinv.l2; have l3 := hinv.l3
  have hsmi := hsm _ (List.getElem_mem hi)
  rw [evalIndStep, rd_ok hi, bind_ok, rd_ok (show ii < x.length by omega), bind_ok]
  by_cases hp : ii % 2 = 1
  · obtain ⟨sp, nw, hr1, hr2, hl1, hl2, hv⟩ := evalIndCore_ok h hi hsmi hmr hmr1 (x[ii]'(by omega))
      (prev := s.t1) (space := s.t2) (new := s.t3) (by omega) (by omega) (by omega)
    rw [hr1, bind_ok, rd_of_getElem? (h.ranks_get hi), bind_ok, rd_of_getElem? (h.ranks_get' hi), bind_ok, if_pos hp,
      hr2, bind_ok, pure_eq_ok]
    refine ⟨_, rfl, inv_next h hx hi hinv rfl hl1 hl2 (by simp [hp]) ?_⟩
    have hp' : ¬ (ii + 1) % 2 = 1 := by omega
    simpa only [cur, if_pos hp, if_neg hp'] using hv
  · obtain ⟨sp, nw, hr1, hr2, hl1, hl2, hv⟩ := evalIndCore_ok h hi hsmi hmr hmr1 (x[ii]'(by omega))
      (prev := s.t3) (space := s.t2) (new := s.t1) (by omega) (by omega) (by omega)
    rw [hr1, bind_ok, rd_of_getElem? (h.ranks_get hi), bind_ok, rd_of_getElem? (h.ranks_get' hi), bind_ok, if_neg hp,
      hr2, bind_ok, pure_eq_ok]
    refine ⟨_, rfl, inv_next h hx hi hinv hl2 hl1 rfl (by simp [hp]) ?_⟩
    have hp' : (ii + 1) % 2 = 1 := by omega
    simpa only [cur, if_neg hp, if_pos hp'] using hv

theorem FT.WF.ranks_len {ft : FT K U} (h : ft.WF) : ft.ranks.length = ft.dim + 1 := by
  rw [h.ranks, h.dim]; simp

theorem FT.WF.len_pos {ft : FT K U} (h : ft.WF) : 0 < ft.cores.length := by
  have := h.pos
  rcases hc : ft.cores with _ | _
  · exact absurd hc this
  · simp

theorem FT.WF.rank_zero {ft : FT K U} (h : ft.WF) : ft.ranks[0]? = some 1 := by rw [h.ranks]; rfl
theorem FT.WF.rank_last {ft : FT K U} (h : ft.WF) : ft.ranks[ft.cores.length]? = some 1 := by
  rw [h.ranks]; exact h.fits.last
theorem FT.WF.nrows_zero {ft : FT K U} (h : ft.WF) : (ft.cores[0]'h.len_pos).nrows = 1 := by
  have h1 := h.ranks_get h.len_pos
  rw [h.rank_zero, Option.some.injEq] at h1
  exact h1.symm

/-- First core: the invariant holds before core 1. -/
theorem inv_first {e : Ev K U X} {ft : FT K U} (h : ft.WF) {x : List X} (hx : ft.cores.length ≤ x.length)
    {s : Scr K} (hon : s.onsol = 1) {l : List K}
    (hl : ((ft.cores[0]'h.len_pos).funcs.map (fun f => e.ev f (x[0]'(by have := h.len_pos; omega))) ++ l).length
      = s.t1.length) :
    EvInv e ft x s 1
      { s with t1 := (ft.cores[0]'h.len_pos).funcs.map (fun f => e.ev f (x[0]'(by have := h.len_pos; omega))) ++ l } := by
  refine ⟨hl, rfl, rfl, by simp [hon], ?_⟩
  intro r hr
  have h0 := h.len_pos
  rw [h.ranks_get' h0, Option.some.injEq] at hr
  subst hr
  have hQ := (h.fits.get h0).1
  have hd := mats_drop (e := e) hx h0
  rw [List.drop_zero] at hd
  rw [value, hd, chain]
  refine sum_congr rfl fun c hc => ?_
  congr 1
  have := evalArr_getD (e := e) hQ (x[0]'(by omega)) (i := 0) (j := c) (by rw [h.nrows_zero]; omega) (mem_range.1 hc) l
  rw [h.nrows_zero, Nat.mul_one, Nat.add_zero] at this
  simpa only [cur, if_true] using this

/-- After the last core the current buffer starts with the value. -/
theorem inv_last {e : Ev K U X} {ft : FT K U} (h : ft.WF) {x : List X} (hx : ft.cores.length ≤ x.length)
    {s0 s : Scr K} (hinv : EvInv e ft x s0 ft.cores.length s) :
    (cur ft.cores.length s).getD 0 0 = value e ft.cores x := by
  have := hinv.sum 1 h.rank_last
  rw [List.drop_of_length_le (by rw [mats_length hx])] at this
  simpa [chain] using this

end C3.Ft
