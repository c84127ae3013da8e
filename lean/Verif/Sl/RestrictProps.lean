/-
C101: updates of restricted sets of parameters.
-/
import Verif.Sl.RestrictModel
import Verif.Sl.Props

set_option linter.unusedSectionVars false

namespace C3.Sl

variable {K U : Type} [Field K] [DecidableEq K] {F : FTP K U} {r np : Nat → Nat}

/-! ### Specification -/

/-- The function in row `i` and column `j` of core `k` lies outside the leading block given by the
start ranks: `rs (k-1)` rows (all rows in the first core) and `rs k` columns. -/
def Outside (rs : Nat → Nat) (k i j : Nat) : Prop := (0 < k ∧ rs (k - 1) ≤ i) ∨ rs k ≤ j

instance (rs : Nat → Nat) (k i j : Nat) : Decidable (Outside rs k i j) := by
  unfold Outside; infer_instance

/-- The same for the functions counted over the first `k` cores. -/
def outU (r rs : Nat → Nat) : Nat → Nat → Bool
  | 0, _ => false
  | k + 1, u => if u < uo r k then outU r rs k u
      else decide (Outside rs k ((u - uo r k) % r k) ((u - uo r k) / r k))

/-- Number of parameters of the selected ones of the first `u` functions. -/
def cnt (np : Nat → Nat) (sel : Nat → Bool) (u : Nat) : Nat :=
  ∑ v ∈ Finset.range u, if sel v then np v else 0

theorem cnt_succ (sel : Nat → Bool) (u : Nat) :
    cnt np sel (u + 1) = cnt np sel u + if sel u then np u else 0 := by
  simp [cnt, Finset.sum_range_succ]

theorem cnt_mono (sel : Nat → Bool) {a b : Nat} (h : a ≤ b) : cnt np sel a ≤ cnt np sel b := by
  unfold cnt; exact Finset.sum_le_sum_of_subset (by simpa using h)

/-- Selected and not selected parameters together are all. -/
theorem cnt_add (sel : Nat → Bool) (u : Nat) :
    cnt np sel u + cnt np (fun v => !sel v) u = po np u := by
  rw [cnt, cnt, po, ← Finset.sum_add_distrib]
  refine Finset.sum_congr rfl (fun v _ => ?_)
  cases sel v <;> simp

theorem outU_at (r rs : Nat → Nat) {d k i j : Nat} (hk : k < d) (hi : i < r k)
    (hj : j < r (k + 1)) :
    outU r rs d (uo r k + (i + j * r k)) = decide (Outside rs k i j) := by
  have hlt := idx_lt hi hj
  induction d with
  | zero => omega
  | succ d ih =>
    rw [outU]
    by_cases hkd : k = d
    · subst hkd
      rw [if_neg (by omega), Nat.add_sub_cancel_left, Nat.add_mul_mod_self_right,
        Nat.mod_eq_of_lt hi, Nat.add_mul_div_right _ _ (by omega), Nat.div_eq_of_lt hi, Nat.zero_add]
    · have h1 := uo_mono r (show k + 1 ≤ d by omega)
      rw [uo_succ] at h1
      rw [if_pos (by omega)]
      exact ih (by omega)

/-! ### The loops -/

theorem overFuns_spec (hL : Lay F r np) {S : Type} {body : Nat → Nat → Nat → S → C S}
    (I : Nat → S → Prop) {s : S} (h0 : I 0 s)
    (hstep : ∀ k, k < F.dim → ∀ i, i < r k → ∀ j, j < r (k + 1) → ∀ s,
      I (uo r k + (i + j * r k)) s → ∃ s', body k i j s = .ok s' ∧
        I (uo r k + (i + j * r k) + 1) s') :
    ∃ s', overFuns F body s = .ok s' ∧ I (uo r F.dim) s' := by
  rw [overFuns]
  refine forN_spec (I := fun k s => I (uo r k) s) (by simpa [uo] using h0) ?_
  intro k hk s hs
  rw [rd_of_getElem? (hL.ranks (k + 1) (by omega)), bind_ok,
    rd_of_getElem? (hL.ranks k (by omega)), bind_ok]
  have := forN_spec (n := r (k + 1)) (s := s)
    (body := fun jj s => forN (r k) (fun ii s => body k ii jj s) s)
    (I := fun j s => I (uo r k + j * r k) s) (by simpa using hs) (by
      intro j hj s hs
      have := forN_spec (n := r k) (s := s) (body := fun ii s => body k ii j s)
        (I := fun i s => I (uo r k + (i + j * r k)) s) (by simpa using hs) (by
          intro i hi s hs
          obtain ⟨s', h1, h2⟩ := hstep k hk i hi j hj s hs
          exact ⟨s', h1, by rwa [show uo r k + (i + 1 + j * r k) = uo r k + (i + j * r k) + 1 by ring]⟩)
      obtain ⟨s', h1, h2⟩ := this
      exact ⟨s', h1, by rwa [show uo r k + (j + 1) * r k = uo r k + (r k + j * r k) by ring]⟩)
  obtain ⟨s', h1, h2⟩ := this
  exact ⟨s', h1, by rwa [uo_succ, Nat.mul_comm (r k)]⟩

theorem outside_ok {rankStart : List Nat} {d k : Nat} (hd : d ≤ rankStart.length) (hk : k < d)
    (i j : Nat) : outside rankStart k i j
      = .ok (decide (Outside (fun m => rankStart.getD m 0) k i j)) := by
  rw [outside]
  by_cases h0 : 0 < k
  · rw [if_pos h0, rd_getD 0 (by omega), bind_ok]
    by_cases h1 : rankStart.getD (k - 1) 0 ≤ i
    · rw [if_pos h1]
      congr 1
      exact (decide_eq_true (Or.inl ⟨h0, h1⟩)).symm
    · rw [if_neg h1, rd_getD 0 (by omega), bind_ok]
      congr 1
      refine decide_eq_decide.2 ?_
      unfold Outside
      constructor
      · exact Or.inr
      · rintro (h | h)
        · exact absurd h.2 h1
        · exact h
  · rw [if_neg h0, rd_getD 0 (by omega), bind_ok]
    congr 1
    refine decide_eq_decide.2 ?_
    unfold Outside
    constructor
    · exact Or.inr
    · rintro (h | h)
      · exact absurd h.1 h0
      · exact h

theorem inside_ok {rankStart : List Nat} {d k : Nat} (hd : d ≤ rankStart.length) (hk : k < d)
    (i j : Nat) : inside rankStart k i j
      = .ok (!decide (Outside (fun m => rankStart.getD m 0) k i j)) := by
  rw [inside, ← decide_not]
  by_cases h0 : 0 < k
  · rw [if_pos h0, rd_getD 0 (by omega), bind_ok]
    by_cases h1 : i < rankStart.getD (k - 1) 0
    · rw [if_pos h1, rd_getD 0 (by omega), bind_ok]
      congr 1
      refine decide_eq_decide.2 ?_
      unfold Outside
      dsimp only
      omega
    · rw [if_neg h1]
      congr 1
      refine (decide_eq_false ?_).symm
      unfold Outside
      dsimp only
      omega
  · rw [if_neg h0, rd_getD 0 (by omega), bind_ok]
    congr 1
    refine decide_eq_decide.2 ?_
    unfold Outside
    dsimp only
    omega

/-! ### Number of parameters -/

/-- The number of parameters outside the block. -/
theorem nparamsRestrict_ok (hL : Lay F r np) {rankStart : List Nat}
    (hd : F.dim ≤ rankStart.length) :
    nparamsRestrict F rankStart
      = .ok (cnt np (outU r (fun m => rankStart.getD m 0) F.dim) (uo r F.dim)) := by
  set sel := outU r (fun m => rankStart.getD m 0) F.dim with hsel
  obtain ⟨s, h1, h2, h3⟩ := overFuns_spec hL (s := ((0, 0) : Nat × Nat))
    (body := fun kk ii jj (s : Nat × Nat) => do
      let c ← outside rankStart kk ii jj
      if c then do
        let n ← rd F.npu s.2
        .ok (s.1 + n, s.2 + 1)
      else .ok (s.1, s.2 + 1))
    (fun u s => s.1 = cnt np sel u ∧ s.2 = u) ⟨rfl, rfl⟩ (by
      intro k hk i hi j hj s ⟨h1, h2⟩
      have hu : uo r k + (i + j * r k) < uo r F.dim := by
        have h1 := uo_mono r (show k + 1 ≤ F.dim from hk)
        have h2 := idx_lt hi hj
        rw [uo_succ] at h1
        omega
      rw [outside_ok hd hk, bind_ok, ← outU_at r _ hk hi hj, ← hsel]
      by_cases hc : sel (uo r k + (i + j * r k)) = true
      · refine ⟨(s.1 + np (uo r k + (i + j * r k)), s.2 + 1), ?_, ?_, by dsimp only; rw [h2]⟩
        · rw [if_pos hc, h2, rd_of_getElem? (hL.npu _ hu), bind_ok]
        · dsimp only
          rw [cnt_succ, if_pos hc, h1]
      · refine ⟨(s.1, s.2 + 1), ?_, ?_, by dsimp only; rw [h2]⟩
        · rw [if_neg hc]
        · dsimp only
          rw [cnt_succ, if_neg hc, h1, Nat.add_zero])
  rw [nparamsRestrict, h1, bind_ok, h2]

/-! ### Updates -/

/-- State after the first `u` functions. -/
structure ResI (np : Nat → Nat) (sel : Nat → Bool) (old new : List K) (u : Nat) (s : Rs K) : Prop where
  ind : s.ind = u
  onGen : s.onGen = po np u
  onNew : s.onNew = cnt np sel u
  len : s.params.length = old.length
  done : ∀ v, v < u → ∀ l, l < np v → s.params[po np v + l]?
    = if sel v then new[cnt np sel v + l]? else old[po np v + l]?
  rest : ∀ q, po np u ≤ q → s.params[q]? = old[q]?

theorem updWhere_ok (hL : Lay F r np) {test : Nat → Nat → Nat → C Bool} {sel : Nat → Bool}
    (htest : ∀ k, k < F.dim → ∀ i, i < r k → ∀ j, j < r (k + 1) →
      test k i j = .ok (sel (uo r k + (i + j * r k)))) {new : List K}
    (hnew : cnt np sel (uo r F.dim) ≤ new.length) (hp : F.nparams ≤ F.params.length) :
    ∃ q, updWhere test F new = .ok { F with params := q } ∧ q.length = F.params.length ∧
      (∀ u, u < uo r F.dim → ∀ l, l < np u → q[po np u + l]?
        = if sel u then new[cnt np sel u + l]? else F.params[po np u + l]?) ∧
      ∀ x, F.nparams ≤ x → q[x]? = F.params[x]? := by
  obtain ⟨s, hs, hI⟩ := overFuns_spec hL (s := (⟨F.params, 0, 0, 0⟩ : Rs K))
    (body := fun kk ii jj (s : Rs K) => do
      let n ← rd F.npu s.ind
      let s ← forN n (fun _ s => do
        let c ← test kk ii jj
        updOne new c s) s
      .ok { s with ind := s.ind + 1 })
    (fun u s => ResI np sel F.params new u s)
    ⟨rfl, rfl, rfl, rfl, fun _ h => absurd h (by omega), fun _ _ => rfl⟩ (by
      intro k hk i hi j hj s hI
      set u := uo r k + (i + j * r k) with hu
      have hul : u < uo r F.dim := by
        have h1 := uo_mono r (show k + 1 ≤ F.dim from hk)
        have h2 := idx_lt hi hj
        rw [uo_succ] at h1
        omega
      have hpu := po_mono np (show u + 1 ≤ uo r F.dim from hul)
      have hcu := cnt_mono (np := np) sel (show u + 1 ≤ uo r F.dim from hul)
      rw [po_succ, ← hL.nparams] at hpu
      rw [cnt_succ] at hcu
      rw [hI.ind, rd_of_getElem? (hL.npu _ hul), bind_ok]
      obtain ⟨t, ht, t1, t2, t3, t4, t5, t6, t7⟩ := forN_spec (n := np u) (s := s)
        (body := fun _ s => do
          let c ← test k i j
          updOne new c s)
        (I := fun n (t : Rs K) => t.ind = u ∧ t.onGen = po np u + n ∧
          t.onNew = cnt np sel u + (if sel u then n else 0) ∧ t.params.length = F.params.length ∧
          (∀ v, v < u → ∀ l, l < np v → t.params[po np v + l]?
            = if sel v then new[cnt np sel v + l]? else F.params[po np v + l]?) ∧
          (∀ l, l < n → t.params[po np u + l]?
            = if sel u then new[cnt np sel u + l]? else F.params[po np u + l]?) ∧
          ∀ q, po np u + n ≤ q → t.params[q]? = F.params[q]?)
        ⟨hI.ind, by rw [hI.onGen]; rfl, by rw [hI.onNew]; simp, hI.len, hI.done,
          fun _ h => absurd h (by omega), fun q hq => hI.rest q (by omega)⟩ (by
          intro n hn t ⟨a1, a2, a3, a4, a5, a6, a7⟩
          rw [htest k hk i hi j hj, bind_ok, ← hu, updOne]
          by_cases hc : sel u = true
          · rw [if_pos hc] at a3 hcu
            rw [if_pos hc, a3, a2]
            refine ⟨{ params := t.params.set (po np u + n) new[cnt np sel u + n],
                      onNew := cnt np sel u + n + 1, onGen := po np u + n + 1, ind := t.ind }, ?_,
              a1, rfl, by dsimp only; rw [if_pos hc]; omega, by simpa using a4, ?_, ?_, ?_⟩
            · rw [rd_ok (by omega), bind_ok, wr_ok _ (by omega), bind_ok]
            · intro v hv l hl
              have h1 := po_mono np (show v + 1 ≤ u from hv)
              rw [po_succ] at h1
              dsimp only
              rw [List.getElem?_set_ne (by omega)]
              exact a5 v hv l hl
            · intro l hl
              dsimp only
              by_cases hln : l = n
              · subst hln
                rw [List.getElem?_set_self (by omega), if_pos hc,
                  List.getElem?_eq_getElem (by omega)]
              · rw [List.getElem?_set_ne (by omega)]
                exact a6 l (by omega)
            · intro q hq
              dsimp only
              rw [List.getElem?_set_ne (by omega)]
              exact a7 q (by omega)
          · rw [if_neg hc]
            rw [if_neg hc] at a3
            refine ⟨{ t with onGen := t.onGen + 1 }, rfl, a1, by dsimp only; omega,
              by dsimp only; rw [if_neg hc]; omega, a4, a5, ?_, fun q hq => a7 q (by omega)⟩
            intro l hl
            by_cases hln : l = n
            · subst hln
              rw [if_neg hc]
              exact a7 _ (by omega)
            · exact a6 l (by omega))
      refine ⟨{ t with ind := t.ind + 1 }, by rw [ht, bind_ok], by dsimp only; rw [t1],
        by dsimp only; rw [t2, po_succ], by dsimp only; rw [t3, cnt_succ], t4, ?_, ?_⟩
      · intro v hv l hl
        by_cases hvu : v = u
        · subst hvu; exact t6 l hl
        · exact t5 v (by omega) l hl
      · intro q hq
        rw [po_succ] at hq
        exact t7 q hq)
  refine ⟨s.params, by rw [updWhere, hs, bind_ok], hI.len, hI.done, fun x hx => hI.rest x ?_⟩
  rw [← hL.nparams]; exact hx

/-- Updating the functions outside the block: their parameters are taken from the list in order, all
other parameters stay. -/
theorem updOutside_ok (hL : Lay F r np) {rankStart : List Nat} (hd : F.dim ≤ rankStart.length)
    {new : List K}
    (hnew : cnt np (outU r (fun m => rankStart.getD m 0) F.dim) (uo r F.dim) ≤ new.length)
    (hp : F.nparams ≤ F.params.length) :
    ∃ q, updOutside F new rankStart = .ok { F with params := q } ∧ q.length = F.params.length ∧
      (∀ u, u < uo r F.dim → ∀ l, l < np u → q[po np u + l]?
        = if outU r (fun m => rankStart.getD m 0) F.dim u
          then new[cnt np (outU r (fun m => rankStart.getD m 0) F.dim) u + l]?
          else F.params[po np u + l]?) ∧
      ∀ x, F.nparams ≤ x → q[x]? = F.params[x]? :=
  updWhere_ok hL (fun k hk i hi j hj => by rw [outside_ok hd hk, outU_at r _ hk hi hj]) hnew hp

/-- Updating the functions inside the block. -/
theorem updInside_ok (hL : Lay F r np) {rankStart : List Nat} (hd : F.dim ≤ rankStart.length)
    {new : List K}
    (hnew : cnt np (fun u => !outU r (fun m => rankStart.getD m 0) F.dim u) (uo r F.dim)
      ≤ new.length)
    (hp : F.nparams ≤ F.params.length) :
    ∃ q, updInside F new rankStart = .ok { F with params := q } ∧ q.length = F.params.length ∧
      (∀ u, u < uo r F.dim → ∀ l, l < np u → q[po np u + l]?
        = if outU r (fun m => rankStart.getD m 0) F.dim u then F.params[po np u + l]?
          else new[cnt np (fun u => !outU r (fun m => rankStart.getD m 0) F.dim u) u + l]?) ∧
      ∀ x, F.nparams ≤ x → q[x]? = F.params[x]? := by
  obtain ⟨q, h1, h2, h3, h4⟩ := updWhere_ok hL (test := inside rankStart)
    (sel := fun u => !outU r (fun m => rankStart.getD m 0) F.dim u)
    (fun k hk i hi j hj => by rw [inside_ok hd hk, outU_at r _ hk hi hj]) hnew hp
  refine ⟨q, h1, h2, fun u hu l hl => ?_, h4⟩
  rw [h3 u hu l hl]
  cases outU r (fun m => rankStart.getD m 0) F.dim u <;> simp

/-! ### Enlarged trains -/

/-- A train with ranks `rr` and `np'` parameters per function sits in the leading blocks, given by the
start ranks `rs`, of a train with ranks `r` and `np` parameters per function. -/
structure Emb (d : Nat) (r rr rs np np' : Nat → Nat) : Prop where
  first : rr 0 = r 0
  start : ∀ k, k < d → rr (k + 1) = rs k
  le : ∀ k, k ≤ d → rr k ≤ r k
  np : ∀ k, k < d → ∀ i, i < rr k → ∀ j, j < rr (k + 1) →
    np' (uo rr k + (i + j * rr k)) = np (uo r k + (i + j * r k))

theorem Emb.inside {d : Nat} {r rr rs np np' : Nat → Nat} (h : Emb d r rr rs np np') {k i j : Nat}
    (hk : k < d) (hi : i < r k) : ¬ Outside rs k i j ↔ i < rr k ∧ j < rr (k + 1) := by
  have h1 := h.start k hk
  unfold Outside
  by_cases h0 : 0 < k
  · have h2 := h.start (k - 1) (by omega)
    rw [show k - 1 + 1 = k by omega] at h2
    omega
  · have h3 : k = 0 := by omega
    subst h3
    have h4 := h.first
    omega

/-- Parameters inside the blocks are counted as in the small train. -/
theorem cnt_emb {d : Nat} {r rr rs np np' : Nat → Nat} (h : Emb d r rr rs np np') :
    ∀ k, k ≤ d → (cnt np (fun u => !outU r rs d u) (uo r k) = po np' (uo rr k)) ∧
      (k < d → ∀ j, j ≤ r (k + 1) → ∀ i, i ≤ r k → (j = r (k + 1) → i = 0) →
        cnt np (fun u => !outU r rs d u) (uo r k + (i + j * r k))
          = if j < rr (k + 1) then po np' (uo rr k + (min i (rr k) + j * rr k))
            else po np' (uo rr k + rr (k + 1) * rr k)) := by
  have key : ∀ k, k < d → cnt np (fun u => !outU r rs d u) (uo r k) = po np' (uo rr k) →
      ∀ j, j ≤ r (k + 1) → ∀ i, i ≤ r k → (j = r (k + 1) → i = 0) →
        cnt np (fun u => !outU r rs d u) (uo r k + (i + j * r k))
          = if j < rr (k + 1) then po np' (uo rr k + (min i (rr k) + j * rr k))
            else po np' (uo rr k + rr (k + 1) * rr k) := by
    intro k hk h0 j
    have hle := h.le k (by omega)
    have hle1 := h.le (k + 1) (by omega)
    have rowStep : ∀ j, j < r (k + 1) →
        (cnt np (fun u => !outU r rs d u) (uo r k + j * r k)
          = if j < rr (k + 1) then po np' (uo rr k + j * rr k)
            else po np' (uo rr k + rr (k + 1) * rr k)) →
        ∀ i, i ≤ r k → cnt np (fun u => !outU r rs d u) (uo r k + (i + j * r k))
          = if j < rr (k + 1) then po np' (uo rr k + (min i (rr k) + j * rr k))
            else po np' (uo rr k + rr (k + 1) * rr k) := by
      intro j hj hstart i
      induction i with
      | zero => intro _; simpa using hstart
      | succ i ih =>
        intro hi
        have hin := h.inside (j := j) hk (show i < r k by omega)
        rw [show uo r k + (i + 1 + j * r k) = uo r k + (i + j * r k) + 1 by ring, cnt_succ,
          ih (by omega), outU_at r rs hk (show i < r k by omega) hj, ← decide_not]
        by_cases hj' : j < rr (k + 1)
        · rw [if_pos hj', if_pos hj']
          by_cases hi' : i < rr k
          · rw [if_pos (decide_eq_true (hin.2 ⟨hi', hj'⟩)), min_eq_left (by omega), min_eq_left (by omega),
              show uo rr k + (i + 1 + j * rr k) = uo rr k + (i + j * rr k) + 1 by ring, po_succ,
              h.np k hk i hi' j hj']
          · rw [if_neg (fun hc => hi' (hin.1 (of_decide_eq_true hc)).1), min_eq_right (by omega),
              min_eq_right (by omega), Nat.add_zero]
        · rw [if_neg hj', if_neg hj', if_neg (fun hc => hj' (hin.1 (of_decide_eq_true hc)).2), Nat.add_zero]
    have colStep : ∀ j, j ≤ r (k + 1) → cnt np (fun u => !outU r rs d u) (uo r k + j * r k)
        = if j < rr (k + 1) then po np' (uo rr k + j * rr k)
            else po np' (uo rr k + rr (k + 1) * rr k) := by
      intro j
      induction j with
      | zero =>
        intro _
        rw [Nat.zero_mul, Nat.zero_mul, Nat.add_zero, Nat.add_zero, h0]
        by_cases hz : 0 < rr (k + 1)
        · rw [if_pos hz, Nat.add_zero]
        · rw [if_neg hz, show rr (k + 1) = 0 by omega, Nat.zero_mul, Nat.add_zero]
      | succ j ih =>
        intro hj
        have := rowStep j (by omega) (ih (by omega)) (r k) le_rfl
        rw [show uo r k + (r k + j * r k) = uo r k + (j + 1) * r k by ring] at this
        rw [this, min_eq_right hle, show rr k + j * rr k = (j + 1) * rr k by ring]
        by_cases h1 : j < rr (k + 1)
        · rw [if_pos h1]
          by_cases h2 : j + 1 < rr (k + 1)
          · rw [if_pos h2]
          · rw [if_neg h2, show rr (k + 1) = j + 1 by omega]
        · rw [if_neg h1, if_neg (by omega)]
    intro hj i hi hij
    by_cases hlt : j < r (k + 1)
    · exact rowStep j hlt (colStep j hj) i hi
    · have hi0 := hij (by omega)
      subst hi0
      have := colStep j hj
      simpa using this
  intro k
  induction k with
  | zero =>
    intro _
    have h0 : cnt np (fun u => !outU r rs d u) (uo r 0) = po np' (uo rr 0) := by
      simp [uo, cnt, po]
    exact ⟨h0, fun hk => key 0 hk h0⟩
  | succ k ih =>
    intro hk
    have h1 := (ih (by omega)).2 (by omega) (r (k + 1)) le_rfl 0 (by omega) (fun _ => rfl)
    have hle := h.le (k + 1) hk
    have h2 : cnt np (fun u => !outU r rs d u) (uo r (k + 1)) = po np' (uo rr (k + 1)) := by
      rw [uo_succ, uo_succ, Nat.mul_comm (r k), Nat.mul_comm (rr k)]
      rw [if_neg (by omega), Nat.zero_add] at h1
      exact h1
    exact ⟨h2, fun hk' => key (k + 1) hk' h2⟩

theorem cnt_all_le (sel : Nat → Bool) (u : Nat) : cnt np sel u ≤ po np u := by
  have := cnt_add (np := np) sel u
  omega

/-- Enlarging a train: the functions of the small train keep their parameters, all others get `v`. -/
theorem kickParams_ok (hL : Lay F r np) {rankStart : List Nat} (hd : F.dim ≤ rankStart.length)
    {rr np' : Nat → Nat} (he : Emb F.dim r rr (fun m => rankStart.getD m 0) np np')
    {rounded : List K} (hr : po np' (uo rr F.dim) ≤ rounded.length)
    (hp : F.nparams ≤ F.params.length) (v : K) :
    ∃ q, kickParams v F rounded rankStart = .ok { F with params := q } ∧
      q.length = F.params.length ∧
      ∀ k, k < F.dim → ∀ i, i < r k → ∀ j, j < r (k + 1) →
        ∀ l, l < np (uo r k + (i + j * r k)) →
        q[po np (uo r k + (i + j * r k)) + l]?
          = if i < rr k ∧ j < rr (k + 1) then rounded[po np' (uo rr k + (i + j * rr k)) + l]?
            else some v := by
  have hc := cnt_emb he
  obtain ⟨q1, a1, a2, a3, _⟩ := updInside_ok hL hd (new := rounded)
    (by rw [(hc F.dim le_rfl).1]; exact hr) hp
  have hL' : Lay { F with params := q1 } r np :=
    ⟨hL.dim_pos, hL.ranks, hL.npu, hL.npc, hL.first, hL.last, hL.nparams⟩
  have hn := nparamsRestrict_ok hL' (rankStart := rankStart) hd
  obtain ⟨q2, b1, b2, b3, _⟩ := updOutside_ok hL' (rankStart := rankStart) hd
    (new := List.replicate (cnt np (outU r (fun m => rankStart.getD m 0) F.dim) (uo r F.dim)) v)
    (by rw [List.length_replicate]) (by dsimp only; omega)
  refine ⟨q2, ?_, by rw [b2]; exact a2, ?_⟩
  · rw [kickParams, a1, bind_ok, hn, bind_ok]
    dsimp only
    rw [b1]
  · intro k hk i hi j hj l hl
    have hu : uo r k + (i + j * r k) < uo r F.dim := by
      have h1 := uo_mono r (show k + 1 ≤ F.dim from hk)
      have h2 := idx_lt hi hj
      rw [uo_succ] at h1
      omega
    have hin := he.inside (j := j) hk hi
    have h3 := b3 _ hu l hl
    have h4 := a3 _ hu l hl
    dsimp only at h3
    rw [h3]
    rw [outU_at r _ hk hi hj] at h4 ⊢
    by_cases hc' : i < rr k ∧ j < rr (k + 1)
    · have hno := hin.2 hc'
      rw [decide_eq_false hno, if_neg (by simp)] at h4
      rw [decide_eq_false hno, if_neg (by simp), h4, if_pos hc',
        (hc k (by omega)).2 hk j (by omega) i (by omega) (by omega), if_pos hc'.2,
        min_eq_left (by omega)]
    · have hyes : Outside (fun m => rankStart.getD m 0) k i j := by
        by_contra hcon
        exact hc' (hin.1 hcon)
      have hlt : cnt np (outU r (fun m => rankStart.getD m 0) F.dim) (uo r k + (i + j * r k)) + l
          < cnt np (outU r (fun m => rankStart.getD m 0) F.dim) (uo r F.dim) := by
        have h5 := cnt_mono (np := np) (outU r (fun m => rankStart.getD m 0) F.dim)
          (show uo r k + (i + j * r k) + 1 ≤ uo r F.dim from hu)
        rw [cnt_succ, outU_at r _ hk hi hj, decide_eq_true hyes, if_pos rfl] at h5
        omega
      rw [decide_eq_true hyes, if_pos rfl, if_neg hc', List.getElem?_replicate, if_pos hlt]

/-! ### The rank adaptation -/

/-- Raising the ranks: every interior rank that survived rounding is raised by `kick`, at most to
`maxrank`, and recorded as start rank; the start ranks of the others and the last entry stay. -/
theorem kickRanks_ok {dim maxrank kick : Nat} {rounded ranks rs : List Nat}
    (hro : dim ≤ rounded.length) (hra : dim ≤ ranks.length) (hrs : dim ≤ rs.length) (hd : 0 < dim) :
    ∃ s, kickRanks dim maxrank kick rounded ranks rs = .ok s ∧ s.1.length = ranks.length ∧
      s.2.1.length = rs.length ∧
      (∀ k, s.1[k]? = if 0 < k ∧ k < dim ∧ rounded.getD k 0 = ranks.getD k 0
        then some (min (ranks.getD k 0 + kick) maxrank) else ranks[k]?) ∧
      (∀ k, s.2.1[k]? = if k + 1 < dim ∧ rounded.getD (k + 1) 0 = ranks.getD (k + 1) 0
        then some (ranks.getD (k + 1) 0) else rs[k]?) ∧
      (s.2.2 = true ↔ ∃ k, 0 < k ∧ k < dim ∧ rounded.getD k 0 = ranks.getD k 0) := by
  obtain ⟨s, h1, h2, h3, h4, h5, h6⟩ := forR_spec (a := 1) (b := dim) (s := (ranks, rs, false))
    (body := kickOne maxrank kick rounded)
    (I := fun n (s : List Nat × List Nat × Bool) => s.1.length = ranks.length ∧
      s.2.1.length = rs.length ∧
      (∀ k, s.1[k]? = if 0 < k ∧ k < n ∧ rounded.getD k 0 = ranks.getD k 0
        then some (min (ranks.getD k 0 + kick) maxrank) else ranks[k]?) ∧
      (∀ k, s.2.1[k]? = if k + 1 < n ∧ rounded.getD (k + 1) 0 = ranks.getD (k + 1) 0
        then some (ranks.getD (k + 1) 0) else rs[k]?) ∧
      (s.2.2 = true ↔ ∃ k, 0 < k ∧ k < n ∧ rounded.getD k 0 = ranks.getD k 0)) hd
    ⟨rfl, rfl, fun k => by rw [if_neg (by omega)], fun k => by rw [if_neg (by omega)], by
      constructor
      · intro h; exact absurd h (by simp)
      · rintro ⟨k, h1, h2, _⟩; omega⟩ (by
      intro n hn1 hnd s ⟨a1, a2, a3, a4, a5⟩
      have hrn : rd s.1 n = .ok (ranks.getD n 0) := by
        have := a3 n
        rw [if_neg (by omega)] at this
        rw [rd_of_getElem? (this.trans (List.getElem?_eq_getElem (show n < ranks.length by omega)))]
        simp [show n < ranks.length by omega]
      rw [kickOne, rd_getD 0 (show n < rounded.length by omega), bind_ok, hrn, bind_ok]
      have hmin : (if maxrank < ranks.getD n 0 + kick then maxrank else ranks.getD n 0 + kick)
          = min (ranks.getD n 0 + kick) maxrank := by
        by_cases hm : maxrank < ranks.getD n 0 + kick
        · rw [if_pos hm, min_eq_right (by omega)]
        · rw [if_neg hm, min_eq_left (by omega)]
      by_cases he : rounded.getD n 0 = ranks.getD n 0
      · rw [if_pos he, wr_ok _ (by omega), bind_ok, wr_ok _ (by omega), bind_ok]
        refine ⟨_, rfl, by simpa using a1, by simpa using a2, ?_, ?_, ?_⟩
        · intro k
          dsimp only
          by_cases hk : k = n
          · subst hk
            rw [List.getElem?_set_self (by omega), hmin, if_pos ⟨by omega, by omega, he⟩]
          · rw [List.getElem?_set_ne (by omega), a3 k]
            by_cases hc : 0 < k ∧ k < n ∧ rounded.getD k 0 = ranks.getD k 0
            · rw [if_pos hc, if_pos ⟨hc.1, by omega, hc.2.2⟩]
            · rw [if_neg hc, if_neg (by rintro ⟨x1, x2, x3⟩; exact hc ⟨x1, by omega, x3⟩)]
        · intro k
          dsimp only
          by_cases hk : k = n - 1
          · subst hk
            rw [List.getElem?_set_self (by omega), show n - 1 + 1 = n by omega,
              if_pos ⟨by omega, he⟩]
          · rw [List.getElem?_set_ne (by omega), a4 k]
            by_cases hc : k + 1 < n ∧ rounded.getD (k + 1) 0 = ranks.getD (k + 1) 0
            · rw [if_pos hc, if_pos ⟨by omega, hc.2⟩]
            · rw [if_neg hc, if_neg (by rintro ⟨x1, x2⟩; exact hc ⟨by omega, x2⟩)]
        · exact ⟨fun _ => ⟨n, by omega, by omega, he⟩, fun _ => rfl⟩
      · rw [if_neg he]
        refine ⟨s, rfl, a1, a2, ?_, ?_, ?_⟩
        · intro k
          rw [a3 k]
          by_cases hk : k = n
          · subst hk
            rw [if_neg (by omega), if_neg (by rintro ⟨_, _, h⟩; exact he h)]
          · by_cases hc : 0 < k ∧ k < n ∧ rounded.getD k 0 = ranks.getD k 0
            · rw [if_pos hc, if_pos ⟨hc.1, by omega, hc.2.2⟩]
            · rw [if_neg hc, if_neg (by rintro ⟨x1, x2, x3⟩; exact hc ⟨x1, by omega, x3⟩)]
        · intro k
          rw [a4 k]
          by_cases hk : k + 1 = n
          · subst hk
            rw [if_neg (by omega), if_neg (by rintro ⟨_, h⟩; exact he h)]
          · by_cases hc : k + 1 < n ∧ rounded.getD (k + 1) 0 = ranks.getD (k + 1) 0
            · rw [if_pos hc, if_pos ⟨by omega, hc.2⟩]
            · rw [if_neg hc, if_neg (by rintro ⟨x1, x2⟩; exact hc ⟨by omega, x2⟩)]
        · rw [a5]
          constructor
          · rintro ⟨k, x1, x2, x3⟩; exact ⟨k, x1, by omega, x3⟩
          · rintro ⟨k, x1, x2, x3⟩
            by_cases hk : k = n
            · subst hk; exact absurd x3 he
            · exact ⟨k, x1, by omega, x3⟩)
  exact ⟨s, by rw [kickRanks, h1], h2, h3, h4, h5, h6⟩

/-- The rank adaptation never sets the start rank of the columns of the last core; it is zero from
the allocation of the options.  So every function of the last core counts as new: the parameters of
the rounded train are not used there, all of them become `v` (1e-4), whatever the ranks. -/
theorem kick_last_core_actual (hL : Lay F r np) {rankStart : List Nat}
    (hd : F.dim ≤ rankStart.length) (hzero : rankStart.getD (F.dim - 1) 0 = 0) {rounded : List K}
    (hr : F.nparams ≤ rounded.length) (hp : F.nparams ≤ F.params.length) (v : K) :
    ∃ q, kickParams v F rounded rankStart = .ok { F with params := q } ∧
      ∀ i, i < r (F.dim - 1) → ∀ l, l < np (uo r (F.dim - 1) + i) →
        q[po np (uo r (F.dim - 1) + i) + l]? = some v := by
  have hdim := hL.dim_pos
  obtain ⟨q1, a1, a2, a3, _⟩ := updInside_ok hL hd (new := rounded)
    (le_trans (cnt_all_le _ _) (by rw [← hL.nparams]; exact hr)) hp
  have hL' : Lay { F with params := q1 } r np :=
    ⟨hL.dim_pos, hL.ranks, hL.npu, hL.npc, hL.first, hL.last, hL.nparams⟩
  have hn := nparamsRestrict_ok hL' (rankStart := rankStart) hd
  obtain ⟨q2, b1, b2, b3, _⟩ := updOutside_ok hL' (rankStart := rankStart) hd
    (new := List.replicate (cnt np (outU r (fun m => rankStart.getD m 0) F.dim) (uo r F.dim)) v)
    (by rw [List.length_replicate]) (by dsimp only; omega)
  refine ⟨q2, ?_, ?_⟩
  · rw [kickParams, a1, bind_ok, hn, bind_ok]
    dsimp only
    rw [b1]
  · intro i hi l hl
    have hj : 0 < r (F.dim - 1 + 1) := by
      rw [show F.dim - 1 + 1 = F.dim by omega, hL.last]; omega
    have hu : uo r (F.dim - 1) + (i + 0 * r (F.dim - 1)) < uo r F.dim := by
      have h1 := uo_succ r (F.dim - 1)
      have h2 := idx_lt hi hj
      rw [show F.dim - 1 + 1 = F.dim by omega] at h1 h2
      omega
    have hyes : Outside (fun m => rankStart.getD m 0) (F.dim - 1) i 0 :=
      Or.inr (by dsimp only; omega)
    have hsel := outU_at r (fun m => rankStart.getD m 0) (show F.dim - 1 < F.dim by omega) hi hj
    rw [decide_eq_true hyes] at hsel
    have h3 := b3 _ hu l (by rwa [Nat.zero_mul, Nat.add_zero])
    have h5 := cnt_mono (np := np) (outU r (fun m => rankStart.getD m 0) F.dim)
      (show uo r (F.dim - 1) + (i + 0 * r (F.dim - 1)) + 1 ≤ uo r F.dim from hu)
    rw [cnt_succ] at h5
    dsimp only at h3
    rw [hsel, if_pos rfl] at h3 h5
    rw [Nat.zero_mul, Nat.add_zero] at h3 h5
    rw [h3, List.getElem?_replicate, if_pos (by omega)]

/-- **Counterexample.** Two variables, all ranks one, one parameter per function: after one round of
the rank adaptation (ranks survive rounding and are raised to 2) the train of ranks 1, 2, 1 should
contain the rounded train with parameters 5 and 7 in its leading blocks; the start ranks are `[1, 0]`
and the 7 is lost. -/
theorem kick_last_core_counterexample (v : ℚ) :
    kickRanks 2 10 1 [1, 1, 1] [1, 1, 1] [0, 0] = .ok ([1, 2, 1], [1, 0], true) ∧
    (kickParams v (⟨2, [1, 2, 1], [1, 1, 1, 1], [2, 2], 4, [0, 0, 0, 0], [[0, 1], [2, 3]]⟩ :
      FTP ℚ Nat) [5, 7] [1, 0]).map FTP.params = .ok [5, v, v, v] := by
  refine ⟨by decide, ?_⟩
  rfl

/-- With the last start rank equal to one the embedding is as intended. -/
example (v : ℝ) : ∃ q, kickParams v exF [1, 2, 3, 4] [1, 1] = .ok { exF with params := q } :=
  Exists.imp (fun _ h => h.1) <| kickParams_ok (rr := fun _ => 1) (np' := fun _ => 2) exF_lay
    (by simp [exF]) ⟨rfl, by
      intro k hk
      have : k < 2 := hk
      have : k = 0 ∨ k = 1 := by omega
      rcases this with rfl | rfl <;> rfl, by
      intro k hk; unfold exR; split <;> omega, fun _ _ _ _ _ _ => rfl⟩
    (by simp [exF, uo, po, Finset.sum_range_succ]) (by simp [exF]) v

end C3.Sl
