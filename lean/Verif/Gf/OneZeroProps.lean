/-
C142: functions with prescribed zeros and ones.
-/
import Verif.Gf.OneZero
import Verif.Lin.Props
import Verif.Mv.Lemmas
import Mathlib.Topology.Order.Compact
import Mathlib.Topology.Instances.Real.Lemmas
import Mathlib.Order.Interval.Set.Infinite
import Mathlib.Algebra.BigOperators.Group.List.Basic
import Mathlib.Tactic.Ring
import Mathlib.Tactic.Linarith
import Mathlib.Tactic.IntervalCases
import Mathlib.Tactic.NormNum

namespace C3.Gf

/-! ## The hat function -/

section Hat
variable {K : Type} [Field K] [LinearOrder K]

/-- The nodes in the order of the result: `p` zeros lie before `one`. -/
def ozN (one : K) (zeros : List K) (lb ub : K) (p nz i : Nat) : K :=
  if i = 0 then lb
  else if i ≤ p then zeros.getD (i - 1) 0
  else if i = p + 1 then one
  else if i ≤ nz + 1 then zeros.getD (i - 2) 0
  else ub

omit [LinearOrder K] in
theorem getD_el {l : List K} {i : Nat} (h : i < l.length) : l.getD i 0 = l[i] := by
  rw [List.getD_eq_getElem?_getD, List.getElem?_eq_getElem h]
  rfl

omit [Field K] in
theorem split_exists (one : K) : ∀ (nz : Nat) (z : Nat → K), (∀ i j, i < j → j < nz → z i < z j) →
    ∃ p, p ≤ nz ∧ ∀ i, i < nz → (z i < one ↔ i < p) := by
  intro nz
  induction nz with
  | zero => intro z _; exact ⟨0, le_rfl, fun i hi => absurd hi (by omega)⟩
  | succ n ih =>
    intro z hz
    obtain ⟨p, hp, h⟩ := ih z (fun i j hij hj => hz i j hij (by omega))
    by_cases hl : z n < one
    · refine ⟨n + 1, le_rfl, fun i hi => ⟨fun _ => hi, fun _ => ?_⟩⟩
      rcases Nat.lt_or_ge i n with hi' | hi'
      · exact (hz i n hi' (by omega)).trans hl
      · obtain rfl : i = n := by omega
        exact hl
    · refine ⟨p, by omega, fun i hi => ?_⟩
      rcases Nat.lt_or_ge i n with hi' | hi'
      · exact h i hi'
      · obtain rfl : i = n := by omega
        exact ⟨fun h' => absurd h' hl, fun h' => absurd h' (by omega)⟩

theorem onezero_shape {one lb ub : K} {zeros : List K} {nz p : Nat} (hl : zeros.length = nz) (hp : p ≤ nz)
    (hsp : ∀ i, i < nz → (zeros.getD i 0 < one ↔ i < p)) :
    ∃ nd, onezero one nz zeros lb ub = .ok ⟨nz + 3, nd, (List.replicate (nz + 3) 0).set (p + 1) 1⟩ ∧ nd.length = nz + 3 ∧
      ∀ i, i < nz + 3 → nd.getD i 0 = ozN one zeros lb ub p nz i := by
  set N := ozN one zeros lb ub p nz with hN
  have rd0 : ∀ i, i < nz → rd zeros i = .ok (zeros.getD i 0) := fun i hi => rd_getD 0 (by omega)
  have push : ∀ (nd : List K) (k : Nat) (v : K), nd.length = nz + 3 → k < nz + 3 → (∀ i, i < k → nd.getD i 0 = N i) → N k = v →
      wr nd k v = .ok (nd.set k v) ∧ (nd.set k v).length = nz + 3 ∧ ∀ i, i < k + 1 → (nd.set k v).getD i 0 = N i := by
    intro nd k v h1 h2 h3 h4
    refine ⟨wr_ok (a := nd) _ (by omega), by simpa using h1, fun i hi => ?_⟩
    by_cases hik : i = k
    · subst hik
      rw [List.getD_eq_getElem?_getD, List.getElem?_set_self (by omega), h4]
      rfl
    · rw [List.getD_eq_getElem?_getD, List.getElem?_set_ne (Ne.symm hik), ← List.getD_eq_getElem?_getD]
      exact h3 i (by omega)
  obtain ⟨s, h1, h2, h3, h4, h5, h6⟩ := forN_spec (body := ozStep one zeros)
    (I := fun k (s : OZ K) => s.nodes.length = nz + 3 ∧ s.ind = (if p < k then k + 2 else k + 1) ∧ s.alloc = decide (p < k) ∧
      s.coeff = (if p < k then (List.replicate (nz + 3) 0).set (p + 1) 1 else List.replicate (nz + 3) 0) ∧
      ∀ i, i < s.ind → s.nodes.getD i 0 = N i)
    (s := ⟨(List.replicate (nz + 3) 0).set 0 lb, List.replicate (nz + 3) 0, 1, false⟩) (n := nz)
    ⟨by simp, by simp, by simp, by simp, fun i hi => by
      obtain rfl : i = 0 := by simpa using hi
      rw [List.getD_eq_getElem?_getD, List.getElem?_set_self (by simp), hN]
      simp [ozN]⟩
    (by
      rintro k hk ⟨nd, cf, ind, al⟩ ⟨e1, e2, e3, e4, e5⟩
      dsimp only at e1 e2 e3 e4 e5
      simp only [ozStep]
      rw [rd0 k hk, bind_ok]
      by_cases hz : zeros.getD k 0 < one
      · have hkp := (hsp k hk).1 hz
        rw [if_neg (show ¬ p < k by omega)] at e2 e4
        subst e2
        obtain ⟨q1, q2, q3⟩ := push nd (k + 1) (zeros.getD k 0) e1 (by omega) e5
          (by rw [hN, ozN, if_neg (by omega), if_pos (by omega)]; rfl)
        refine ⟨⟨nd.set (k + 1) (zeros.getD k 0), cf, k + 1 + 1, al⟩, ?_, q2, ?_, ?_, ?_, q3⟩
        · rw [if_pos hz, q1, bind_ok]
        · rw [if_neg (show ¬ p < k + 1 by omega)]
        · rw [e3]; exact decide_eq_decide.2 (by omega)
        · rw [if_neg (show ¬ p < k + 1 by omega)]; exact e4
      · have hkp : ¬ k < p := fun h => hz ((hsp k hk).2 h)
        by_cases hpk : p = k
        · subst hpk
          rw [if_neg (show ¬ p < p by omega)] at e2 e4
          subst e2 e4
          obtain ⟨q1, q2, q3⟩ := push nd (p + 1) one e1 (by omega) e5
            (by rw [hN, ozN, if_neg (by omega), if_neg (by omega), if_pos rfl])
          obtain ⟨r1, r2, r3⟩ := push _ (p + 1 + 1) (zeros.getD p 0) q2 (by omega) q3
            (by rw [hN, ozN, if_neg (by omega), if_neg (by omega), if_neg (by omega), if_pos (by omega)]; rfl)
          refine ⟨⟨(nd.set (p + 1) one).set (p + 1 + 1) (zeros.getD p 0), (List.replicate (nz + 3) 0).set (p + 1) 1, p + 1 + 1 + 1, true⟩,
            ?_, r2, ?_, ?_, ?_, r3⟩
          · rw [if_neg hz, if_pos (by rw [e3]; simp), q1, bind_ok,
              wr_ok (a := List.replicate (nz + 3) (0 : K)) _ (by simp; omega), bind_ok, r1, bind_ok]
          · rw [if_pos (show p < p + 1 by omega)]
          · simp
          · rw [if_pos (show p < p + 1 by omega)]
        · rw [if_pos (show p < k by omega)] at e2 e4
          subst e2
          obtain ⟨q1, q2, q3⟩ := push nd (k + 2) (zeros.getD k 0) e1 (by omega) e5
            (by rw [hN, ozN, if_neg (by omega), if_neg (by omega), if_neg (by omega), if_pos (by omega)]; rfl)
          refine ⟨⟨nd.set (k + 2) (zeros.getD k 0), cf, k + 2 + 1, al⟩, ?_, q2, ?_, ?_, ?_, q3⟩
          · rw [if_neg hz, if_neg (by rw [e3]; simp; omega), q1, bind_ok]
          · rw [if_pos (show p < k + 1 by omega)]
          · rw [e3]; exact decide_eq_decide.2 (by omega)
          · rw [if_pos (show p < k + 1 by omega)]; exact e4)
  obtain ⟨nd, cf, ind, al⟩ := s
  dsimp only at h2 h3 h4 h5 h6
  have hlast : ∃ nd', ozLast one ⟨nd, cf, ind, al⟩ = .ok ⟨nd', (List.replicate (nz + 3) 0).set (p + 1) 1, nz + 2, al⟩ ∧
      nd'.length = nz + 3 ∧ ∀ i, i < nz + 2 → nd'.getD i 0 = N i := by
    by_cases hpn : p < nz
    · rw [if_pos hpn] at h3 h5
      subst h3 h5
      refine ⟨nd, ?_, h2, h6⟩
      simp only [ozLast]
      rw [if_neg (by rw [h4]; simp; omega)]
    · rw [if_neg hpn] at h3 h5
      subst h3 h5
      obtain rfl : p = nz := by omega
      obtain ⟨q1, q2, q3⟩ := push nd (p + 1) one h2 (by omega) h6
        (by rw [hN, ozN, if_neg (by omega), if_neg (by omega), if_pos rfl])
      refine ⟨_, ?_, q2, q3⟩
      simp only [ozLast]
      rw [if_pos (by rw [h4]; simp), q1, bind_ok, wr_ok (a := List.replicate (p + 3) (0 : K)) _ (by simp), bind_ok]
  obtain ⟨nd', k1, k2, k3⟩ := hlast
  obtain ⟨q1, q2, q3⟩ := push nd' (nz + 2) ub k2 (by omega) k3
    (by rw [hN, ozN, if_neg (by omega), if_neg (by omega), if_neg (by omega), if_neg (by omega)])
  refine ⟨nd'.set (nz + 2) ub, ?_, q2, q3⟩
  rw [onezero, wr_ok (a := List.replicate (nz + 3) (0 : K)) _ (by simp), bind_ok, h1, bind_ok, k1, bind_ok, cassert_of (by simp),
    bind_ok, q1, bind_ok]

variable [IsStrictOrderedRing K]

/-- **C142** (partial) The nodal function through a one and zeros given in increasing order strictly inside the domain, all points further
apart than the tolerance of the evaluation: the call succeeds, the domain is right, and the function is 1 at the one, 0 at every zero and at
both ends. Missing: zeros in any order (`hat_unsorted_counterexample`). -/
theorem hat_value_partial {one lb ub tol : K} {zeros : List K} (ht : 0 ≤ tol) (hs : zeros.Pairwise (· < ·))
    (hz : ∀ z ∈ zeros, lb < z ∧ z < ub) (ho : lb < one ∧ one < ub) (hne : one ∉ zeros)
    (hsep : ∀ u ∈ lb :: ub :: one :: zeros, ∀ v ∈ lb :: ub :: one :: zeros, u ≠ v → tol < |u - v|) :
    ∃ e, onezero one zeros.length zeros lb ub = .ok e ∧ e.WF ∧ e.num = zeros.length + 3 ∧ e.nd 0 = lb ∧ e.nd (e.num - 1) = ub ∧
      Lin.eval tol e one = .ok 1 ∧ (∀ z ∈ zeros, Lin.eval tol e z = .ok 0) ∧ Lin.eval tol e lb = .ok 0 ∧
      Lin.eval tol e ub = .ok 0 := by
  set nz := zeros.length with hnz
  have getm : ∀ i, i < nz → zeros.getD i 0 ∈ zeros := fun i hi => by
    rw [getD_el (by omega)]; exact List.getElem_mem _
  have inc : ∀ i j, i < j → j < nz → zeros.getD i 0 < zeros.getD j 0 := fun i j hij hj => by
    rw [getD_el (show i < zeros.length by omega), getD_el (show j < zeros.length by omega)]
    exact List.pairwise_iff_getElem.1 hs i j _ _ hij
  obtain ⟨p, hp, hsp⟩ := split_exists one nz (fun i => zeros.getD i 0) inc
  obtain ⟨nd, h1, h2, h3⟩ := onezero_shape (lb := lb) (ub := ub) hnz.symm hp hsp
  have ge : ∀ i, i < nz → ¬ i < p → one < zeros.getD i 0 := fun i hi h =>
    lt_of_le_of_ne (not_lt.1 fun h' => h ((hsp i hi).1 h')) fun h' => hne (h' ▸ getm i hi)
  have hinc : ∀ i, i + 1 < nz + 3 → ozN one zeros lb ub p nz i < ozN one zeros lb ub p nz (i + 1) := by
    intro i hi
    simp only [ozN]
    by_cases a0 : i = 0
    · subst a0
      rw [if_pos rfl, if_neg (by omega)]
      by_cases b1 : 0 + 1 ≤ p
      · rw [if_pos b1]; exact (hz _ (getm _ (by omega))).1
      · rw [if_neg b1, if_pos (by omega)]; exact ho.1
    rw [if_neg a0, if_neg (show ¬ i + 1 = 0 by omega)]
    by_cases a1 : i ≤ p
    · rw [if_pos a1]
      by_cases b1 : i + 1 ≤ p
      · rw [if_pos b1]; exact inc _ _ (by omega) (by omega)
      · rw [if_neg b1, if_pos (by omega)]; exact (hsp _ (by omega)).2 (by omega)
    rw [if_neg a1, if_neg (show ¬ i + 1 ≤ p by omega)]
    rw [if_neg (show ¬ i + 1 = p + 1 by omega)]
    by_cases a2 : i = p + 1
    · rw [if_pos a2]
      by_cases b1 : i + 1 ≤ nz + 1
      · rw [if_pos b1]; exact ge _ (by omega) (by omega)
      · rw [if_neg b1]; exact ho.2
    rw [if_neg a2, if_pos (show i ≤ nz + 1 by omega)]
    by_cases b1 : i + 1 ≤ nz + 1
    · rw [if_pos b1]; exact inc _ _ (by omega) (by omega)
    · rw [if_neg b1]; exact (hz _ (getm _ (by omega))).2
  set e : Lin.LE K := ⟨nz + 3, nd, (List.replicate (nz + 3) 0).set (p + 1) 1⟩ with he
  have hnd : ∀ i, i < nz + 3 → e.nd i = ozN one zeros lb ub p nz i := h3
  have wf : e.WF := ⟨h2, by simp [he], by simp [he], fun i hi => by
    have hi' : i + 1 < nz + 3 := hi
    rw [hnd i (by omega), hnd _ hi']; exact hinc i hi'⟩
  have memN : ∀ i, i < nz + 3 → ozN one zeros lb ub p nz i ∈ lb :: ub :: one :: zeros := by
    intro i hi
    simp only [ozN]
    split_ifs
    · simp
    · exact List.mem_cons_of_mem _ (List.mem_cons_of_mem _ (List.mem_cons_of_mem _ (getm (i - 1) (by omega))))
    · simp
    · exact List.mem_cons_of_mem _ (List.mem_cons_of_mem _ (List.mem_cons_of_mem _ (getm (i - 2) (by omega))))
    · simp
  have nodeval : ∀ k, k < nz + 3 → Lin.eval tol e (ozN one zeros lb ub p nz k) = .ok (e.cf k) := by
    intro k hk
    rw [← hnd k hk]
    refine Lin.eval_node wf ht hk fun j hj hjk => ?_
    have hj' : j < nz + 3 := hj
    by_contra hne'
    refine absurd hjk (not_le.2 ?_)
    rw [hnd k hk, hnd j hj']
    refine hsep _ (memN k hk) _ (memN j hj') fun h => ?_
    rw [← hnd k hk, ← hnd j hj'] at h
    rcases Nat.lt_or_gt_of_ne hne' with h' | h'
    · exact absurd h (wf.lt h' hk).ne'
    · exact absurd h (wf.lt h' hj).ne
  have cf0 : ∀ k, k < nz + 3 → k ≠ p + 1 → e.cf k = 0 := fun k hk h => by
    show ((List.replicate (nz + 3) (0 : K)).set (p + 1) 1).getD k 0 = 0
    rw [List.getD_eq_getElem?_getD, List.getElem?_set_ne (Ne.symm h)]
    simp [hk]
  have cf1 : e.cf (p + 1) = 1 := by
    show ((List.replicate (nz + 3) (0 : K)).set (p + 1) 1).getD (p + 1) 0 = 1
    rw [List.getD_eq_getElem?_getD, List.getElem?_set_self (by simp; omega)]
    rfl
  have n0 : ozN one zeros lb ub p nz 0 = lb := by simp [ozN]
  have nl : ozN one zeros lb ub p nz (nz + 2) = ub := by
    simp only [ozN]
    rw [if_neg (by omega), if_neg (by omega), if_neg (by omega), if_neg (by omega)]
  refine ⟨e, h1, wf, rfl, by rw [hnd 0 (by omega), n0], ?_, ?_, fun z hzm => ?_, ?_, ?_⟩
  · show e.nd (nz + 2) = ub
    rw [hnd _ (by omega), nl]
  · have := nodeval (p + 1) (by omega)
    rw [cf1] at this
    rwa [show ozN one zeros lb ub p nz (p + 1) = one by
      rw [ozN, if_neg (by omega), if_neg (by omega), if_pos rfl]] at this
  · obtain ⟨i, hi, rfl⟩ := List.getElem_of_mem hzm
    have hg : zeros.getD i 0 = zeros[i] := getD_el hi
    by_cases hip : i < p
    · have := nodeval (i + 1) (by omega)
      rw [cf0 _ (by omega) (by omega)] at this
      rwa [show ozN one zeros lb ub p nz (i + 1) = zeros[i] by
        simp only [ozN]; rw [if_neg (by omega), if_pos (by omega)]; exact hg] at this
    · have := nodeval (i + 2) (by omega)
      rw [cf0 _ (by omega) (by omega)] at this
      rwa [show ozN one zeros lb ub p nz (i + 2) = zeros[i] by
        simp only [ozN]
        rw [if_neg (by omega), if_neg (by omega), if_neg (by omega), if_pos (by omega)]; exact hg] at this
  · have := nodeval 0 (by omega)
    rwa [cf0 0 (by omega) (by omega), n0] at this
  · have := nodeval (nz + 2) (by omega)
    rwa [cf0 _ (by omega) (by omega), nl] at this

end Hat

/-! ## Columns with prescribed zeros -/

section Arr
variable {U : Type}

/-- The pivots before `k` that lie in function `i`. -/
def pivIn (piv : List Nat) (k i : Nat) : List Nat := (List.range k).filter fun j => decide (piv.getD j 0 = i)

theorem pivIn_succ (piv : List Nat) (k i : Nat) :
    pivIn piv (k + 1) i = pivIn piv k i ++ if piv.getD k 0 = i then [k] else [] := by
  rw [pivIn, List.range_succ, List.filter_append, pivIn]
  congr 1
  rw [List.filter_cons, List.filter_nil]
  by_cases h : piv.getD k 0 = i
  · rw [if_pos h, if_pos (decide_eq_true h)]
  · rw [if_neg h, if_neg (by simpa using h)]

theorem pivIn_le (piv : List Nat) {k m : Nat} (h : k ≤ m) (i : Nat) : (pivIn piv k i).length ≤ (pivIn piv m i).length := by
  obtain ⟨d, rfl⟩ := Nat.exists_eq_add_of_le h
  clear h
  induction d with
  | zero => exact le_rfl
  | succ d ih =>
    refine ih.trans ?_
    rw [show k + (d + 1) = k + d + 1 by omega, pivIn_succ, List.length_append]
    omega

theorem countPiv_ok {n upto : Nat} {piv : List Nat} (hl : upto ≤ piv.length) (hp : ∀ j < upto, piv.getD j 0 < n) :
    ∃ np, countPiv n upto piv = .ok np ∧ np.length = n ∧ ∀ i < n, np.getD i 0 = (pivIn piv upto i).length := by
  obtain ⟨np, h1, h2, h3⟩ := forN_spec (body := fun ii (np : List Nat) => (do
      let p ← rd piv ii
      let c ← rd np p
      wr np p (c + 1) : C (List Nat)))
    (I := fun k np => np.length = n ∧ ∀ i < n, np.getD i 0 = (pivIn piv k i).length) (s := List.replicate n 0) (n := upto)
    ⟨by simp, fun i hi => by simp [pivIn, hi]⟩
    (by
      rintro k hk np ⟨e1, e2⟩
      have hpk := hp k hk
      refine ⟨np.set (piv.getD k 0) (np.getD (piv.getD k 0) 0 + 1), ?_, by simpa using e1, fun i hi => ?_⟩
      · rw [rd_getD 0 (show k < piv.length by omega), bind_ok, rd_getD 0 (show piv.getD k 0 < np.length by omega), bind_ok]
        exact wr_ok (a := np) _ (by omega)
      · rw [pivIn_succ, List.length_append]
        by_cases h : piv.getD k 0 = i
        · subst h
          rw [List.getD_eq_getElem?_getD, List.getElem?_set_self (by omega), if_pos rfl, Option.getD_some, e2 _ hi]
          rfl
        · rw [List.getD_eq_getElem?_getD, List.getElem?_set_ne h, ← List.getD_eq_getElem?_getD, e2 i hi, if_neg h]
          rfl)
  exact ⟨np, h1, h2, h3⟩

theorem gatherPiv_ok {upto : Nat} {piv : List Nat} {px : List ℝ} (hl : upto ≤ piv.length) (hx : upto ≤ px.length) (ii : Nat) :
    gatherPiv upto piv px ii (pivIn piv upto ii).length =
      .ok ((pivIn piv upto ii).map (fun j => px.getD j 0), (pivIn piv upto ii).length) := by
  obtain ⟨s, h1, h2⟩ := forN_spec (body := fun jj (s : List ℝ × Nat) => (do
      let p ← rd piv jj
      if p = ii then do
        let v ← rd px jj
        let x ← wr s.1 s.2 v
        .ok (x, s.2 + 1)
      else .ok s : C (List ℝ × Nat)))
    (I := fun k s => s = ((pivIn piv k ii).map (fun j => px.getD j 0) ++
      List.replicate ((pivIn piv upto ii).length - (pivIn piv k ii).length) 0, (pivIn piv k ii).length))
    (s := (List.replicate (pivIn piv upto ii).length 0, 0)) (n := upto) (by simp [pivIn])
    (by
      rintro k hk s rfl
      dsimp only
      rw [rd_getD 0 (show k < piv.length by omega), bind_ok]
      have hle := pivIn_le piv (show k + 1 ≤ upto by omega) ii
      rw [pivIn_succ] at hle ⊢
      by_cases h : piv.getD k 0 = ii
      · rw [if_pos h] at hle ⊢
        rw [if_pos h]
        simp only [List.length_append, List.length_singleton] at hle ⊢
        refine ⟨_, ?_, rfl⟩
        rw [rd_getD 0 (show k < px.length by omega), bind_ok]
        have e : (pivIn piv upto ii).length - (pivIn piv k ii).length =
          ((pivIn piv upto ii).length - ((pivIn piv k ii).length + 1)) + 1 := by omega
        rw [e, List.replicate_succ, wr_ok (a := List.map (fun j => px.getD j 0) (pivIn piv k ii) ++ _ :: _) _ (by simp), bind_ok,
          List.set_append_right _ _ (by simp)]
        simp
      · rw [if_neg h] at hle ⊢
        rw [if_neg h]
        exact ⟨_, rfl, by simp⟩)
  rw [gatherPiv, h1, h2]
  simp

/-- **C142** The columns made for elimination: if every function made from zeros vanishes there and not everywhere, then after the call the
functions vanish at the pivots so far, the new pivot lies in the domain, its function is 1 there, and no function exceeds 1 in absolute
value anywhere. Pivots and locations before stay as they were. -/
theorem arrayOnezero_value {e : Ft.Ev ℝ U ℝ} {F : Ft.Fam U ℝ} {mk : List ℝ → C U} {am : U → C (ℝ × ℝ)} {o : Ft.Ops ℝ U} {k : Nat}
    (ham : Mv.AmLaw e F am) (hsc : Ft.ScaleLaw e o F)
    (hmk : ∀ zs : List ℝ, (∀ z ∈ zs, F.D k z) → ∃ f, mk zs = .ok f ∧ F.P k f ∧ (∀ z ∈ zs, e.ev f z = 0) ∧ ∃ x, F.D k x ∧ e.ev f x ≠ 0)
    {n upto : Nat} (hn : 0 < n) {piv : List Nat} {px : List ℝ} (hl : upto < piv.length) (hx : upto < px.length)
    (hp : ∀ j < upto, piv.getD j 0 < n) (hd : ∀ j < upto, F.D k (px.getD j 0)) :
    ∃ L i x, arrayOnezero mk am e.ev o.scale n upto piv px = .ok (L, piv.set upto i, px.set upto x) ∧ L.length = n ∧ i < n ∧ F.D k x ∧
      (∀ f ∈ L, F.P k f) ∧ (∀ f, L[i]? = some f → e.ev f x = 1) ∧ (∀ f ∈ L, ∀ y, F.D k y → |e.ev f y| ≤ 1) ∧
      ∀ j < upto, ∀ f, L[piv.getD j 0]? = some f → e.ev f (px.getD j 0) = 0 := by
  obtain ⟨np, c1, c2, c3⟩ := countPiv_ok (n := n) (show upto ≤ piv.length by omega) hp
  have hmk' : ∀ i, ∃ f, mk ((pivIn piv upto i).map (fun j => px.getD j 0)) = .ok f ∧ F.P k f ∧
      (∀ j < upto, piv.getD j 0 = i → e.ev f (px.getD j 0) = 0) ∧ ∃ x, F.D k x ∧ e.ev f x ≠ 0 := by
    intro i
    obtain ⟨f, h1, h2, h3, h4⟩ := hmk ((pivIn piv upto i).map (fun j => px.getD j 0)) (by
      intro z hz
      obtain ⟨j, hj, rfl⟩ := List.mem_map.1 hz
      exact hd j (by simp only [pivIn, List.mem_filter, List.mem_range] at hj; exact hj.1))
    refine ⟨f, h1, h2, fun j hj hji => h3 _ (List.mem_map.2 ⟨j, ?_, rfl⟩), h4⟩
    simp only [pivIn, List.mem_filter, List.mem_range]
    exact ⟨hj, by simpa using hji⟩
  choose g g1 g2 g3 g4 using hmk'
  have hL := Ft.collect_ok (n := n) (g := fun ii => (do
      let c ← rd np ii
      let x ← gatherPiv upto piv px ii c
      mk x.1 : C U)) g (fun i hi => by
    rw [rd_getD 0 (by omega), bind_ok, c3 i hi, gatherPiv_ok (by omega) (by omega), bind_ok]
    exact g1 i)
  set L0 := (List.range n).map g with hL0
  have getL : ∀ i, i < n → L0[i]? = some (g i) := fun i hi => by simp [hL0, hi]
  obtain ⟨m, f, m1, m2, m3, m4, m5, m6⟩ := Mv.arrAbsmax_ok ham (k := k) (fs := L0) hn (by simp [hL0]) (by
    intro f hf
    obtain ⟨i, _, rfl⟩ := List.mem_map.1 hf
    exact g2 i)
  have hfm : f = g m.ind := by
    rw [getL _ m2] at m3
    exact (Option.some.inj m3).symm
  have hv : e.ev f m.x ≠ 0 := by
    intro h0
    rw [h0, abs_zero] at m5
    obtain ⟨y, hy, hne⟩ := g4 m.ind
    have := m6 m.ind _ (getL _ m2) y hy
    rw [m5] at this
    exact hne (abs_nonpos_iff.1 this)
  have hs' : ∀ i, ∃ h, o.scale (1 / e.ev f m.x) (g i) = .ok h ∧ F.P k h ∧ ∀ x, F.D k x → e.ev h x = 1 / e.ev f m.x * e.ev (g i) x :=
    fun i => hsc k _ _ (g2 i)
  choose q q1 q2 q3 using hs'
  have hQ := Ft.collect_ok (n := n) (g := fun ii => (do
      let gg ← rd L0 ii
      o.scale (1 / e.ev f m.x) gg : C U)) q (fun i hi => by
    rw [rd_of_getElem? (getL i hi), bind_ok]
    exact q1 i)
  have getQ : ∀ i, i < n → ((List.range n).map q)[i]? = some (q i) := fun i hi => by simp [hi]
  refine ⟨(List.range n).map q, m.ind, m.x, ?_, by simp, m2, m4, ?_, ?_, ?_, ?_⟩
  · rw [arrayOnezero, c1, bind_ok, hL, bind_ok, m1, bind_ok, wr_ok (a := px) _ hx, bind_ok, wr_ok (a := piv) _ hl, bind_ok,
      rd_of_getElem? m3, bind_ok, if_neg hv, hQ, bind_ok]
  · intro h hh
    obtain ⟨i, _, rfl⟩ := List.mem_map.1 hh
    exact q2 i
  · intro h hh
    rw [getQ _ m2] at hh
    rw [← Option.some.inj hh, q3 _ _ m4, ← hfm, one_div, inv_mul_cancel₀ hv]
  · intro h hh y hy
    obtain ⟨i, hi, rfl⟩ := List.mem_map.1 hh
    rw [q3 _ _ hy, abs_mul, abs_div, abs_one, one_div, ← m5]
    have hpos : 0 < m.val := by rw [m5]; exact abs_pos.2 hv
    rw [inv_mul_le_iff₀ hpos, mul_one]
    exact m6 i _ (getL i (List.mem_range.1 hi)) y hy
  · intro j hj h hh
    rw [getQ _ (hp j hj)] at hh
    rw [← Option.some.inj hh, q3 _ _ (hd j hj), g3 _ j hj rfl, mul_zero]

end Arr

section ArrEx

/-- Continuous functions on `[0, 1]`; the product of the distances vanishes at given zeros only. -/
def cMk (zs : List ℝ) : C {f : ℝ → ℝ // Continuous f} :=
  .ok ⟨fun x => (zs.map (fun z => x - z)).prod, by
    induction zs with
    | nil => simpa using continuous_const
    | cons z zs ih =>
      simp only [List.map_cons, List.prod_cons]
      exact (continuous_id.sub continuous_const).mul ih⟩

theorem c_max (f : {f : ℝ → ℝ // Continuous f}) : ∃ x, x ∈ Set.Icc (0 : ℝ) 1 ∧ ∀ y ∈ Set.Icc (0 : ℝ) 1, |f.1 y| ≤ |f.1 x| := by
  obtain ⟨x, hx, h⟩ := isCompact_Icc.exists_isMaxOn ⟨(0 : ℝ), by norm_num, zero_le_one⟩ (f.2.abs.continuousOn (s := Set.Icc (0 : ℝ) 1))
  exact ⟨x, hx, fun y hy => h hy⟩

/-- Evaluation. -/
def cEv : Ft.Ev ℝ {f : ℝ → ℝ // Continuous f} ℝ := ⟨fun f x => f.1 x, fun _ => false⟩
/-- All continuous functions on `[0, 1]`. -/
def cFam : Ft.Fam {f : ℝ → ℝ // Continuous f} ℝ := ⟨fun _ _ => True, fun _ x => x ∈ Set.Icc (0 : ℝ) 1⟩
/-- Scaling. -/
def cOps : Ft.Ops ℝ {f : ℝ → ℝ // Continuous f} :=
  ⟨fun a f => .ok ⟨fun x => a * f.1 x, continuous_const.mul f.2⟩, fun f g => .ok ⟨fun x => f.1 x * g.1 x, f.2.mul g.2⟩⟩
/-- Largest absolute value. -/
noncomputable def cAm (f : {f : ℝ → ℝ // Continuous f}) : C (ℝ × ℝ) := .ok (|f.1 (c_max f).choose|, (c_max f).choose)

/-- Three functions, pivots in functions 0, 2 and 0 so far. -/
example : ∃ L i x, arrayOnezero cMk cAm cEv.ev cOps.scale 3 3 [0, 2, 0, 7] [0, 1 / 2, 1, 7] =
    .ok (L, [0, 2, 0, i], [0, 1 / 2, 1, x]) ∧ ∀ f, L[i]? = some f → f.1 x = 1 := by
  obtain ⟨L, i, x, h1, _, _, _, _, h2, _⟩ := arrayOnezero_value (e := cEv) (F := cFam) (mk := cMk) (am := cAm) (o := cOps) (k := 0)
    (fun _ f _ => ⟨_, rfl, (c_max f).choose_spec.1, rfl, fun x hx => (c_max f).choose_spec.2 x hx⟩)
    (fun _ _ _ _ => ⟨_, rfl, trivial, fun _ _ => rfl⟩)
    (fun zs _ => ⟨_, rfl, trivial, fun z hz => List.prod_eq_zero (List.mem_map.2 ⟨z, hz, sub_self z⟩), by
      obtain ⟨x, hx, hn⟩ := (Set.Icc_infinite (zero_lt_one (α := ℝ))).exists_notMem_finset zs.toFinset
      refine ⟨x, hx, fun h => ?_⟩
      obtain ⟨z, hz, e⟩ := List.mem_map.1 (List.prod_eq_zero_iff.1 h)
      exact hn (List.mem_toFinset.2 (by rw [sub_eq_zero.1 e]; exact hz))⟩)
    (n := 3) (upto := 3) (by norm_num) (piv := [0, 2, 0, 7]) (px := [0, 1 / 2, 1, 7]) (by simp) (by simp)
    (by intro j hj; interval_cases j <;> simp)
    (by intro j hj; interval_cases j <;> simp [cFam] <;> norm_num)
  exact ⟨L, i, x, h1, h2⟩

end ArrEx

/-- **C142** Zeros in another order (`generic_function_onezero`): the nodes are not sorted, and the function is 1/2 at a requested zero. -/
theorem hat_unsorted_counterexample :
    onezero (2 : ℚ) 2 [3, 1] 0 4 = .ok ⟨5, [0, 2, 3, 1, 4], [0, 1, 0, 0, 0]⟩ ∧
      Lin.eval (1 / 10 ^ 15 : ℚ) ⟨5, [0, 2, 3, 1, 4], [0, 1, 0, 0, 0]⟩ 1 = .ok (1 / 2) := by
  constructor <;> decide +kernel

example : ∃ e, onezero (2 : ℚ) 2 [1, 3] 0 4 = .ok e ∧ Lin.eval (1 / 10 ^ 15) e 2 = .ok 1 := by
  obtain ⟨e, h1, _, _, _, _, h2, _⟩ := hat_value_partial (one := (2 : ℚ)) (lb := 0) (ub := 4) (tol := 1 / 10 ^ 15) (zeros := [1, 3])
    (by norm_num) (by norm_num) (by norm_num) (by norm_num) (by norm_num) (by decide +kernel)
  exact ⟨e, h1, h2⟩

end C3.Gf
