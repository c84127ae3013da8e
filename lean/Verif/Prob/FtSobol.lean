/-
C79: the Sobol sensitivities of a train.
-/
import Verif.Prob.Calls
import Verif.Prob.Nonneg
import Mathlib.Data.Finset.Sort

set_option linter.unusedSectionVars false

namespace C3.Prob
open Finset
open C3.Ft
variable {K U X : Type} [Field K]

/-! ### The coordinates integrated away -/

theorem indContract_ok {dim : Nat} {L : List Nat} (hL : Lab dim L) : indContract dim L = .ok (remDims L dim) := by
  have hlen := remDims_length hL.sorted hL.lt
  obtain ⟨s, e, h1, h2⟩ := forN_spec (n := dim) (s := (List.replicate (dim - L.length) 0, 0))
    (body := fun ii (s : List Nat × Nat) => if ii ∈ L then (pure s : C _) else do
      let b ← wr s.1 s.2 ii
      pure (b, s.2 + 1))
    (I := fun m s => s.2 = (remDims L m).length ∧ s.1 = remDims L m ++ List.replicate (dim - L.length - (remDims L m).length) 0)
    ⟨rfl, by simp [remDims]⟩
    (by
      rintro ii hi ⟨b, c⟩ ⟨h1, h2⟩
      dsimp only at h1 h2 ⊢
      rw [remDims_succ]
      by_cases hm : ii ∈ L
      · rw [if_pos hm, if_pos hm, List.append_nil]
        exact ⟨_, rfl, h1, h2⟩
      · have hle := remDims_mono (dims := L) (n := ii + 1) (m := dim) hi
        rw [remDims_succ, if_neg hm, List.length_append, List.length_singleton, hlen] at hle
        obtain ⟨d, hd⟩ : ∃ d, dim - L.length - (remDims L ii).length = d + 1 := ⟨dim - L.length - (remDims L ii).length - 1, by omega⟩
        rw [if_neg hm, if_neg hm]
        have hw := wr_mid (remDims L ii) (List.replicate d 0) 0 ii
        rw [h2, hd, List.replicate_succ, h1, hw, bind_ok]
        refine ⟨_, rfl, by simp, ?_⟩
        rw [List.length_append, List.length_singleton]
        have : dim - L.length - ((remDims L ii).length + 1) = d := by omega
        rw [this, List.append_assoc, List.singleton_append])
  rw [indContract, e, bind_ok, h2, hlen, Nat.sub_self]
  simp

theorem remDims_eq {L : List Nat} {n : Nat} : remDims L n = remFrom (fun k => k ∈ L) 0 n := by
  rw [remDims, remFrom, List.range_eq_range']

theorem rem_rem {dim : Nat} {L : List Nat} (hL : Lab dim L) : remDims (remDims L dim) dim = L := by
  have h := remFrom_list hL.sorted hL.lt
  rw [remFrom, ← List.range_eq_range'] at h
  conv_rhs => rw [← h]
  rw [remDims]
  refine List.filter_congr fun x hx => ?_
  have : x < dim := List.mem_range.1 hx
  simp [remDims_mem, this]

theorem Lab.sortedFinset {dim : Nat} {w : Finset Nat} (hw : w ⊆ range dim) (hne : w ≠ ∅) : Lab dim (w.sort (· ≤ ·)) :=
  ⟨fun h => hne (by have := w.sort_toFinset (· ≤ ·); rw [h] at this; simpa using this.symm), w.sortedLT_sort.pairwise, fun x hx => mem_range.1 (hw ((mem_sort _).1 hx))⟩

theorem sort_toFinset_of {L : List Nat} (h : L.Pairwise (· < ·)) : L.toFinset.sort (· ≤ ·) = L := by
  exact (List.toFinset_sort (· ≤ ·) (h.imp fun h => Nat.ne_of_lt h)).2 (h.imp fun h => Nat.le_of_lt h)

variable {e : Ev K U X} {F : Fam U X} {I : Integ K X} {o : LOps K U} {int : U → C K} {inner : U → U → C K} {ft : FT K U}

/-- Standing assumptions on the univariate routines and the train. -/
structure SobHyp (e : Ev K U X) (F : Fam U X) (I : Integ K X) (o : LOps K U) (int : U → C K) (inner : U → U → C K) (ft : FT K U) : Prop where
  law : IntLaw F.D I
  lin : LinLaw e o F
  mem : MemLaw e F I
  mem2 : MemLaw2 e F I
  quad : QuadLaw e F I int
  inner : InnerLaw e F I inner
  ok : ft.Ok F

theorem ftVar_value {F : Fam U X} {I : Integ K X} (h : SobHyp e F I o int inner ft) : ftVar o int inner ft = .ok (fullVar I ft.dim (value e ft.cores)) := by
  rw [ftVar, integrate_value h.law h.mem h.quad h.ok, bind_ok, inner_value h.law h.lin h.mem2 h.inner h.ok h.ok rfl, bind_ok]
  rfl

theorem SobHyp.sub (h : SobHyp e F I o int inner ft) (l : List Nat) {g : FT K U} (hg : g.Ok (F.sub l)) : SobHyp e (F.sub l) (I.sub l) o int inner g where
  law := ⟨fun k => h.law.zero _, fun k => h.law.add _, fun k => h.law.smul _, fun k => h.law.congr _⟩
  lin := ⟨fun k => h.lin.scale _, fun k => h.lin.daxpby _, fun k => h.lin.lcPoly _⟩
  mem := fun k => h.mem _
  mem2 := fun k => h.mem2 _
  quad := fun k => h.quad _
  inner := fun k => h.inner _
  ok := hg

theorem iint_ext_len (I : Integ K X) : ∀ {n k : Nat} {g h : List X → K}, (∀ xs, xs.length = n → g xs = h xs) → iint I k n g = iint I k n h
  | 0, _, _, _, e => e [] rfl
  | n + 1, k, g, h, e => by
    rw [iint, iint]
    exact congrArg _ (funext fun x => iint_ext_len I fun xs hx => e (x :: xs) (by simp [hx]))

/-- With all coordinates given the conditional mean is the function. -/
theorem cint_none (I : Integ K X) {c : Nat → Prop} [DecidablePred c] : ∀ {n k : Nat} (g : List X → K) (ys : List X), (∀ j, k ≤ j → j < k + n → ¬ c j) → ys.length = n →
    cint I c k n g ys = g ys
  | 0, k, g, ys, _, hl => by
    obtain rfl := List.length_eq_zero_iff.1 hl
    rfl
  | n + 1, k, g, [], _, hl => by simp at hl
  | n + 1, k, g, y :: ys, hc, hl => by
    rw [cint_out (hc k (Nat.le_refl _) (by omega)), cint_none I _ ys (fun j h1 h2 => hc j (by omega) (by omega)) (by simpa using hl)]

/-- The variance of the function is the variance given all coordinates. -/
theorem condVar_full (I : Integ K X) (n : Nat) (f : List X → K) : condVar I n f (List.range n) = fullVar I n f := by
  have h1 : ∀ ys : List X, ys.length = (List.range n).length → cint I (fun k => k ∉ List.range n) 0 n f ys = f ys := fun ys hy =>
    cint_none I f ys (fun j _ h => by simp; omega) (by simpa using hy)
  rw [condVar, condSq, lint_congr_len I _ (fun ys hy => by rw [h1 ys hy]), lint_congr_len I _ h1, List.range_eq_range', lint_range, lint_range, fullVar]

theorem lab_full {n : Nat} {L : List Nat} (hL : Lab n L) (h : L.length = n) : L = List.range n := by
  have h1 : L.toFinset = range n := eq_of_subset_of_card_le (fun x hx => mem_range.2 (hL.lt x (List.mem_toFinset.1 hx)))
    (by rw [card_range, List.toFinset_card_of_nodup (hL.sorted.imp fun h => Nat.ne_of_lt h)]; omega)
  rw [← sort_toFinset_of hL.sorted, h1]
  have : (List.range n).toFinset = range n := by ext; simp
  rw [← this, sort_toFinset_of List.pairwise_lt_range]

theorem lab_len {n : Nat} {L : List Nat} (hL : Lab n L) : L.length ≤ n := by
  have h1 : L.toFinset.card = L.length := List.toFinset_card_of_nodup (hL.sorted.imp fun h => Nat.ne_of_lt h)
  have h2 : L.toFinset ⊆ range n := fun x hx => mem_range.2 (hL.lt x (List.mem_toFinset.1 hx))
  have := card_le_card h2
  rw [card_range] at this
  omega

theorem getD_lt {α : Type} {l : List α} {i : Nat} {d : α} (h : i < l.length) : l.getD i d = l[i] := by
  rw [List.getD_eq_getElem?_getD, List.getElem?_eq_getElem h]; rfl

/-- Integrating out the coordinates not in `L`. -/
theorem contract_value (h : SobHyp e F I o int inner ft) {L : List Nat} (hL : Lab ft.dim L) (hlt : L.length < ft.dim) :
    (ftIntSubset o int ft (remDims L ft.dim) >>= ftVar o int inner) = .ok (condVar I ft.dim (value e ft.cores) L) := by
  have hlen := remDims_length hL.sorted hL.lt
  have hpos := List.length_pos_iff.2 hL.ne
  have hrr := rem_rem hL
  obtain ⟨g, e1, hg, hd, hv⟩ := intSubset_value_partial (e := e) (F := F) (I := I) (o := o) (int := int) (ft := ft) (dims := remDims L ft.dim)
    ⟨h.law, h.lin, h.mem, h.quad, h.ok, (List.pairwise_lt_range.filter _ : (remDims L ft.dim).Pairwise (· < ·)), fun d hd => (remDims_mem.1 hd).1, by omega, by omega⟩
  rw [hrr] at hg hv
  have hgd : g.dim = L.length := by omega
  have hS := h.sub L hg
  rw [e1, bind_ok, ftVar_value hS]
  -- the contracted train is the conditional mean
  have hcm : ∀ ys : List X, ys.length = L.length → (∀ i x, ys[i]? = some x → (F.sub L).D (0 + i) x) →
      value e g.cores ys = cint I (fun k => k ∉ L) 0 ft.dim (value e ft.cores) ys := by
    intro ys hy hdom
    match ys, hy with
    | [], hy => simp at hy; omega
    | y0 :: ys', hy =>
      obtain ⟨ys, hys⟩ : ∃ ys, ys = y0 :: ys' := ⟨_, rfl⟩
      rw [← hys] at hy hdom ⊢
      have hnd : L.Nodup := hL.sorted.imp fun h => Nat.ne_of_lt h
      have hmap : L.map (fun k => ys.getD (L.idxOf k) y0) = ys := by
        refine List.ext_getElem (by simp [hy]) fun i h1 h2 => ?_
        rw [List.getElem_map, hnd.idxOf_getElem i (by omega), getD_lt h2]
      have hdom' : ∀ k ∈ L, F.D k (ys.getD (L.idxOf k) y0) := fun k hk => by
        have hi : L.idxOf k < L.length := List.idxOf_lt_length_iff.2 hk
        have := hdom (L.idxOf k) _ (List.getElem?_eq_getElem (by omega))
        rw [Fam.sub] at this
        dsimp only at this
        rw [Nat.zero_add, getD_lt hi, List.getElem_idxOf hi] at this
        rw [getD_lt (by omega)]
        exact this
      have h1 := hv _ hdom'
      rw [hmap] at h1
      have h2 := cint_psub I (fun k => k ∉ L) (fun k => ys.getD (L.idxOf k) y0) ft.dim 0 (value e ft.cores)
      rw [remFrom_list hL.sorted hL.lt, hmap] at h2
      rw [h1, h2]
      refine iint_ext fun j _ hj => ?_
      have hj' : j < ft.dim := by omega
      funext f
      simp [psub, remDims_mem, hj']
  have hP : CoresOk (F.sub L) 0 g.cores := fun j Q hQ => by rw [Nat.zero_add]; exact hg.mem j Q hQ
  have iv1 := (iint_chain (F := F.sub L) (k := 0) (i := 0) hS.law hS.mem hg.wf.fits hP (by decide)).1
  have iv2 := (iint_chain2 (F := F.sub L) (k := 0) (i := 0) (i' := 0) hS.law hS.mem2 rfl hg.wf.fits hg.wf.fits hP hP (by decide) (by decide)).1
  rw [← hg.wf.dim, hgd] at iv1 iv2
  have q1 := (iint_congr hS.law (g := value e g.cores) (h := cint I (fun k => k ∉ L) 0 ft.dim (value e ft.cores)) hcm iv1).2
  have q2 := (iint_congr hS.law (g := fun ys => value e g.cores ys * value e g.cores ys)
    (h := fun ys => cint I (fun k => k ∉ L) 0 ft.dim (value e ft.cores) ys * cint I (fun k => k ∉ L) 0 ft.dim (value e ft.cores) ys)
    (fun xs h1 h2 => by rw [hcm xs h1 h2]) iv2).2
  rw [fullVar, hgd, q1, q2, lint_eq, lint_eq, condVar, condSq]

/-- The variance of the conditional mean is what `function_train_sobol_interact_var` returns. -/
theorem interactVar_value (h : SobHyp e F I o int inner ft) {L : List Nat} (hL : Lab ft.dim L) :
    interactVar o int inner ft L = .ok (condVar I ft.dim (value e ft.cores) L) := by
  rw [interactVar]
  by_cases hd : ft.dim = L.length
  · rw [if_pos hd, ftVar_value h, lab_full hL hd.symm, condVar_full]
  · rw [if_neg hd, indContract_ok hL, bind_ok]
    exact contract_value h hL (by have := lab_len hL; omega)

/-- Variances of conditional means, indexed by sets of coordinates. -/
noncomputable def condV (I : Integ K X) (dim : Nat) (f : List X → K) (w : Finset Nat) : K := condVar I dim f (w.sort (· ≤ ·))

theorem sum_inter_mem {v : Finset Nat → K} {n i : Nat} (hi : i < n) (hn : 2 ≤ n) :
    ∑ u ∈ (range n).powerset with i ∈ u, inter v u = v (range n) - v ((range n).erase i) := by
  have h1 := sum_inter v (u := range n) (by rw [Ne, range_eq_empty_iff]; omega)
  have h2 := sum_inter v (u := (range n).erase i) (by
    rw [Ne, ← card_eq_zero, card_erase_of_mem (mem_range.2 hi), card_range]; omega)
  have h3 : (range n).powerset.filter (fun u => ¬ i ∈ u) = ((range n).erase i).powerset := by
    ext u
    rw [mem_filter, mem_powerset, mem_powerset, subset_erase]
  rw [← h1, ← h2, ← h3, ← sum_filter_add_sum_filter_not (range n).powerset (fun u => i ∈ u)]
  ring

/-- C79: the sensitivities of a train in at least two variables that is not constant. -/
theorem sobol_value [DecidableEq K] (h : SobHyp e F I o int inner ft) (h2 : 2 ≤ ft.dim) (hn : ft.dim < 2 ^ 64) (hv : fullVar I ft.dim (value e ft.cores) ≠ 0) (order : Nat) :
    ∃ s, sobol o int inner ft order = .ok s ∧ s.variance = fullVar I ft.dim (value e ft.cores) ∧
      (∀ L, Lab ft.dim L → L.length ≤ maxOrder order → getInteraction s.tree L = .ok (inter (condV I ft.dim (value e ft.cores)) L.toFinset)) ∧
      (∀ i < ft.dim, getMain s.tree i = .ok (inter (condV I ft.dim (value e ft.cores)) {i})) ∧
      (∀ i < ft.dim, s.total[i]? = some ((∑ u ∈ (range ft.dim).powerset with i ∈ u, inter (condV I ft.dim (value e ft.cores)) u) / s.variance)) ∧
      ∑ u ∈ (range ft.dim).powerset, inter (condV I ft.dim (value e ft.cores)) u = s.variance ∧
      ((callsL s.tree).map Prod.snd).Nodup ∧
      ∀ x L, (x, L) ∈ callsL s.tree ↔ Lab ft.dim L ∧ L.length ≤ maxOrder order ∧ x = inter (condV I ft.dim (value e ft.cores)) L.toFinset := by
  have hvL : ∀ L, Lab ft.dim L → interactVar o int inner ft L = .ok (condV I ft.dim (value e ft.cores) L.toFinset) := fun L hL => by
    rw [interactVar_value h hL, condV, sort_toFinset_of hL.sorted]
  obtain ⟨tree, e1, hl, hg, ho⟩ := sobolTree_spec (order := order) hn hvL
  have hfull : condV I ft.dim (value e ft.cores) (range ft.dim) = fullVar I ft.dim (value e ft.cores) := by
    have : (List.range ft.dim).toFinset = range ft.dim := by ext; simp
    rw [← this, condV, sort_toFinset_of List.pairwise_lt_range, condVar_full]
  have hwo : ∀ i, i < ft.dim → (ftIntSubset o int ft [i] >>= fun g => ftVar o int inner g) = .ok (condV I ft.dim (value e ft.cores) ((range ft.dim).erase i)) := fun i hi => by
    have hLi : Lab ft.dim [i] := ⟨by simp, by simp, by simpa using hi⟩
    have hll := remDims_length hLi.sorted hLi.lt
    have hLab : Lab ft.dim (remDims [i] ft.dim) := ⟨by rw [← List.length_pos_iff, hll]; simp; omega, List.pairwise_lt_range.filter _, fun x hx => (remDims_mem.1 hx).1⟩
    have := contract_value h hLab (by rw [hll]; simp; omega)
    rw [rem_rem hLi] at this
    have hset : (range ft.dim).erase i = (remDims [i] ft.dim).toFinset := by
      ext x
      rw [mem_erase, List.mem_toFinset, remDims_mem, mem_range, List.mem_singleton, and_comm]
    rw [condV, hset, sort_toFinset_of hLab.sorted]
    exact this
  obtain ⟨tot, e2, t1, t2⟩ := forN_spec (n := ft.dim) (s := List.replicate ft.dim (0 : K))
    (body := fun ii t => do
      let vari ← ftIntSubset o int ft [ii] >>= fun g => ftVar o int inner g
      let q ← pdiv (fullVar I ft.dim (value e ft.cores) - vari) (fullVar I ft.dim (value e ft.cores))
      wr t ii q)
    (I := fun m t => t.length = ft.dim ∧ ∀ i < m, t[i]? = some ((∑ u ∈ (range ft.dim).powerset with i ∈ u, inter (condV I ft.dim (value e ft.cores)) u) / fullVar I ft.dim (value e ft.cores)))
    ⟨by simp, fun i hi => by omega⟩
    (by
      rintro ii hi t ⟨t1, t2⟩
      rw [hwo ii hi, bind_ok, pdiv, if_neg hv, bind_ok, wr_ok _ (by omega)]
      refine ⟨_, rfl, by simpa using t1, fun i hi' => ?_⟩
      by_cases hc : i = ii
      · subst hc
        rw [List.getElem?_set_self (by omega), sum_inter_mem hi h2, hfull]
      · rw [List.getElem?_set_ne (Ne.symm hc)]
        exact t2 i (by omega))
  refine ⟨⟨ft.dim, tot, fullVar I ft.dim (value e ft.cores), order, tree⟩, ?_, rfl, fun L hL hm => interactions_value hg hL hm, fun i hi => ?_, t2, ?_, calls_spec hg ho⟩
  · rw [sobol, sobolCalc, e1, bind_ok, ftVar_value h, bind_ok, e2, bind_ok]
    rfl
  · rw [inter_single]
    exact main_value hg hi (by rw [maxOrder]; omega)
  · rw [sum_inter _ (by rw [Ne, range_eq_empty_iff]; omega), hfull]

/-- C79: no interaction is negative when the coordinates are integrated against probability measures. -/
theorem inter_nonneg [LinearOrder K] [IsStrictOrderedRing K] (h : SobHyp e F I o int inner ft) (hp : ProbLaw F.D I) {u : Finset Nat} (hu : u ⊆ range ft.dim) :
    0 ≤ inter (condV I ft.dim (value e ft.cores)) u := by
  have hP : CoresOk F 0 ft.cores := fun j Q hQ => by rw [Nat.zero_add]; exact h.ok.mem j Q hQ
  have hdl : ∀ w : Finset Nat, w ⊆ range ft.dim → w ⊆ Ico 0 (0 + ft.cores.length) := fun w hw x hx => mem_Ico.2 ⟨Nat.zero_le _, by
    rw [Nat.zero_add, ← h.ok.wf.dim]; exact mem_range.1 (hw hx)⟩
  have hb : ∀ w ⊆ range ft.dim, condV I ft.dim (value e ft.cores) w = ∑ z ∈ w.powerset, bch e I (diffG I z) 0 ft.cores 0 0 - ichain e I 0 ft.cores 0 * ichain e I 0 ft.cores 0 := fun w hw => by
    rw [condV, condVar_bch h.law h.mem h.mem2 h.ok w.sortedLT_sort.pairwise (fun x hx => mem_range.1 (hw ((mem_sort _).1 hx))), sum_diffG 0 0 (hdl w hw)]
    congr 1
    exact bch_congr 0 0 fun l _ _ => by funext g h; simp [condG]
  have h0 : bch e I (diffG I ∅) 0 ft.cores 0 0 = ichain e I 0 ft.cores 0 * ichain e I 0 ft.cores 0 := by
    have : ∀ (Qs : List (Qma U)) (k i j : Nat), bch e I (diffG I ∅) k Qs i j = ichain e I k Qs i * ichain e I k Qs j := by
      intro Qs
      induction Qs with
      | nil => intro k i j; rfl
      | cons Q Qs ih =>
        intro k i j
        rw [bch, ichain, ichain, sum_mul_sum]
        refine sum_congr rfl fun a _ => sum_congr rfl fun b _ => ?_
        rw [ih]
        simp only [diffG, notMem_empty, if_false]
        ring
    exact this _ _ _ _
  by_cases hu0 : u = ∅
  · rw [hu0, inter_empty]
  · have := inter_unique (v := condV I ft.dim (value e ft.cores)) (V := fun z => if z = ∅ then 0 else bch e I (diffG I z) 0 ft.cores 0 0) (D := range ft.dim) (if_pos rfl) (fun w hw hw0 => by
      rw [hb w hw, ← h0, ← sum_erase_add _ _ (empty_mem_powerset w), if_pos rfl, add_zero, ← sum_erase_add w.powerset (fun z => bch e I (diffG I z) 0 ft.cores 0 0) (empty_mem_powerset w)]
      rw [add_sub_cancel_right]
      exact sum_congr rfl fun z hz => by rw [if_neg (mem_erase.1 hz).1]) u hu
    rw [← this, if_neg hu0]
    have h1 := bch_psd h.law hp h.mem h.mem2 u h.ok.wf.fits hP (m := 1) (fun _ => 1) (by decide)
    simpa using h1

end C3.Prob
