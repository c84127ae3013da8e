/- Helper lemmas for the constructors of structured function trains. -/
import Verif.Ft.Build
import Verif.Ft.AlgProps
import Mathlib.Tactic.Ring
import Mathlib.Tactic.LinearCombination

set_option linter.unusedSectionVars false

namespace C3.Ft
open Finset
variable {K U O : Type} [Field K]

/-- What the univariate constructors promise for the options of every dimension: they succeed, the result belongs to that
dimension and has the documented values on its domain. -/
structure ConLaw (e : Ev K U K) (cn : Con K U O) (F : Fam U K) (opts : List O) : Prop where
  const : ∀ (k : Nat) o, opts[k]? = some o → ∀ a, ∃ f, cn.const a o = .ok f ∧ F.P k f ∧ ∀ x, F.D k x → e.ev f x = a
  lin : ∀ (k : Nat) o, opts[k]? = some o → ∀ c a, ∃ f, cn.lin c a o = .ok f ∧ F.P k f ∧
    ∀ x, F.D k x → e.ev f x = c * x + a
  quad : ∀ (k : Nat) o, opts[k]? = some o → ∀ c m, ∃ f, cn.quad c m o = .ok f ∧ F.P k f ∧
    ∀ x, F.D k x → e.ev f x = c * (x - m) ^ 2
  zero : ∀ (k : Nat) o, opts[k]? = some o → ∃ f, cn.zero o = .ok f ∧ F.P k f ∧ ∀ x, F.D k x → e.ev f x = 0

/-- `g k` creates a function of dimension `k` with values `G k`. -/
def Makes (e : Ev K U K) (F : Fam U K) (opts : List O) (g : Nat → O → C U) (G : Nat → K → K) : Prop :=
  ∀ (k : Nat) o, opts[k]? = some o → ∃ f, g k o = .ok f ∧ F.P k f ∧ ∀ x, F.D k x → e.ev f x = G k x

theorem qmaOf_ok {n m : Nat} {fs : List U} (h : fs.length = n * m) : qmaOf n m fs = .ok ⟨n, m, fs⟩ := by
  have f1 : Fills (fun p v => fs[p]? = some v) (n * m) (forN fs.length (fun i c => do
      let f ← rd fs i
      wr c i (some f))) (fun p => ∃ i < fs.length, p = i) :=
    Fills.forN fun i hi => Fills.bind (rd_ok hi) (Fills.wr (by omega) (List.getElem?_eq_getElem hi))
  obtain ⟨b, l, h1, h2, h3, h4⟩ := f1.finish (fun p hp => ⟨p, by omega, rfl⟩)
  have : l = fs := by
    apply List.ext_getElem?
    intro p
    by_cases hp : p < n * m
    · obtain ⟨v, hv, hR⟩ := h4 p hp
      rw [hv, hR]
    · rw [List.getElem?_eq_none (by omega), List.getElem?_eq_none (by omega)]
  rw [qmaOf, h1, bind_ok, h2, bind_ok, this, pure_eq_ok]

/-- Sizes of a sum train. -/
def sSum (d k : Nat) : Nat := if k = 0 ∨ k = d then 1 else 2

/-- Cores of a sum train: `[g 1]`, `[1 0; g 1]`, ..., `[1; g]`. -/
def Msum (d : Nat) (G : Nat → K → K) (k : Nat) (x : K) (i j : Nat) : K :=
  if k = 0 then (if j = 0 then G 0 x else 1)
  else if k = d - 1 then (if i = 0 then 1 else G k x)
  else if i = j then 1 else if i = 0 then 0 else G k x

theorem rep_list {e : Ev K U K} {F : Fam U K} {k n m : Nat} {M : K → Nat → Nat → K} {fs : List U}
    (hl : fs.length = n * m)
    (h : ∀ (p : Nat) v, fs[p]? = some v → EntryR e F k n M p v) : Rep e F k n m M ⟨n, m, fs⟩ :=
  rep_of_fill hl fun p hp => ⟨_, List.getElem?_eq_getElem (by omega), h p _ (List.getElem?_eq_getElem (by omega))⟩

theorem sumTrain_core {e : Ev K U K} {cn : Con K U O} {F : Fam U K} {opts : List O} (hc : ConLaw e cn F opts)
    {g : Nat → O → C U} {G : Nat → K → K} (hg : Makes e F opts g G) {dim : Nat} (hd : opts.length = dim)
    (h2 : 2 ≤ dim) {lastOpt : Nat} (hlast : opts[lastOpt]? = opts[dim - 1]?) :
    ∃ ft : FT K U, sumTrain cn dim opts g lastOpt = .ok ft ∧ ft.Ok F ∧ ft.Scratch ∧ ft.dim = dim ∧
      CoreRep e F (sSum dim) (Msum dim G) ft.cores := by
  have s0 : sSum dim 0 = 1 := by simp [sSum]
  have sd : sSum dim dim = 1 := by simp [sSum]
  have sm : ∀ k, 0 < k → k < dim → sSum dim k = 2 := by intro k h1 h2; rw [sSum, if_neg (by omega)]
  have ho : ∀ k, k < dim → ∃ o, opts[k]? = some o := fun k hk => ⟨_, List.getElem?_eq_getElem (by omega)⟩
  -- first core
  obtain ⟨o0, ho0⟩ := ho 0 (by omega)
  obtain ⟨f0, hf0, pf0, vf0⟩ := hg 0 o0 ho0
  obtain ⟨c1, hc1, pc1, vc1⟩ := hc.const 0 o0 ho0 1
  have r0 : Rep e F 0 (sSum dim 0) (sSum dim (0 + 1)) (Msum dim G 0) ⟨1, 2, [f0, c1]⟩ := by
    rw [s0, sm 1 (by omega) (by omega)]
    refine rep_list rfl fun p v hv => ?_
    rcases p with _ | _ | p
    · simp at hv; subst hv; exact ⟨pf0, fun x hx => by rw [vf0 x hx]; simp [Msum]⟩
    · simp at hv; subst hv; exact ⟨pc1, fun x hx => by rw [vc1 x hx]; simp [Msum]⟩
    · simp at hv
  -- last core
  obtain ⟨ol, hol⟩ := ho (dim - 1) (by omega)
  obtain ⟨fl, hfl, pfl, vfl⟩ := hg (dim - 1) ol hol
  obtain ⟨cl, hcl, pcl, vcl⟩ := hc.const (dim - 1) ol hol 1
  have rl : Rep e F (dim - 1) (sSum dim (dim - 1)) (sSum dim (dim - 1 + 1)) (Msum dim G (dim - 1)) ⟨2, 1, [cl, fl]⟩ := by
    rw [Nat.sub_add_cancel (by omega), sd, sm (dim - 1) (by omega) (by omega)]
    have hne : ¬ dim - 1 = 0 := by omega
    refine rep_list rfl fun p v hv => ?_
    rcases p with _ | _ | p
    · simp at hv; subst hv; exact ⟨pcl, fun x hx => by rw [vcl x hx, Msum, if_neg hne]; simp⟩
    · simp at hv; subst hv; exact ⟨pfl, fun x hx => by rw [vfl x hx, Msum, if_neg hne]; simp⟩
    · simp at hv
  -- core array
  have f1 : Fills (fun k Q => Rep e F k (sSum dim k) (sSum dim (k + 1)) (Msum dim G k) Q) dim
      (fun cs => wr cs 0 (some ⟨1, 2, [f0, c1]⟩)) (· = 0) := Fills.wr (by omega) r0
  have f2 : Fills (fun k Q => Rep e F k (sSum dim k) (sSum dim (k + 1)) (Msum dim G k) Q) dim
      (forR 1 (dim - 1) (fun k cs => do
        let o ← rd opts k
        let a ← cn.const 1 o
        let f ← g k o
        let z ← cn.const 0 o
        let b ← cn.const 1 o
        let Q ← qmaOf 2 2 [a, f, z, b]
        wr cs k (some Q))) (fun p => ∃ i, 1 ≤ i ∧ i < dim - 1 ∧ p = i) := by
    refine Fills.forR fun k hk1 hk2 => ?_
    obtain ⟨o, ho⟩ := ho k (by omega)
    obtain ⟨f, hf, pf, vf⟩ := hg k o ho
    obtain ⟨a, ha, pa, va⟩ := hc.const k o ho 1
    obtain ⟨z, hz, pz, vz⟩ := hc.const k o ho 0
    refine Fills.bind (rd_of_getElem? ho) (Fills.bind ha (Fills.bind hf (Fills.bind hz (Fills.bind ha
      (Fills.bind (qmaOf_ok rfl) (Fills.wr (by omega) ?_))))))
    rw [sm k (by omega) (by omega), sm (k + 1) (by omega) (by omega)]
    have h1 : ¬ k = 0 := by omega
    have h2 : ¬ k = dim - 1 := by omega
    refine rep_list rfl fun p v hv => ?_
    rcases p with _ | _ | _ | _ | p
    · simp at hv; subst hv; exact ⟨pa, fun x hx => by rw [va x hx, Msum, if_neg h1, if_neg h2]; simp⟩
    · simp at hv; subst hv; exact ⟨pf, fun x hx => by rw [vf x hx, Msum, if_neg h1, if_neg h2]; simp⟩
    · simp at hv; subst hv; exact ⟨pz, fun x hx => by rw [vz x hx, Msum, if_neg h1, if_neg h2]; simp⟩
    · simp at hv; subst hv; exact ⟨pa, fun x hx => by rw [va x hx, Msum, if_neg h1, if_neg h2]; simp⟩
    · simp at hv
  have f3 : Fills (fun k Q => Rep e F k (sSum dim k) (sSum dim (k + 1)) (Msum dim G k) Q) dim
      (fun cs => wr cs (dim - 1) (some ⟨2, 1, [cl, fl]⟩)) (· = dim - 1) := Fills.wr (by omega) rl
  obtain ⟨cs, l, hcs, hl, hll, hlM⟩ := ((f1.seq f2).seq f3).finish (by
    intro p hp
    by_cases h : p = 0
    · exact .inl (.inl h)
    · by_cases h' : p = dim - 1
      · exact .inr h'
      · exact .inl (.inr ⟨p, by omega, by omega, rfl⟩))
  have hM : CoreRep e F (sSum dim) (Msum dim G) l := fun k hk => hlM k (by omega)
  rcases hw1 : wr (List.replicate dim none) 0 (some (⟨1, 2, [f0, c1]⟩ : Qma U)) with er | cs1
  · simp only [hw1] at hcs; cases hcs
  simp only [hw1, bind_ok] at hcs
  rcases hw2 : forR 1 (dim - 1) (fun k cs => do
        let o ← rd opts k
        let a ← cn.const 1 o
        let f ← g k o
        let z ← cn.const 0 o
        let b ← cn.const 1 o
        let Q ← qmaOf 2 2 [a, f, z, b]
        wr cs k (some Q)) cs1 with er | cs2
  · simp only [hw2] at hcs; cases hcs
  simp only [hw2, bind_ok] at hcs
  -- ranks
  have hrk1 : wr (List.replicate (dim + 1) 0) 0 1 = .ok ((List.replicate (dim + 1) 0).set 0 1) := wr_ok _ (by simp)
  obtain ⟨rk2, hrk2, lrk2, vrk2⟩ := forR_set (a0 := 1) (n := dim - 1) (a := (List.replicate (dim + 1) 0).set 0 1)
    (body := fun k rk => wr rk k 2) (fun _ => 2) (by simp; omega) (fun i h1 h2 b' hb' => rfl)
  have lrk2' : rk2.length = dim + 1 := by rw [lrk2]; simp
  have hrk3 : wr rk2 (dim - 1) 2 = .ok (rk2.set (dim - 1) 2) := wr_ok _ (by omega)
  have hrk4 : wr (rk2.set (dim - 1) 2) (dim - 1 + 1) 1 = .ok ((rk2.set (dim - 1) 2).set (dim - 1 + 1) 1) :=
    wr_ok _ (by rw [List.length_set]; omega)
  have hrv : ∀ k ≤ dim, ((rk2.set (dim - 1) 2).set (dim - 1 + 1) 1)[k]? = some (sSum dim k) := by
    intro k hk
    rw [List.getElem?_set, List.getElem?_set, List.length_set, vrk2, List.getElem?_set]
    by_cases h1 : dim - 1 + 1 = k
    · have : k = dim := by omega
      subst this; rw [if_pos h1, if_pos (by omega), sd]
    rw [if_neg h1]
    by_cases h3 : dim - 1 = k
    · subst h3; rw [if_pos rfl, if_pos (by omega), sm _ (by omega) (by omega)]
    rw [if_neg h3]
    by_cases h4 : k = 0
    · subst h4; rw [if_neg (by omega), if_pos rfl, if_pos (by simp), s0]
    rw [if_pos (by omega), sm k (by omega) (by omega)]
  have hOk : (⟨dim, (rk2.set (dim - 1) 2).set (dim - 1 + 1) 1, l, none, none, none⟩ : FT K U).Ok F := by
    refine ok_mk hll (by omega) s0 sd ?_ hM (by simp; omega) hrv
    intro k _
    rw [sSum]; split <;> omega
  refine ⟨_, ?_, hOk, scratch_none, rfl, hM⟩
  rw [sumTrain, rd_of_getElem? ho0, bind_ok, hf0, bind_ok, hc1, bind_ok, qmaOf_ok rfl, bind_ok, hw1, bind_ok, hrk1, bind_ok,
    hw2, bind_ok, hrk2, bind_ok, hrk3, bind_ok, hrk4, bind_ok, rd_of_getElem? (hlast.trans hol), bind_ok, hcl, bind_ok, hfl,
    bind_ok, qmaOf_ok rfl, bind_ok, hcs, bind_ok, ftDone, hl, bind_ok, pure_eq_ok]

theorem sum_two (f : Nat → K) : ∑ c ∈ range 2, f c = f 0 + f 1 := by
  rw [Finset.sum_range_succ, sum_range_one]

/-- Value of a train with the cores of a sum train. -/
theorem sum_of_core {e : Ev K U K} {F : Fam U K} {d : Nat} (h2 : 2 ≤ d) {G : Nat → K → K} {cores : List (Qma U)}
    (hl : cores.length = d) (hM : CoreRep e F (sSum d) (Msum d G) cores) {x : List K} (hx : InDom F d x) :
    value e cores x = ∑ k ∈ range d, G k (x.getD k 0) := by
  have hxl := hx.len
  have hxc : InDom F cores.length x := by rw [hl]; exact hx
  have sd : sSum d d = 1 := by simp [sSum]
  have sm : ∀ k, 0 < k → k < d → sSum d k = 2 := by intro k h1 h2; rw [sSum, if_neg (by omega)]
  have tail : ∀ n k, k + n = d - 1 → 0 < k → chain ((mats e cores x).drop k) 0 = 1 ∧
      chain ((mats e cores x).drop k) 1 = ∑ l ∈ range (n + 1), G (k + l) (x.getD (k + l) 0) := by
    intro n
    induction n with
    | zero =>
      intro k hk hk0
      have hk1 : k + 1 = d := by omega
      have ec : chain ((mats e cores x).drop d) 0 = 1 := by
        have := chain_end (e := e) hxc.len (i := 0); rw [hl] at this; simpa using this
      rw [chain_rep hM hxc (k := k) (by omega) (by rw [sm k hk0 (by omega)]; omega),
        chain_rep hM hxc (k := k) (by omega) (by rw [sm k hk0 (by omega)]; omega), hk1, sd]
      simp only [sum_range_one, ec, mul_one, Msum, if_neg (show ¬ k = 0 by omega), if_pos (show k = d - 1 by omega)]
      simp [List.getD_eq_getElem?_getD, List.getElem?_eq_getElem (show k < x.length by omega)]
    | succ n ih =>
      intro k hk hk0
      obtain ⟨i0, i1⟩ := ih (k + 1) (by omega) (by omega)
      rw [chain_rep hM hxc (k := k) (by omega) (by rw [sm k hk0 (by omega)]; omega),
        chain_rep hM hxc (k := k) (by omega) (by rw [sm k hk0 (by omega)]; omega), sm (k + 1) (by omega) (by omega)]
      simp only [sum_two, i0, i1, mul_one, Msum, if_neg (show ¬ k = 0 by omega),
        if_neg (show ¬ k = d - 1 by omega)]
      constructor
      · simp
      · rw [Finset.sum_range_succ' (fun l => G (k + l) (x.getD (k + l) 0))]
        simp [List.getD_eq_getElem?_getD, List.getElem?_eq_getElem (show k < x.length by omega), add_comm,
          add_left_comm]
  obtain ⟨t0, t1⟩ := tail (d - 2) 1 (by omega) (by omega)
  have hc0 := chain_rep hM hxc (k := 0) (by omega) (i := 0) (by simp [sSum])
  rw [List.drop_zero, Nat.zero_add, sm 1 (by omega) (by omega)] at hc0
  rw [value, hc0]
  simp only [sum_two, t0, t1, mul_one, Msum, if_true]
  obtain ⟨n, rfl⟩ : ∃ n, d = n + 2 := ⟨d - 2, by omega⟩
  rw [Finset.sum_range_succ' _ (n + 1)]
  simp [List.getD_eq_getElem?_getD, List.getElem?_eq_getElem (show 0 < x.length by omega), add_comm]

theorem rankOne_core {e : Ev K U K} {F : Fam U K} {opts : List O} {g : Nat → O → C U} {G : Nat → K → K}
    (hg : Makes e F opts g G) {dim : Nat} (hd : opts.length = dim) (hpos : 0 < dim) :
    ∃ ft : FT K U, rankOne dim opts g = .ok ft ∧ ft.Ok F ∧ ft.Scratch ∧ ft.dim = dim ∧
      CoreRep e F (fun _ => 1) (fun k x _ _ => G k x) ft.cores := by
  have f1 : Fills (fun k Q => Rep e F k 1 1 (fun x _ _ => G k x) Q) dim
      (forN dim (fun k cs => do
        let o ← rd opts k
        let f ← g k o
        let Q ← qmaOf 1 1 [f]
        wr cs k (some Q))) (fun p => ∃ i < dim, p = i) := by
    refine Fills.forN fun k hk => ?_
    have ho : opts[k]? = some opts[k] := List.getElem?_eq_getElem (by omega)
    obtain ⟨f, hf, pf, vf⟩ := hg k _ ho
    refine Fills.bind (rd_of_getElem? ho) (Fills.bind hf (Fills.bind (qmaOf_ok rfl) (Fills.wr hk ?_)))
    refine rep_list rfl fun p v hv => ?_
    rcases p with _ | p
    · simp at hv; subst hv; exact ⟨pf, fun x hx => vf x hx⟩
    · simp at hv
  obtain ⟨cs, l, hcs, hl, hll, hlM⟩ := f1.finish (fun p hp => ⟨p, hp, rfl⟩)
  have hM : CoreRep e F (fun _ => 1) (fun k x _ _ => G k x) l := fun k hk => hlM k (by omega)
  obtain ⟨rk1, hrk1, lrk1, vrk1⟩ := forR_set (a0 := 0) (n := dim) (a := List.replicate (dim + 1) 0)
    (body := fun k rk => wr rk k 1) (fun _ => 1) (by simp) (fun i h1 h2 b' hb' => rfl)
  have lrk1' : rk1.length = dim + 1 := by rw [lrk1]; simp
  have hrk1' : forN dim (fun k rk => wr rk k 1) (List.replicate (dim + 1) 0) = .ok rk1 := by
    rw [← hrk1, forR]; simp only [Nat.zero_add, Nat.sub_zero]
  have hrk2 : wr rk1 dim 1 = .ok (rk1.set dim 1) := wr_ok _ (by omega)
  have hrv : ∀ k ≤ dim, (rk1.set dim 1)[k]? = some 1 := by
    intro k hk
    rw [List.getElem?_set, vrk1]
    by_cases h1 : dim = k
    · subst h1; rw [if_pos rfl, if_pos (by omega)]
    · rw [if_neg h1, if_pos (by omega)]
  refine ⟨⟨dim, rk1.set dim 1, l, none, none, none⟩, ?_,
    ok_mk hll hpos rfl rfl (fun _ _ => Nat.one_pos) hM (by simp; omega) hrv, scratch_none, rfl, hM⟩
  rw [rankOne, hcs, bind_ok, hrk1', bind_ok, hrk2, bind_ok, ftDone, hl, bind_ok, pure_eq_ok]

theorem prod_of_core {e : Ev K U K} {F : Fam U K} {G : Nat → K → K} {cores : List (Qma U)}
    (hM : CoreRep e F (fun _ => 1) (fun k x _ _ => G k x) cores) {x : List K} (hx : InDom F cores.length x) :
    value e cores x = ∏ k ∈ range cores.length, G k (x.getD k 0) := by
  have hxl := hx.len
  have tail : ∀ n k, k + n = cores.length → chain ((mats e cores x).drop k) 0
      = ∏ l ∈ range n, G (k + l) (x.getD (k + l) 0) := by
    intro n
    induction n with
    | zero =>
      intro k hk
      have : k = cores.length := by omega
      subst this
      rw [chain_end hx.len]; simp
    | succ n ih =>
      intro k hk
      rw [chain_rep hM hx (k := k) (by omega) Nat.one_pos, sum_range_one, ih (k + 1) (by omega),
        Finset.prod_range_succ' (fun l => G (k + l) (x.getD (k + l) 0)), mul_comm]
      congr 1
      · exact prod_congr rfl fun l _ => by rw [show k + 1 + l = k + (l + 1) by omega]
      · simp [List.getD_eq_getElem?_getD, List.getElem?_eq_getElem (show k < x.length by omega)]
  have := tail cores.length 0 (by omega)
  rw [List.drop_zero] at this
  rw [value, this]
  exact prod_congr rfl fun l _ => by rw [Nat.zero_add]

end C3.Ft
