/- The quadratic constructor: helper lemmas. -/
import Verif.Ft.BuildLemmas

set_option linter.unusedSectionVars false

namespace C3.Ft
open Finset
variable {K U O : Type} [Field K]

/-- Sizes of the train of a quadratic form. -/
def sQ (d k : Nat) : Nat := if k = 0 ∨ k = d then 1 else d - k + 2

/-- Entry of a middle core. -/
def MqMid (d : Nat) (Q : Nat → Nat → K) (k : Nat) (y : K) (i j : Nat) : K :=
  if i = 0 ∧ j = 0 then 1
  else if j = 0 ∧ i = 1 then y
  else if i = j + 1 then 1
  else if i = d - k + 1 ∧ j = 0 then Q k k * y ^ 2
  else if i = d - k + 1 then (Q k (k + j) + Q (k + j) k) * y
  else 0

/-- Cores of the train of a quadratic form at `y = x - m`. -/
def Mq (d : Nat) (Q : Nat → Nat → K) (k : Nat) (y : K) (i j : Nat) : K :=
  if k = 0 then (if j = 0 then Q 0 0 * y ^ 2 else if j = d then 1 else (Q 0 j + Q j 0) * y)
  else if k = d - 1 then (if i = 0 then 1 else if i = 1 then y else Q k k * y ^ 2)
  else MqMid d Q k y i j

theorem quadEntry_ok {e : Ev K U K} {cn : Con K U O} {F : Fam U K} {opts : List O} (hc : ConLaw e cn F opts) {d k : Nat}
    {coeffs m : List K} (hcl : d * d ≤ coeffs.length) (hml : d ≤ m.length) {o : O} (ho : opts[k]? = some o) (hk0 : 0 < k)
    (hk : k < d - 1) {kk ll : Nat} (hkk : kk < d - k + 1) (hll : ll < d - k + 2) :
    ∃ f, quadEntry cn d k coeffs m o kk ll = .ok f ∧ F.P k f ∧ ∀ x, F.D k x →
      e.ev f x = MqMid d (fun p q => coeffs.getD (p * d + q) 0) k (x - m.getD k 0) ll kk := by
  have hm : rd m k = .ok (m.getD k 0) := by
    rw [rd_ok (by omega)]; simp [List.getD_eq_getElem?_getD, List.getElem?_eq_getElem (show k < m.length by omega)]
  have hrdc : ∀ p q, p < d → q < d → rd coeffs (p * d + q) = .ok (coeffs.getD (p * d + q) 0) := by
    intro p q hp hq
    have : p * d + q < coeffs.length := Nat.lt_of_lt_of_le (cm_idx_lt hq hp) hcl
    rw [rd_ok this]; simp [List.getD_eq_getElem?_getD, List.getElem?_eq_getElem this]
  rw [quadEntry, hm, bind_ok]
  by_cases h1 : ll = 0 ∧ kk = 0
  · obtain ⟨f, hf, pf, vf⟩ := hc.const k o ho 1
    rw [if_pos h1]
    refine ⟨f, hf, pf, fun x hx => ?_⟩
    rw [vf x hx, MqMid, if_pos h1]
  by_cases h2 : kk = 0 ∧ ll = 1
  · obtain ⟨f, hf, pf, vf⟩ := hc.lin k o ho 1 (-(m.getD k 0))
    rw [if_neg h1, if_pos h2]
    refine ⟨f, hf, pf, fun x hx => ?_⟩
    rw [vf x hx, MqMid, if_neg h1, if_pos h2]; ring
  by_cases h3 : ll = kk + 1
  · obtain ⟨f, hf, pf, vf⟩ := hc.const k o ho 1
    rw [if_neg h1, if_neg h2, if_pos h3]
    refine ⟨f, hf, pf, fun x hx => ?_⟩
    rw [vf x hx, MqMid, if_neg h1, if_neg h2, if_pos h3]
  by_cases h4 : ll = d - k + 1 ∧ kk = 0
  · obtain ⟨f, hf, pf, vf⟩ := hc.quad k o ho (coeffs.getD (k * d + k) 0) (m.getD k 0)
    rw [if_neg h1, if_neg h2, if_neg h3, if_pos h4, hrdc k k (by omega) (by omega), bind_ok]
    refine ⟨f, hf, pf, fun x hx => ?_⟩
    rw [vf x hx, MqMid, if_neg h1, if_neg h2, if_neg h3, if_pos h4]
  by_cases h5 : ll = d - k + 1
  · obtain ⟨f, hf, pf, vf⟩ := hc.lin k o ho (coeffs.getD (k * d + (k + kk)) 0 + coeffs.getD ((k + kk) * d + k) 0)
      (-(coeffs.getD (k * d + (k + kk)) 0 + coeffs.getD ((k + kk) * d + k) 0) * m.getD k 0)
    rw [if_neg h1, if_neg h2, if_neg h3, if_neg h4, if_pos h5, Nat.add_assoc, hrdc k (k + kk) (by omega) (by omega), bind_ok,
      hrdc (k + kk) k (by omega) (by omega), bind_ok]
    refine ⟨f, hf, pf, fun x hx => ?_⟩
    rw [vf x hx, MqMid, if_neg h1, if_neg h2, if_neg h3, if_neg h4, if_pos h5]; ring
  · obtain ⟨f, hf, pf, vf⟩ := hc.const k o ho 0
    rw [if_neg h1, if_neg h2, if_neg h3, if_neg h4, if_neg h5]
    refine ⟨f, hf, pf, fun x hx => ?_⟩
    rw [vf x hx, MqMid, if_neg h1, if_neg h2, if_neg h3, if_neg h4, if_neg h5]

theorem quadratic_core {e : Ev K U K} {cn : Con K U O} {F : Fam U K} {opts : List O} (hc : ConLaw e cn F opts) {d : Nat}
    (hd : opts.length = d) (h2 : 2 ≤ d) {coeffs m : List K} (hcl : d * d ≤ coeffs.length) (hml : d ≤ m.length) :
    ∃ ft : FT K U, quadratic cn coeffs m opts = .ok ft ∧ ft.Ok F ∧ ft.Scratch ∧ ft.dim = d ∧
      CoreRep e F (sQ d) (fun k x => Mq d (fun p q => coeffs.getD (p * d + q) 0) k (x - m.getD k 0)) ft.cores := by
  have hrdm : ∀ k, k < d → rd m k = .ok (m.getD k 0) := by
    intro k hk
    rw [rd_ok (by omega)]; simp [List.getD_eq_getElem?_getD, List.getElem?_eq_getElem (show k < m.length by omega)]
  have hrdc : ∀ p q, p < d → q < d → rd coeffs (p * d + q) = .ok (coeffs.getD (p * d + q) 0) := by
    intro p q hp hq
    have : p * d + q < coeffs.length := Nat.lt_of_lt_of_le (cm_idx_lt hq hp) hcl
    rw [rd_ok this]; simp [List.getD_eq_getElem?_getD, List.getElem?_eq_getElem this]
  obtain ⟨Qf, hQf⟩ : ∃ Qf : Nat → Nat → K, Qf = fun p q => coeffs.getD (p * d + q) 0 := ⟨_, rfl⟩
  obtain ⟨M, hMd⟩ : ∃ M : Nat → K → Nat → Nat → K, M = fun k x => Mq d Qf k (x - m.getD k 0) := ⟨_, rfl⟩
  rw [← hQf, ← hMd]
  have hQv : ∀ p q, Qf p q = coeffs.getD (p * d + q) 0 := fun p q => by rw [hQf]
  have s0 : sQ d 0 = 1 := by simp [sQ]
  have sd : sQ d d = 1 := by simp [sQ]
  have sm : ∀ k, 0 < k → k < d → sQ d k = d - k + 2 := by intro k h1 h2; rw [sQ, if_neg (by omega)]
  have ho : ∀ k, k < d → ∃ o, opts[k]? = some o := fun k hk => ⟨_, List.getElem?_eq_getElem (by omega)⟩
  -- first core
  obtain ⟨o0, ho0⟩ := ho 0 (by omega)
  obtain ⟨q0, hq0, pq0, vq0⟩ := hc.quad 0 o0 ho0 (coeffs.getD (0 * d + 0) 0) (m.getD 0 0)
  obtain ⟨c1, hc1, pc1, vc1⟩ := hc.const 0 o0 ho0 1
  have g1 : Fills (EntryR e F 0 1 (M 0)) (1 * (d + 1)) (fun q => wr q 0 (some q0)) (· = 0) := by
    refine Fills.wr (by omega) ⟨pq0, fun x hx => ?_⟩
    rw [vq0 x hx, hMd]; simp only [Mq, hQv]; simp
  have g2 : Fills (EntryR e F 0 1 (M 0)) (1 * (d + 1)) (forR 1 d (fun kk q => do
      let a ← rd coeffs (0 * d + kk)
      let b ← rd coeffs (kk * d + 0)
      let f ← cn.lin (a + b) (-(a + b) * m.getD 0 0) o0
      wr q kk (some f))) (fun p => ∃ i, 1 ≤ i ∧ i < d ∧ p = i) := by
    refine Fills.forR fun i hi1 hi2 => ?_
    obtain ⟨f, hf, pf, vf⟩ := hc.lin 0 o0 ho0 (coeffs.getD (0 * d + i) 0 + coeffs.getD (i * d + 0) 0)
      (-(coeffs.getD (0 * d + i) 0 + coeffs.getD (i * d + 0) 0) * m.getD 0 0)
    refine Fills.bind (hrdc 0 i (by omega) hi2) (Fills.bind (hrdc i 0 hi2 (by omega)) (Fills.bind hf
      (Fills.wr (by omega) ⟨pf, fun x hx => ?_⟩)))
    rw [vf x hx, hMd]
    simp only [Mq, hQv, Nat.div_one, if_true]
    rw [if_neg (by omega), if_neg (by omega)]; ring
  have g3 : Fills (EntryR e F 0 1 (M 0)) (1 * (d + 1)) (fun q => wr q d (some c1)) (· = d) := by
    refine Fills.wr (by omega) ⟨pc1, fun x hx => ?_⟩
    rw [vc1 x hx, hMd]
    simp only [Mq, Nat.div_one, if_true]
    rw [if_neg (by omega)]
  obtain ⟨b0, fs0, hb0, hfs0, lfs0, vfs0⟩ := ((g1.seq g2).seq g3).finish (by
    intro p hp
    by_cases h : p = 0
    · exact .inl (.inl h)
    · by_cases h' : p = d
      · exact .inr h'
      · exact .inl (.inr ⟨p, by omega, by omega, rfl⟩))
  have r0 : Rep e F 0 (sQ d 0) (sQ d (0 + 1)) (M 0) ⟨1, d + 1, fs0⟩ := by
    rw [s0, sm 1 (by omega) (by omega), show d - 1 + 2 = d + 1 by omega]
    exact rep_of_fill lfs0 vfs0
  rcases hx1 : wr (List.replicate (1 * (d + 1)) none) 0 (some q0) with er | x1
  · simp only [hx1] at hb0; cases hb0
  simp only [hx1, bind_ok] at hb0
  rcases hx2 : forR 1 d (fun kk q => do
      let a ← rd coeffs (0 * d + kk)
      let b ← rd coeffs (kk * d + 0)
      let f ← cn.lin (a + b) (-(a + b) * m.getD 0 0) o0
      wr q kk (some f)) x1 with er | x2
  · simp only [hx2] at hb0; cases hb0
  simp only [hx2, bind_ok] at hb0
  -- last core
  obtain ⟨ol, hol⟩ := ho (d - 1) (by omega)
  obtain ⟨l0, hl0, pl0, vl0⟩ := hc.const (d - 1) ol hol 1
  obtain ⟨l1, hl1, pl1, vl1⟩ := hc.lin (d - 1) ol hol 1 (-(m.getD (d - 1) 0))
  obtain ⟨l2, hl2, pl2, vl2⟩ := hc.quad (d - 1) ol hol (coeffs.getD ((d - 1) * d + (d - 1)) 0) (m.getD (d - 1) 0)
  have rl : Rep e F (d - 1) (sQ d (d - 1)) (sQ d (d - 1 + 1)) (M (d - 1)) ⟨d - (d - 1) + 2, 1, [l0, l1, l2]⟩ := by
    rw [Nat.sub_add_cancel (by omega), sd, sm (d - 1) (by omega) (by omega)]
    have hne : ¬ d - 1 = 0 := by omega
    have h3 : d - (d - 1) + 2 = 3 := by omega
    rw [h3]
    refine rep_list rfl fun p v hv => ?_
    rcases p with _ | _ | _ | p
    · simp at hv; subst hv; exact ⟨pl0, fun x hx => by rw [vl0 x hx, hMd]; simp only [Mq, if_neg hne]; simp⟩
    · simp at hv; subst hv; exact ⟨pl1, fun x hx => by rw [vl1 x hx, hMd]; simp only [Mq, if_neg hne]; simp; ring⟩
    · simp at hv; subst hv; exact ⟨pl2, fun x hx => by rw [vl2 x hx, hMd]; simp only [Mq, if_neg hne, hQv]; simp⟩
    · simp at hv
  -- core array
  have f1 : Fills (fun k Q => Rep e F k (sQ d k) (sQ d (k + 1)) (M k) Q) d
      (fun cs => wr cs 0 (some ⟨1, d + 1, fs0⟩)) (· = 0) := Fills.wr (by omega) r0
  have f2 : Fills (fun k Q => Rep e F k (sQ d k) (sQ d (k + 1)) (M k) Q) d
      (forR 1 (d - 1) (fun k cs => do
        let o ← rd opts k
        let q ← forN (d - k + 1) (fun kk => forN (d - k + 2) (fun ll q => do
          let f ← quadEntry cn d k coeffs m o kk ll
          wr q (kk * (d - k + 2) + ll) (some f))) (List.replicate ((d - k + 2) * (d - k + 1)) none)
        let fs ← allSome q
        wr cs k (some ⟨d - k + 2, d - k + 1, fs⟩))) (fun p => ∃ i, 1 ≤ i ∧ i < d - 1 ∧ p = i) := by
    refine Fills.forR fun k hk1 hk2 => ?_
    obtain ⟨o, ho⟩ := ho k (by omega)
    have ff : Fills (EntryR e F k (d - k + 2) (M k)) ((d - k + 2) * (d - k + 1))
        (forN (d - k + 1) (fun kk => forN (d - k + 2) (fun ll q => do
          let f ← quadEntry cn d k coeffs m o kk ll
          wr q (kk * (d - k + 2) + ll) (some f))))
        (fun p => ∃ kk < d - k + 1, ∃ ll < d - k + 2, p = kk * (d - k + 2) + ll) := by
      refine Fills.forN fun kk hkk => Fills.forN fun ll hll => ?_
      obtain ⟨f, hf, pf, vf⟩ := quadEntry_ok hc hcl hml ho hk1 hk2 hkk hll
      refine Fills.bind hf (Fills.wr (cm_idx_lt hll hkk) (entryR_cm hll pf fun x hx => ?_))
      rw [vf x hx, hMd]
      simp only [Mq]
      rw [if_neg (by omega), if_neg (by omega), hQf]
    obtain ⟨b, fs, hb, hfs, lfs, vfs⟩ := ff.finish (by
      intro p hp
      obtain ⟨a1, a2, a3⟩ := divmod_of_lt hp
      exact ⟨_, a2, _, a1, a3.symm⟩)
    refine Fills.bind (rd_of_getElem? ho) (Fills.bind hb (Fills.bind hfs (Fills.wr (by omega) ?_)))
    rw [sm k (by omega) (by omega), sm (k + 1) (by omega) (by omega), show d - (k + 1) + 2 = d - k + 1 by omega]
    exact rep_of_fill lfs vfs
  have f3 : Fills (fun k Q => Rep e F k (sQ d k) (sQ d (k + 1)) (M k) Q) d
      (fun cs => wr cs (d - 1) (some ⟨d - (d - 1) + 2, 1, [l0, l1, l2]⟩)) (· = d - 1) := Fills.wr (by omega) rl
  obtain ⟨cs, l, hcs, hl, hll, hlM⟩ := ((f1.seq f2).seq f3).finish (by
    intro p hp
    by_cases h : p = 0
    · exact .inl (.inl h)
    · by_cases h' : p = d - 1
      · exact .inr h'
      · exact .inl (.inr ⟨p, by omega, by omega, rfl⟩))
  have hM : CoreRep e F (sQ d) M l := fun k hk => hlM k (by omega)
  rcases hw1 : wr (List.replicate d none) 0 (some (⟨1, d + 1, fs0⟩ : Qma U)) with er | cs1
  · simp only [hw1] at hcs; cases hcs
  simp only [hw1, bind_ok] at hcs
  rcases hw2 : forR 1 (d - 1) (fun k cs => do
        let o ← rd opts k
        let q ← forN (d - k + 1) (fun kk => forN (d - k + 2) (fun ll q => do
          let f ← quadEntry cn d k coeffs m o kk ll
          wr q (kk * (d - k + 2) + ll) (some f))) (List.replicate ((d - k + 2) * (d - k + 1)) none)
        let fs ← allSome q
        wr cs k (some ⟨d - k + 2, d - k + 1, fs⟩)) cs1 with er | cs2
  · simp only [hw2] at hcs; cases hcs
  simp only [hw2, bind_ok] at hcs
  -- ranks
  have hrk1 : wr (List.replicate (d + 1) 0) 0 1 = .ok ((List.replicate (d + 1) 0).set 0 1) := wr_ok _ (by simp)
  obtain ⟨rk2, hrk2, lrk2, vrk2⟩ := forR_set (a0 := 1) (n := d - 1) (a := (List.replicate (d + 1) 0).set 0 1)
    (body := fun k rk => wr rk k (d - k + 2)) (fun k => d - k + 2) (by simp; omega) (fun i h1 h2 b' hb' => rfl)
  have lrk2' : rk2.length = d + 1 := by rw [lrk2]; simp
  have hrk3 : wr rk2 (d - 1) (d - (d - 1) + 2) = .ok (rk2.set (d - 1) (d - (d - 1) + 2)) := wr_ok _ (by omega)
  have hrk4 : wr (rk2.set (d - 1) (d - (d - 1) + 2)) d 1 = .ok ((rk2.set (d - 1) (d - (d - 1) + 2)).set d 1) :=
    wr_ok _ (by rw [List.length_set]; omega)
  have hrv : ∀ k ≤ d, ((rk2.set (d - 1) (d - (d - 1) + 2)).set d 1)[k]? = some (sQ d k) := by
    intro k hk
    rw [List.getElem?_set, List.getElem?_set, List.length_set, vrk2, List.getElem?_set]
    by_cases h1 : d = k
    · subst h1; rw [if_pos rfl, if_pos (by omega), sd]
    rw [if_neg h1]
    by_cases h3 : d - 1 = k
    · subst h3; rw [if_pos rfl, if_pos (by omega), sm _ (by omega) (by omega)]
    rw [if_neg h3]
    by_cases h4 : k = 0
    · subst h4; rw [if_neg (by omega), if_pos rfl, if_pos (by simp), s0]
    rw [if_pos (by omega), sm k (by omega) (by omega)]
  have hOk : (⟨d, (rk2.set (d - 1) (d - (d - 1) + 2)).set d 1, l, none, none, none⟩ : FT K U).Ok F := by
    refine ok_mk hll (by omega) s0 sd ?_ hM (by simp; omega) hrv
    intro k _
    rw [sQ]; split <;> omega
  refine ⟨_, ?_, hOk, scratch_none, rfl, hM⟩
  simp only [quadratic, hd]
  rw [cassert_of (decide_eq_true (show d > 1 by omega)), bind_ok, hrk1, bind_ok, rd_of_getElem? ho0, bind_ok,
    hrdc 0 0 (by omega) (by omega), bind_ok, hrdm 0 (by omega), bind_ok, hq0, bind_ok, hx1, bind_ok, hx2, bind_ok, hc1,
    bind_ok, hb0, bind_ok, hfs0, bind_ok, hw1, bind_ok, hw2, bind_ok, hrk2, bind_ok, rd_of_getElem? hol, bind_ok, hrk3,
    bind_ok, hl0, bind_ok, hrdm _ (by omega), bind_ok, hl1, bind_ok, hrdc _ _ (by omega) (by omega), bind_ok, hl2, bind_ok,
    qmaOf_ok (by simp; omega), bind_ok, hcs, bind_ok, hrk4, bind_ok, ftDone, hl, bind_ok, pure_eq_ok]

/-- The part of the quadratic form over indices `k, ..., k+n-1`. -/
def qform (Q : Nat → Nat → K) (Y : Nat → K) (k n : Nat) : K :=
  ∑ p ∈ range n, ∑ q ∈ range n, Q (k + p) (k + q) * Y (k + p) * Y (k + q)

theorem qform_succ (Q : Nat → Nat → K) (Y : Nat → K) (k n : Nat) :
    qform Q Y k (n + 1) = Q k k * Y k ^ 2 + ∑ j ∈ range n, (Q k (k + (j + 1)) + Q (k + (j + 1)) k) * Y k * Y (k + (j + 1))
      + qform Q Y (k + 1) n := by
  have e1 : qform Q Y (k + 1) n
      = ∑ p ∈ range n, ∑ q ∈ range n, Q (k + (p + 1)) (k + (q + 1)) * Y (k + (p + 1)) * Y (k + (q + 1)) := by
    rw [qform]
    refine sum_congr rfl fun p _ => sum_congr rfl fun q _ => ?_
    rw [show k + 1 + p = k + (p + 1) by omega, show k + 1 + q = k + (q + 1) by omega]
  have e2 : ∑ j ∈ range n, (Q k (k + (j + 1)) + Q (k + (j + 1)) k) * Y k * Y (k + (j + 1))
      = ∑ j ∈ range n, Q (k + (j + 1)) (k + 0) * Y (k + (j + 1)) * Y (k + 0)
        + ∑ j ∈ range n, Q (k + 0) (k + (j + 1)) * Y (k + 0) * Y (k + (j + 1)) := by
    rw [← Finset.sum_add_distrib]
    refine sum_congr rfl fun j _ => ?_
    rw [Nat.add_zero]; ring
  rw [e1, e2, qform, Finset.sum_range_succ']
  rw [Finset.sum_range_succ' (fun q => Q (k + 0) (k + q) * Y (k + 0) * Y (k + q))]
  rw [Finset.sum_congr rfl (fun p _ =>
    Finset.sum_range_succ' (fun q => Q (k + (p + 1)) (k + q) * Y (k + (p + 1)) * Y (k + q)) n)]
  rw [Finset.sum_add_distrib, Nat.add_zero]
  ring

theorem quadratic_of_core {e : Ev K U K} {F : Fam U K} {d : Nat} (h2 : 2 ≤ d) {Q : Nat → Nat → K} {m : Nat → K}
    {cores : List (Qma U)} (hl : cores.length = d) (hM : CoreRep e F (sQ d) (fun k x => Mq d Q k (x - m k)) cores)
    {x : List K} (hx : InDom F d x) :
    value e cores x = qform Q (fun k => x.getD k 0 - m k) 0 d := by
  obtain ⟨Y, hY⟩ : ∃ Y : Nat → K, Y = fun k => x.getD k 0 - m k := ⟨_, rfl⟩
  rw [← hY]
  have hxl := hx.len
  have hxc : InDom F cores.length x := by rw [hl]; exact hx
  have sd : sQ d d = 1 := by simp [sQ]
  have sm : ∀ k, 0 < k → k < d → sQ d k = d - k + 2 := by intro k h1 h2; rw [sQ, if_neg (by omega)]
  have hy : ∀ k (h : k < x.length), x[k] - m k = Y k := by
    intro k h
    rw [hY]; simp [List.getD_eq_getElem?_getD, List.getElem?_eq_getElem h]
  have step : ∀ k, k < d → ∀ i, i < sQ d k → chain ((mats e cores x).drop k) i
      = ∑ c ∈ range (sQ d (k + 1)), Mq d Q k (Y k) i c * chain ((mats e cores x).drop (k + 1)) c := by
    intro k hk i hi
    rw [chain_rep hM hxc (k := k) (by omega) hi]
    simp only [hy]
  have ec : chain ((mats e cores x).drop d) 0 = 1 := by
    have := chain_end (e := e) hxc.len (i := 0); rw [hl] at this; simpa using this
  have tail : ∀ n k, k + (n + 1) = d → 0 < k → chain ((mats e cores x).drop k) 0 = 1 ∧
      (∀ i, i < n + 1 → chain ((mats e cores x).drop k) (i + 1) = Y (k + i)) ∧
      chain ((mats e cores x).drop k) (n + 2) = qform Q Y k (n + 1) := by
    intro n
    induction n with
    | zero =>
      intro k hk hk0
      have hs : sQ d k = 3 := by rw [sm k hk0 (by omega)]; omega
      have st := step k (by omega)
      rw [show k + 1 = d by omega, sd, hs] at st
      simp only [sum_range_one, ec, mul_one, Mq, if_neg (show ¬ k = 0 by omega), if_pos (show k = d - 1 by omega)] at st
      refine ⟨?_, ?_, ?_⟩
      · rw [st 0 (by omega)]; simp
      · intro i hi
        have : i = 0 := by omega
        subst this
        rw [st 1 (by omega)]; simp
      · rw [st 2 (by omega)]
        simp [qform]; ring
    | succ n ih =>
      intro k hk hk0
      obtain ⟨i0, i1, i2⟩ := ih (k + 1) (by omega) (by omega)
      have hs : sQ d k = n + 1 + 3 := by rw [sm k hk0 (by omega)]; omega
      have hs1 : sQ d (k + 1) = n + 1 + 1 + 1 := by rw [sm (k + 1) (by omega) (by omega)]; omega
      have hdk : d - k + 1 = n + 3 := by omega
      have st := step k (by omega)
      simp only [hs, hs1, Mq, if_neg (show ¬ k = 0 by omega), if_neg (show ¬ k = d - 1 by omega), MqMid, hdk] at st
      refine ⟨?_, ?_, ?_⟩
      · rw [st 0 (by omega), sum_eq_single_of_mem 0 (by simp)]
        · simp [i0]
        · intro c _ hc
          rw [if_neg (by omega), if_neg (by omega), if_neg (by omega), if_neg (by omega), if_neg (by omega), zero_mul]
      · intro i hi
        rw [st (i + 1) (by omega)]
        rcases i with _ | i
        · rw [sum_eq_single_of_mem 0 (by simp)]
          · simp [i0]
          · intro c _ hc
            rw [if_neg (by omega), if_neg (by omega), if_neg (by omega), if_neg (by omega), if_neg (by omega), zero_mul]
        · rw [sum_eq_single_of_mem (i + 1) (mem_range.2 (by omega))]
          · rw [if_neg (by omega), if_neg (by omega), if_pos rfl, one_mul, i1 i (by omega)]
            congr 1; omega
          · intro c _ hc
            rw [if_neg (by omega), if_neg (by omega), if_neg (by omega), if_neg (by omega), if_neg (by omega), zero_mul]
      · have hA : MqMid d Q k (Y k) (n + 3) (n + 2) = 1 := by
          rw [MqMid, if_neg (by omega), if_neg (by omega), if_pos (by omega)]
        have hB : MqMid d Q k (Y k) (n + 3) 0 = Q k k * Y k ^ 2 := by
          rw [MqMid, if_neg (by omega), if_neg (by omega), if_neg (by omega), if_pos ⟨by omega, rfl⟩]
        have hC : ∀ j ∈ range (n + 1), MqMid d Q k (Y k) (n + 3) (j + 1) * chain ((mats e cores x).drop (k + 1)) (j + 1)
            = (Q k (k + (j + 1)) + Q (k + (j + 1)) k) * Y k * Y (k + (j + 1)) := by
          intro j hj
          have hj := mem_range.1 hj
          rw [MqMid, if_neg (by omega), if_neg (by omega), if_neg (by omega), if_neg (by omega), if_pos (by omega), i1 j hj,
            show k + 1 + j = k + (j + 1) by omega]
        have st := step k (by omega) (n + 3) (by omega)
        simp only [hs1, Mq, if_neg (show ¬ k = 0 by omega), if_neg (show ¬ k = d - 1 by omega)] at st
        rw [show n + 1 + 2 = n + 3 from rfl, st, Finset.sum_range_succ, Finset.sum_range_succ', sum_congr rfl hC, hA, hB,
          qform_succ, show n + 1 + 1 = n + 2 from rfl, i2, i0]
        ring
  obtain ⟨n, rfl⟩ : ∃ n, d = n + 2 := ⟨d - 2, by omega⟩
  obtain ⟨i0, i1, i2⟩ := tail n 1 (by omega) (by omega)
  have st := step 0 (by omega) 0 (by simp [sQ])
  rw [sm 1 (by omega) (by omega)] at st
  have hA : Mq (n + 2) Q 0 (Y 0) 0 (n + 2) = 1 := by
    rw [Mq, if_pos rfl, if_neg (by omega), if_pos rfl]
  have hB : Mq (n + 2) Q 0 (Y 0) 0 0 = Q 0 0 * Y 0 ^ 2 := by
    rw [Mq, if_pos rfl, if_pos rfl]
  have hC : ∀ j ∈ range (n + 1), Mq (n + 2) Q 0 (Y 0) 0 (j + 1) * chain ((mats e cores x).drop (0 + 1)) (j + 1)
      = (Q 0 (0 + (j + 1)) + Q (0 + (j + 1)) 0) * Y 0 * Y (0 + (j + 1)) := by
    intro j hj
    have hj := mem_range.1 hj
    rw [Mq, if_pos rfl, if_neg (by omega), if_neg (by omega), i1 j hj, Nat.zero_add, Nat.add_comm 1 j]
  rw [value, ← List.drop_zero (l := mats e cores x), st, qform_succ, show n + 2 - 1 + 2 = n + 1 + 1 + 1 by omega,
    Finset.sum_range_succ, Finset.sum_range_succ', sum_congr rfl hC, hB, show n + 1 + 1 = n + 2 from rfl, hA, i2, i0]
  ring

end C3.Ft
