/-
The interactions of a train are integrals of squares (C79).
-/
import Verif.Prob.Cond
import Mathlib.Algebra.Order.Field.Basic
import Mathlib.Algebra.Order.BigOperators.Group.Finset

set_option linter.unusedSectionVars false

namespace C3.Prob
open Finset
open C3.Ft
variable {K U X : Type} [Field K]
variable {e : Ev K U X} {F : Fam U X} {I : Integ K X}

/-- The bilinear forms of the part of the function that depends on exactly the coordinates in `w`. -/
def diffG (I : Integ K X) (w : Finset Nat) (k : Nat) (g h : X → K) : K := if k ∈ w then I.J k (fun x => g x * h x) - I.J k g * I.J k h else I.J k g * I.J k h

theorem sum_diffG {Qs : List (Qma U)} : ∀ {k : Nat} {u : Finset Nat} (i j : Nat), u ⊆ Ico k (k + Qs.length) →
    ∑ w ∈ u.powerset, bch e I (diffG I w) k Qs i j = bch e I (condG I (fun l => l ∉ u)) k Qs i j := by
  induction Qs with
  | nil =>
    intro k u i j hu
    obtain rfl : u = ∅ := by simpa using hu
    simp [bch]
  | cons Q Qs ih =>
    intro k u i j hu
    have tailw : ∀ (w w' : Finset Nat) a b, (∀ l, k < l → (l ∈ w ↔ l ∈ w')) → bch e I (diffG I w) (k + 1) Qs a b = bch e I (diffG I w') (k + 1) Qs a b := fun w w' a b hw =>
      bch_congr a b fun l h1 _ => by funext g h; simp only [diffG, hw l (by omega)]
    by_cases hk : k ∈ u
    · have hu' : u.erase k ⊆ Ico (k + 1) (k + 1 + Qs.length) := fun l hl => by
        have h1 := mem_erase.1 hl
        have h2 := mem_Ico.1 (hu h1.2)
        rw [List.length_cons] at h2
        exact mem_Ico.2 (by omega)
      have hb : ∀ a b, bch e I (condG I (fun l => l ∉ u)) (k + 1) Qs a b = ∑ w ∈ (u.erase k).powerset, bch e I (diffG I w) (k + 1) Qs a b := fun a b => by
        rw [ih a b hu']
        exact bch_congr a b fun l h1 _ => by
          funext g h
          have : l ∉ u ↔ l ∉ u.erase k := by rw [mem_erase]; simp; omega
          simp only [condG, this]
      conv_lhs => rw [← insert_erase hk, sum_powerset_insert (notMem_erase k u)]
      rw [← sum_add_distrib]
      simp only [bch]
      rw [sum_congr rfl fun w hw => by
        have hkw : k ∉ w := fun hc => notMem_erase k u (mem_powerset.1 hw hc)
        show _ + _ = ∑ a ∈ range Q.ncols, ∑ b ∈ range Q.ncols, I.J k (fun x => Q.val e x i a * Q.val e x j b) * bch e I (diffG I w) (k + 1) Qs a b
        rw [← sum_add_distrib]
        refine sum_congr rfl fun a _ => ?_
        rw [← sum_add_distrib]
        refine sum_congr rfl fun b _ => ?_
        rw [tailw (insert k w) w a b (fun l hl => by rw [mem_insert]; exact ⟨fun h => h.resolve_left (by omega), Or.inr⟩)]
        simp only [diffG, if_neg hkw, mem_insert_self, if_true]
        ring]
      rw [sum_comm]
      refine sum_congr rfl fun a _ => ?_
      rw [sum_comm]
      refine sum_congr rfl fun b _ => ?_
      rw [← mul_sum, hb]
      simp [condG, hk]
    · have hu' : u ⊆ Ico (k + 1) (k + 1 + Qs.length) := fun l hl => by
        have h2 := mem_Ico.1 (hu hl)
        have : l ≠ k := by rintro rfl; exact hk hl
        rw [List.length_cons] at h2
        exact mem_Ico.2 (by omega)
      simp only [bch]
      rw [sum_comm]
      refine sum_congr rfl fun a _ => ?_
      rw [sum_comm]
      refine sum_congr rfl fun b _ => ?_
      rw [← ih a b hu', mul_sum]
      refine sum_congr rfl fun w hw => ?_
      have hkw : k ∉ w := fun hc => hk (mem_powerset.1 hw hc)
      simp [diffG, condG, hkw, hk]

section
variable [LinearOrder K] [IsStrictOrderedRing K]

/-- Integration against a probability measure: total mass one, and nonnegative functions have nonnegative integrals. -/
structure ProbLaw (D : Nat → X → Prop) (I : Integ K X) : Prop where
  one : ∀ k, I.V k (fun _ => 1) ∧ I.J k (fun _ => 1) = 1
  nonneg : ∀ k g, I.V k g → (∀ x, D k x → 0 ≤ g x) → 0 ≤ I.J k g

/-- Covariance. -/
theorem cov (hI : IntLaw F.D I) (hp : ProbLaw F.D I) {k : Nat} {g h : X → K} (hg : I.V k g) (hh : I.V k h) (hgh : I.V k (fun x => g x * h x)) :
    I.V k (fun x => (g x - I.J k g) * (h x - I.J k h)) ∧ I.J k (fun x => (g x - I.J k g) * (h x - I.J k h)) = I.J k (fun x => g x * h x) - I.J k g * I.J k h := by
  obtain ⟨o1, o2⟩ := hp.one k
  obtain ⟨a1, a2⟩ := hI.smul k (-I.J k h) _ hg
  obtain ⟨b1, b2⟩ := hI.smul k (-I.J k g) _ hh
  obtain ⟨c1, c2⟩ := hI.smul k (I.J k g * I.J k h) _ o1
  obtain ⟨d1, d2⟩ := hI.add k _ _ hgh a1
  obtain ⟨e1, e2⟩ := hI.add k _ _ d1 b1
  obtain ⟨f1, f2⟩ := hI.add k _ _ e1 c1
  have : (fun x => (g x - I.J k g) * (h x - I.J k h)) = fun x => g x * h x + -I.J k h * g x + -I.J k g * h x + I.J k g * I.J k h * 1 := by funext x; ring
  rw [this]
  refine ⟨f1, ?_⟩
  rw [f2, e2, d2, a2, b2, c2, o2]
  ring

/-- The interactions are integrals of squares, hence nonnegative. -/
theorem bch_psd (hI : IntLaw F.D I) (hp : ProbLaw F.D I) (hm : MemLaw e F I) (hm2 : MemLaw2 e F I) (w : Finset Nat) {Qs : List (Qma U)} : ∀ {k r s : Nat}, Fits r Qs s → CoresOk F k Qs →
    ∀ {m : Nat} (z : Nat → K), m ≤ r → 0 ≤ ∑ i ∈ range m, ∑ j ∈ range m, z i * z j * bch e I (diffG I w) k Qs i j := by
  induction Qs with
  | nil =>
    intro k r s _ _ m z _
    have : ∑ i ∈ range m, ∑ j ∈ range m, z i * z j * bch e I (diffG I w) k [] i j = (∑ i ∈ range m, z i * if i = 0 then 1 else 0) * ∑ j ∈ range m, z j * if j = 0 then 1 else 0 := by
      rw [sum_mul_sum]
      exact sum_congr rfl fun i _ => sum_congr rfl fun j _ => by rw [bch]; ring
    rw [this]
    exact mul_self_nonneg _
  | cons Q Qs ih =>
    intro k r s hf hP m z hmr
    cases hf with
    | cons _ _ hQ hf =>
    have hP0 : ∀ f ∈ Q.funcs, F.P k f := hP 0 Q rfl
    by_cases hk : k ∈ w
    · -- centred entries
      obtain ⟨q, hq⟩ : ∃ q : Nat → Nat → X → K, q = fun i a x => Q.val e x i a - I.J k (fun x => Q.val e x i a) := ⟨_, rfl⟩
      have hcov : ∀ i < m, ∀ j < m, ∀ a < Q.ncols, ∀ b < Q.ncols, I.V k (fun x => q i a x * q j b x) ∧
          I.J k (fun x => q i a x * q j b x) = diffG I w k (fun x => Q.val e x i a) (fun x => Q.val e x j b) := fun i hi j hj a ha b hb => by
        rw [hq, diffG, if_pos hk]
        exact cov hI hp (val_mem hm hQ hP0 (by omega) ha) (val_mem hm hQ hP0 (by omega) hb) (val_mem2 hm2 hQ hP0 hQ hP0 (by omega) ha (by omega) hb)
      have hin : ∀ i < m, ∀ j < m, _ ∧ _ := fun i hi j hj => J_sum2 hI (k := k) Q.ncols Q.ncols (w := fun a b => bch e I (diffG I w) (k + 1) Qs a b) (g := fun a b x => q i a x * q j b x)
        (fun a ha b hb => (hcov i hi j hj a ha b hb).1)
      obtain ⟨h1, h2⟩ := J_sum2 hI (k := k) m m (w := fun i j => z i * z j)
        (g := fun i j x => ∑ a ∈ range Q.ncols, ∑ b ∈ range Q.ncols, bch e I (diffG I w) (k + 1) Qs a b * (q i a x * q j b x)) (fun i hi j hj => (hin i hi j hj).1)
      have hval : ∑ i ∈ range m, ∑ j ∈ range m, z i * z j * bch e I (diffG I w) k (Q :: Qs) i j =
          I.J k (fun x => ∑ i ∈ range m, ∑ j ∈ range m, z i * z j * ∑ a ∈ range Q.ncols, ∑ b ∈ range Q.ncols, bch e I (diffG I w) (k + 1) Qs a b * (q i a x * q j b x)) := by
        rw [h2]
        refine sum_congr rfl fun i hi => sum_congr rfl fun j hj => ?_
        rw [(hin i (mem_range.1 hi) j (mem_range.1 hj)).2, bch]
        refine congrArg _ (sum_congr rfl fun a ha => sum_congr rfl fun b hb => ?_)
        rw [(hcov i (mem_range.1 hi) j (mem_range.1 hj) a (mem_range.1 ha) b (mem_range.1 hb)).2, mul_comm]
      rw [hval]
      refine hp.nonneg k _ h1 fun x _ => ?_
      have := ih hf hP.tail (fun a => ∑ i ∈ range m, z i * q i a x) (Nat.le_refl _)
      refine le_of_le_of_eq this ?_
      have h3 := sum4' (m := m) (n := Q.ncols) (fun i j => z i * z j) (fun i a j b => q i a x * q j b x) (bch e I (diffG I w) (k + 1) Qs)
      refine (Eq.trans ?_ h3).trans (sum_congr rfl fun i _ => sum_congr rfl fun j _ => congrArg _ (sum_congr rfl fun a _ => sum_congr rfl fun b _ => mul_comm _ _))
      refine sum_congr rfl fun a _ => sum_congr rfl fun b _ => ?_
      rw [sum_mul_sum]
      exact congrArg (· * _) (sum_congr rfl fun i _ => sum_congr rfl fun j _ => by ring)
    · have := ih hf hP.tail (fun a => ∑ i ∈ range m, z i * I.J k (fun x => Q.val e x i a)) (Nat.le_refl _)
      refine le_of_le_of_eq this ?_
      have h3 := sum4' (m := m) (n := Q.ncols) (fun i j => z i * z j) (fun i a j b => I.J k (fun x => Q.val e x i a) * I.J k (fun x => Q.val e x j b)) (bch e I (diffG I w) (k + 1) Qs)
      refine (Eq.trans ?_ h3).trans ?_
      · refine sum_congr rfl fun a _ => sum_congr rfl fun b _ => ?_
        rw [sum_mul_sum]
        exact congrArg (· * _) (sum_congr rfl fun i _ => sum_congr rfl fun j _ => by ring)
      · exact sum_congr rfl fun i _ => sum_congr rfl fun j _ => congrArg _ (by rw [bch]; simp [diffG, hk])
end

/-! ### Variances of conditional means -/

theorem lint_congr_len (I : Integ K X) : ∀ (l : List Nat) {g h : List X → K}, (∀ xs, xs.length = l.length → g xs = h xs) → lint I l g = lint I l h
  | [], g, h, e => e [] rfl
  | k :: l, g, h, e => by
    rw [lint, lint]
    exact congrArg _ (funext fun x => lint_congr_len I l fun xs hx => e (x :: xs) (by simp [hx]))

theorem remFrom_list {n : Nat} {L : List Nat} (hs : L.Pairwise (· < ·)) (hlt : ∀ x ∈ L, x < n) : remFrom (fun k => k ∉ L) 0 n = L := by
  refine List.Perm.eq_of_pairwise (le := (· < ·)) (fun a b _ _ h1 h2 => absurd (lt_trans h1 h2) (lt_irrefl _)) ?_ hs ?_
  · rw [remFrom, ← List.range_eq_range']
    exact List.pairwise_lt_range.filter _
  · refine (List.perm_ext_iff_of_nodup ?_ (hs.imp (fun h => Nat.ne_of_lt h))).2 fun a => ?_
    · rw [remFrom, ← List.range_eq_range']
      exact List.nodup_range.filter _
    · rw [remFrom, ← List.range_eq_range']
      simp only [List.mem_filter, List.mem_range, decide_eq_true_eq, not_not]
      exact ⟨fun h => h.2, fun h => ⟨hlt a h, h⟩⟩

/-- Variance of the conditional mean of a train in terms of its cores. -/
theorem condVar_bch (hI : IntLaw F.D I) (hm : MemLaw e F I) (hm2 : MemLaw2 e F I) {ft : FT K U} (hft : ft.Ok F) {L : List Nat} (hs : L.Pairwise (· < ·)) (hlt : ∀ x ∈ L, x < ft.dim) :
    condVar I ft.dim (value e ft.cores) L = bch e I (condG I (fun k => k ∉ L)) 0 ft.cores 0 0 - ichain e I 0 ft.cores 0 * ichain e I 0 ft.cores 0 := by
  have hP : CoresOk F 0 ft.cores := fun j Q hQ => by rw [Nat.zero_add]; exact hft.mem j Q hQ
  have hrem := remFrom_list hs hlt
  have h1 : ∀ ys : List X, ys.length = L.length → cint I (fun k => k ∉ L) 0 ft.dim (value e ft.cores) ys = cchain e I (fun k => k ∉ L) 0 ft.cores ys 0 := fun ys hy =>
    cint_value hI hm _ hft (by rw [hrem, hy])
  have h2 := lint_cchain2 hI hm2 (fun k => k ∉ L) hft.wf.fits hP (m := 1) (fun _ _ => 1) (by decide)
  have h3 := lint_cchain hI hm (fun k => k ∉ L) hft.wf.fits hP (m := 1) (fun _ => 1) (by decide)
  rw [← hft.wf.dim, hrem] at h2 h3
  simp only [sum_range_one, one_mul] at h2 h3
  rw [condVar, condSq, lint_congr_len I L (fun ys hy => by rw [h1 ys hy]), h2, lint_congr_len I L h1, h3]

end C3.Prob
