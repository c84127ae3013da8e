/- Loops over strided arrays of functions, as operations on vectors of functions. -/
import Verif.Qr.Model
import Verif.Core.Sum
import Mathlib.Analysis.InnerProductSpace.PiL2

set_option linter.unusedSectionVars false

namespace C3.Qr
open Finset
variable {E : Type} [NormedAddCommGroup E] [InnerProductSpace ℝ E]

/-- The vector of the functions at positions `p 0, ..., p (len-1)`. -/
noncomputable def vw (len : Nat) (a : List E) (p : Nat → Nat) : PiLp 2 (fun _ : Fin len => E) := WithLp.toLp 2 (fun i => a.getD (p i) 0)

theorem vw_apply (len : Nat) (a : List E) (p : Nat → Nat) (i : Fin len) : vw len a p i = a.getD (p i) 0 := rfl

theorem vw_ext {len : Nat} {a : List E} {p : Nat → Nat} {x : PiLp 2 (fun _ : Fin len => E)} (h : ∀ i : Fin len, a.getD (p i) 0 = x i) :
    vw len a p = x := by
  ext i; exact h i

theorem vw_congr {len : Nat} {a b : List E} {p : Nat → Nat} (h : ∀ i < len, a.getD (p i) 0 = b.getD (p i) 0) : vw len a p = vw len b p :=
  vw_ext fun i => h i i.2

theorem innerSum_ok {n : Nat} {p q : Nat → Nat} {a b : List E} (ha : ∀ i < n, p i < a.length) (hb : ∀ i < n, q i < b.length) :
    innerSum n p a q b = .ok (inner ℝ (vw n a p) (vw n b q)) := by
  have := forN_sum (n := n) (s0 := (0 : ℝ)) (fun i => inner ℝ (a.getD (p i) 0) (b.getD (q i) 0))
    (body := fun ii val => do
      let x ← rd a (p ii)
      let y ← rd b (q ii)
      pure (val + inner ℝ x y))
    (fun i hi s => by rw [rd_getD 0 (ha i hi), bind_ok, rd_getD 0 (hb i hi), bind_ok]; rfl)
  rw [innerSum, this, zero_add, PiLp.inner_apply, Finset.sum_range]
  rfl

theorem fnorm_eq (x : E) : fnorm x = ‖x‖ := by rw [fnorm, real_inner_self_eq_norm_sq, Real.sqrt_sq (norm_nonneg _)]

theorem vw_norm_sq (n : Nat) (a : List E) (p : Nat → Nat) : ‖vw n a p‖ ^ 2 = ∑ i ∈ range n, ‖a.getD (p i) 0‖ ^ 2 := by
  rw [← real_inner_self_eq_norm_sq, PiLp.inner_apply, Finset.sum_range]
  exact sum_congr rfl fun i _ => real_inner_self_eq_norm_sq _

theorem arrNorm_ok {n : Nat} {p : Nat → Nat} {a : List E} (ha : ∀ i < n, p i < a.length) : arrNorm n p a = .ok ‖vw n a p‖ := by
  have := forN_sum (n := n) (s0 := (0 : ℝ)) (fun i => ‖a.getD (p i) 0‖ ^ 2)
    (body := fun ii val => do
      let x ← rd a (p ii)
      pure (val + fnorm x ^ 2))
    (fun i hi s => by rw [rd_getD 0 (ha i hi), bind_ok, fnorm_eq]; rfl)
  rw [arrNorm, this, bind_ok, zero_add, ← vw_norm_sq, Real.sqrt_sq (norm_nonneg _)]
  rfl

/-- A loop that replaces the function at each position `q i`. -/
theorem upd_ok {n : Nat} {q : Nat → Nat} {y : List E} {body : Nat → List E → C (List E)} (h : Nat → E → E)
    (hq : ∀ i < n, q i < y.length) (hinj : ∀ i < n, ∀ j < n, q i = q j → i = j)
    (hb : ∀ i < n, ∀ z : List E, z.length = y.length → body i z = .ok (z.set (q i) (h i (z.getD (q i) 0)))) :
    ∃ z, forN n body y = .ok z ∧ z.length = y.length ∧ (∀ i < n, z.getD (q i) 0 = h i (y.getD (q i) 0)) ∧
      ∀ k, (∀ i < n, q i ≠ k) → z.getD k 0 = y.getD k 0 := by
  obtain ⟨z, e, h1, h2, h3⟩ := forN_spec (n := n) (s := y) (body := body)
    (I := fun m z => z.length = y.length ∧ (∀ i < m, z.getD (q i) 0 = h i (y.getD (q i) 0)) ∧
      ∀ k, (∀ i < m, q i ≠ k) → z.getD k 0 = y.getD k 0)
    ⟨rfl, fun i hi => absurd hi (Nat.not_lt_zero _), fun _ _ => rfl⟩
    (by
      rintro i hi z ⟨h1, h2, h3⟩
      have hg : ∀ (v : E) (k : Nat), (z.set (q i) v).getD k 0 = if k = q i then v else z.getD k 0 := by
        intro v k
        rw [List.getD_eq_getElem?_getD, List.getElem?_set, List.getD_eq_getElem?_getD]
        by_cases hk : q i = k
        · subst hk; simp [h1 ▸ hq i hi]
        · simp [hk, Ne.symm hk]
      refine ⟨_, hb i hi z h1, by rw [List.length_set, h1], ?_, ?_⟩
      · intro k hk
        rw [hg]
        by_cases hki : k = i
        · subst hki; rw [if_pos rfl, h3 _ (fun j hj c => by have := hinj j (by omega) k hi c; omega)]
        · rw [if_neg (fun c => hki (hinj k (by omega) i hi c)), h2 k (by omega)]
      · intro k hk
        rw [hg, if_neg (fun c => hk i (by omega) c.symm), h3 k (fun j hj => hk j (by omega))])
  exact ⟨z, e, h1, h2, h3⟩

/-- The result of an update: vector at `q` replaced by `x`, all other positions kept. -/
structure Upd (n : Nat) (q : Nat → Nat) (y z : List E) (x : PiLp 2 (fun _ : Fin n => E)) : Prop where
  len : z.length = y.length
  val : vw n z q = x
  keep : ∀ k, (∀ i < n, q i ≠ k) → z.getD k 0 = y.getD k 0

theorem Upd.other {n : Nat} {q : Nat → Nat} {y z : List E} {x : PiLp 2 (fun _ : Fin n => E)} (h : Upd n q y z x) {q' : Nat → Nat}
    (hd : ∀ i < n, ∀ j < n, q i ≠ q' j) : vw n z q' = vw n y q' :=
  vw_congr fun j hj => h.keep _ fun i hi => hd i hi j hj

section
variable {n : Nat} {q : Nat → Nat} {y : List E} (hq : ∀ i < n, q i < y.length) (hinj : ∀ i < n, ∀ j < n, q i = q j → i = j)
include hq hinj

theorem upd_vec {body : Nat → List E → C (List E)} (h : Nat → E → E) (x : PiLp 2 (fun _ : Fin n => E))
    (hb : ∀ i < n, ∀ z : List E, z.length = y.length → body i z = .ok (z.set (q i) (h i (z.getD (q i) 0))))
    (hx : ∀ i : Fin n, h i (y.getD (q i) 0) = x i) : ∃ z, forN n body y = .ok z ∧ Upd n q y z x := by
  obtain ⟨z, e, h1, h2, h3⟩ := upd_ok h hq hinj hb
  exact ⟨z, e, h1, vw_ext fun i => by rw [h2 i i.2, hx], h3⟩

theorem flip_ok : ∃ z, flip n q y = .ok z ∧ Upd n q y z (-vw n y q) :=
  upd_vec hq hinj (fun _ x => -x) _ (fun i hi z hz => by
    rw [rd_getD 0 (by rw [hz]; exact hq i hi), bind_ok, wr_ok _ (by rw [hz]; exact hq i hi)]) (fun i => rfl)

theorem scale_ok (c : ℝ) : ∃ z, scale n c q y = .ok z ∧ Upd n q y z (c • vw n y q) :=
  upd_vec hq hinj (fun _ x => c • x) _ (fun i hi z hz => by
    rw [rd_getD 0 (by rw [hz]; exact hq i hi), bind_ok, wr_ok _ (by rw [hz]; exact hq i hi)]) (fun i => rfl)

theorem axpy_ok (c : ℝ) {p : Nat → Nat} {x : List E} (hp : ∀ i < n, p i < x.length) :
    ∃ z, axpy n c p x q y = .ok z ∧ Upd n q y z (c • vw n x p + vw n y q) :=
  upd_vec hq hinj (fun i b => c • x.getD (p i) 0 + b) _ (fun i hi z hz => by
    rw [rd_getD 0 (hp i hi), bind_ok, rd_getD 0 (by rw [hz]; exact hq i hi), bind_ok, wr_ok _ (by rw [hz]; exact hq i hi)]) (fun i => rfl)

theorem axpyIn_ok (c : ℝ) {p : Nat → Nat} (hp : ∀ i < n, p i < y.length) (hd : ∀ i < n, ∀ j < n, q i ≠ p j) :
    ∃ z, axpyIn n c p q y = .ok z ∧ Upd n q y z (c • vw n y p + vw n y q) := by
  obtain ⟨z, e, h1, h2, h3, h4⟩ := forN_spec (n := n) (s := y)
    (body := fun ii y => do
      let a ← rd y (p ii)
      let b ← rd y (q ii)
      wr y (q ii) (c • a + b))
    (I := fun m z => z.length = y.length ∧ (∀ i < m, z.getD (q i) 0 = c • y.getD (p i) 0 + y.getD (q i) 0) ∧
      (∀ k, (∀ i < m, q i ≠ k) → z.getD k 0 = y.getD k 0) ∧ ∀ i < n, z.getD (p i) 0 = y.getD (p i) 0)
    ⟨rfl, fun i hi => absurd hi (Nat.not_lt_zero _), fun _ _ => rfl, fun _ _ => rfl⟩
    (by
      rintro i hi z ⟨h1, h2, h3, h4⟩
      have hg : ∀ (v : E) (k : Nat), (z.set (q i) v).getD k 0 = if k = q i then v else z.getD k 0 := by
        intro v k
        rw [List.getD_eq_getElem?_getD, List.getElem?_set, List.getD_eq_getElem?_getD]
        by_cases hk : q i = k
        · subst hk; simp [h1 ▸ hq i hi]
        · simp [hk, Ne.symm hk]
      refine ⟨_, by rw [rd_getD 0 (by rw [h1]; exact hp i hi), bind_ok, rd_getD 0 (by rw [h1]; exact hq i hi), bind_ok,
        wr_ok _ (by rw [h1]; exact hq i hi)], by rw [List.length_set, h1], ?_, ?_, ?_⟩
      · intro k hk
        rw [hg]
        by_cases hki : k = i
        · subst hki; rw [if_pos rfl, h4 k hi, h3 _ (fun j hj c => by have := hinj j (by omega) k hi c; omega)]
        · rw [if_neg (fun c => hki (hinj k (by omega) i hi c)), h2 k (by omega)]
      · intro k hk
        rw [hg, if_neg (fun c => hk i (by omega) c.symm), h3 k (fun j hj => hk j (by omega))]
      · intro k hk
        rw [hg, if_neg (fun c => hd i hi k hk c.symm), h4 k hk])
  exact ⟨z, e, h1, vw_ext fun i => h2 i i.2, h3⟩

theorem wsum_ok (rho : ℝ) {Q A : List E} (hQ : ∀ i < n, q i < Q.length) (hA : ∀ i < n, q i < A.length) :
    ∃ z, wsum n rho q Q A y = .ok z ∧ Upd n q y z (rho • vw n Q q - vw n A q) :=
  upd_vec hq hinj (fun i _ => rho • Q.getD (q i) 0 + (-1 : ℝ) • A.getD (q i) 0) _ (fun i hi z hz => by
    rw [rd_getD 0 (hQ i hi), bind_ok, rd_getD 0 (hA i hi), bind_ok, wr_ok _ (by rw [hz]; exact hq i hi)])
    (fun i => by rw [neg_smul, one_smul, ← sub_eq_add_neg]; rfl)

theorem setVec_ok {v : List E} (hv : v.length = n) : ∃ z, setVec n q v y = .ok z ∧ Upd n q y z (vw n v idp) :=
  upd_vec hq hinj (fun i _ => v.getD i 0) _ (fun i hi z hz => by
    rw [rd_getD 0 (by omega), bind_ok, wr_ok _ (by rw [hz]; exact hq i hi)]) (fun i => rfl)

theorem copy_ok {Q : List E} (hQ : ∀ i < n, q i < Q.length) :
    ∃ z, forN n (fun kk V => do
      let x ← rd Q (q kk)
      wr V (q kk) x) y = .ok z ∧ Upd n q y z (vw n Q q) :=
  upd_vec hq hinj (fun i _ => Q.getD (q i) 0) _ (fun i hi z hz => by
    rw [rd_getD 0 (hQ i hi), bind_ok, wr_ok _ (by rw [hz]; exact hq i hi)]) (fun i => rfl)

end

theorem daxpby_ok {n : Nat} (c d : ℝ) {p q : Nat → Nat} {x y : List E} (hp : ∀ i < n, p i < x.length) (hq : ∀ i < n, q i < y.length) :
    ∃ z, daxpby n c p x d q y = .ok z ∧ z.length = n ∧ vw n z idp = c • vw n x p + d • vw n y q := by
  obtain ⟨z, e, u⟩ := upd_vec (n := n) (q := idp) (y := List.replicate n (0 : E)) (by intro i hi; simpa [idp] using hi) (fun i _ j _ h => h)
    (body := fun ii z => do
      let a ← rd x (p ii)
      let b ← rd y (q ii)
      wr z ii (c • a + d • b))
    (fun i _ => c • x.getD (p i) 0 + d • y.getD (q i) 0) (c • vw n x p + d • vw n y q) (fun i hi z hz => by
      rw [List.length_replicate] at hz
      rw [rd_getD 0 (hp i hi), bind_ok, rd_getD 0 (hq i hi), bind_ok, wr_ok _ (by rw [hz]; exact hi)]; rfl) (fun i => rfl)
  exact ⟨z, e, by rw [u.len, List.length_replicate], u.val⟩

theorem daxpby1_ok {n : Nat} (c : ℝ) {p : Nat → Nat} {x : List E} (hp : ∀ i < n, p i < x.length) :
    ∃ z, daxpby1 n c p x = .ok z ∧ z.length = n ∧ vw n z idp = c • vw n x p := by
  obtain ⟨z, e, u⟩ := upd_vec (n := n) (q := idp) (y := List.replicate n (0 : E)) (by intro i hi; simpa [idp] using hi) (fun i _ j _ h => h)
    (body := fun ii z => do
      let a ← rd x (p ii)
      wr z ii (c • a))
    (fun i _ => c • x.getD (p i) 0) (c • vw n x p) (fun i hi z hz => by
      rw [List.length_replicate] at hz
      rw [rd_getD 0 (hp i hi), bind_ok, wr_ok _ (by rw [hz]; exact hi)]; rfl) (fun i => rfl)
  exact ⟨z, e, by rw [u.len, List.length_replicate], u.val⟩

/-- Positions of `m` vectors of `len` components in a block of `N` entries. -/
structure Lay (pos : Nat → Nat → Nat) (m len N : Nat) : Prop where
  lt : ∀ v < m, ∀ i < len, pos v i < N
  inj : ∀ v < m, ∀ i < len, ∀ w < m, ∀ j < len, pos v i = pos w j → v = w ∧ i = j

theorem Lay.inj1 {pos : Nat → Nat → Nat} {m len N : Nat} (h : Lay pos m len N) {v : Nat} (hv : v < m) :
    ∀ i < len, ∀ j < len, pos v i = pos v j → i = j := fun i hi j hj e => (h.inj v hv i hi v hv j hj e).2

theorem Lay.disj {pos : Nat → Nat → Nat} {m len N : Nat} (h : Lay pos m len N) {v w : Nat} (hv : v < m) (hw : w < m) (hn : v ≠ w) :
    ∀ i < len, ∀ j < len, pos v i ≠ pos w j := fun i hi j hj e => hn (h.inj v hv i hi w hw j hj e).1

theorem Lay.cols (nrows ncols : Nat) : Lay (fun v i => v * nrows + i) ncols nrows (nrows * ncols) where
  lt v hv i hi := by
    have : v * nrows + i < (v + 1) * nrows := by rw [Nat.add_mul]; omega
    calc v * nrows + i < (v + 1) * nrows := this
      _ ≤ ncols * nrows := Nat.mul_le_mul_right _ (by omega)
      _ = nrows * ncols := Nat.mul_comm _ _
  inj v hv i hi w hw j hj e := by
    have h1 : (v * nrows + i) / nrows = v := by rw [Nat.mul_comm, Nat.mul_add_div (by omega), Nat.div_eq_of_lt hi, Nat.add_zero]
    have h2 : (w * nrows + j) / nrows = w := by rw [Nat.mul_comm, Nat.mul_add_div (by omega), Nat.div_eq_of_lt hj, Nat.add_zero]
    have h3 : v = w := by rw [← h1, ← h2]; exact congrArg (· / nrows) e
    exact ⟨h3, by subst h3; omega⟩

theorem Lay.rows (nrows ncols : Nat) : Lay (fun v i => i * nrows + v) nrows ncols (nrows * ncols) where
  lt v hv i hi := (Lay.cols nrows ncols).lt i hi v hv
  inj v hv i hi w hw j hj e := ((Lay.cols nrows ncols).inj i hi v hv j hj w hw e).symm

theorem Lay.single (n : Nat) : Lay (fun v i => v + i) n 1 n where
  lt v hv i hi := by omega
  inj v hv i hi w hw j hj e := by omega

/-- A loop with an invariant, together with the states it runs through. -/
theorem forN_chain {σ : Type} {n : Nat} {body : Nat → σ → C σ} {s : σ} (I : Nat → σ → Prop) (S : Nat → σ → σ → Prop) (h0 : I 0 s)
    (hs : ∀ i < n, ∀ s, I i s → ∃ s', body i s = .ok s' ∧ I (i + 1) s' ∧ S i s s') :
    ∃ t : Nat → σ, t 0 = s ∧ forN n body s = .ok (t n) ∧ (∀ i ≤ n, I i (t i)) ∧ ∀ i < n, S i (t i) (t (i + 1)) := by
  induction n with
  | zero => exact ⟨fun _ => s, rfl, rfl, fun i hi => by obtain rfl : i = 0 := by omega
                                                        exact h0, fun i hi => by omega⟩
  | succ n ih =>
    obtain ⟨t, t0, e, hI, hS⟩ := ih (fun i hi => hs i (by omega))
    obtain ⟨s', e', hI', hS'⟩ := hs n (by omega) (t n) (hI n le_rfl)
    refine ⟨fun i => if i ≤ n then t i else s', by simp [t0], ?_, ?_, ?_⟩
    · rw [forN_succ, e]; simpa using e'
    · intro i hi
      dsimp only
      split
      · exact hI i (by omega)
      · obtain rfl : i = n + 1 := by omega
        exact hI'
    · intro i hi
      dsimp only
      by_cases h : i = n
      · subst h; simpa using hS'
      · rw [if_pos (by omega), if_pos (by omega)]; exact hS i (by omega)

end C3.Qr
