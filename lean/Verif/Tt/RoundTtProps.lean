/-
C130: rounding of a tensor train.
-/
import Verif.Tt.RightOrth

set_option linter.unusedSectionVars false

namespace C3.Tt
open Finset C3.Ft C3.Round

theorem msum_quad {ns : List Nat} {r : Nat} (c : Nat → ℝ) (f : List Nat → Nat → ℝ)
    (h : ∀ i < r, ∀ i' < r, msum ns (fun es => f es i * f es i') = if i = i' then 1 else 0) :
    msum ns (fun es => (∑ i ∈ range r, c i * f es i) ^ 2) = ∑ i ∈ range r, c i * c i := by
  have h1 : ∀ es, (∑ i ∈ range r, c i * f es i) ^ 2 = ∑ i ∈ range r, ∑ i' ∈ range r, c i * c i' * (f es i * f es i') := by
    intro es
    rw [sq, sum_mul_sum]
    refine sum_congr rfl fun i _ => sum_congr rfl fun i' _ => by ring
  simp only [h1]
  rw [msum_sum]
  refine sum_congr rfl fun i hi => ?_
  rw [msum_sum, sum_eq_single i]
  · rw [msum_mul_left, h i (mem_range.1 hi) i (mem_range.1 hi), if_pos rfl, mul_one]
  · intro i' hi' hne
    rw [msum_mul_left, h i (mem_range.1 hi) i' (mem_range.1 hi'), if_neg (Ne.symm hne), mul_zero]
  · intro h; exact absurd hi h

/-- The tensor left to be represented: `diag(s) vt` times the remaining cores. -/
def Rtl (a : TT ℝ) (r : Nat) (s vt : List ℝ) (k i : Nat) (es : List Nat) : ℝ :=
  ∑ j ∈ range (a.rk k), s.getD i 0 * vt.getD (j * r + i) 0 * tail a.rk a.G k es j

/-- Cutting a core of the sweep. -/
theorem roundCut_ok {svd : Nat → Nat → List ℝ → C Svd} (hsvd : SvdRLaw svd) {a : TT ℝ} (ha : a.WF) (hpos : ∀ k < a.dim, 0 < a.nv k)
    (hon : ∀ k, 1 ≤ k → k < a.dim → RowsOn a k) {delta : ℝ} {k : Nat} (hk : k < a.dim) {t : Rs}
    {R : Nat → Nat → List Nat → ℝ} {E : Nat → ℝ}
    (h : Built a.dim a.nvals delta (fun j _ r' => r' ≤ a.rk (j + 1)) k t.ranks t.cores R E) {v : List ℝ} {r : Nat}
    (hr : t.ranks.getD k 0 = r) (hv : v.length = r * a.nv k * a.rk (k + 1))
    (hR : ∀ i < r, ∀ e < a.nv k, ∀ es, R k i (e :: es) = ∑ j ∈ range (a.rk (k + 1)), v.getD (i + e * r + j * r * a.nv k) 0 *
      tail a.rk a.G (k + 1) es j) :
    ∃ t' R' E', roundCut svd a delta k r v t = .ok t' ∧
      Built a.dim a.nvals delta (fun j _ r' => r' ≤ a.rk (j + 1)) (k + 1) t'.ranks t'.cores R' E' ∧
      t'.s.length = t'.ranks.getD (k + 1) 0 ∧ t'.vt.length = t'.ranks.getD (k + 1) 0 * a.rk (k + 1) ∧
      (∀ i < t'.ranks.getD (k + 1) 0, ∀ es, R' (k + 1) i es = Rtl a (t'.ranks.getD (k + 1) 0) t'.s t'.vt (k + 1) i es) ∧
      R' 0 = R 0 := by
  have hn := hpos k hk
  have hrp : 0 < r := by rw [← hr]; exact h.rpos k (le_refl _)
  have hN := ha.rpos (k + 1) (by omega)
  have hnv : a.nvals.getD k 0 = a.nv k := rfl
  generalize hgn : a.nv k = n at *
  generalize hgN : a.rk (k + 1) = N at *
  obtain ⟨w, u, h1, h2, h3⟩ := truncSvdR_ok hsvd (m := n * r) (n := N) (M := v) (Nat.mul_pos hn hrp) hN (by rw [hv]; ring) delta
  have hule : u.u.length = r * n * u.rank := by rw [h3.lu]; ring
  have hQ : (⟨r, n, u.rank, u.u⟩ : T3 ℝ).Is r n u.rank (⟨r, n, u.rank, u.u⟩ : T3 ℝ).get := T3.WF.is (t := ⟨r, n, u.rank, u.u⟩) hule
  have htl := tails_on ha (p := 1) hon (a.dim - (k + 1)) (k + 1) (by omega) (by omega)
  rw [hgN] at htl
  have hS : Split n r u.rank (a.nvals.drop (k + 1)) (⟨r, n, u.rank, u.u⟩ : T3 ℝ).get (R k) (Rtl a u.rank u.s u.vt (k + 1))
      (∑ q ∈ Ico u.rank (min (n * r) N), w.s.getD q 0 ^ 2) := by
    refine split_of (U := fun a q => ent (n * r) w.u a q)
      (Y := fun q es => w.s.getD q 0 * ∑ j ∈ range N, ent N w.vt q j * tail a.rk a.G (k + 1) es j) h3.rank.le
      (fun q hq q' hq' => h2.uon q (by omega) q' (by omega)) ?_ ?_ ?_ ?_
    · intro i hi e he es _ _
      have hrow : e * r + i < n * r := by
        rw [Nat.mul_comm n r]; exact cm_idx_lt hi he
      rw [hR i hi e he es]
      have hx : ∀ q, ent (n * r) w.u (e * r + i) q * (w.s.getD q 0 * ∑ j ∈ range N, ent N w.vt q j * tail a.rk a.G (k + 1) es j)
          = ∑ j ∈ range N, ent (n * r) w.u (e * r + i) q * (w.s.getD q 0 * ent N w.vt q j) * tail a.rk a.G (k + 1) es j := by
        intro q
        rw [mul_sum, mul_sum]
        exact sum_congr rfl fun j _ => by ring
      simp only [hx]
      rw [sum_comm]
      refine sum_congr rfl fun j hj => ?_
      rw [← sum_mul, ← h2.prod (e * r + i) hrow j (mem_range.1 hj), ent]
      congr 2; ring
    · intro i hi e he c hc
      have hrow : e * r + i < n * r := by
        rw [Nat.mul_comm n r]; exact cm_idx_lt hi he
      rw [← h3.u _ hrow c hc, T3.get, ent]
      congr 1; ring
    · intro c hc es _ _
      rw [Rtl, hgN, mul_sum]
      refine sum_congr rfl fun j hj => ?_
      rw [h3.s c hc, ← h3.vt c hc j (mem_range.1 hj), ent]; ring
    · intro q hq1 hq2
      simp only [mul_pow]
      rw [msum_mul_left, msum_quad (fun j => ent N w.vt q j) (fun es j => tail a.rk a.G (k + 1) es j) htl]
      have := h2.von q (by omega) q (by omega)
      rw [if_pos rfl] at this
      rw [this, mul_one]
  have hE : 0 ≤ ∑ q ∈ Ico u.rank (min (n * r) N), w.s.getD q 0 ^ 2 ∧
      (∑ q ∈ Ico u.rank (min (n * r) N), w.s.getD q 0 ^ 2 = 0 ∨ ∑ q ∈ Ico u.rank (min (n * r) N), w.s.getD q 0 ^ 2 < delta) := by
    refine ⟨sum_nonneg fun _ _ => sq_nonneg _, ?_⟩
    rcases Nat.lt_or_ge u.rank (min (n * r) N) with hlt | hge
    · exact Or.inr (h3.rank.small hlt)
    · left
      rw [Ico_eq_empty_of_le hge, sum_empty]
  have hb := h.step hk (r' := u.rank) (Q := ⟨r, n, u.rank, u.u⟩) h3.rank.pos (by rw [hr, hnv]; exact hQ)
    (R' := Rtl a u.rank u.s u.vt (k + 1)) (by rw [hr, hnv]; exact hS) (by rw [hgN]; exact le_trans h3.rank.le (Nat.min_le_right _ _)) hE
  have hrl : k + 1 < t.ranks.length := by rw [h.rlen]; omega
  refine ⟨⟨t.ranks.set (k + 1) u.rank, t.cores.set k (some ⟨r, n, u.rank, u.u⟩), u.s, u.vt⟩, _, _, ?_, hb, ?_, ?_, ?_, ?_⟩
  · rw [roundCut, ha.nv_get hk, bind_ok, hgn, ha.rk_get (by omega), bind_ok, hgN, h1, bind_ok, wr_ok _ hrl, bind_ok,
      wr_ok _ (by rw [h.clen]; exact hk), bind_ok, pure_eq_ok]
  · dsimp only
    rw [set_getD_self _ _ hrl, h3.ls]
  · dsimp only
    rw [set_getD_self _ _ hrl, h3.lvt]
  · intro i _ es
    dsimp only
    rw [set_getD_self _ _ hrl, if_neg (by omega)]
  · exact if_pos (by omega)

/-- Multiplying `diag(s) vt` into a core. -/
theorem roundMul_ok {a : TT ℝ} (ha : a.WF) {k r : Nat} (hk : k < a.dim) {t : Rs} (hs : t.s.length = r)
    (hvt : t.vt.length = r * a.rk k) :
    ∃ v, roundMul a k r t = .ok v ∧ v.length = r * a.nv k * a.rk (k + 1) ∧
      ∀ i < r, ∀ e < a.nv k, ∀ j < a.rk (k + 1), v.getD (i + e * r + j * r * a.nv k) 0
        = ∑ c ∈ range (a.rk k), t.s.getD i 0 * t.vt.getD (c * r + i) 0 * a.G k c e j := by
  obtain ⟨Q, hQ1, hQ2, hQ3⟩ := ha.core_get hk
  generalize hgn : a.nv k = n at *
  generalize hgN : a.rk (k + 1) = N at *
  generalize hgr : a.rk k = ra at *
  have hT := trmmL_ok (m := r) (n := ra) (lda := r) (A := cm r r (fun i j => if i = j then t.s.getD i 0 else 0)) (B := t.vt) hvt
    (fun i t hit ht => by simpa using cm_idx_lt (show i < r by omega) ht)
  generalize hW : cm r ra (fun i j => ∑ x ∈ Ico i r, (cm r r (fun i j => if i = j then t.s.getD i 0 else 0)).getD (x * r + i) 0
    * t.vt.getD (j * r + x) 0) = W at hT
  have hWl : W.length = r * ra := by rw [← hW]; simp
  have hWv : ∀ i < r, ∀ j < ra, W.getD (j * r + i) 0 = t.s.getD i 0 * t.vt.getD (j * r + i) 0 := by
    intro i hi j hj
    rw [← hW, getD_cm _ _ hi hj, sum_eq_single i]
    · rw [getD_cm _ _ hi hi, if_pos rfl]
    · intro x hx hne
      rw [getD_cm _ _ hi (mem_Ico.1 hx).2, if_neg (Ne.symm hne), zero_mul]
    · intro h; exact absurd (mem_Ico.2 ⟨le_refl _, hi⟩) h
  have hg := dgemmNN_ok (m := r) (n := N * n) (k := ra) (A := W) (B := Q.vals) (c := List.replicate (r * N * n) 0) (by rw [hWl])
    (by rw [hQ3.len]; exact le_of_eq (by ring)) (by rw [List.length_replicate]; ring)
  refine ⟨cm r (N * n) (fun i j => ∑ x ∈ range ra, W.getD (x * r + i) 0 * Q.vals.getD (j * ra + x) 0), ?_, ?_, ?_⟩
  · rw [roundMul, diagM_ok hs, bind_ok, ha.rk_get (by omega), bind_ok, hgr, hT, bind_ok, ha.rk_get (by omega), bind_ok, hgN,
      ha.nv_get hk, bind_ok, hgn, hQ1, bind_ok]
    exact hg
  · simp; ring
  · intro i hi e he j hj
    have hcol : j * n + e < N * n := by rw [Nat.mul_comm N n]; exact cm_idx_lt he hj
    rw [show i + e * r + j * r * n = (j * n + e) * r + i by ring, getD_cm _ _ hi hcol]
    refine sum_congr rfl fun c hc => ?_
    have hc := mem_range.1 hc
    rw [hWv i hi c hc, hQ3.getD hc he hj (by ring)]

/-- What is left after a core has been multiplied. -/
theorem rtl_cons {a : TT ℝ} {k r : Nat} {s vt v : List ℝ}
    (hv : ∀ i < r, ∀ e < a.nv k, ∀ j < a.rk (k + 1), v.getD (i + e * r + j * r * a.nv k) 0
        = ∑ c ∈ range (a.rk k), s.getD i 0 * vt.getD (c * r + i) 0 * a.G k c e j) {i : Nat} (hi : i < r) {e : Nat} (he : e < a.nv k)
    (es : List Nat) :
    Rtl a r s vt k i (e :: es) = ∑ j ∈ range (a.rk (k + 1)), v.getD (i + e * r + j * r * a.nv k) 0 * tail a.rk a.G (k + 1) es j := by
  rw [Rtl]
  simp only [tail]
  have h1 : ∀ c, s.getD i 0 * vt.getD (c * r + i) 0 * ∑ j ∈ range (a.rk (k + 1)), a.G k c e j * tail a.rk a.G (k + 1) es j
      = ∑ j ∈ range (a.rk (k + 1)), s.getD i 0 * vt.getD (c * r + i) 0 * a.G k c e j * tail a.rk a.G (k + 1) es j := by
    intro c
    rw [mul_sum]
    exact sum_congr rfl fun j _ => by ring
  simp only [h1]
  rw [sum_comm]
  refine sum_congr rfl fun j hj => ?_
  rw [hv i hi e he j (mem_range.1 hj), sum_mul]

theorem ttNorm_ok {a : TT ℝ} (ha : a.WF) : ttNorm a = .ok (Real.sqrt (msum a.nvals (fun es => a.elem es ^ 2))) := by
  rw [ttNorm, ttDot_same_ranks ha ha rfl (fun _ _ => rfl) rfl, bind_ok, pure_eq_ok, abs_of_nonneg (msum_nonneg _ fun es => mul_self_nonneg _)]
  simp only [sq]

/-- The rank bound under which the orthogonalisation works. -/
def RankOk (a : TT ℝ) : Prop := ∀ k, 1 ≤ k → k < a.dim → a.rk k ≤ a.nv k * a.rk (k + 1)

/-- **C130** Rounding a train: the result is well-formed with the same sizes, no rank grows, and the sum of the squared
differences of all entries is the sum of `d - 1` truncation errors, each zero or below `|a| eps / sqrt(d - 1)`. Missing: one
dimension, see `ttRound_dim1_counterexample`; ranks above the number of values to the right, see
`ttRound_rank_counterexample`; the documented relative error, refuted as in C129. -/
theorem ttRound_partial {svd : Nat → Nat → List ℝ → C Svd} {rq : Nat → Nat → List ℝ → C Rq} (hsvd : SvdRLaw svd) (hrq : RqLaw rq)
    {a : TT ℝ} (ha : a.WF) (h2 : 2 ≤ a.dim) (hpos : ∀ k < a.dim, 0 < a.nv k) (hle : RankOk a) (eps : ℝ) :
    ∃ (t : TT ℝ) (E : Nat → ℝ), ttRound svd rq a eps = .ok t ∧ t.WF ∧ t.dim = a.dim ∧ t.nvals = a.nvals ∧
      (∀ k ≤ a.dim, t.rk k ≤ a.rk k) ∧
      msum a.nvals (fun es => (a.elem es - t.elem es) ^ 2) = ∑ k ∈ range (a.dim - 1), E k ∧
      ∀ k < a.dim - 1, 0 ≤ E k ∧ (E k = 0 ∨
        E k < Real.sqrt (msum a.nvals (fun es => a.elem es ^ 2)) * eps / Real.sqrt ((a.dim : ℝ) - 1)) := by
  generalize hdelta : Real.sqrt (msum a.nvals (fun es => a.elem es ^ 2)) * eps / Real.sqrt ((a.dim : ℝ) - 1) = delta
  have htol : tolOf a.dim (Real.sqrt (msum a.nvals (fun es => a.elem es ^ 2))) eps = delta := by
    rw [tolOf, if_pos (by omega), hdelta]
  obtain ⟨b, b1, b2, b3, b4, b5, b6, b7⟩ := rightLeftOrth_partial hrq ha hle
  have e5 : ∀ k, b.rk k = a.rk k := fun k => by rw [TT.rk, TT.rk, b5]
  have e6 : ∀ k, b.nv k = a.nv k := fun k => by rw [TT.nv, TT.nv, b4]
  have hposb : ∀ k < b.dim, 0 < b.nv k := fun k hk => by rw [e6]; exact hpos k (by omega)
  have honb : ∀ k, 1 ≤ k → k < b.dim → RowsOn b k := fun k h1 h2 => b7 k h1 (by omega)
  let rk0 := (((List.replicate (b.dim + 1) 0).set 0 1).set 0 1).set b.dim 1
  have hrk0 : rk0.getD 0 0 = 1 := by
    show ((((List.replicate (b.dim + 1) 0).set 0 1).set 0 1).set b.dim 1).getD 0 0 = 1
    rw [set_getD_ne _ _ (by omega), set_getD_self _ _ (by simp)]
  have hrk0l : rk0.length = b.dim + 1 := by
    show ((((List.replicate (b.dim + 1) 0).set 0 1).set 0 1).set b.dim 1).length = _
    simp
  obtain ⟨Q, hQ1, hQ2, hQ3⟩ := b2.core_get (k := 0) (by omega)
  have hb0 := b2.first
  have h0 : Built b.dim b.nvals delta (fun j _ r' => r' ≤ b.rk (j + 1)) 0 rk0 (List.replicate b.dim none)
      (fun k i es => tail b.rk b.G k es i) (fun _ => 0) := by
    refine ⟨hrk0l, by simp, hrk0, ?_, fun j hj => by omega, fun j hj => by omega, fun j hj => by omega⟩
    intro j hj
    have : j = 0 := by omega
    subst this
    rw [hrk0]; exact Nat.one_pos
  obtain ⟨t1, R1, E1, s1, u1, l1, m1, r1, z1⟩ := roundCut_ok hsvd b2 hposb honb (k := 0) (by omega)
    (t := ⟨rk0, List.replicate b.dim none, [], []⟩) h0 (v := Q.vals) (r := 1) hrk0
    (by rw [hQ3.len, hb0])
    (by
      intro i hi e he es
      rw [tail]
      refine sum_congr rfl fun j hj => ?_
      rw [hQ3.getD (by rw [hb0]; exact hi) he (mem_range.1 hj) (by rw [hb0])])
  obtain ⟨t2, s2, R2, E2, u2, l2, m2, r2, z2⟩ := forR_spec
    (I := fun k (t : Rs) => ∃ R E, Built b.dim b.nvals delta (fun j _ r' => r' ≤ b.rk (j + 1)) k t.ranks t.cores R E ∧
      t.s.length = t.ranks.getD k 0 ∧ t.vt.length = t.ranks.getD k 0 * b.rk k ∧
      (∀ i < t.ranks.getD k 0, ∀ es, R k i es = Rtl b (t.ranks.getD k 0) t.s t.vt k i es) ∧ R 0 = fun i es => tail b.rk b.G 0 es i)
    (a := 1) (b := b.dim - 1) (by omega) (s := t1) (body := roundStep svd b delta)
    ⟨R1, E1, u1, l1, m1, r1, z1⟩
    (by
      rintro k hk1 hk2 t ⟨R, E, u, l, m, r, z⟩
      obtain ⟨v, v1, v2, v3⟩ := roundMul_ok b2 (k := k) (by omega) l m
      obtain ⟨t', R', E', s', u', l', m', r', z'⟩ := roundCut_ok hsvd b2 hposb honb (k := k) (by omega) u rfl v2
        (by
          intro i hi e he es
          rw [r i hi, rtl_cons v3 hi he])
      refine ⟨t', ?_, R', E', u', l', m', r', by rw [z', z]⟩
      rw [roundStep, rd_getD 0 (by rw [u.rlen]; omega), bind_ok, v1, bind_ok, s'])
  obtain ⟨v, v1, v2, v3⟩ := roundMul_ok b2 (k := b.dim - 1) (by omega) l2 m2
  have hlast := b2.last
  have hd1 : b.dim - 1 + 1 = b.dim := by omega
  rw [hd1, hlast] at v2
  obtain ⟨l, f1, f2, f3, f4⟩ := u2.finish (by omega) b2.nnvals
    (Q := ⟨t2.ranks.getD (b.dim - 1) 0, b.nv (b.dim - 1), 1, v⟩)
    (T3.WF.is (t := ⟨t2.ranks.getD (b.dim - 1) 0, b.nv (b.dim - 1), 1, v⟩) v2)
    (by
      intro i hi e he
      rw [r2 i hi, rtl_cons v3 hi he, hd1, hlast, sum_range_one, T3.get, tail, if_pos rfl, mul_one])
  refine ⟨_, E2, ?_, f2, b3, b4, ?_, ?_, ?_⟩
  · rw [ttRound, ttNorm_ok ha, bind_ok]
    dsimp only
    rw [htol, b1, bind_ok, initRanks_ok, bind_ok, initNvals_ok (by rw [b2.nnvals]), List.take_of_length_le (by rw [b2.nnvals]), bind_ok,
      b2.rk_get (by omega), bind_ok, hb0, wr_ok _ (by simp), bind_ok, b2.rk_get (le_refl _), bind_ok, hlast, wr_ok _ (by simp), bind_ok,
      hQ1, bind_ok]
    rw [s1, bind_ok, s2, bind_ok, rd_getD 0 (by rw [u2.rlen]; omega), bind_ok, b2.nv_get (by omega), bind_ok, v1, bind_ok,
      wr_ok _ (by rw [u2.clen]; omega), bind_ok, wr_ok _ (by rw [u2.rlen]; omega), bind_ok, f1, bind_ok, pure_eq_ok]
  · intro k hk
    rcases Nat.lt_or_ge k b.dim with hkd | hkd
    · rw [f3 k hkd]
      rcases Nat.eq_zero_or_pos k with rfl | hk0
      · rw [u2.r0, ha.first]
      · obtain ⟨j, rfl⟩ : ∃ j, k = j + 1 := ⟨k - 1, by omega⟩
        rw [← e5]
        exact u2.rb j (by omega)
    · have : k = b.dim := by omega
      subst this
      have h1 := f2.last
      have h2 : a.rk b.dim = 1 := by rw [b3]; exact ha.last
      rw [h2]
      exact le_of_eq h1
  · rw [← b3, ← f4, b4]
    refine msum_congr fun es he1 he2 => ?_
    have hix : a.Ix es := ⟨by rw [he1, ha.nnvals], fun k hk => he2 k (by rw [ha.nnvals]; exact hk)⟩
    rw [z2, ← b6 es hix]
    rfl
  · rw [← b3]
    exact u2.bd

/-- **C130** Bound on the total error. -/
theorem ttRound_error_partial {svd : Nat → Nat → List ℝ → C Svd} {rq : Nat → Nat → List ℝ → C Rq} (hsvd : SvdRLaw svd) (hrq : RqLaw rq)
    {a : TT ℝ} (ha : a.WF) (h2 : 2 ≤ a.dim) (hpos : ∀ k < a.dim, 0 < a.nv k) (hle : RankOk a) {eps : ℝ} (he : 0 ≤ eps) :
    ∃ t, ttRound svd rq a eps = .ok t ∧ t.WF ∧ t.dim = a.dim ∧ t.nvals = a.nvals ∧ (∀ k ≤ a.dim, t.rk k ≤ a.rk k) ∧
      msum a.nvals (fun es => (a.elem es - t.elem es) ^ 2)
        ≤ Real.sqrt ((a.dim : ℝ) - 1) * Real.sqrt (msum a.nvals (fun es => a.elem es ^ 2)) * eps := by
  obtain ⟨t, E, h1, h3, h4, h5, h8, h6, h7⟩ := ttRound_partial hsvd hrq ha h2 hpos hle eps
  refine ⟨t, h1, h3, h4, h5, h8, ?_⟩
  rw [h6]
  refine le_trans (built_le h7 (by positivity)) (le_of_eq ?_)
  have hd : ((a.dim - 1 : Nat) : ℝ) = (a.dim : ℝ) - 1 := by
    rw [Nat.cast_sub (by omega)]; simp
  have hp : (0 : ℝ) < (a.dim : ℝ) - 1 := by
    have : (2 : ℝ) ≤ a.dim := by exact_mod_cast h2
    linarith
  have hs := Real.mul_self_sqrt (le_of_lt hp)
  have hsp := Real.sqrt_pos.2 hp
  rw [hd, ← mul_div_assoc, div_eq_iff (ne_of_gt hsp)]
  nth_rewrite 1 [← hs]
  ring

/-- **C130** With tolerance zero the tensor is unchanged. -/
theorem ttRound_exact_partial {svd : Nat → Nat → List ℝ → C Svd} {rq : Nat → Nat → List ℝ → C Rq} (hsvd : SvdRLaw svd) (hrq : RqLaw rq)
    {a : TT ℝ} (ha : a.WF) (h2 : 2 ≤ a.dim) (hpos : ∀ k < a.dim, 0 < a.nv k) (hle : RankOk a) :
    ∃ t, ttRound svd rq a 0 = .ok t ∧ t.WF ∧ t.dim = a.dim ∧ t.nvals = a.nvals ∧ (∀ k ≤ a.dim, t.rk k ≤ a.rk k) ∧
      ∀ es, a.Ix es → t.elem es = a.elem es := by
  obtain ⟨t, h1, h3, h4, h5, h8, h6⟩ := ttRound_error_partial hsvd hrq ha h2 hpos hle (le_refl 0)
  refine ⟨t, h1, h3, h4, h5, h8, fun es hes => ?_⟩
  rw [mul_zero] at h6
  have h0 := msum_eq_zero (f := fun es => (a.elem es - t.elem es) ^ 2) (fun es => sq_nonneg _)
    (le_antisymm h6 (msum_nonneg _ fun es => sq_nonneg _)) es (by rw [hes.len, ha.nnvals]) (fun m hm => hes.lt m (by rwa [ha.nnvals] at hm))
  have := pow_eq_zero_iff (two_ne_zero) |>.1 h0
  linarith

/-- Two modes of size one joined by rank two, as the sum of two rank-one trains is stored. -/
def exSum : TT ℝ := ⟨2, [1, 1], [1, 2, 1], [⟨1, 1, 2, [1, 1]⟩, ⟨2, 1, 1, [1, 1]⟩]⟩

theorem exSum_wf : exSum.WF := by
  refine ⟨by decide, rfl, rfl, rfl, rfl, rfl, by decide, ?_⟩
  intro k Q hQ
  rcases (by have := (List.getElem?_eq_some_iff.1 hQ).1; simp [exSum] at this; omega : k = 0 ∨ k = 1) with rfl | rfl <;>
    (simp [exSum] at hQ; subst hQ; exact ⟨rfl, rfl, rfl, rfl⟩)

/-- **C130** Disagreement: a rank above the number of values to the right of it (which sums of trains produce) makes the
triangular factor start before its array, whatever the factorisation routines return. -/
theorem ttRound_rank_counterexample (svd : Nat → Nat → List ℝ → C Svd) (rq : Nat → Nat → List ℝ → C Rq) (eps : ℝ) :
    exSum.WF ∧ ∀ t, ttRound svd rq exSum eps ≠ .ok t := by
  refine ⟨exSum_wf, fun t h => ?_⟩
  rw [ttRound, ttNorm_ok exSum_wf, bind_ok] at h
  dsimp only at h
  have h1 : rightLeftOrth rq exSum = rightOrthoCore rq exSum 1 := rfl
  have h2 : ∃ e, rightOrthoCore rq exSum 1 = .error e := by
    rw [rightOrthoCore, show rd exSum.ranks 1 = .ok 2 from rfl, bind_ok, idMat_ok, bind_ok, show rd exSum.ranks (1 + 1) = .ok 1 from rfl,
      bind_ok, show rd exSum.nvals 1 = .ok 1 from rfl, bind_ok, show rd exSum.cores 1 = .ok ⟨2, 1, 1, [1, 1]⟩ from rfl, bind_ok, rqMult]
    cases rq 2 (1 * 1) [1, 1] with
    | error e => exact ⟨e, rfl⟩
    | ok w => exact ⟨.oob, rfl⟩
  obtain ⟨e, he⟩ := h2
  rw [h1, he] at h
  exact absurd h (by simp)

/-- A train with one mode of size one and the value two. -/
def exOne : TT ℝ := ⟨1, [1], [1, 1], [⟨1, 1, 1, [2]⟩]⟩

theorem exOne_wf : exOne.WF := by
  refine ⟨by decide, rfl, rfl, rfl, rfl, rfl, by decide, ?_⟩
  intro k Q hQ
  have hk : k = 0 := by have := (List.getElem?_eq_some_iff.1 hQ).1; simp [exOne] at this; omega
  subst hk
  simp [exOne] at hQ; subst hQ; exact ⟨rfl, rfl, rfl, rfl⟩

/-- **C130** Disagreement: in one dimension the only core is multiplied by its own singular value, so that rounding with
tolerance zero changes the tensor: the value 2 becomes 4 or -4. -/
theorem ttRound_dim1_counterexample {svd : Nat → Nat → List ℝ → C Svd} (hsvd : SvdRLaw svd) (rq : Nat → Nat → List ℝ → C Rq) :
    exOne.WF ∧ RankOk exOne ∧ exOne.elem [0] = 2 ∧ ∃ t, ttRound svd rq exOne 0 = .ok t ∧ t.elem [0] ^ 2 = 16 := by
  refine ⟨exOne_wf, fun k h1 h2 => ?_, by simp [exOne, TT.elem, tail, TT.rk, TT.G, T3.get], ?_⟩
  · have : k < 1 := h2
    omega
  generalize hd : tolOf 1 (Real.sqrt (msum exOne.nvals (fun es => exOne.elem es ^ 2))) 0 = delta
  obtain ⟨w, u, h1, h2, h3⟩ := truncSvdR_ok hsvd (m := 1) (n := 1) (M := [2]) Nat.one_pos Nat.one_pos rfl delta
  have hrk : u.rank = 1 := by
    have a1 := h3.rank.pos
    have a2 := h3.rank.le
    simp at a2
    omega
  have hs : u.s.length = 1 := by rw [h3.ls, hrk]
  have hvt : u.vt.length = 1 * exOne.rk 0 := by rw [h3.lvt, hrk]; rfl
  obtain ⟨v, v1, v2, v3⟩ := roundMul_ok exOne_wf (k := 0) (r := 1) (by decide)
    (t := ⟨[1, u.rank], [some ⟨1, 1, u.rank, u.u⟩], u.s, u.vt⟩) hs hvt
  have hG : exOne.G 0 0 0 0 = 2 := by simp [exOne, TT.G, T3.get]
  have hv : v.getD 0 0 = u.s.getD 0 0 * u.vt.getD 0 0 * 2 := by
    have := v3 0 Nat.one_pos 0 Nat.one_pos 0 Nat.one_pos
    rw [show exOne.rk 0 = 1 from rfl, sum_range_one, hG] at this
    simpa using this
  have hsq : (u.s.getD 0 0 * u.vt.getD 0 0) ^ 2 = 4 := by
    have p1 := h2.prod 0 Nat.one_pos 0 Nat.one_pos
    have p2 := h2.uon 0 Nat.one_pos 0 Nat.one_pos
    have p3 := h3.vt 0 (by omega) 0 Nat.one_pos
    have p4 := h3.s 0 (by omega)
    simp only [ent, hrk, Nat.min_self, sum_range_one, if_true, Nat.zero_mul, Nat.add_zero, List.getD_cons_zero] at p1 p2 p3
    rw [p4, p3]
    have : (2 : ℝ) ^ 2 = w.u.getD 0 0 * w.u.getD 0 0 * (w.s.getD 0 0 * w.vt.getD 0 0) ^ 2 := by
      rw [p1]; ring
    rw [p2, one_mul] at this
    rw [← this]; norm_num
  refine ⟨⟨1, [1], [1, 1], [⟨1, 1, 1, v⟩]⟩, ?_, ?_⟩
  · have hcut : roundCut svd exOne delta 0 1 [2] ⟨[1, 1], [none], [], []⟩
        = .ok ⟨[1, u.rank], [some ⟨1, 1, u.rank, u.u⟩], u.s, u.vt⟩ := by
      rw [roundCut, show rd exOne.nvals 0 = .ok 1 from rfl, bind_ok, show rd exOne.ranks (0 + 1) = .ok 1 from rfl, bind_ok,
        show 1 * 1 = 1 from rfl, h1]
      rfl
    rw [ttRound, ttNorm_ok exOne_wf, bind_ok]
    dsimp only
    rw [show exOne.dim = 1 from rfl, hd, show rightLeftOrth rq exOne = .ok exOne from rfl, bind_ok]
    rw [show exOne.dim = 1 from rfl, show initRanks 1 = .ok [1, 0] from rfl, bind_ok, show initNvals 1 exOne.nvals = .ok [1] from rfl, bind_ok,
      show rd exOne.ranks 0 = .ok 1 from rfl, bind_ok, show wr [1, 0] 0 1 = .ok [1, 0] from rfl, bind_ok,
      show rd exOne.ranks 1 = .ok 1 from rfl, bind_ok, show wr [1, 0] 1 1 = .ok [1, 1] from rfl, bind_ok,
      show rd exOne.cores 0 = .ok ⟨1, 1, 1, [2]⟩ from rfl, bind_ok]
    dsimp only
    rw [show List.replicate 1 (none : Option (T3 ℝ)) = [none] from rfl, hcut, bind_ok,
      show forR 1 (1 - 1) (roundStep svd exOne delta) ⟨[1, u.rank], [some ⟨1, 1, u.rank, u.u⟩], u.s, u.vt⟩
        = .ok ⟨[1, u.rank], [some ⟨1, 1, u.rank, u.u⟩], u.s, u.vt⟩ from rfl, bind_ok]
    dsimp only
    rw [show 1 - 1 = 0 from rfl, show rd [1, u.rank] 0 = .ok 1 from rfl, bind_ok, show rd exOne.nvals 0 = .ok 1 from rfl, bind_ok, v1]
    rfl
  · have : (⟨1, [1], [1, 1], [⟨1, 1, 1, v⟩]⟩ : TT ℝ).elem [0] = v.getD 0 0 := by
      simp [TT.elem, tail, TT.rk, TT.G, T3.get]
    rw [this, hv, mul_pow, hsq]
    norm_num

/-- Three modes with rank two in the middle: the hypotheses of the theorems are met. -/
def exThree : TT ℝ := ⟨3, [2, 2, 2], [1, 2, 2, 1], [⟨1, 2, 2, [1, 2, 3, 4]⟩, ⟨2, 2, 2, [1, 0, 2, 1, 0, 1, 3, 1]⟩, ⟨2, 2, 1, [1, 2, 0, 1]⟩]⟩

theorem exThree_wf : exThree.WF := by
  refine ⟨by decide, rfl, rfl, rfl, rfl, rfl, by decide, ?_⟩
  intro k Q hQ
  rcases (by have := (List.getElem?_eq_some_iff.1 hQ).1; simp [exThree] at this; omega : k = 0 ∨ k = 1 ∨ k = 2) with rfl | rfl | rfl <;>
    (simp [exThree] at hQ; subst hQ; exact ⟨rfl, rfl, rfl, rfl⟩)

example : ∃ t, ttRound svdRAny rqAny exThree 0 = .ok t ∧ ∀ es, exThree.Ix es → t.elem es = exThree.elem es := by
  obtain ⟨t, h1, -, -, -, -, h2⟩ := ttRound_exact_partial svdRAny_law rqAny_law exThree_wf (by decide) (by decide) (by unfold RankOk; decide)
  exact ⟨t, h1, h2⟩

end C3.Tt
