/-
C129: compression of a full tensor into a tensor train.
-/
import Verif.Tt.SvdBuilt
import Verif.Round.Eps

set_option linter.unusedSectionVars false

namespace C3.Tt
open Finset C3.Ft C3.Round

theorem iprodSz_ok {n : Nat} {xs : List Nat} (h : xs.length = n) : iprodSz n xs = .ok xs.prod := by
  obtain ⟨p, h1, h2⟩ := forN_spec (I := fun i (p : Nat) => p = (xs.take i).prod) (n := n) (s := 1)
    (body := fun i p => do
      let x ← rd xs i
      pure (p * x)) (by simp) (by
      rintro i hi p rfl
      refine ⟨_, by rw [rd_ok (by omega), bind_ok, pure_eq_ok], ?_⟩
      have hl : i < xs.length := by omega
      rw [List.take_succ_eq_append_getElem hl, List.prod_append, List.prod_singleton])
  rw [iprodSz, h1, h2, List.take_of_length_le (by omega)]

theorem norm2_ok {v : List ℝ} {n : Nat} (h : v.length = n) :
    norm2 v n = .ok (Real.sqrt (∑ b ∈ range n, v.getD b 0 ^ 2)) := by
  rw [norm2, forN_sum (fun b => v.getD b 0 ^ 2) (fun i hi s => by rw [rd_getD 0 (by omega)]; rfl), bind_ok, pure_eq_ok, zero_add]

theorem blit_all {n : Nat} {src : List ℝ} (h : src.length = n) : blit n (List.replicate n 0) 0 src 0 = .ok src := by
  rw [blit_ok (by simp) (by omega)]
  subst h
  simp

theorem diagM_ok {n : Nat} {s : List ℝ} (h : s.length = n) :
    diagM n s = .ok (cm n n (fun i j => if i = j then s.getD i 0 else 0)) := by
  obtain ⟨v, h1, h2, h3⟩ := forN_spec
    (I := fun k (v : List ℝ) => v.length = n * n ∧
      ∀ i < n, ∀ j < n, v.getD (j * n + i) 0 = if i = j ∧ i < k then s.getD i 0 else 0)
    (n := n) (s := List.replicate (n * n) 0)
    (body := fun ii v => do
      let x ← rd s ii
      wr v (ii * n + ii) x)
    ⟨by simp, fun i hi j hj => by
      rw [if_neg (by omega), List.getD_eq_getElem?_getD, List.getElem?_replicate_of_lt (cm_idx_lt hi hj)]; rfl⟩
    (by
      rintro k hk v ⟨hv1, hv2⟩
      have hlt : k * n + k < v.length := by rw [hv1]; exact cm_idx_lt hk hk
      refine ⟨_, by rw [rd_getD 0 (by omega), bind_ok, wr_ok _ hlt], by rw [List.length_set]; exact hv1, fun i hi j hj => ?_⟩
      by_cases hij : i = k ∧ j = k
      · obtain ⟨rfl, rfl⟩ := hij
        rw [set_getD_self _ _ hlt, if_pos ⟨rfl, by omega⟩]
      · rw [set_getD_ne _ _ (by
          intro he
          have e1 := cm_mod (j := k) hk
          have e2 := cm_mod (j := j) hi
          have e3 := cm_div (j := k) hk
          have e4 := cm_div (j := j) hi
          rw [he] at e1 e3
          omega), hv2 i hi j hj]
        by_cases h : i = j ∧ i < k
        · rw [if_pos h, if_pos ⟨h.1, by omega⟩]
        · rw [if_neg h, if_neg (by omega)])
  rw [diagM, h1]
  congr 1
  apply List.ext_getElem?
  intro p
  by_cases hp : p < n * n
  · have hn : 0 < n := Nat.pos_of_ne_zero (by rintro rfl; simp at hp)
    have e1 : p / n < n := Nat.div_lt_of_lt_mul hp
    have e2 : p % n < n := Nat.mod_lt _ hn
    have e3 : p = p / n * n + p % n := by rw [Nat.mul_comm]; exact (Nat.div_add_mod p n).symm
    have := h3 (p % n) e2 (p / n) e1
    rw [← e3] at this
    have h4 := getD_cm (fun i j => if i = j then s.getD i 0 else 0) 0 e2 e1
    rw [← e3] at h4
    rw [List.getD_eq_getElem?_getD, List.getElem?_eq_getElem (by omega)] at this
    rw [List.getD_eq_getElem?_getD, List.getElem?_eq_getElem (by simp; omega)] at h4
    rw [List.getElem?_eq_getElem (by omega), List.getElem?_eq_getElem (by simp; omega)]
    simp only [Option.getD_some] at this h4
    rw [this, h4]
    simp [e2]
  · rw [List.getElem?_eq_none (by omega), List.getElem?_eq_none (by simp; omega)]

theorem forN_stays {σ : Type} {body : Nat → σ → C σ} {s : σ} {k : Nat} {e : Err} (m : Nat) (h : forN k body s = .error e) :
    forN (k + m) body s = .error e := by
  induction m with
  | zero => exact h
  | succ m ih => rw [← Nat.add_assoc, forN_succ, ih]; rfl

/-- The tensor stored in a matrix with `r` rows: row `i`, column-major position of the multi-index. -/
def Rof (r : Nat) (ns : List Nat) (B : List ℝ) (i : Nat) (es : List Nat) : ℝ := B.getD (i + r * colPos ns es) 0

theorem prod_pos' {ns : List Nat} (h : ∀ k < ns.length, 0 < ns.getD k 0) : ∀ k, 0 < (ns.drop k).prod := by
  intro k
  refine List.prod_pos fun x hx => ?_
  obtain ⟨i, hi, rfl⟩ := List.getElem_of_mem (List.mem_of_mem_drop hx)
  have := h i hi
  rwa [List.getD_eq_getElem?_getD, List.getElem?_eq_getElem hi] at this

/-- One step of the compression. -/
theorem fullStep_ok {svd : Nat → Nat → List ℝ → C Svd} (hsvd : SvdRLaw svd) {d : Nat} {ns : List Nat} (hns : ns.length = d)
    (hpos : ∀ k < d, 0 < ns.getD k 0) {delta : ℝ} {k : Nat} (hk : k < d) {t : Fs} {R : Nat → Nat → List Nat → ℝ} {E : Nat → ℝ}
    (h : Built d ns delta (fun j r r' => r' ≤ min (ns.getD j 0 * r) (ns.drop (j + 1)).prod) k t.ranks t.cores R E)
    (hnr : t.nr = (ns.drop k).prod) (hB : t.B.length = t.ranks.getD k 0 * (ns.drop k).prod)
    (hR : R k = Rof (t.ranks.getD k 0) (ns.drop k) t.B) :
    ∃ t' R' E', fullStep svd ns delta k t = .ok t' ∧
      Built d ns delta (fun j r r' => r' ≤ min (ns.getD j 0 * r) (ns.drop (j + 1)).prod) (k + 1) t'.ranks t'.cores R' E' ∧
      t'.nr = (ns.drop (k + 1)).prod ∧ t'.B.length = t'.ranks.getD (k + 1) 0 * (ns.drop (k + 1)).prod ∧
      R' (k + 1) = Rof (t'.ranks.getD (k + 1) 0) (ns.drop (k + 1)) t'.B ∧ R' 0 = R 0 := by
  have hn := hpos k hk
  have hr := h.rpos k (le_refl _)
  have hN := prod_pos' (ns := ns) (by rw [hns]; exact hpos) (k + 1)
  have hdrop : (ns.drop k).prod = ns.getD k 0 * (ns.drop (k + 1)).prod := by rw [drop_cons (k := k) (by omega), List.prod_cons]
  generalize hgn : ns.getD k 0 = n at *
  generalize hgN : (ns.drop (k + 1)).prod = N at *
  generalize hgr : t.ranks.getD k 0 = r at *
  have hm : 0 < n * r := Nat.mul_pos hn hr
  obtain ⟨w, v, h1, h2, h3⟩ := truncSvdR_ok hsvd (m := n * r) (n := N) (M := t.B) hm hN (by rw [hB, hdrop]; ring) delta
  have hsd := diagM_ok h3.ls
  have hgem := dgemmNN_ok (m := v.rank) (n := N) (k := v.rank)
    (A := cm v.rank v.rank (fun i j => if i = j then v.s.getD i 0 else 0)) (B := v.vt)
    (c := List.replicate (v.rank * N) 0) (by simp) (by rw [h3.lvt]) (by simp)
  have hBv : ∀ c < v.rank, ∀ b < N, ∑ x ∈ range v.rank,
      (cm v.rank v.rank (fun i j => if i = j then v.s.getD i 0 else 0)).getD (x * v.rank + c) 0 * v.vt.getD (b * v.rank + x) 0
        = w.s.getD c 0 * ent N w.vt c b := by
    intro c hc b hb
    rw [sum_eq_single c]
    · rw [getD_cm _ _ hc hc, if_pos rfl, h3.s c hc, ← h3.vt c hc b hb]; rfl
    · intro x hx hxc
      rw [getD_cm _ _ hc (mem_range.1 hx), if_neg (Ne.symm hxc), zero_mul]
    · intro hx; exact absurd (mem_range.2 hc) hx
  generalize hBd : cm v.rank N (fun i j => ∑ x ∈ range v.rank,
      (cm v.rank v.rank (fun i j => if i = j then v.s.getD i 0 else 0)).getD (x * v.rank + i) 0 * v.vt.getD (j * v.rank + x) 0)
      = B' at hgem
  have hB'len : B'.length = v.rank * N := by rw [← hBd]; simp
  have hB'v : ∀ c < v.rank, ∀ b < N, B'.getD (b * v.rank + c) 0 = w.s.getD c 0 * ent N w.vt c b := by
    intro c hc b hb
    rw [← hBd, getD_cm _ _ hc hb, hBv c hc b hb]
  have hule : v.u.length = r * n * v.rank := by rw [h3.lu]; ring
  have hQ : (⟨r, n, v.rank, v.u⟩ : T3 ℝ).Is r n v.rank (⟨r, n, v.rank, v.u⟩ : T3 ℝ).get := T3.WF.is (t := ⟨r, n, v.rank, v.u⟩) hule
  have hcol : ∀ es : List Nat, es.length = (ns.drop (k + 1)).length →
      (∀ j < (ns.drop (k + 1)).length, es.getD j 0 < (ns.drop (k + 1)).getD j 0) → colPos (ns.drop (k + 1)) es < N := by
    intro es e1 e2
    rw [← hgN]; exact colPos_lt _ _ e1 e2
  have hS : Split n r v.rank (ns.drop (k + 1)) (⟨r, n, v.rank, v.u⟩ : T3 ℝ).get (R k) (Rof v.rank (ns.drop (k + 1)) B')
      (∑ q ∈ Ico v.rank (min (n * r) N), w.s.getD q 0 ^ 2) := by
    refine split_of (U := fun a q => ent (n * r) w.u a q)
      (Y := fun q es => w.s.getD q 0 * ent N w.vt q (colPos (ns.drop (k + 1)) es)) h3.rank.le
      (fun q hq q' hq' => h2.uon q (by omega) q' (by omega)) ?_ ?_ ?_ ?_
    · intro i hi e he es e1 e2
      have hc := hcol es e1 e2
      have hrow : e * r + i < n * r := by
        rw [Nat.mul_comm n r]; exact cm_idx_lt hi he
      rw [hR, Rof, drop_cons (k := k) (by omega), colPos, hgn, ← h2.prod (e * r + i) hrow _ hc, ent]
      congr 1; ring
    · intro i hi e he c hc
      have hrow : e * r + i < n * r := by
        rw [Nat.mul_comm n r]; exact cm_idx_lt hi he
      rw [← h3.u _ hrow c hc, T3.get, ent]
      congr 1; ring
    · intro c hc es e1 e2
      rw [Rof, show c + v.rank * colPos (ns.drop (k + 1)) es = colPos (ns.drop (k + 1)) es * v.rank + c by ring,
        hB'v c hc _ (hcol es e1 e2)]
    · intro q hq1 hq2
      simp only [mul_pow]
      rw [msum_mul_left, msum_colPos (ns.drop (k + 1)) (fun b => ent N w.vt q b ^ 2), hgN]
      have := h2.von q (by omega) q (by omega)
      rw [if_pos rfl] at this
      simp only [sq] at this ⊢
      rw [this, mul_one]
  have hE : 0 ≤ ∑ q ∈ Ico v.rank (min (n * r) N), w.s.getD q 0 ^ 2 ∧
      (∑ q ∈ Ico v.rank (min (n * r) N), w.s.getD q 0 ^ 2 = 0 ∨ ∑ q ∈ Ico v.rank (min (n * r) N), w.s.getD q 0 ^ 2 < delta) := by
    refine ⟨sum_nonneg fun _ _ => sq_nonneg _, ?_⟩
    rcases Nat.lt_or_ge v.rank (min (n * r) N) with hlt | hge
    · exact Or.inr (h3.rank.small hlt)
    · left
      rw [Ico_eq_empty_of_le hge, sum_empty]
  have hb := h.step hk (r' := v.rank) (Q := ⟨r, n, v.rank, v.u⟩) h3.rank.pos (by rw [hgr, hgn]; exact hQ)
    (R' := Rof v.rank (ns.drop (k + 1)) B') (by rw [hgr, hgn]; exact hS) (by rw [hgr, hgn, hgN]; exact h3.rank.le) hE
  have hdiv : t.nr / n = N := by rw [hnr, hdrop, Nat.mul_div_cancel_left _ hn]
  have hrl : k + 1 < t.ranks.length := by rw [h.rlen]; omega
  refine ⟨⟨t.ranks.set (k + 1) v.rank, t.cores.set k (some ⟨r, n, v.rank, v.u⟩), B', N⟩, _, _, ?_, hb, rfl, ?_, ?_, ?_⟩
  · rw [fullStep, rd_getD 0 (by omega), bind_ok, hgn, if_neg (by omega)]
    dsimp only
    rw [rd_getD 0 (by omega), bind_ok, hgr, hdiv, h1, bind_ok, wr_ok _ hrl, bind_ok, blit_all hule, bind_ok,
      wr_ok _ (by rw [h.clen]; exact hk), bind_ok, hsd, bind_ok, hgem, bind_ok, pure_eq_ok]
  · dsimp only
    rw [set_getD_self _ _ hrl, hB'len]
  · dsimp only
    rw [set_getD_self _ _ hrl, if_neg (by omega)]
  · exact if_pos (by omega)

/-- **C129** Compression of a full tensor: the train has the sizes of the tensor, its ranks are bounded by those of the
unfoldings, and the sum of the squared errors over all entries is the sum of `d - 1` truncation errors, each zero or below
the tolerance `|a| eps / sqrt(d - 1)`. Missing: one dimension, see `fullToTt_dim1_actual`; the documented bound
`|a| eps` on the error itself, see `fullToTt_eps_counterexample`. -/
theorem fullToTt_partial {svd : Nat → Nat → List ℝ → C Svd} (hsvd : SvdRLaw svd) {a : Tensor ℝ} (h2 : 2 ≤ a.dim)
    (hns : a.nvals.length = a.dim) (hpos : ∀ k < a.dim, 0 < a.nvals.getD k 0) (hv : a.vals.length = a.nvals.prod) (eps : ℝ) :
    ∃ (t : TT ℝ) (E : Nat → ℝ), fullToTt svd a eps = .ok t ∧ t.WF ∧ t.dim = a.dim ∧ t.nvals = a.nvals ∧
      (∀ k, k + 1 < a.dim → t.rk (k + 1) ≤ min (a.nvals.getD k 0 * t.rk k) (a.nvals.drop (k + 1)).prod) ∧
      msum a.nvals (fun es => (a.vals.getD (colPos a.nvals es) 0 - t.elem es) ^ 2) = ∑ k ∈ range (a.dim - 1), E k ∧
      ∀ k < a.dim - 1, 0 ≤ E k ∧ (E k = 0 ∨
        E k < Real.sqrt (msum a.nvals (fun es => a.vals.getD (colPos a.nvals es) 0 ^ 2)) * eps / Real.sqrt ((a.dim : ℝ) - 1)) := by
  have hnrm : msum a.nvals (fun es => a.vals.getD (colPos a.nvals es) 0 ^ 2) = ∑ b ∈ range a.nvals.prod, a.vals.getD b 0 ^ 2 :=
    msum_colPos a.nvals (fun b => a.vals.getD b 0 ^ 2)
  rw [hnrm]
  generalize hdelta : Real.sqrt (∑ b ∈ range a.nvals.prod, a.vals.getD b 0 ^ 2) * eps / Real.sqrt ((a.dim : ℝ) - 1) = delta
  have htol : tolOf a.dim (Real.sqrt (∑ b ∈ range a.nvals.prod, a.vals.getD b 0 ^ 2)) eps = delta := by
    rw [tolOf, if_pos (by omega), hdelta]
  let P : Nat → Nat → Nat → Prop := fun j r r' => r' ≤ min (a.nvals.getD j 0 * r) (a.nvals.drop (j + 1)).prod
  have hinit : (List.replicate (a.dim + 1) 0).set 0 1 = 1 :: List.replicate a.dim 0 := by
    rw [List.replicate_succ, List.set_cons_zero]
  have h0 : Built a.dim a.nvals delta P 0 (1 :: List.replicate a.dim 0) (List.replicate a.dim none)
      (fun _ => Rof 1 a.nvals a.vals) (fun _ => 0) := by
    refine ⟨by simp, by simp, rfl, ?_, fun j hj => by omega, fun j hj => by omega, fun j hj => by omega⟩
    intro j hj
    have : j = 0 := by omega
    subst this
    exact Nat.one_pos
  obtain ⟨t1, R1, E1, s1, b1, n1, l1, r1, z1⟩ := fullStep_ok hsvd hns hpos (k := 0) (by omega)
    (t := ⟨1 :: List.replicate a.dim 0, List.replicate a.dim none, a.vals, a.nvals.prod⟩) h0 (by simp)
    (by simp [hv]) (by simp)
  obtain ⟨t2, s2, R2, E2, b2, n2, l2, r2, z2⟩ := forR_spec
    (I := fun k (t : Fs) => ∃ R E, Built a.dim a.nvals delta P k t.ranks t.cores R E ∧ t.nr = (a.nvals.drop k).prod ∧
      t.B.length = t.ranks.getD k 0 * (a.nvals.drop k).prod ∧ R k = Rof (t.ranks.getD k 0) (a.nvals.drop k) t.B ∧
      R 0 = Rof 1 a.nvals a.vals)
    (a := 1) (b := a.dim - 1) (by omega) (s := t1) (body := fullStep svd a.nvals delta)
    ⟨R1, E1, b1, n1, l1, r1, z1⟩
    (by
      rintro k hk1 hk2 t ⟨R, E, b, n, l, r, z⟩
      obtain ⟨t', R', E', s', b', n', l', r', z'⟩ := fullStep_ok hsvd hns hpos (k := k) (by omega) b n l r
      exact ⟨t', s', R', E', b', n', l', r', by rw [z', z]⟩)
  have hlast : a.nvals.drop (a.dim - 1) = [a.nvals.getD (a.dim - 1) 0] := by
    rw [drop_cons (k := a.dim - 1) (by omega), show a.dim - 1 + 1 = a.dim by omega, List.drop_of_length_le (by omega)]
  rw [hlast] at l2 r2
  simp only [List.prod_cons, List.prod_nil, mul_one] at l2
  have hbl : t2.B.length = t2.ranks.getD (a.dim - 1) 0 * a.nvals.getD (a.dim - 1) 0 * 1 := by rw [l2, mul_one]
  obtain ⟨l, f1, f2, f3, f4⟩ := b2.finish (by omega) hns
    (Q := ⟨t2.ranks.getD (a.dim - 1) 0, a.nvals.getD (a.dim - 1) 0, 1, t2.B⟩)
    (T3.WF.is (t := ⟨t2.ranks.getD (a.dim - 1) 0, a.nvals.getD (a.dim - 1) 0, 1, t2.B⟩) hbl)
    (by
      intro i hi e he
      rw [r2, Rof, T3.get]
      simp only [colPos, Nat.mul_zero, Nat.add_zero, Nat.zero_mul]
      congr 1; ring)
  refine ⟨_, E2, ?_, f2, rfl, rfl, ?_, ?_, b2.bd⟩
  · rw [fullToTt, iprodSz_ok hns, bind_ok, norm2_ok hv, bind_ok]
    dsimp only
    rw [htol, initRanks_ok, bind_ok, initNvals_ok (by omega), List.take_of_length_le (by omega), bind_ok, blit_all hv, bind_ok,
      hinit, s1, bind_ok, s2, bind_ok, wr_ok _ (by rw [b2.rlen]; omega), bind_ok,
      rd_getD 0 (by rw [List.length_set, b2.rlen]; omega), bind_ok, set_getD_ne _ _ (by omega), rd_getD 0 (by omega), bind_ok,
      mul_one, blit_all (by rw [hbl, mul_one]), bind_ok, wr_ok _ (by rw [b2.clen]; omega), bind_ok, f1, bind_ok, pure_eq_ok]
  · intro k hk
    rw [f3 k (by omega), f3 (k + 1) (by omega)]
    exact b2.rb k (by omega)
  · rw [← f4]
    refine msum_congr fun es _ _ => ?_
    rw [z2, Rof]
    simp

/-- **C129** Bound on the total error. -/
theorem fullToTt_error_partial {svd : Nat → Nat → List ℝ → C Svd} (hsvd : SvdRLaw svd) {a : Tensor ℝ} (h2 : 2 ≤ a.dim)
    (hns : a.nvals.length = a.dim) (hpos : ∀ k < a.dim, 0 < a.nvals.getD k 0) (hv : a.vals.length = a.nvals.prod) {eps : ℝ}
    (he : 0 ≤ eps) :
    ∃ t, fullToTt svd a eps = .ok t ∧ t.WF ∧ t.dim = a.dim ∧ t.nvals = a.nvals ∧
      msum a.nvals (fun es => (a.vals.getD (colPos a.nvals es) 0 - t.elem es) ^ 2)
        ≤ Real.sqrt ((a.dim : ℝ) - 1) * Real.sqrt (msum a.nvals (fun es => a.vals.getD (colPos a.nvals es) 0 ^ 2)) * eps := by
  obtain ⟨t, E, h1, h3, h4, h5, -, h6, h7⟩ := fullToTt_partial hsvd h2 hns hpos hv eps
  refine ⟨t, h1, h3, h4, h5, ?_⟩
  rw [h6]
  refine le_trans (built_le h7 (by positivity)) (le_of_eq ?_)
  have hd : ((a.dim - 1 : Nat) : ℝ) = (a.dim : ℝ) - 1 := by
    rw [Nat.cast_sub (by omega)]; simp
  have hp : (0 : ℝ) < (a.dim : ℝ) - 1 := by
    have : (2 : ℝ) ≤ a.dim := by exact_mod_cast h2
    linarith
  have hs := Real.mul_self_sqrt (le_of_lt hp)
  have hsp := Real.sqrt_pos.2 hp
  rw [hd, ← mul_div_assoc, div_eq_iff (ne_of_gt hsp)]
  nth_rewrite 1 [← hs]
  ring

/-- **C129** With tolerance zero every entry is reproduced. -/
theorem fullToTt_exact {svd : Nat → Nat → List ℝ → C Svd} (hsvd : SvdRLaw svd) {a : Tensor ℝ} (h2 : 2 ≤ a.dim)
    (hns : a.nvals.length = a.dim) (hpos : ∀ k < a.dim, 0 < a.nvals.getD k 0) (hv : a.vals.length = a.nvals.prod) :
    ∃ t, fullToTt svd a 0 = .ok t ∧ t.WF ∧ t.dim = a.dim ∧ t.nvals = a.nvals ∧
      ∀ es, t.Ix es → t.elem es = a.vals.getD (colPos a.nvals es) 0 := by
  obtain ⟨t, h1, h3, h4, h5, h6⟩ := fullToTt_error_partial hsvd h2 hns hpos hv (le_refl 0)
  refine ⟨t, h1, h3, h4, h5, fun es hes => ?_⟩
  rw [mul_zero] at h6
  have h0 := msum_eq_zero (f := fun es => (a.vals.getD (colPos a.nvals es) 0 - t.elem es) ^ 2) (fun es => sq_nonneg _)
    (le_antisymm h6 (msum_nonneg _ fun es => sq_nonneg _)) es (by rw [hes.len, h4, hns]) (fun m hm => by
      have := hes.lt m (by omega)
      rwa [TT.nv, h5] at this)
  have := pow_eq_zero_iff (two_ne_zero) |>.1 h0
  linarith

/-- **C129** Disagreement: a tensor with one dimension and more than one value makes `full_to_tt` read past the end of the
matrix it has just reduced to one entry. -/
theorem fullToTt_dim1_actual {svd : Nat → Nat → List ℝ → C Svd} (hsvd : SvdRLaw svd) {n : Nat} (hn : 2 ≤ n) {v : List ℝ}
    (hv : v.length = n) (eps : ℝ) : fullToTt svd ⟨1, [n], v⟩ eps = .error .oob := by
  have hpos : ∀ k < 1, 0 < [n].getD k 0 := by
    intro k hk
    have : k = 0 := by omega
    subst this
    show 0 < n
    omega
  generalize hdelta : tolOf 1 (Real.sqrt (∑ b ∈ range [n].prod, v.getD b 0 ^ 2)) eps = delta
  have h0 : Built 1 [n] delta (fun j r r' => r' ≤ min ([n].getD j 0 * r) ([n].drop (j + 1)).prod) 0 [1, 0] [none]
      (fun _ => Rof 1 [n] v) (fun _ => 0) := by
    refine ⟨by simp, by simp, rfl, ?_, fun j hj => by omega, fun j hj => by omega, fun j hj => by omega⟩
    intro j hj
    have : j = 0 := by omega
    subst this
    exact Nat.one_pos
  obtain ⟨t1, R1, E1, s1, b1, n1, l1, r1, z1⟩ := fullStep_ok hsvd (ns := [n]) (d := 1) rfl hpos (k := 0) (by omega)
    (t := ⟨[1, 0], [none], v, [n].prod⟩) h0 (by simp) (by simp [hv]) (by simp)
  have hr := b1.rb 0 (by omega)
  have hr2 : t1.ranks.getD 1 0 = 1 := by
    have h1 := b1.rpos 1 (le_refl _)
    have h2 : t1.ranks.getD 1 0 ≤ 1 := le_trans hr (by simp)
    omega
  have hB : t1.B.length = 1 := by
    rw [l1, hr2]; simp
  have hblit : blit (1 * n) (List.replicate (1 * n * 1) (0 : ℝ)) 0 t1.B 0 = .error .oob := by
    obtain ⟨x, hx⟩ := List.length_eq_one_iff.1 hB
    rw [hx]
    rw [blit, show 1 * n = 1 + 1 + (n - 2) by omega]
    refine forN_stays _ ?_
    rw [forN_succ, forN_succ, forN_zero, ebind_ok, rd_ok (show 0 + 0 < [x].length by simp), bind_ok,
      wr_ok _ (by simp), ebind_ok, rd_oob (by simp)]
    rfl
  rw [fullToTt, iprodSz_ok (n := 1) (xs := [n]) rfl, bind_ok, norm2_ok (by simp [hv]), bind_ok]
  dsimp only
  rw [hdelta, initRanks_ok, bind_ok, initNvals_ok (by simp), show List.take 1 [n] = [n] from rfl, bind_ok, blit_all (by simp [hv]),
    bind_ok, show (List.replicate (1 + 1) 0).set 0 1 = [1, 0] from rfl, show List.replicate 1 (none : Option (T3 ℝ)) = [none] from rfl,
    s1, bind_ok, show forR 1 (1 - 1) (fullStep svd [n] delta) t1 = .ok t1 from rfl, bind_ok, wr_ok _ (by rw [b1.rlen]; omega), bind_ok,
    rd_getD 0 (by rw [List.length_set, b1.rlen]; omega), bind_ok, set_getD_ne _ _ (by omega), b1.r0,
    show rd [n] 0 = .ok n from rfl, bind_ok, hblit]
  rfl

/-- The tensor `t` on the diagonal of a `2 × 2` array. -/
def exDiag (t : ℝ) : Tensor ℝ := ⟨2, [2, 2], [t, 0, 0, t]⟩

open Classical in
/-- A decomposition routine that treats the diagonal matrix in the obvious way. -/
noncomputable def exSvd (t : ℝ) (m n : Nat) (M : List ℝ) : C Svd :=
  if m = 2 ∧ n = 2 ∧ M = [t, 0, 0, t] then .ok ⟨[1, 0, 0, 1], [t, t], [1, 0, 0, 1]⟩ else svdRAny m n M

theorem lt2 {P : Nat → Prop} (h0 : P 0) (h1 : P 1) : ∀ i < 2, P i := by
  intro i hi
  rcases (by omega : i = 0 ∨ i = 1) with rfl | rfl
  · exact h0
  · exact h1

theorem exSvd_law {t : ℝ} (ht : 0 ≤ t) : SvdRLaw (exSvd t) := by
  intro m n M hm hn hM
  rw [exSvd]
  split_ifs with h
  · obtain ⟨rfl, rfl, rfl⟩ := h
    refine ⟨_, rfl, rfl, rfl, rfl, ?_, ?_, ?_, ?_, ?_⟩
    · refine lt2 (lt2 ?_ ?_) (lt2 ?_ ?_) <;> simp [ent, sum_range_succ]
    · refine lt2 (lt2 ?_ ?_) (lt2 ?_ ?_) <;> simp [ent, sum_range_succ]
    · refine lt2 (lt2 ?_ ?_) (lt2 ?_ ?_) <;> simp [ent, sum_range_succ]
    · refine lt2 ?_ ?_ <;> simpa using ht
    · intro p q hpq hq
      have hq' : q < 2 := hq
      rcases (by omega : q = 0 ∨ q = 1) with rfl | rfl
      · have : p = 0 := by omega
        subst this; exact le_refl _
      · rcases (by omega : p = 0 ∨ p = 1) with rfl | rfl <;> exact le_refl _
  · exact svdRAny_law m n M hm hn hM

/-- **C129** Disagreement with the documented relative error: `truncated_svd` compares the sum of the squares of the dropped
singular values with the tolerance itself. For every `eps > 0` there is a non-zero tensor, `eps` times the identity matrix, that
loses half of its squared norm when it is compressed with relative error `eps`. -/
theorem fullToTt_eps_counterexample {eps : ℝ} (he : 0 < eps) : ∃ (svd : Nat → Nat → List ℝ → C Svd) (a : Tensor ℝ) (t : TT ℝ),
    SvdRLaw svd ∧ a.dim = 2 ∧ a.nvals = [2, 2] ∧ a.vals.length = 4 ∧ fullToTt svd a eps = .ok t ∧
    0 < msum a.nvals (fun es => a.vals.getD (colPos a.nvals es) 0 ^ 2) ∧
    msum a.nvals (fun es => (a.vals.getD (colPos a.nvals es) 0 - t.elem es) ^ 2)
      = 1 / 2 * msum a.nvals (fun es => a.vals.getD (colPos a.nvals es) 0 ^ 2) := by
  have hval : msum [2, 2] (fun es => ([eps, 0, 0, eps] : List ℝ).getD (colPos [2, 2] es) 0 ^ 2) = 2 * eps ^ 2 := by
    simp [msum, colPos, sum_range_succ]
    ring
  refine ⟨exSvd eps, exDiag eps, ⟨2, [2, 2], [1, 1, 1], [⟨1, 2, 1, [1, 0]⟩, ⟨1, 2, 1, [eps, 0]⟩]⟩, exSvd_law he.le, rfl, rfl, rfl, ?_,
    ?_, ?_⟩
  · have hd : eps ^ 2 < tolOf 2 (Real.sqrt (∑ b ∈ range 4, ([eps, 0, 0, eps] : List ℝ).getD b 0 ^ 2)) eps := by
      have h1 : ∑ b ∈ range 4, ([eps, 0, 0, eps] : List ℝ).getD b 0 ^ 2 = 2 * eps ^ 2 := by
        simp [sum_range_succ]; ring
      rw [h1, tolOf, if_pos (by omega)]
      have h2 : ((2 : Nat) : ℝ) - 1 = 1 := by norm_num
      rw [h2, Real.sqrt_one, div_one, pow_two]
      refine mul_lt_mul_of_pos_right ?_ he
      rw [Real.lt_sqrt he.le]
      nlinarith
    generalize hdelta : tolOf 2 (Real.sqrt (∑ b ∈ range 4, ([eps, 0, 0, eps] : List ℝ).getD b 0 ^ 2)) eps = delta at hd
    have h2 : exSvd eps 2 2 [eps, 0, 0, eps] = .ok ⟨[1, 0, 0, 1], [eps, eps], [1, 0, 0, 1]⟩ := if_pos ⟨rfl, rfl, rfl⟩
    have h3 : truncSvd (exSvd eps) 2 2 [eps, 0, 0, eps] delta = .ok ⟨1, [1, 0], [eps], [1, 0]⟩ := by
      rw [truncSvd, h2, bind_ok, show min 2 2 = 2 from rfl, C3.Round.ex_rank eps hd, bind_ok]
      rfl
    have h4 : fullStep (exSvd eps) [2, 2] delta 0 ⟨[1, 0, 0], [none, none], [eps, 0, 0, eps], 4⟩
        = .ok ⟨[1, 1, 0], [some ⟨1, 2, 1, [1, 0]⟩, none], [0 + eps * 1, 0 + eps * 0], 2⟩ := by
      rw [fullStep, show rd [2, 2] 0 = .ok 2 from rfl, bind_ok, if_neg (by omega)]
      dsimp only
      rw [show rd [1, 0, 0] 0 = .ok 1 from rfl, bind_ok, show 4 / 2 = 2 from rfl, show 2 * 1 = 2 from rfl, h3, bind_ok]
      rfl
    rw [fullToTt, exDiag]
    dsimp only
    rw [iprodSz_ok (n := 2) (xs := [2, 2]) rfl, bind_ok, show [2, 2].prod = 4 from rfl,
      norm2_ok (v := [eps, 0, 0, eps]) (n := 4) rfl, bind_ok]
    rw [hdelta, show initRanks 2 = .ok [1, 0, 0] from rfl, bind_ok,
      show initNvals 2 [2, 2] = .ok [2, 2] from rfl, bind_ok, blit_all (n := 4) (src := [eps, 0, 0, eps]) rfl, bind_ok,
      show List.replicate 2 (none : Option (T3 ℝ)) = [none, none] from rfl, h4, bind_ok]
    have e1 : (0 : ℝ) + eps * 1 = eps := by ring
    have e2 : (0 : ℝ) + eps * 0 = 0 := by ring
    rw [e1, e2]
    rfl
  · rw [show (exDiag eps).nvals = [2, 2] from rfl, show (exDiag eps).vals = [eps, 0, 0, eps] from rfl, hval]; positivity
  · rw [show (exDiag eps).nvals = [2, 2] from rfl, show (exDiag eps).vals = [eps, 0, 0, eps] from rfl, hval]
    simp [msum, colPos, sum_range_succ, TT.elem, tail, TT.rk, TT.G, T3.get]

/-- The hypotheses of the theorems are met by a decomposition that exists for every matrix and a tensor with three dimensions. -/
example : SvdRLaw svdRAny ∧ 2 ≤ (⟨3, [2, 1, 2], [1, 2, 3, 4]⟩ : Tensor ℝ).dim ∧
    (⟨3, [2, 1, 2], [1, 2, 3, 4]⟩ : Tensor ℝ).nvals.length = 3 ∧ (∀ k < 3, 0 < [2, 1, 2].getD k 0) ∧
    ([1, 2, 3, 4] : List ℝ).length = [2, 1, 2].prod :=
  ⟨svdRAny_law, by decide, rfl, by decide, rfl⟩

end C3.Tt
