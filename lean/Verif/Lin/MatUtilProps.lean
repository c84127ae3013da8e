/-
C145: the matrix utilities build the matrices they are named for.
-/
import Verif.Lin.MatUtil
import Verif.Tt.Lemmas
import Mathlib.Algebra.BigOperators.Intervals
import Mathlib.Tactic.Ring
import Mathlib.Tactic.Linarith

namespace C3.Mu

open Finset

variable {K : Type} [CommRing K]

/-- Entry of a matrix stored by rows. -/
def Mat.at (m : Mat K) (i j : Nat) : K := m.vals.getD (i * m.ncols + j) 0

/-- The values fill the matrix. -/
def Mat.Ok (m : Mat K) : Prop := m.vals.length = m.nrows * m.ncols

omit [CommRing K] in
theorem idx_lt {i j n m : Nat} (hi : i < n) (hj : j < m) : i * m + j < n * m := by
  have := Nat.mul_le_mul_right m (Nat.succ_le_of_lt hi)
  rw [Nat.succ_mul] at this
  omega

theorem div_idx {i j m : Nat} (hj : j < m) : (i * m + j) / m = i := by
  rw [Nat.add_comm, Nat.add_mul_div_right _ _ (by omega), Nat.div_eq_of_lt hj, Nat.zero_add]

theorem mod_idx {i j m : Nat} (hj : j < m) : (i * m + j) % m = j := by
  rw [Nat.add_comm, Nat.add_mul_mod_self_right, Nat.mod_eq_of_lt hj]

theorem Mat.Ok.get {m : Mat K} (h : m.Ok) {i j : Nat} (hi : i < m.nrows) (hj : j < m.ncols) :
    m.vals[i * m.ncols + j]? = some (m.at i j) := by
  have : i * m.ncols + j < m.vals.length := by rw [h]; exact idx_lt hi hj
  rw [Mat.at, List.getD_eq_getElem?_getD, List.getElem?_eq_getElem this]; rfl

theorem map_get {N : Nat} {g : Nat → K} {p : Nat} (hp : p < N) : ((List.range N).map g).getD p 0 = g p := by
  rw [List.getD_eq_getElem?_getD, List.getElem?_map, List.getElem?_range hp]; rfl

/-- **C145**: the Kronecker product has the blocks `a i j * b`. -/
theorem kron_value {a b : Mat K} (ha : a.Ok) (hb : b.Ok) :
    ∃ m, kron a b = .ok m ∧ m.nrows = a.nrows * b.nrows ∧ m.ncols = a.ncols * b.ncols ∧ m.Ok ∧
      ∀ i < a.nrows, ∀ j < a.ncols, ∀ k < b.nrows, ∀ l < b.ncols,
        m.at (i * b.nrows + k) (j * b.ncols + l) = a.at i j * b.at k l := by
  set M := a.ncols * b.ncols with hM
  set g : Nat → K := fun p => a.at (p / M / b.nrows) (p % M / b.ncols) * b.at (p / M % b.nrows) (p % M % b.ncols) with hg
  have gval : ∀ i, ∀ j < a.ncols, ∀ k < b.nrows, ∀ l < b.ncols,
      g ((i * b.nrows + k) * M + (j * b.ncols + l)) = a.at i j * b.at k l := by
    intro i j hj k hk l hl
    have h1 := idx_lt hj hl
    rw [hg]; simp only []
    rw [div_idx h1, mod_idx h1, div_idx hk, mod_idx hk, div_idx hl, mod_idx hl]
  have key : FillsV g ((a.nrows * b.nrows) * M)
      (forN a.nrows (fun ii => forN a.ncols (fun jj => forN b.nrows (fun kk => forN b.ncols (fun ll v => do
        let x ← rd a.vals (ii * a.ncols + jj)
        let y ← rd b.vals (kk * b.ncols + ll)
        wr v ((ii * b.nrows + kk) * M + (jj * b.ncols + ll)) (x * y))))))
      (fun p => ∃ i < a.nrows, ∃ j < a.ncols, ∃ k < b.nrows, ∃ l < b.ncols,
        p = (i * b.nrows + k) * M + (j * b.ncols + l)) := by
    refine FillsV.forN fun i hi => FillsV.forN fun j hj => FillsV.forN fun k hk => FillsV.forN fun l hl => ?_
    exact FillsV.bind (ha.get hi hj |> rd_of_getElem?) (FillsV.bind (rd_of_getElem? (hb.get hk hl))
      (FillsV.wr (idx_lt (idx_lt hi hk) (idx_lt hj hl)) (gval i j hj k hk l hl).symm))
  have fin := key.finish (a := List.replicate ((a.nrows * b.nrows) * M) 0) (by
    intro p hp
    have hM0 : 0 < M := Nat.pos_of_ne_zero fun h => by rw [h] at hp; simp at hp
    have hb1 : 0 < b.nrows := Nat.pos_of_ne_zero fun h => by rw [h] at hp; simp at hp
    have hb2 : 0 < b.ncols := Nat.pos_of_ne_zero fun h => by rw [hM, h] at hM0; simp at hM0
    have r1 : p / M < a.nrows * b.nrows := Nat.div_lt_of_lt_mul (by rw [Nat.mul_comm]; exact hp)
    have c1 : p % M < a.ncols * b.ncols := Nat.mod_lt _ hM0
    refine ⟨p / M / b.nrows, Nat.div_lt_of_lt_mul (by rw [Nat.mul_comm]; exact r1), p % M / b.ncols,
      Nat.div_lt_of_lt_mul (by rw [Nat.mul_comm]; exact c1), p / M % b.nrows, Nat.mod_lt _ hb1, p % M % b.ncols, Nat.mod_lt _ hb2, ?_⟩
    rw [Nat.div_add_mod', Nat.div_add_mod', Nat.div_add_mod']) (by simp)
  refine ⟨⟨a.nrows * b.nrows, M, (List.range ((a.nrows * b.nrows) * M)).map g⟩, ?_, rfl, rfl, by simp [Mat.Ok], ?_⟩
  · unfold kron; rw [fin, bind_ok]
  · intro i hi j hj k hk l hl
    rw [Mat.at]; simp only []
    rw [map_get (idx_lt (idx_lt hi hk) (idx_lt hj hl)), gval i j hj k hk l hl]

example : kron (⟨1, 2, [2, 3]⟩ : Mat ℤ) ⟨2, 1, [5, 7]⟩ = .ok ⟨2, 2, [10, 15, 14, 21]⟩ := by decide +kernel

/-- **C145**: a matrix of ones. -/
theorem ones_value (n m : Nat) : ∃ o : Mat K, ones n m = .ok o ∧ o.nrows = n ∧ o.ncols = m ∧ o.Ok ∧ ∀ i < n, ∀ j < m, o.at i j = 1 := by
  have key : FillsV (fun _ => (1 : K)) (n * m) (forN n (fun ii => forN m (fun jj v => wr v (ii * m + jj) 1)))
      (fun p => ∃ i < n, ∃ j < m, p = i * m + j) :=
    FillsV.forN fun i hi => FillsV.forN fun j hj => FillsV.wr (idx_lt hi hj) rfl
  have fin := key.finish (a := List.replicate (n * m) 0) (by
    intro p hp
    have hm : 0 < m := Nat.pos_of_ne_zero fun h => by rw [h] at hp; simp at hp
    exact ⟨p / m, Nat.div_lt_of_lt_mul (by rw [Nat.mul_comm]; exact hp), p % m, Nat.mod_lt _ hm, (Nat.div_add_mod' p m).symm⟩) (by simp)
  refine ⟨⟨n, m, (List.range (n * m)).map fun _ => 1⟩, ?_, rfl, rfl, by simp [Mat.Ok], ?_⟩
  · unfold ones; rw [fin, bind_ok]
  · intro i hi j hj
    rw [Mat.at]; simp only []
    rw [map_get (idx_lt hi hj)]

/-- **C145**: a vector as a row or a column. -/
theorem v2m_value {n : Nat} {arr : List K} (h : arr.length = n) :
    v2m n arr 0 = .ok (some (n, 1), arr) ∧ v2m n arr 1 = .ok (some (1, n), arr) := by
  unfold v2m
  rw [Tt.blit_ok (by simp) (by omega), bind_ok]
  subst h
  simp

/-- Finding: for any other flag the sizes of the matrix are never stored. -/
theorem v2m_flag_counterexample : v2m 2 [(4 : ℤ), 5] 2 = .ok (none, [4, 5]) := by decide +kernel

/-- **C145**: two matrices side by side; the second may have more rows than the first (they are dropped). -/
theorem horizcat_value {a b : Mat K} (ha : a.Ok) (hb : b.Ok) (hr : a.nrows ≤ b.nrows) :
    ∃ m, horizcat a b = .ok m ∧ m.nrows = a.nrows ∧ m.ncols = a.ncols + b.ncols ∧ m.Ok ∧
      (∀ i < a.nrows, ∀ j < a.ncols, m.at i j = a.at i j) ∧
      ∀ i < a.nrows, ∀ j < b.ncols, m.at i (a.ncols + j) = b.at i j := by
  set M := a.ncols + b.ncols with hM
  set g : Nat → K := fun p => if p % M < a.ncols then a.at (p / M) (p % M) else b.at (p / M) (p % M - a.ncols) with hg
  have g1 : ∀ i, ∀ j < a.ncols, g (i * M + j) = a.at i j := by
    intro i j hj
    have h1 : j < M := by omega
    rw [hg]; simp only []
    rw [div_idx h1, mod_idx h1, if_pos hj]
  have g2 : ∀ i, ∀ j < b.ncols, g (i * M + a.ncols + j) = b.at i j := by
    intro i j hj
    have h1 : a.ncols + j < M := by omega
    rw [hg]; simp only []
    rw [Nat.add_assoc, div_idx h1, mod_idx h1, if_neg (by omega), Nat.add_sub_cancel_left]
  have row : ∀ i < a.nrows, i * M + M ≤ a.nrows * M := fun i hi => by
    have := Nat.mul_le_mul_right M (Nat.succ_le_of_lt hi)
    rwa [Nat.succ_mul] at this
  have key : FillsV g (a.nrows * M)
      (forN a.nrows (fun ii v => do
        let v ← Tt.blit a.ncols v (ii * M) a.vals (ii * a.ncols)
        Tt.blit b.ncols v (ii * M + a.ncols) b.vals (ii * b.ncols)))
      (fun p => ∃ i < a.nrows, (∃ j < a.ncols, p = i * M + j) ∨ ∃ j < b.ncols, p = i * M + a.ncols + j) := by
    refine FillsV.forN fun i hi => FillsV.seq (Tt.FillsV.blit ?_ ?_) (Tt.FillsV.blit ?_ ?_)
    · have := row i hi; omega
    · intro j hj; rw [ha.get hi hj, g1 i j hj]
    · have := row i hi; omega
    · intro j hj; rw [hb.get (by omega) hj, g2 i j hj]
  have fin := key.finish (a := List.replicate (a.nrows * M) 0) (by
    intro p hp
    have hm : 0 < M := Nat.pos_of_ne_zero fun h => by rw [h] at hp; simp at hp
    have e := Nat.div_add_mod' p M
    have hlt := Nat.mod_lt p hm
    refine ⟨p / M, Nat.div_lt_of_lt_mul (by rw [Nat.mul_comm]; exact hp), ?_⟩
    by_cases hc : p % M < a.ncols
    · exact Or.inl ⟨p % M, hc, e.symm⟩
    · exact Or.inr ⟨p % M - a.ncols, by omega, by omega⟩) (by simp)
  refine ⟨⟨a.nrows, M, (List.range (a.nrows * M)).map g⟩, ?_, rfl, rfl, by simp [Mat.Ok], ?_, ?_⟩
  · unfold horizcat; rw [fin, bind_ok]
  · intro i hi j hj
    rw [Mat.at]; simp only []
    rw [map_get (idx_lt hi (by omega)), g1 i j hj]
  · intro i hi j hj
    rw [Mat.at]; simp only []
    rw [map_get (idx_lt hi (by omega)), ← Nat.add_assoc, g2 i j hj]

example : horizcat (⟨2, 1, [1, 2]⟩ : Mat ℤ) ⟨2, 2, [3, 4, 5, 6]⟩ = .ok ⟨2, 3, [1, 3, 4, 2, 5, 6]⟩ := by decide +kernel

/-- Finding: with fewer rows on the right the call reads behind the second matrix; only a message is printed. -/
theorem horizcat_rows_counterexample : horizcat (⟨2, 1, [1, 2]⟩ : Mat ℤ) ⟨1, 2, [3, 4]⟩ = .error .oob := by decide +kernel

/-- Finding: with more rows on the right, rows are lost without an error. -/
theorem horizcat_lost_counterexample : horizcat (⟨1, 1, [1]⟩ : Mat ℤ) ⟨2, 1, [3, 4]⟩ = .ok ⟨1, 2, [1, 3]⟩ := by decide +kernel

theorem blit_get {n doff soff : Nat} {dst src : List K} (hd : doff + n ≤ dst.length) (hs : soff + n ≤ src.length) :
    ∃ b, Tt.blit n dst doff src soff = .ok b ∧ b.length = dst.length ∧ (∀ i < n, b[doff + i]? = src[soff + i]?) ∧
      ∀ p, (p < doff ∨ doff + n ≤ p) → b[p]? = dst[p]? := by
  obtain ⟨b, e, hl, h1, h2⟩ := forN_scatter (n := n) (a := dst)
    (body := fun i d => do
      let v ← rd src (soff + i)
      wr d (doff + i) v) (fun i => doff + i) (fun i => src.getD (soff + i) 0) (fun i hi => by omega)
    (fun i _ j _ h => by omega) (fun i hi b _ _ _ => by rw [rd_getD 0 (show soff + i < src.length by omega), bind_ok])
  refine ⟨b, e, hl, fun i hi => ?_, fun p hp => h2 p fun i hi => by omega⟩
  rw [h1 i hi, List.getD_eq_getElem?_getD, List.getElem?_eq_getElem (show soff + i < src.length by omega)]; rfl

/-- Row and column offsets of the blocks. -/
def ro (ms : List (Mat K)) (i : Nat) : Nat := ((ms.take i).map (·.nrows)).sum
def co (ms : List (Mat K)) (i : Nat) : Nat := ((ms.take i).map (·.ncols)).sum

omit [CommRing K] in
theorem ro_succ {ms : List (Mat K)} {i : Nat} (h : i < ms.length) : ro ms (i + 1) = ro ms i + ms[i].nrows := by
  unfold ro; rw [List.take_add_one, List.getElem?_eq_getElem h, Option.toList_some, List.map_append, List.sum_append, List.map_singleton, List.sum_singleton]

omit [CommRing K] in
theorem co_succ {ms : List (Mat K)} {i : Nat} (h : i < ms.length) : co ms (i + 1) = co ms i + ms[i].ncols := by
  unfold co; rw [List.take_add_one, List.getElem?_eq_getElem h, Option.toList_some, List.map_append, List.sum_append, List.map_singleton, List.sum_singleton]

omit [CommRing K] in
theorem ro_mono {ms : List (Mat K)} {i : Nat} (d : Nat) (h : i + d ≤ ms.length) : ro ms i ≤ ro ms (i + d) := by
  induction d with
  | zero => exact le_refl _
  | succ d ih => rw [← Nat.add_assoc, ro_succ (by omega)]; have := ih (by omega); omega

omit [CommRing K] in
theorem co_mono {ms : List (Mat K)} {i : Nat} (d : Nat) (h : i + d ≤ ms.length) : co ms i ≤ co ms (i + d) := by
  induction d with
  | zero => exact le_refl _
  | succ d ih => rw [← Nat.add_assoc, co_succ (by omega)]; have := ih (by omega); omega

theorem bdSize_ok (ms : List (Mat K)) : bdSize ms ms.length = .ok (ro ms ms.length, co ms ms.length) := by
  unfold bdSize
  obtain ⟨s, e, hs⟩ := forN_spec (n := ms.length) (s := ((0, 0) : Nat × Nat))
    (body := fun ii s => do
      let m ← rd ms ii
      .ok (s.1 + m.nrows, s.2 + m.ncols))
    (I := fun i s => s = (ro ms i, co ms i)) (by simp [ro, co]) (by
      intro i hi s hs
      refine ⟨(s.1 + ms[i].nrows, s.2 + ms[i].ncols), ?_, ?_⟩
      · rw [rd_of_getElem? (List.getElem?_eq_getElem hi), bind_ok]
      · rw [hs, ro_succ hi, co_succ hi])
  rw [e, hs]

/-- Row `r` of the result, `a`-th row of block `m` that starts in column `c0`. -/
def RowIs (v : List K) (M r c0 : Nat) (m : Mat K) (a : Nat) : Prop :=
  ∀ c < M, v[r * M + c]? = some (if c0 ≤ c ∧ c < c0 + m.ncols then m.at a (c - c0) else 0)

theorem bdBlock_ok {m : Mat K} (hm : m.Ok) {M c0 r0 N : Nat} (hc : c0 + m.ncols ≤ M) (hr : r0 + m.nrows ≤ N) {v : List K}
    (hv : v.length = N * M) (hz : ∀ p, r0 * M ≤ p → p < N * M → v[p]? = some 0) :
    ∃ w, bdBlock m M c0 (v, r0) = .ok (w, r0 + m.nrows) ∧ w.length = N * M ∧ (∀ p < r0 * M, w[p]? = v[p]?) ∧
      (∀ a < m.nrows, RowIs w M (r0 + a) c0 m a) ∧ ∀ p, (r0 + m.nrows) * M ≤ p → p < N * M → w[p]? = some 0 := by
  unfold bdBlock
  obtain ⟨s, e, h0, h1, h2, h3, h4⟩ := forN_spec (n := m.nrows) (s := (v, r0))
    (body := fun jj s => do
      let v ← Tt.blit m.ncols s.1 (s.2 * M + c0) m.vals (jj * m.ncols)
      .ok (v, s.2 + 1))
    (I := fun k s => s.2 = r0 + k ∧ s.1.length = N * M ∧ (∀ p < r0 * M, s.1[p]? = v[p]?) ∧
      (∀ a < k, RowIs s.1 M (r0 + a) c0 m a) ∧ ∀ p, (r0 + k) * M ≤ p → p < N * M → s.1[p]? = some 0)
    ⟨rfl, hv, fun _ _ => rfl, fun a ha => absurd ha (by omega), hz⟩ (by
      intro k hk s ⟨q0, q1, q2, q3, q4⟩
      have hrow : (r0 + k) * M + M ≤ N * M := by
        have := Nat.mul_le_mul_right M (show (r0 + k) + 1 ≤ N by omega)
        rwa [Nat.add_mul, Nat.one_mul] at this
      have hge : r0 * M ≤ (r0 + k) * M := Nat.mul_le_mul_right M (by omega)
      have hsrc : k * m.ncols + m.ncols ≤ m.vals.length := by
        rw [hm]
        have := Nat.mul_le_mul_right m.ncols (show k + 1 ≤ m.nrows by omega)
        rwa [Nat.add_mul, Nat.one_mul] at this
      obtain ⟨w, e, w1, w2, w3⟩ := blit_get (n := m.ncols) (doff := (r0 + k) * M + c0) (soff := k * m.ncols) (dst := s.1) (src := m.vals)
        (by rw [q1]; omega) hsrc
      refine ⟨(w, r0 + k + 1), by rw [q0, e, bind_ok], by simp only []; omega, by rw [w1, q1], ?_, ?_, ?_⟩
      · intro p hp
        rw [w3 p (Or.inl (by omega)), q2 p hp]
      · intro a ha c hc'
        by_cases hak : a = k
        · subst hak
          by_cases hin : c0 ≤ c ∧ c < c0 + m.ncols
          · have := w2 (c - c0) (by omega)
            rw [show (r0 + a) * M + c0 + (c - c0) = (r0 + a) * M + c by omega] at this
            rw [if_pos hin, this, hm.get hk (by omega)]
          · rw [if_neg hin, w3 _ (by omega), q4 _ (by omega) (by omega)]
        · have hak' : a < k := by omega
          have : (r0 + a) * M + M ≤ (r0 + k) * M := by
            have := Nat.mul_le_mul_right M (show (r0 + a) + 1 ≤ r0 + k by omega)
            rwa [Nat.add_mul, Nat.one_mul] at this
          rw [w3 _ (Or.inl (by omega)), q3 a hak' c hc']
      · intro p hp hpN
        have : (r0 + (k + 1)) * M = (r0 + k) * M + M := by ring
        rw [w3 p (Or.inr (by omega)), q4 p (by omega) hpN])
  exact ⟨s.1, by rw [e, ← h0], h1, h2, h3, h4⟩

/-- **C145**: the block diagonal matrix: the rows of block `i` hold its values in its columns and zeros elsewhere. -/
theorem blockDiag_value {ms : List (Mat K)} (hok : ∀ m ∈ ms, m.Ok) :
    ∃ m, blockDiag ms ms.length = .ok m ∧ m.nrows = (ms.map (·.nrows)).sum ∧ m.ncols = (ms.map (·.ncols)).sum ∧ m.Ok ∧
      ∀ i, ∀ hi : i < ms.length, ∀ a < ms[i].nrows, ∀ c < m.ncols,
        m.at (((ms.take i).map (·.nrows)).sum + a) c
          = if ((ms.take i).map (·.ncols)).sum ≤ c ∧ c < ((ms.take i).map (·.ncols)).sum + ms[i].ncols
            then ms[i].at a (c - ((ms.take i).map (·.ncols)).sum) else 0 := by
  unfold blockDiag
  rw [bdSize_ok, bind_ok]
  set N := ro ms ms.length with hN
  set M := co ms ms.length with hMd
  have Ne : N = (ms.map (·.nrows)).sum := by rw [hN, ro, List.take_length]
  have Me : M = (ms.map (·.ncols)).sum := by rw [hMd, co, List.take_length]
  obtain ⟨s, e, h0, h1, h2, h3⟩ := forN_spec (n := ms.length) (s := ((List.replicate (N * M) 0, 0, 0) : List K × Nat × Nat))
    (body := fun ii (s : List K × Nat × Nat) => do
      let m ← rd ms ii
      let t ← bdBlock m M s.2.2 (s.1, s.2.1)
      .ok (t.1, t.2, s.2.2 + m.ncols))
    (I := fun k s => s.2 = (ro ms k, co ms k) ∧ s.1.length = N * M ∧
      (∀ i, ∀ hi : i < ms.length, i < k → ∀ a < ms[i].nrows, RowIs s.1 M (ro ms i + a) (co ms i) ms[i] a) ∧
      ∀ p, ro ms k * M ≤ p → p < N * M → s.1[p]? = some 0)
    ⟨by simp [ro, co], by simp, fun i _ hi => absurd hi (by omega), fun p _ hp => by
      rw [List.getElem?_replicate, if_pos hp]⟩ (by
      intro k hk s ⟨q0, q1, q2, q3⟩
      have rk := ro_succ hk
      have ck := co_succ hk
      have rN := ro_mono (ms := ms) (i := k + 1) (ms.length - (k + 1)) (by omega)
      have cM := co_mono (ms := ms) (i := k + 1) (ms.length - (k + 1)) (by omega)
      rw [show k + 1 + (ms.length - (k + 1)) = ms.length by omega] at rN cM
      obtain ⟨w, e, w1, w2, w3, w4⟩ := bdBlock_ok (hok _ (List.getElem_mem hk)) (M := M) (c0 := co ms k) (r0 := ro ms k) (N := N)
        (by omega) (by omega) q1 q3
      refine ⟨(w, ro ms k + ms[k].nrows, co ms k + ms[k].ncols), ?_, by rw [rk, ck], w1, ?_, by rw [rk]; exact w4⟩
      · rw [rd_of_getElem? (List.getElem?_eq_getElem hk), bind_ok, q0]
        simp only []
        rw [e, bind_ok]
      · intro i hi hik a ha c hc
        by_cases hik' : i = k
        · subst hik'; exact w3 a ha c hc
        · have r1 := ro_succ hi
          have r2 := ro_mono (ms := ms) (i := i + 1) (k - (i + 1)) (by omega)
          rw [show i + 1 + (k - (i + 1)) = k by omega] at r2
          have : (ro ms i + a) * M + M ≤ ro ms k * M := by
            have := Nat.mul_le_mul_right M (show (ro ms i + a) + 1 ≤ ro ms k by omega)
            rwa [Nat.add_mul, Nat.one_mul] at this
          rw [w2 _ (by omega), q2 i hi (by omega) a ha c hc])
  refine ⟨⟨N, M, s.1⟩, by rw [e, bind_ok], Ne, Me, h1, ?_⟩
  intro i hi a ha c hc
  rw [Mat.at, List.getD_eq_getElem?_getD]
  exact (congrArg (·.getD 0) (h2 i hi hi a ha c hc))

example : blockDiag [(⟨1, 1, [1]⟩ : Mat ℤ), ⟨1, 2, [2, 3]⟩] 2 = .ok ⟨2, 3, [1, 0, 0, 0, 2, 3]⟩ := by decide +kernel

end C3.Mu
