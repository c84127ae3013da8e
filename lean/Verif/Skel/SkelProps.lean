/-
C139: skeleton decompositions: a table whose chosen starting columns span all columns is reproduced exactly from the kept rows and columns, the
search stops with code 1 after two passes, and the list of stored fibers does not change the result.
-/
import Verif.Skel.SkelLemmas
import Verif.Mv.Pinv

namespace C3.Sk
open Finset Matrix

/-! ## `maxvol_rhs` meets the assumption for a nonsingular start -/

theorem maxvol_indep {delta : ℝ} {lu : Nat → List ℝ → Int × List Nat} (hlu : LuLaw lu) (inv : Nat → List ℝ → List ℝ) {n r : Nat}
    (hrn : r < n) {A : List ℝ} (hA : A.length = n * r) {rows rows' : List Nat} (h1 : rows.length = r) (h1' : rows'.length = r)
    {V V' : List ℝ} (h2 : V.length = r * r) (h2' : V'.length = r * r) :
    maxvol delta lu inv A n r rows V = maxvol delta lu inv A n r rows' V' := by
  have htk : (A.take (r * r)).length = r * r := by
    rw [List.length_take, hA, Nat.min_eq_left (Nat.mul_le_mul_right _ hrn.le)]
  have hpi : ∀ k < r, (lu r (A.take (r * r))).2.getD k 0 < n := fun k hk => by have := (hlu.piv r _ htk k hk).2; omega
  have hpl : r ≤ (lu r (A.take (r * r))).2.length := (hlu.len r _ htk).ge
  set ip := (lu r (A.take (r * r))).2 with hip
  set R := (List.range r).map (prm ip r) with hR
  have hRi : ∀ i < r, R.getD i 0 < n := fun i hi => by rw [hR, rows_getD hi]; exact prm_lt hrn.le hpi r (le_refl _) i (by omega)
  have hrw : ∀ rows : List Nat, rows.length = r → forN r (fun ii rows => do
      let v ← rd ((List.range n).map (prm ip r)) ii
      wr rows ii v) rows = .ok R := fun rows hrows => by
    refine forN_fill_all _ hrows fun i hi b _ => ?_
    rw [rd_of_getElem? (v := prm ip r i) (by simp [show i < n by omega]), bind_ok]
  have hg : ¬ (n < r ∨ A.length < n * r) := by omega
  rw [maxvol, maxvol, if_neg hg, if_neg hg]
  simp only []
  rw [if_neg (not_lt.2 (hlu.info r _ htk)), if_neg (not_lt.2 (hlu.info r _ htk)), pivRows_ok hrn.le hpl hpi, bind_ok, bind_ok, hrw _ h1,
    hrw _ h1', bind_ok, bind_ok, getrows_ok 0 hA.ge h2 (by rw [hR]; simp) hRi, getrows_ok 0 hA.ge h2' (by rw [hR]; simp) hRi]

/-- C139: `maxvol_rhs` works for every matrix with more rows than columns from which its search starts with a nonsingular submatrix. -/
theorem maxvol_good {delta : ℝ} (hd : 0 < delta) {lu : Nat → List ℝ → Int × List Nat} (hlu : LuLaw lu) {inv : Nat → List ℝ → List ℝ}
    (hinv : InvLaw inv) {n r : Nat} (hr0 : 0 < r) (hrn : r < n) {Q : List ℝ} (hQ : Q.length = n * r)
    (hs : (sub Q n r (startRows n r (lu r (Q.take (r * r))).2)).det ≠ 0) : MvGood (maxvol delta lu inv) n r Q := by
  obtain ⟨rows, V, h1, h2, -, h3, h4, h5, -⟩ := maxvol_partial hd hlu hinv hr0 hrn hQ (rows := List.replicate r 0) (by simp)
    (V := List.replicate (r * r) 0) (by simp) hs
  refine ⟨rows, V, fun ro v e1 e2 => ?_, h2, fun i hi => ?_, h4, h5⟩
  · rw [← h1]
    exact maxvol_indep hlu inv hrn hQ e1 (by simp) e2 (by simp)
  · exact h3 _ (by rw [List.getD_eq_getElem?_getD, List.getElem?_eq_getElem (by omega)]; simp)

/-! ## Entry by entry -/

theorem elemOps_law {a : Nat → Nat → ℝ} {n m r : Nat} {e0 e1 : Nat → Nat → C ℝ} (h0 : ∀ i < n, ∀ j < m, e0 i j = .ok (a i j))
    (h1 : ∀ i < n, ∀ j < m, e1 i j = .ok (a i j)) :
    OpsLaw a n m r (elemOps e0 e1 n m r) (fun _ => True) (fun _ _ => True) (fun _ _ => True) := by
  refine ⟨fun st idx R _ hl hlt hR => ⟨(), ?_, trivial, trivial, fun _ _ => trivial⟩, fun st idx R _ hl hlt hR => ⟨(), ?_, trivial, trivial⟩⟩
  · have : gatherCols e0 n r idx R = .ok (cm n r fun i k => a i (idx.getD k 0)) := by
      rw [gatherCols, forN_fill_cm _ hR]
      intro j hj i hi b _
      rw [rd_getD 0 (by omega), bind_ok, h0 i hi _ (hlt j hj), bind_ok]
    simp only [elemOps]
    rw [this, bind_ok]
  · have : gatherRows e1 m r idx R = .ok (cm m r fun j k => a (idx.getD k 0) j) := by
      rw [gatherRows, forN_fill_cm _ hR]
      intro j hj i hi b _
      rw [rd_getD 0 (by omega), bind_ok, h1 _ (hlt j hj) i hi, bind_ok]
    simp only [elemOps]
    rw [this, bind_ok]

/-- The conclusion about kept rows and columns: they are in range, and with every generalized inverse of their submatrix (an inverse, if there
is one) the whole table is recovered from them. -/
def Exact (a : Nat → Nat → ℝ) (n m r : Nat) (rows cols : List Nat) : Prop :=
  rows.length = r ∧ cols.length = r ∧ (∀ i < r, rows.getD i 0 < n) ∧ (∀ i < r, cols.getD i 0 < m) ∧
  ∀ W : Matrix (Fin r) (Fin r) ℝ, crossM a r rows cols * W * crossM a r rows cols = crossM a r rows cols →
    selC a n r cols * W * selR a m r rows = fullM a n m

theorem Post.exact {σ : Type} {a : Nat → Nat → ℝ} {n m r : Nat} {I : σ → Prop} {hasC hasR : σ → List Nat → Prop} {s : LS σ}
    (h : Post a n m r I hasC hasR s) : Exact a n m r s.rows s.cols :=
  ⟨h.rows, h.cols, h.rolt, h.colt, fun _ hW => cross_exact h.rolt h.colt h.span h.spanR hW⟩

section Props
variable {qr : Nat → Nat → List ℝ → List ℝ} {mv : List ℝ → Nat → Nat → List Nat → List ℝ → C (Int × List Nat × List ℝ)}
  {n m r : Nat} {delta : ℝ} {rows cols : List Nat}

/-- **C139** `skeleton` of a row-major matrix whose columns are combinations of the starting columns: the call ends, with code 1 for a matrix
different from zero and a positive tolerance and code 2 otherwise, and the kept rows and columns determine the matrix. Partial: exact
arithmetic; the selection of rows is assumed to work (`maxvol_good`). -/
theorem skeleton_exact_partial (hqr : QrLaw qr) {A : List ℝ} (hA : A.length = n * m)
    (hmv : MvAll qr mv (fun i j => A.getD (i * m + j) 0) n m r) (hn : 0 < n) (hrn : r ≤ n) (hrm : r ≤ m) (hr : rows.length = r)
    (hc : cols.length = r) (hcl : ∀ i < r, cols.getD i 0 < m) (hsp : SpanC (fun i j => A.getD (i * m + j) 0) n m r cols) :
    ∃ c rows' cols', skeleton qr mv A n m r rows cols delta = .ok (c, rows', cols') ∧
      ((fullM (fun i j => A.getD (i * m + j) 0) n m ≠ 0 ∧ 0 < delta → c = 1) ∧
        (¬ (fullM (fun i j => A.getD (i * m + j) 0) n m ≠ 0 ∧ 0 < delta) → c = 2)) ∧
      Exact (fun i j => A.getD (i * m + j) 0) n m r rows' cols' := by
  have he : ∀ i < n, ∀ j < m, rd A (i * m + j) = .ok (A.getD (i * m + j) 0) := fun i hi j hj =>
    rd_getD 0 (by rw [hA, Nat.mul_comm n m]; exact cm_idx_lt hj hi)
  obtain ⟨c, s, h1, h2, h3⟩ := skRun_ok hqr (elemOps_law (r := r) he he) hmv hrn hrm hn delta hr hc hcl hsp (st := ()) trivial
  exact ⟨c, s.rows, s.cols, by rw [skeleton, h1, bind_ok], h3, h2.exact⟩

/-- **C139** `skeleton_func` of a function whose two directions agree: the same. -/
theorem skeletonFunc_exact_partial (hqr : QrLaw qr) {a : Nat → Nat → Nat → ℝ} (hdir : ∀ i < n, ∀ j < m, a i j 1 = a i j 0)
    (hmv : MvAll qr mv (fun i j => a i j 0) n m r) (hn : 0 < n) (hrn : r ≤ n) (hrm : r ≤ m) (hr : rows.length = r)
    (hc : cols.length = r) (hcl : ∀ i < r, cols.getD i 0 < m) (hsp : SpanC (fun i j => a i j 0) n m r cols) :
    ∃ c rows' cols', skeletonFunc qr mv a n m r rows cols delta = .ok (c, rows', cols') ∧
      ((fullM (fun i j => a i j 0) n m ≠ 0 ∧ 0 < delta → c = 1) ∧ (¬ (fullM (fun i j => a i j 0) n m ≠ 0 ∧ 0 < delta) → c = 2)) ∧
      Exact (fun i j => a i j 0) n m r rows' cols' := by
  obtain ⟨c, s, h1, h2, h3⟩ := skRun_ok hqr (elemOps_law (a := fun i j => a i j 0) (r := r) (e0 := fun i j => .ok (a i j 0))
    (e1 := fun i j => .ok (a i j 1)) (fun _ _ _ _ => rfl) (fun i hi j hj => by rw [hdir i hi j hj])) hmv hrn hrm hn delta hr hc hcl hsp
    (st := ()) trivial
  exact ⟨c, s.rows, s.cols, by rw [skeletonFunc, h1, bind_ok], h3, h2.exact⟩

end Props

/-! ## Stored fibers -/

/-- Stored fibers are the right ones, each stored once. -/
def CacheOk (fib : Nat → List ℝ) (l : Cache) : Prop := (∀ e ∈ l, e.2 = fib e.1) ∧ (l.map Prod.fst).Nodup

theorem indexExists_some {l : Cache} {c k : Nat} (h : indexExists l c = some k) : ∃ e, l[k]? = some e ∧ e.1 = c := by
  induction l generalizing k with
  | nil => exact absurd h (by simp [indexExists])
  | cons e l ih =>
    rw [indexExists] at h
    by_cases he : e.1 = c
    · rw [if_pos he] at h
      obtain rfl := Option.some.inj h
      exact ⟨e, rfl, he⟩
    · rw [if_neg he] at h
      obtain ⟨k', h1, rfl⟩ := Option.map_eq_some_iff.1 h
      obtain ⟨e', h2, h3⟩ := ih h1
      exact ⟨e', by simpa using h2, h3⟩

theorem indexExists_of_mem {l : Cache} {c : Nat} (h : c ∈ l.map Prod.fst) : ∃ k, indexExists l c = some k := by
  induction l with
  | nil => simp at h
  | cons e l ih =>
    rw [indexExists]
    by_cases he : e.1 = c
    · exact ⟨0, if_pos he⟩
    · rw [if_neg he]
      rw [List.map_cons, List.mem_cons] at h
      obtain ⟨k, hk⟩ := ih (h.resolve_left (Ne.symm he))
      exact ⟨k + 1, by rw [hk]; rfl⟩

theorem getIndex_ok {fib : Nat → List ℝ} {l : Cache} (hl : CacheOk fib l) {c k : Nat} (h : indexExists l c = some k) :
    getIndex l k = .ok (fib c) ∧ c ∈ l.map Prod.fst := by
  obtain ⟨e, h1, rfl⟩ := indexExists_some h
  have hm := List.mem_of_getElem? h1
  rw [getIndex, h1]
  exact ⟨by rw [← hl.1 e hm], List.mem_map_of_mem hm⟩

theorem fetch_ok {fib : Nat → List ℝ} {l : Cache} (hl : CacheOk fib l) (c : Nat) :
    ∃ l', fetch fib l c = .ok (fib c, l') ∧ CacheOk fib l' ∧ c ∈ l'.map Prod.fst ∧ ∀ x ∈ l.map Prod.fst, x ∈ l'.map Prod.fst := by
  rw [fetch]
  cases h : indexExists l c with
  | none =>
    refine ⟨_, rfl, ?_, by simp, fun x hx => by rw [List.map_cons]; exact List.mem_cons_of_mem _ hx⟩
    refine ⟨fun e he => ?_, ?_⟩
    · rcases List.mem_cons.1 he with rfl | he
      · rfl
      · exact hl.1 e he
    · rw [List.map_cons, List.nodup_cons]
      refine ⟨fun hm => ?_, hl.2⟩
      obtain ⟨k, hk⟩ := indexExists_of_mem hm
      rw [h] at hk
      exact absurd hk (by simp)
  | some k =>
    obtain ⟨h1, h2⟩ := getIndex_ok hl h
    refine ⟨l, ?_, hl, h2, fun _ hx => hx⟩
    simp only []
    rw [h1, bind_ok]

theorem stored_ok {fib : Nat → List ℝ} {l : Cache} (hl : CacheOk fib l) {c : Nat} (hc : c ∈ l.map Prod.fst) : stored l c = .ok (fib c) := by
  obtain ⟨k, hk⟩ := indexExists_of_mem hc
  rw [stored, hk]
  exact (getIndex_ok hl hk).1

theorem blit_getD {n r k : Nat} {R v : List ℝ} (hR : R.length = n * r) (hk : k < r) (hv : v.length = n) :
    ∃ R', Tt.blit n R (k * n) v 0 = .ok R' ∧ R'.length = n * r ∧ (∀ i < n, R'.getD (k * n + i) 0 = v.getD i 0) ∧
      ∀ l < r, l ≠ k → ∀ i < n, R'.getD (l * n + i) 0 = R.getD (l * n + i) 0 := by
  have hle : k * n + n ≤ n * r := by
    have := Nat.mul_le_mul_right n (Nat.succ_le_of_lt hk)
    rw [Nat.succ_mul] at this
    rw [Nat.mul_comm n r]; exact this
  refine ⟨R.take (k * n) ++ v ++ R.drop (k * n + n), ?_, by simp [hR, hv]; omega, fun i hi => ?_, fun l hl hne i hi => ?_⟩
  · rw [Tt.blit_ok (by omega) (by omega), List.drop_zero, List.take_of_length_le (l := v) (by omega)]
  · rw [List.getD_eq_getElem?_getD, List.append_assoc, List.getElem?_append_right (by simp), List.length_take, hR,
      Nat.min_eq_left (by omega), Nat.add_sub_cancel_left, List.getElem?_append_left (by omega), List.getD_eq_getElem?_getD]
  · rw [List.getD_eq_getElem?_getD, List.getD_eq_getElem?_getD]
    rcases Nat.lt_or_gt_of_ne hne with h | h
    · have : l * n + n ≤ k * n := by
        have := Nat.mul_le_mul_right n (Nat.succ_le_of_lt h)
        rwa [Nat.succ_mul] at this
      rw [List.append_assoc, List.getElem?_append_left (by simp [hR]; omega), List.getElem?_take, if_pos (by omega)]
    · have : k * n + n ≤ l * n := by
        have := Nat.mul_le_mul_right n (Nat.succ_le_of_lt h)
        rwa [Nat.succ_mul] at this
      rw [List.getElem?_append_right (by simp [hR, hv]; omega), List.getElem?_drop]
      congr 2
      simp [hR, hv]; omega

theorem gatherF_ok {fib : Nat → List ℝ} {n r M : Nat} {idx : List Nat} {l : Cache} {R : List ℝ} (hfib : ∀ c < M, (fib c).length = n)
    (hl : CacheOk fib l) (hi : idx.length = r) (hlt : ∀ i < r, idx.getD i 0 < M) (hR : R.length = n * r) :
    ∃ l', gatherF fib n r idx l R = .ok (cm n r fun i k => (fib (idx.getD k 0)).getD i 0, l') ∧ CacheOk fib l' ∧
      ∀ k < r, idx.getD k 0 ∈ l'.map Prod.fst := by
  obtain ⟨s, h1, h2, h3, h4, h5⟩ := forN_spec (n := r) (body := fun ii (s : List ℝ × Cache) => do
      let c ← rd idx ii
      let v ← fetch fib s.2 c
      let R ← Tt.blit n s.1 (ii * n) v.1 0
      .ok (R, v.2))
    (I := fun k s => s.1.length = n * r ∧ CacheOk fib s.2 ∧ (∀ j < k, idx.getD j 0 ∈ s.2.map Prod.fst) ∧
      ∀ j < k, ∀ i < n, s.1.getD (j * n + i) 0 = (fib (idx.getD j 0)).getD i 0)
    (s := (R, l)) ⟨hR, hl, by simp, by simp⟩ (by
      rintro k hk ⟨b, c⟩ ⟨e1, e2, e3, e4⟩
      obtain ⟨c', f1, f2, f3, f4⟩ := fetch_ok (fib := fib) e2 (idx.getD k 0)
      obtain ⟨b', g1, g2, g3, g4⟩ := blit_getD (k := k) e1 hk (hfib _ (hlt k hk))
      refine ⟨(b', c'), ?_, g2, f2, fun j hj => ?_, fun j hj i hi' => ?_⟩
      · rw [rd_getD 0 (by omega), bind_ok, f1, bind_ok, g1, bind_ok]
      · rcases Nat.lt_succ_iff_lt_or_eq.1 hj with h | rfl
        · exact f4 _ (e3 j h)
        · exact f3
      · rcases Nat.lt_succ_iff_lt_or_eq.1 hj with h | rfl
        · show b'.getD _ 0 = _
          rw [g4 j (by omega) (by omega) i hi']
          exact e4 j h i hi'
        · exact g3 i hi')
  obtain ⟨b, c⟩ := s
  refine ⟨c, ?_, h3, h4⟩
  rw [gatherF, h1]
  have hb : b = cm n r fun i k => (fib (idx.getD k 0)).getD i 0 := by
    refine ext_cm h2 (cm_length _ _ _) fun i hi' j hj => ?_
    have := h5 j hj i hi'
    rw [cm_getElem? _ hi' hj, ← this, List.getD_eq_getElem?_getD,
      List.getElem?_eq_getElem (show j * n + i < b.length by rw [h2]; exact cm_idx_lt hi' hj), Option.getD_some]
  rw [hb]

/-- The callbacks deliver the columns and rows of the table. -/
structure FibLaw (a : Nat → Nat → ℝ) (n m : Nat) (fc fr : Nat → List ℝ) : Prop where
  lc : ∀ c < m, (fc c).length = n
  lr : ∀ p < n, (fr p).length = m
  vc : ∀ c < m, ∀ i < n, (fc c).getD i 0 = a i c
  vr : ∀ p < n, ∀ j < m, (fr p).getD j 0 = a p j

/-- Both lists are right. -/
def FibOk (fc fr : Nat → List ℝ) (f : Fibers) : Prop := CacheOk fc f.colVals ∧ CacheOk fr f.rowVals

theorem fibOps_law {a : Nat → Nat → ℝ} {n m r : Nat} {fc fr : Nat → List ℝ} (h : FibLaw a n m fc fr) :
    OpsLaw a n m r (fibOps fc fr n m r) (FibOk fc fr) (fun f l => ∀ k < r, l.getD k 0 ∈ f.colVals.map Prod.fst)
      (fun f l => ∀ k < r, l.getD k 0 ∈ f.rowVals.map Prod.fst) := by
  refine ⟨fun st idx R hI hl hlt hR => ?_, fun st idx R hI hl hlt hR => ?_⟩
  · obtain ⟨l', h1, h2, h3⟩ := gatherF_ok (M := m) h.lc hI.1 hl hlt hR
    refine ⟨{ st with colVals := l' }, ?_, ⟨h2, hI.2⟩, h3, fun _ hh => hh⟩
    simp only [fibOps]
    rw [h1, bind_ok]
    congr 2
    exact cm_congr fun i hi k hk => h.vc _ (hlt k hk) i hi
  · obtain ⟨l', h1, h2, h3⟩ := gatherF_ok (M := n) h.lr hI.2 hl hlt hR
    refine ⟨{ st with rowVals := l' }, ?_, ⟨hI.1, h2⟩, h3⟩
    simp only [fibOps]
    rw [h1, bind_ok]
    congr 2
    exact cm_congr fun i hi k hk => h.vr _ (hlt k hk) i hi

/-! ## `skeleton_func2` and `sk_decomp_to_full` -/

theorem across_ok {a : Nat → Nat → ℝ} {n m r : Nat} {fc fr : Nat → List ℝ} (h : FibLaw a n m fc fr) {l : Cache} (hl : CacheOk fc l)
    {rows cols : List Nat} (hr : rows.length = r) (hc : cols.length = r) (hrl : ∀ i < r, rows.getD i 0 < n)
    (hcl : ∀ i < r, cols.getD i 0 < m) (hm : ∀ k < r, cols.getD k 0 ∈ l.map Prod.fst) :
    across r l rows cols = .ok (cm r r fun i j => a (rows.getD i 0) (cols.getD j 0)) := by
  rw [across]
  have e : ∀ k ≤ r, forN k (fun ii a => do
      let c ← rd cols ii
      let t ← stored l c
      forN r (fun jj a => do
        let p ← rd rows jj
        let v ← rd t p
        wr a (ii * r + jj) v) a) (List.replicate (r * r) (0 : ℝ))
      = forN k (fun ii => forN r (fun jj b => wr b (ii * r + jj) (a (rows.getD jj 0) (cols.getD ii 0)))) (List.replicate (r * r) (0 : ℝ)) := by
    intro k hk
    induction k with
    | zero => rfl
    | succ k ih =>
      rw [forN_succ, forN_succ, ih (by omega)]
      congr 1
      funext b
      rw [rd_getD 0 (by omega), bind_ok, stored_ok hl (hm k (by omega)), bind_ok]
      have : ∀ j ≤ r, forN j (fun jj a => do
          let p ← rd rows jj
          let v ← rd (fc (cols.getD k 0)) p
          wr a (k * r + jj) v) b = forN j (fun jj b => wr b (k * r + jj) (a (rows.getD jj 0) (cols.getD k 0))) b := by
        intro j hj
        induction j with
        | zero => rfl
        | succ j ihj =>
          rw [forN_succ, forN_succ, ihj (by omega)]
          congr 1
          funext b'
          have hcm := hcl k (by omega)
          have hrn := hrl j (by omega)
          rw [rd_getD 0 (by omega), bind_ok, rd_getD 0 (by rw [h.lc _ hcm]; exact hrn), bind_ok, h.vc _ hcm _ hrn]
      exact this r (le_refl _)
  rw [e r (le_refl _), forN_fill_cm (fun i j => a (rows.getD i 0) (cols.getD j 0)) (by simp)]
  intro j _ i _ b _
  rfl

theorem toRowMajor_ok {r : Nat} {ainv out : List ℝ} (h1 : ainv.length = r * r) (h2 : out.length = r * r) :
    toRowMajor r ainv out = .ok (cm r r fun i j => ainv.getD (i * r + j) 0) := by
  rw [toRowMajor, forN_fill_cm _ h2]
  intro j hj i hi b _
  rw [rd_getD 0 (by rw [h1]; exact cm_idx_lt hj hi), bind_ok]

theorem dgemmRow_ok {m n k : Nat} {A B c : List ℝ} (hA : k * m ≤ A.length) (hB : n * k ≤ B.length) (hc : c.length = n * m) :
    dgemmRow m n k A B c = .ok (cm n m fun j i => ∑ t ∈ range k, A.getD (i * k + t) 0 * B.getD (t * n + j) 0) := by
  rw [dgemmRow, forN_fill_cm _ hc]
  intro i hi j hj b _
  rw [forN_sum (fun t => A.getD (i * k + t) 0 * B.getD (t * n + j) 0), bind_ok, zero_add]
  intro t ht s
  rw [rd_getD 0 (lt_of_lt_of_le (cm_idx_lt ht hi) hA), rd_getD 0 (lt_of_lt_of_le (cm_idx_lt hj ht) hB)]; rfl

/-- A decomposition whose lists are right and contain the kept rows and columns. -/
structure SkdOk (a : Nat → Nat → ℝ) (fc fr : Nat → List ℝ) (d : Skd) : Prop where
  rl : d.rows.length = d.rank
  cl : d.cols.length = d.rank
  rlt : ∀ i < d.rank, d.rows.getD i 0 < d.n
  clt : ∀ i < d.rank, d.cols.getD i 0 < d.m
  fib : FibOk fc fr d.fib
  hC : ∀ k < d.rank, d.cols.getD k 0 ∈ d.fib.colVals.map Prod.fst
  hR : ∀ k < d.rank, d.rows.getD k 0 ∈ d.fib.rowVals.map Prod.fst
  inv : d.crossInv.length = d.rank * d.rank

theorem skParts_ok {a : Nat → Nat → ℝ} {fc fr : Nat → List ℝ} {d : Skd} (h : FibLaw a d.n d.m fc fr) (hd : SkdOk a fc fr d) :
    skParts d = .ok (cm d.m d.rank fun j k => a (d.rows.getD k 0) j, cm d.rank d.n fun k i => a i (d.cols.getD k 0)) := by
  obtain ⟨s, h1, h2, h3, h4, h5⟩ := forN_spec (n := d.rank) (body := fun ii (s : List ℝ × List ℝ) => do
      let p ← rd d.rows ii
      let t1 ← stored d.fib.rowVals p
      let R ← Tt.blit d.m s.1 (ii * d.m) t1 0
      let c ← rd d.cols ii
      let t2 ← stored d.fib.colVals c
      let Cm ← forN d.n (fun jj Cm => do
        let v ← rd t2 jj
        wr Cm (jj * d.rank + ii) v) s.2
      .ok (R, Cm))
    (I := fun k s => s.1.length = d.m * d.rank ∧ s.2.length = d.rank * d.n ∧
      (∀ l < k, ∀ j < d.m, s.1.getD (l * d.m + j) 0 = a (d.rows.getD l 0) j) ∧
      ∀ l < k, ∀ i < d.n, s.2[i * d.rank + l]? = some (a i (d.cols.getD l 0)))
    (s := (List.replicate (d.rank * d.m) 0, List.replicate (d.n * d.rank) 0))
    ⟨by simp [Nat.mul_comm], by simp [Nat.mul_comm], by simp, by simp⟩ (by
      rintro k hk ⟨b, c⟩ ⟨e1, e2, e3, e4⟩
      have hrk := hd.rlt k hk
      have hck := hd.clt k hk
      obtain ⟨b', g1, g2, g3, g4⟩ := blit_getD (k := k) e1 hk (h.lr _ hrk)
      obtain ⟨c', f1, f2, f3, f4⟩ := forN_scatter (n := d.n) (a := c) (body := fun jj Cm => do
          let v ← rd (fc (d.cols.getD k 0)) jj
          wr Cm (jj * d.rank + k) v) (fun jj => jj * d.rank + k) (fun jj => a jj (d.cols.getD k 0))
        (fun j hj => by rw [e2]; exact cm_idx_lt hk hj)
        (fun j hj j' hj' e => (row_inj hk hk e).1)
        (fun j hj x _ _ _ => by
          rw [rd_getD 0 (by rw [h.lc _ hck]; exact hj), bind_ok, h.vc _ hck j hj])
      refine ⟨(b', c'), ?_, g2, f2.trans e2, fun l hl j hj => ?_, fun l hl i hi => ?_⟩
      · rw [rd_getD 0 (by rw [hd.rl]; exact hk), bind_ok, stored_ok hd.fib.2 (hd.hR k hk), bind_ok, g1, bind_ok,
          rd_getD 0 (by rw [hd.cl]; exact hk), bind_ok, stored_ok hd.fib.1 (hd.hC k hk), bind_ok, f1, bind_ok]
      · rcases Nat.lt_succ_iff_lt_or_eq.1 hl with hl | rfl
        · show b'.getD _ 0 = _
          rw [g4 l (by omega) (by omega) j hj]
          exact e3 l hl j hj
        · show b'.getD _ 0 = _
          rw [g3 j hj, h.vr _ hrk j hj]
      · rcases Nat.lt_succ_iff_lt_or_eq.1 hl with hl | rfl
        · show c'[_]? = _
          rw [f4 _ (fun j hj e => by have := (row_inj hk (by omega) e).2; omega)]
          exact e4 l hl i hi
        · exact f3 i hi)
  obtain ⟨b, c⟩ := s
  rw [skParts, h1]
  have hb : b = cm d.m d.rank fun j k => a (d.rows.getD k 0) j := by
    refine ext_cm h2 (cm_length _ _ _) fun i hi' j hj => ?_
    have := h4 j hj i hi'
    rw [cm_getElem? _ hi' hj, ← this, List.getD_eq_getElem?_getD,
      List.getElem?_eq_getElem (show j * d.m + i < b.length by rw [h2]; exact cm_idx_lt hi' hj), Option.getD_some]
  have hc : c = cm d.rank d.n fun k i => a i (d.cols.getD k 0) := by
    refine ext_cm h3 (cm_length _ _ _) fun i hi' j hj => ?_
    rw [cm_getElem? _ hi' hj]
    exact h5 i hi' j hj
  rw [hb, hc]

/-- A row-major square buffer as a matrix. -/
def rowMat (r : Nat) (M : List ℝ) : Matrix (Fin r) (Fin r) ℝ := Matrix.of fun i j => M.getD (i.1 * r + j.1) 0

/-- **C139** `sk_decomp_to_full`: entry `(i, j)` of the result is that of kept columns times stored inverse times kept rows. -/
theorem toFull_ok {a : Nat → Nat → ℝ} {fc fr : Nat → List ℝ} {d : Skd} (h : FibLaw a d.n d.m fc fr) (hd : SkdOk a fc fr d) :
    ∃ out, toFull d = .ok out ∧ out.length = d.n * d.m ∧ ∀ (i : Fin d.n) (j : Fin d.m), out.getD (i * d.m + j) 0 =
      (selC a d.n d.rank d.cols * rowMat d.rank d.crossInv * selR a d.m d.rank d.rows) i j := by
  refine ⟨_, by
    rw [toFull, skParts_ok h hd, bind_ok, dgemmRow_ok (by rw [cm_length]) hd.inv.ge (by simp [Nat.mul_comm]), bind_ok,
      dgemmRow_ok (by rw [cm_length]) (by rw [cm_length]) (by simp [Nat.mul_comm])], by rw [cm_length, Nat.mul_comm], fun i j => ?_⟩
  rw [getD_cm _ _ j.2 i.2, Matrix.mul_apply, Finset.sum_range]
  refine sum_congr rfl fun t _ => ?_
  rw [getD_cm _ _ t.2 i.2, getD_cm _ _ j.2 t.2, Matrix.mul_apply, Finset.sum_range]
  congr 1
  refine sum_congr rfl fun u _ => ?_
  rw [getD_cm _ _ u.2 i.2]
  rfl

/-- The pseudoinverse is a generalized inverse if every singular value is zero or at least the cutoff. -/
theorem pinv_ginv {svd : Nat → Nat → List ℝ → C Round.Svd} (h : Round.SvdLaw svd) {n : Nat} (hn : 0 < n) {M : List ℝ}
    (hM : M.length = n * n) {cutoff : ℝ} (hc : 0 < cutoff)
    (hs : ∀ w, svd n n M = .ok w → ∀ p < n, w.s.getD p 0 = 0 ∨ cutoff ≤ |w.s.getD p 0|) :
    ∃ inv k, Mv.pinv svd cutoff n M = .ok (inv, k) ∧ inv.length = n * n ∧ mat n M * mat n inv * mat n M = mat n M := by
  obtain ⟨w, w1, w2, w3⟩ := Mv.pinv_formula h hn hM (cutoff := cutoff)
  have hp := hs w w1
  obtain ⟨inv, i1, i2, i3⟩ := w3 (fun _ _ _ => hc)
  have hU : (mat n w.u).transpose * mat n w.u = 1 := by
    ext p q
    rw [Matrix.mul_apply, Matrix.one_apply]
    have := w2.uon p p.2 q q.2
    rw [Finset.sum_range] at this
    simp only [Fin.ext_iff]
    exact this
  have hV : mat n w.vt * (mat n w.vt).transpose = 1 := by
    ext p q
    rw [Matrix.mul_apply, Matrix.one_apply]
    have := w2.von p p.2 q q.2
    rw [Finset.sum_range] at this
    simp only [Fin.ext_iff]
    exact this
  have hMm : mat n M = mat n w.u * (Matrix.diagonal (fun p : Fin n => w.s.getD p 0) * mat n w.vt) := by
    ext i j
    have e : mat n M i j = Ft.ent n M i j := rfl
    rw [e, Matrix.mul_apply, w2.prod i i.2 j j.2, Finset.sum_range]
    refine sum_congr rfl fun p _ => ?_
    rw [Matrix.diagonal_mul]; rfl
  have hinv : mat n inv = (mat n w.vt).transpose *
      (Matrix.diagonal (fun p : Fin n => Mv.rcp cutoff (w.s.getD p 0)) * (mat n w.u).transpose) := by
    ext i j
    have e : mat n inv i j = Ft.ent n inv i j := rfl
    rw [e, Matrix.mul_apply, i3 i i.2 j j.2, Finset.sum_range]
    refine sum_congr rfl fun p _ => ?_
    rw [Matrix.diagonal_mul]
    rfl
  refine ⟨inv, _, i1, i2, ?_⟩
  have hd : Matrix.diagonal (fun p : Fin n => w.s.getD p 0) * (Matrix.diagonal (fun p : Fin n => Mv.rcp cutoff (w.s.getD p 0)) *
      Matrix.diagonal (fun p : Fin n => w.s.getD p 0)) = Matrix.diagonal (fun p : Fin n => w.s.getD p 0) := by
    rw [Matrix.diagonal_mul_diagonal, Matrix.diagonal_mul_diagonal]
    congr 1
    funext p
    rcases hp p p.2 with h0 | h0
    · rw [h0, zero_mul]
    · rw [Mv.rcp, if_neg (not_lt.2 h0), one_div, inv_mul_cancel₀ (fun e => by rw [e, abs_zero] at h0; linarith), mul_one]
  calc mat n M * mat n inv * mat n M
      = mat n w.u * (Matrix.diagonal (fun p : Fin n => w.s.getD p 0) * ((mat n w.vt * (mat n w.vt).transpose) *
          (Matrix.diagonal (fun p : Fin n => Mv.rcp cutoff (w.s.getD p 0)) * (((mat n w.u).transpose * mat n w.u) *
            (Matrix.diagonal (fun p : Fin n => w.s.getD p 0) * mat n w.vt))))) := by
        rw [hMm, hinv]; simp only [Matrix.mul_assoc]
    _ = mat n w.u * ((Matrix.diagonal (fun p : Fin n => w.s.getD p 0) * (Matrix.diagonal (fun p : Fin n => Mv.rcp cutoff (w.s.getD p 0)) *
          Matrix.diagonal (fun p : Fin n => w.s.getD p 0))) * mat n w.vt) := by
        rw [hU, hV, Matrix.one_mul, Matrix.one_mul]; simp only [Matrix.mul_assoc]
    _ = mat n M := by rw [hd, hMm]

section Func2
variable {qr : Nat → Nat → List ℝ → List ℝ} {mv : List ℝ → Nat → Nat → List Nat → List ℝ → C (Int × List Nat × List ℝ)}
  {svd : Nat → Nat → List ℝ → C Round.Svd} {a : Nat → Nat → ℝ} {fc fr : Nat → List ℝ} {d : Skd} {delta cutoff : ℝ}

/-- **C139** `skeleton_func2` followed by `sk_decomp_to_full`: with starting columns that span the table, right (for instance empty) lists of stored
fibers and no singular value of a submatrix strictly between zero and the cutoff, the full array is the table, row by row. Partial: exact
arithmetic; the selection of rows is assumed to work (`maxvol_good`). -/
theorem skeletonFunc2_exact_partial (hqr : QrLaw qr) (hsvd : Round.SvdLaw svd) (h : FibLaw a d.n d.m fc fr) (hf : FibOk fc fr d.fib)
    (hmv : MvAll qr mv a d.n d.m d.rank) (hr0 : 0 < d.rank) (hrn : d.rank ≤ d.n) (hrm : d.rank ≤ d.m) (hr : d.rows.length = d.rank)
    (hc : d.cols.length = d.rank) (hcl : ∀ i < d.rank, d.cols.getD i 0 < d.m) (hi : d.crossInv.length = d.rank * d.rank)
    (hsp : SpanC a d.n d.m d.rank d.cols) (hcut : 0 < cutoff)
    (hs : ∀ (rows cols : List Nat) w, (∀ i < d.rank, rows.getD i 0 < d.n) → (∀ i < d.rank, cols.getD i 0 < d.m) →
      svd d.rank d.rank (cm d.rank d.rank fun i j => a (rows.getD i 0) (cols.getD j 0)) = .ok w →
      ∀ p < d.rank, w.s.getD p 0 = 0 ∨ cutoff ≤ |w.s.getD p 0|) :
    ∃ c d' out, skeletonFunc2 qr mv svd cutoff fc fr d delta = .ok (c, d') ∧
      ((fullM a d.n d.m ≠ 0 ∧ 0 < delta → c = 1) ∧ (¬ (fullM a d.n d.m ≠ 0 ∧ 0 < delta) → c = 2)) ∧ Exact a d.n d.m d.rank d'.rows d'.cols ∧
      FibOk fc fr d'.fib ∧ toFull d' = .ok out ∧ out.length = d.n * d.m ∧ ∀ i < d.n, ∀ j < d.m, out.getD (i * d.m + j) 0 = a i j := by
  obtain ⟨c, s, h1, h2, h3⟩ := skRun_ok hqr (fibOps_law (r := d.rank) h) hmv hrn hrm (by omega) delta hr hc hcl hsp (st := d.fib) hf
  set ac := cm d.rank d.rank fun i j => a (s.rows.getD i 0) (s.cols.getD j 0) with hac
  obtain ⟨iv, k, p1, p2, p3⟩ := pinv_ginv hsvd hr0 (M := ac) (by rw [hac, cm_length]) hcut
    (fun w hw => hs s.rows s.cols w h2.rolt h2.colt hw)
  set ci := cm d.rank d.rank fun i j => iv.getD (i * d.rank + j) 0 with hci
  let d' : Skd := { d with rows := s.rows, cols := s.cols, fib := s.st, crossInv := ci, crossRank := k }
  have hd' : SkdOk a fc fr d' := ⟨h2.rows, h2.cols, h2.rolt, h2.colt, h2.st, h2.hC, h2.hR, by show ci.length = _; rw [hci, cm_length]⟩
  obtain ⟨out, o1, o2, o3⟩ := toFull_ok (d := d') h hd'
  refine ⟨c, d', out, ?_, h3, h2.exact, h2.st, o1, o2, fun i hi' j hj => ?_⟩
  · rw [skeletonFunc2, h1, bind_ok, across_ok h h2.st.1 h2.rows h2.cols h2.rolt h2.colt h2.hC, bind_ok, p1, bind_ok,
      toRowMajor_ok p2 hi, bind_ok]
  · have hW : rowMat d.rank ci = mat d.rank iv := by
      ext i j
      simp only [rowMat, mat, Matrix.of_apply]
      rw [hci, getD_cm _ _ j.2 i.2]
    have hX : crossM a d.rank s.rows s.cols = mat d.rank ac := by
      ext i j
      simp only [crossM, mat, Matrix.of_apply]
      rw [hac, getD_cm _ _ i.2 j.2]
    have := o3 ⟨i, hi'⟩ ⟨j, hj⟩
    rw [this]
    have e : selC a d.n d.rank s.cols * rowMat d.rank ci * selR a d.m d.rank s.rows = fullM a d.n d.m := by
      refine cross_exact h2.rolt h2.colt h2.span h2.spanR ?_
      rw [hW, hX, p3]
    exact congrFun (congrFun e ⟨i, hi'⟩) ⟨j, hj⟩

end Func2

/-! ## A case -/

/-- The factor `Q = A`. -/
def qrId : Nat → Nat → List ℝ → List ℝ := fun _ _ M => M

theorem qrId_law : QrLaw qrId := fun m n M _ h => ⟨h, 1, by rw [Matrix.mul_one]; rfl⟩

/-- The `2 × 2` table of ones (rank one): code 1 and the kept row and column determine it, with `maxvol_rhs` itself. -/
example : ∃ rows cols, skeleton qrId (maxvol (1 / 100) luId invAny) [1, 1, 1, 1] 2 2 1 [0] [0] (1 / 10) = .ok (1, rows, cols) ∧
    Exact (fun i j => [1, 1, 1, 1].getD (i * 2 + j) 0) 2 2 1 rows cols := by
  have hv : ∀ i < 2, ∀ j < 2, ([1, 1, 1, 1] : List ℝ).getD (i * 2 + j) 0 = 1 := by
    intro i hi j hj
    interval_cases i <;> interval_cases j <;> rfl
  have hgood : ∀ Q : List ℝ, Q = [1, 1] → MvGood (maxvol (1 / 100) luId invAny) 2 1 Q := by
    rintro Q rfl
    refine maxvol_good (by norm_num) luId_law invAny_law (by norm_num) (by norm_num) rfl ?_
    have e : startRows 2 1 (luId 1 (([1, 1] : List ℝ).take (1 * 1))).2 = [1] := by
      show startRows 2 1 [1] = [1]
      decide
    rw [e, Matrix.det_fin_one]
    show (1 : ℝ) ≠ 0
    norm_num
  have hq : ∀ g : Nat → Nat → ℝ, g 0 0 = 1 → g 1 0 = 1 → cm 2 1 g = [1, 1] := fun g h0 h1 => by
    show [g 0 0, g 1 0] = _
    rw [h0, h1]
  obtain ⟨c, rows, cols, h1, h2, h3⟩ := skeleton_exact_partial (qr := qrId) (mv := maxvol (1 / 100) luId invAny) (n := 2) (m := 2) (r := 1)
    (delta := 1 / 10) (rows := [0]) (cols := [0]) qrId_law (A := [1, 1, 1, 1]) rfl
    ⟨fun cols _ hlt _ => hgood _ (hq _ (hv 0 (by norm_num) _ (hlt 0 (by norm_num))) (hv 1 (by norm_num) _ (hlt 0 (by norm_num)))),
      fun rows _ hlt _ => hgood _ (hq _ (hv _ (hlt 0 (by norm_num)) 0 (by norm_num)) (hv _ (hlt 0 (by norm_num)) 1 (by norm_num)))⟩
    (by norm_num) (by norm_num) (by norm_num) rfl rfl (fun i hi => by interval_cases i; decide)
    ⟨Matrix.of fun _ _ => 1, by
      ext i j
      rw [Matrix.mul_apply, Fin.sum_univ_one]
      simp only [fullM, selC, Matrix.of_apply, mul_one]
      rw [hv i i.2 j j.2]
      exact (hv i i.2 0 (by norm_num)).symm⟩
  have hne : fullM (fun i j => ([1, 1, 1, 1] : List ℝ).getD (i * 2 + j) 0) 2 2 ≠ 0 := fun e => by
    have := congrFun (congrFun e 0) 0
    have h11 : fullM (fun i j => ([1, 1, 1, 1] : List ℝ).getD (i * 2 + j) 0) 2 2 0 0 = 1 := hv 0 (by norm_num) 0 (by norm_num)
    rw [h11] at this
    exact one_ne_zero this
  rw [h2.1 ⟨hne, by norm_num⟩] at h1
  exact ⟨rows, cols, h1, h3⟩


/-- The same table through `skeleton_func2` with empty lists: the full array consists of ones. -/
example : ∃ d' out, skeletonFunc2 qrId (maxvol (1 / 100) luId invAny) Round.svdAny (1 / 2) (fun _ => [1, 1]) (fun _ => [1, 1])
    ⟨2, 2, 1, [0], [0], ⟨[], []⟩, [0], 0⟩ (1 / 10) = .ok (1, d') ∧ toFull d' = .ok out ∧
    ∀ i < 2, ∀ j < 2, out.getD (i * 2 + j) 0 = 1 := by
  have hgood : ∀ g : Nat → Nat → ℝ, g 0 0 = 1 → g 1 0 = 1 → MvGood (maxvol (1 / 100) luId invAny) 2 1 (cm 2 1 g) := by
    intro g h0 h1
    have : cm 2 1 g = [1, 1] := by show [g 0 0, g 1 0] = _; rw [h0, h1]
    rw [this]
    refine maxvol_good (by norm_num) luId_law invAny_law (by norm_num) (by norm_num) rfl ?_
    have e : startRows 2 1 (luId 1 (([1, 1] : List ℝ).take (1 * 1))).2 = [1] := by
      show startRows 2 1 [1] = [1]
      decide
    rw [e, Matrix.det_fin_one]
    show (1 : ℝ) ≠ 0
    norm_num
  obtain ⟨c, d', out, h1, h2, -, -, h3, -, h4⟩ := skeletonFunc2_exact_partial (qr := qrId) (mv := maxvol (1 / 100) luId invAny)
    (svd := Round.svdAny) (a := fun _ _ => 1) (fc := fun _ => [1, 1]) (fr := fun _ => [1, 1])
    (d := ⟨2, 2, 1, [0], [0], ⟨[], []⟩, [0], 0⟩) (delta := 1 / 10) (cutoff := 1 / 2) qrId_law Round.svdAny_law
    ⟨fun _ _ => rfl, fun _ _ => rfl, fun c _ i hi => by interval_cases i <;> rfl, fun c _ i hi => by interval_cases i <;> rfl⟩
    ⟨⟨fun e he => absurd he (by simp), List.nodup_nil⟩, ⟨fun e he => absurd he (by simp), List.nodup_nil⟩⟩ ⟨fun _ _ _ _ => hgood _ rfl rfl, fun _ _ _ _ => hgood _ rfl rfl⟩
    (by norm_num) (by norm_num) (by norm_num) rfl rfl (fun i hi => by interval_cases i; decide) rfl
    ⟨Matrix.of fun _ _ => 1, by
      ext i j
      rw [Matrix.mul_apply, Fin.sum_univ_one]
      simp only [fullM, selC, Matrix.of_apply, mul_one]⟩ (by norm_num) (by
      intro rows cols w _ _ hw p hp
      right
      obtain ⟨w', e1, e2⟩ := Round.svdAny_law 1 [1] (by norm_num) rfl
      have e1' : Round.svdAny 1 1 (cm 1 1 fun _ _ => (1 : ℝ)) = .ok w' := e1
      have hww : w' = w := by
        have hw' : Round.svdAny 1 1 (cm 1 1 fun _ _ => (1 : ℝ)) = .ok w := hw
        rw [e1'] at hw'
        exact Except.ok.inj hw'
      subst hww
      have hp' : p = 0 := by have : p < 1 := hp; omega
      subst hp'
      have p1 := e2.prod 0 (by norm_num) 0 (by norm_num)
      have p2 := e2.uon 0 (by norm_num) 0 (by norm_num)
      have p3 := e2.von 0 (by norm_num) 0 (by norm_num)
      rw [sum_range_one] at p1 p2 p3
      rw [if_pos rfl] at p2 p3
      have p1' : (1 : ℝ) = Ft.ent 1 w'.u 0 0 * (w'.s.getD 0 0 * Ft.ent 1 w'.vt 0 0) := p1
      have : w'.s.getD 0 0 * w'.s.getD 0 0 = 1 := by
        have e : (1 : ℝ) * 1 = (Ft.ent 1 w'.u 0 0 * Ft.ent 1 w'.u 0 0) * (w'.s.getD 0 0 * w'.s.getD 0 0) *
            (Ft.ent 1 w'.vt 0 0 * Ft.ent 1 w'.vt 0 0) := by
          nth_rewrite 1 [p1']; nth_rewrite 1 [p1']; ring
        rw [p2, p3] at e
        linarith
      have h1 : |w'.s.getD 0 0| * |w'.s.getD 0 0| = 1 := by rw [abs_mul_abs_self, this]
      nlinarith [abs_nonneg (w'.s.getD 0 0)])
  have hne : fullM (fun _ _ => (1 : ℝ)) 2 2 ≠ 0 := fun e => one_ne_zero (congrFun (congrFun e 0) 0)
  rw [h2.1 ⟨hne, by norm_num⟩] at h1
  exact ⟨d', out, h1, h3, h4⟩

/-! ## Where the code differs -/

theorem maxvol_singular {lu : Nat → List ℝ → Int × List Nat} (hlu : LuLaw lu) {inv : Nat → List ℝ → List ℝ}
    (hinv : inv 1 [0] = [0]) (i : Nat) (v : ℝ) : maxvol (1 / 100) lu inv [1, 0] 2 1 [i] [v] = .ok (0, [1], [0]) := by
  have h1 := hlu.len 1 [1] rfl
  have h2 := hlu.piv 1 [1] rfl 0 (by decide)
  have h3 := hlu.info 1 [1] rfl
  have h4 : (lu 1 [1]).2 = [1] := by
    match hq : (lu 1 [1]).2, h1 with
    | [a], _ =>
      rw [hq] at h2
      simp only [List.getD_cons_zero] at h2
      have : a = 1 := by omega
      rw [this]
  rw [maxvol, if_neg (by simp)]
  have e : List.take (1 * 1) [(1 : ℝ), 0] = [1] := rfl
  simp only [e]
  rw [h4, if_neg (not_lt.2 h3)]
  have e1 : pivRows 2 1 [1] = .ok [1, 0] := rfl
  rw [e1, bind_ok]
  have e2 : (forN 1 (fun ii rows => do
      let v ← rd [1, 0] ii
      wr rows ii v) [i] : C (List Nat)) = .ok [1] := rfl
  rw [e2, bind_ok]
  have e3 : getrows [(1 : ℝ), 0] [v] [1] 2 1 = .ok [0] := rfl
  rw [e3, bind_ok]
  simp only [hinv]
  rw [dgemmNN_ok (by simp) (by simp) (by simp), bind_ok]
  have e4 : (cm 2 1 fun i j => ∑ t ∈ range 1, [(1 : ℝ), 0].getD (t * 2 + i) 0 * [(0 : ℝ)].getD (j * 1 + t) 0) = [0, 0] := by
    show [∑ t ∈ range 1, [(1 : ℝ), 0].getD (t * 2 + 0) 0 * [(0 : ℝ)].getD (0 * 1 + t) 0,
      ∑ t ∈ range 1, [(1 : ℝ), 0].getD (t * 2 + 1) 0 * [(0 : ℝ)].getD (0 * 1 + t) 0] = _
    rw [sum_range_one, sum_range_one]
    simp
  rw [e4]
  have e5 : rowsToTop [(0 : ℝ), 0] [1] 2 1 = .ok [0, 0] := rfl
  rw [e5, bind_ok, mvLoop]
  have e6 : maxabs [(0 : ℝ), 0] (2 * 1) = .ok (0, 0) := by
    obtain ⟨k, hk, q1, q2⟩ := maxabs_ok (a := [(0 : ℝ), 0]) (N := 2 * 1) (by norm_num) (by simp)
    have : maxabs [(0 : ℝ), 0] (2 * 1) = .ok (if |(0 : ℝ)| > |(0 : ℝ)| then (|(0 : ℝ)|, 1) else (|(0 : ℝ)|, 0)) := rfl
    rw [this, if_neg (lt_irrefl _), abs_zero]
  rw [e6, bind_ok, if_pos (by norm_num), bind_ok]

/-- The matrix with rows (1, 0) and (0, 0) has rank one and its first column spans it, but started with this column `skeleton` ends with code 2
("did not converge") and keeps the second row and the second column, which are zero. `qr` needs to act on two vectors only: LAPACK's
factor of (1, 0) and of (0, 0) is (1, 0). -/
theorem skeleton_singular_counterexample {lu : Nat → List ℝ → Int × List Nat} (hlu : LuLaw lu) {inv : Nat → List ℝ → List ℝ}
    (hinv : inv 1 [0] = [0]) {qr : Nat → Nat → List ℝ → List ℝ} (hq1 : qr 2 1 [1, 0] = [1, 0]) (hq0 : qr 2 1 [0, 0] = [1, 0]) (delta : ℝ) :
    skeleton qr (maxvol (1 / 100) lu inv) [1, 0, 0, 0] 2 2 1 [0] [0] delta = .ok (2, [1], [1]) := by
  set mv := maxvol (1 / 100) lu inv with hmvd
  have hmv : ∀ i v, mv [1, 0] 2 1 [i] [v] = .ok (0, [1], [0]) := maxvol_singular hlu hinv
  set ops := elemOps (fun i j => rd [(1 : ℝ), 0, 0, 0] (i * 2 + j)) (fun i j => rd [(1 : ℝ), 0, 0, 0] (i * 2 + j)) 2 2 1 with hops
  have tm : dgemmNN 2 1 1 [(1 : ℝ), 0] 2 [0] 1 (List.replicate (2 * 1) 0) 2 = .ok [0, 0] := by
    rw [dgemmNN_ok (by simp) (by simp) (by simp)]
    show Except.ok [∑ t ∈ range 1, [(1 : ℝ), 0].getD (t * 2 + 0) 0 * [(0 : ℝ)].getD (0 * 1 + t) 0,
      ∑ t ∈ range 1, [(1 : ℝ), 0].getD (t * 2 + 1) 0 * [(0 : ℝ)].getD (0 * 1 + t) 0] = _
    rw [sum_range_one, sum_range_one]
    simp
  have an : dgemmNT 2 2 1 [(0 : ℝ), 0] [0, 0] (List.replicate (2 * 2) 0) = .ok [0, 0, 0, 0] := by
    rw [dgemmNT_ok (by simp) (by simp) (by simp)]
    congr 1
    refine ext_cm (n := 2) (m := 2) (cm_length _ _ _) rfl fun i hi j hj => ?_
    rw [cm_getElem? _ hi hj, sum_range_one]
    interval_cases i <;> interval_cases j <;> simp
  have hiter : ∀ R Cm : List ℝ, ∀ i j x y B, qr 2 1 R = [1, 0] → Cm.length = 2 → skIter qr mv ops 2 2 1 ⟨R, Cm, [i], [j], [x], [y], B, ()⟩
      = .ok (true, [0, 0, 0, 0], ⟨[0, 0], [1, 0], [1], [1], [0], [0], B, ()⟩) := by
    intro R Cm i j x y B hR hC
    obtain ⟨a, b, rfl⟩ : ∃ a b, Cm = [a, b] := List.length_eq_two.1 hC
    rw [skIter]
    simp only [hR]
    have g1 : ops.rows () [1] [a, b] = .ok ([0, 0], ()) := rfl
    have g2 : ops.cols () [1] [1, 0] = .ok ([0, 0], ()) := rfl
    rw [hmv, bind_ok, if_neg (by simp), g1, bind_ok]
    simp only [hq0]
    rw [hmv, bind_ok, hmv, bind_ok, if_neg (by simp), tm, bind_ok, g2, bind_ok, an, bind_ok]
  have hconv : ∀ it d, conv delta 2 2 it [0, 0, 0, 0] d = .ok (if 2 < it then 2 else 0) := by
    intro it d
    rw [conv]
    by_cases h : it = 0
    · subst h; rfl
    · rw [if_neg h, Tt.norm2_ok (by simp), bind_ok]
      have : Real.sqrt (∑ b ∈ range (2 * 2), ([0, 0, 0, 0] : List ℝ).getD b 0 ^ 2) = 0 := by
        rw [sum_eq_zero (fun b hb => ?_), Real.sqrt_zero]
        have := mem_range.1 hb
        interval_cases b <;> simp
      rw [this]
      simp [quotLt]
  have hloop : ∀ fuel it R Cm i j x y B, qr 2 1 R = [1, 0] → Cm.length = 2 → B.length = 4 →
      skLoop qr mv ops delta 2 2 1 (fuel + 1) it ⟨R, Cm, [i], [j], [x], [y], B, ()⟩ = if 2 < it then
        .ok (2, ⟨[0, 0], [1, 0], [1], [1], [0], [0], [0, 0, 0, 0], ()⟩)
      else skLoop qr mv ops delta 2 2 1 fuel (it + 1) ⟨[0, 0], [1, 0], [1], [1], [0], [0], [0, 0, 0, 0], ()⟩ := by
    intro fuel it R Cm i j x y B hR hC hB
    rw [skLoop, hiter R Cm i j x y B hR hC, bind_ok, if_neg (by simp), Opt.norm2diff_ok _ (by simp) (by rw [hB]), bind_ok, hconv, bind_ok]
    by_cases h : 2 < it
    · rw [if_pos h, if_pos h, if_pos (by decide)]
    · rw [if_neg h, if_neg h, if_neg (by decide)]
  have g0 : ops.cols () [0] (List.replicate (2 * 1) 0) = .ok ([1, 0], ()) := rfl
  rw [skeleton]
  rw [← hops, skRun, g0, bind_ok]
  show (skLoop qr mv ops delta 2 2 1 4 0 ⟨[1, 0], [0, 0], [0], [0], [0], [0], [0, 0, 0, 0], ()⟩ >>= _) = _
  rw [hloop 3 0 _ _ _ _ _ _ _ hq1 rfl rfl, if_neg (by decide), hloop 2 1 _ _ _ _ _ _ _ hq0 rfl rfl, if_neg (by decide),
    hloop 1 2 _ _ _ _ _ _ _ hq0 rfl rfl, if_neg (by decide), hloop 0 3 _ _ _ _ _ _ _ hq0 rfl rfl, if_pos (by decide), bind_ok]

end C3.Sk
