/- The product of the Hessian with a vector (property C126). -/
import Verif.Sl.HessModel
import Verif.Sl.HessSpec
import Mathlib.Analysis.Calculus.Deriv.Pow

namespace C3.Sl
open Finset

variable {K U : Type} [CommRing K]

theorem set_some {a : List K} {i : Nat} (h : i < a.length) (v : K) (j : Nat) : (a.set i v)[j]? = if j = i then some v else a[j]? := by
  by_cases c : j = i
  · subst c; rw [if_pos rfl, List.getElem?_set_self h]
  · rw [if_neg c, List.getElem?_set_ne (Ne.symm c)]

theorem vecMat_ok {N M : Nat} {vec mat : List K} {off : Nat} {out : List K} {v : Nat → K} {m : Nat → Nat → K} (hv : ∀ i, i < N → vec[i]? = some (v i))
    (hm : ∀ j, j < M → ∀ i, i < N → mat[off + (i + j * N)]? = some (m i j)) (hl : M ≤ out.length) :
    ∃ o, vecMat N M vec mat off out = .ok o ∧ o.length = out.length ∧ ∀ j, j < M → o[j]? = some (∑ i ∈ range N, v i * m i j) := by
  refine forN_spec (I := fun jj (o : List K) => o.length = out.length ∧ ∀ j, j < jj → o[j]? = some (∑ i ∈ range N, v i * m i j)) ⟨rfl, by simp⟩ ?_
  intro jj hjj o ⟨h1, h2⟩
  have hlo : jj < o.length := by omega
  rw [wr_ok _ hlo, bind_ok]
  obtain ⟨o', e, e1, e2, e3⟩ := forN_spec (n := N) (s := o.set jj 0) (body := fun ii out => do
      let o ← rd out jj
      let v ← rd vec ii
      let m ← rd mat (off + (ii + jj * N))
      wr out jj (o + v * m)) (I := fun ii q => q.length = out.length ∧ q[jj]? = some (∑ i ∈ range ii, v i * m i jj) ∧ ∀ j, j < jj → q[j]? = o[j]?)
    ⟨by simp [h1], by rw [set_some hlo, if_pos rfl]; simp, fun j hj => by rw [set_some hlo, if_neg (by omega)]⟩ (by
      intro ii hii q ⟨q1, q2, q3⟩
      have hlq : jj < q.length := by omega
      refine ⟨_, by rw [rd_of_getElem? q2, bind_ok, rd_of_getElem? (hv ii hii), bind_ok, rd_of_getElem? (hm jj hjj ii hii), bind_ok, wr_ok _ hlq], by simp [q1], ?_, fun j hj => ?_⟩
      · rw [set_some hlq, if_pos rfl, sum_range_succ]
      · rw [set_some hlq, if_neg (by omega), q3 j hj])
  refine ⟨o', e, e1, fun j hj => ?_⟩
  rcases Nat.lt_succ_iff_lt_or_eq.1 hj with h | rfl
  · rw [e3 j h, h2 j h]
  · exact e2

theorem moveN_ok {n : Nat} {src dst : List K} {v : Nat → K} (hs : ∀ i, i < n → src[i]? = some (v i)) (hd : n ≤ dst.length) :
    ∃ o, moveN n src dst = .ok o ∧ o.length = dst.length ∧ ∀ i, i < n → o[i]? = some (v i) := by
  refine forN_spec (I := fun k (o : List K) => o.length = dst.length ∧ ∀ i, i < k → o[i]? = some (v i)) ⟨rfl, by simp⟩ ?_
  intro k hk o ⟨h1, h2⟩
  have hl : k < o.length := by omega
  refine ⟨_, by rw [rd_of_getElem? (hs k hk), bind_ok, wr_ok _ hl], by simp [h1], fun i hi => ?_⟩
  rw [set_some hl]
  split
  · next c => rw [c]
  · exact h2 i (by omega)

theorem setOnly_ok {n col : Nat} {val : K} {left : List K} (hl : n ≤ left.length) :
    ∃ o, setOnly n col val left = .ok o ∧ o.length = left.length ∧ ∀ i, i < n → o[i]? = some (if i = col then val else 0) := by
  refine forN_spec (I := fun k (o : List K) => o.length = left.length ∧ ∀ i, i < k → o[i]? = some (if i = col then val else 0)) ⟨rfl, by simp⟩ ?_
  intro k hk o ⟨h1, h2⟩
  have hl : k < o.length := by omega
  refine ⟨_, by rw [wr_ok _ hl], by simp [h1], fun i hi => ?_⟩
  rw [set_some hl]
  split
  · next c => subst c; simp only [ne_eq, ite_not]
  · exact h2 i (by omega)

/-- What `hess_ij` knows between two cores. -/
structure HV (r : Nat → Nat) (M k : Nat) (L : Nat → K) (s : Hs K) : Prop where
  llen : s.left.length = M
  slen : s.space.length = M
  on : s.on = uo r k
  left : ∀ c, c < r k → s.left[c]? = some (L c)

theorem HV.congr {r : Nat → Nat} {M k : Nat} {L L' : Nat → K} {s : Hs K} (h : HV r M k L s) (he : ∀ c, c < r k → L c = L' c) : HV r M k L' s :=
  ⟨h.llen, h.slen, h.on, fun c hc => by rw [h.left c hc, he c hc]⟩

/-- The tables that `hess_ij` reads. -/
structure Tab (r : Nat → Nat) (e : Nat → K) (d M : Nat) (ranks : List Nat) (evals : List K) : Prop where
  ranks : ∀ k, k ≤ d → ranks[k]? = some (r k)
  first : r 0 = 1
  last : r d = 1
  max : ∀ k, k ≤ d → r k ≤ M
  evals : ∀ u, u < uo r d → evals[u]? = some (e u)

variable {r : Nat → Nat} {e : Nat → K} {d M : Nat} {ranks : List Nat} {evals : List K}

theorem unit_lt {k i c : Nat} (hk : k < d) (hi : i < r k) (hc : c < r (k + 1)) : uo r k + (i + c * r k) < uo r d := by
  have := uo_mono r (show k + 1 ≤ d from hk)
  rw [uo_succ] at this
  have := idx_lt hi hc
  omega

theorem advance_ok (h : Tab r e d M ranks evals) {k : Nat} (hk : k < d) {L : Nat → K} {s : Hs K} (hs : HV r M k L s) :
    ∃ s', advance ranks evals k s = .ok s' ∧ HV r M (k + 1) (fun c => ∑ i ∈ range (r k), L i * e (uo r k + (i + c * r k))) s' := by
  obtain ⟨sp, e1, l1, v1⟩ := vecMat_ok (N := r k) (M := r (k + 1)) (vec := s.left) (mat := evals) (off := s.on) (out := s.space) (v := L) (m := fun i j => e (uo r k + (i + j * r k)))
    hs.left (fun j hj i hi => by rw [hs.on]; exact h.evals _ (unit_lt hk hi hj)) (by rw [hs.slen]; exact h.max _ hk)
  obtain ⟨lf, e2, l2, v2⟩ := moveN_ok (n := r (k + 1)) (src := sp) (dst := s.left) v1 (by rw [hs.llen]; exact h.max _ hk)
  refine ⟨⟨lf, sp, s.on + r k * r (k + 1)⟩, ?_, l2.trans hs.llen, l1.trans hs.slen, by rw [uo_succ, hs.on], v2⟩
  rw [advance, rd_of_getElem? (h.ranks k (by omega)), bind_ok, rd_of_getElem? (h.ranks (k + 1) hk), bind_ok, e1, bind_ok, e2, bind_ok]

/-- The direction that changes one univariate function only. -/
def one (u0 : Nat) (g : K) (u : Nat) : K := if u = u0 then g else 0

theorem one_core {a row col k i c : Nat} {g : K} (hr : row < r a) (hc : col < r (a + 1)) (hi : i < r k) (hc' : c < r (k + 1)) :
    one (uo r a + (row + col * r a)) g (uo r k + (i + c * r k)) = if k = a ∧ i = row ∧ c = col then g else 0 := by
  unfold one
  by_cases h : k = a
  · subst h
    by_cases h2 : i = row ∧ c = col
    · rw [if_pos (by rw [h2.1, h2.2]), if_pos ⟨rfl, h2⟩]
    · rw [if_neg (fun c => h2 (idx_inj hi hr (Nat.add_left_cancel c))), if_neg (fun c => h2 c.2)]
  · rw [if_neg, if_neg (fun c => h c.1)]
    intro c
    have h1 := idx_lt hi hc'
    have h2 := idx_lt hr hc
    rcases Nat.lt_or_gt_of_ne h with h3 | h3
    · have := uo_mono r (show k + 1 ≤ a from h3)
      rw [uo_succ] at this
      omega
    · have := uo_mono r (show a + 1 ≤ k from h3)
      rw [uo_succ] at this
      omega

theorem one_low {a row col : Nat} {g : K} {u : Nat} (h : u < uo r a) : one (uo r a + (row + col * r a)) g u = 0 := if_neg (by omega)

/-- After the core of the first function. -/
theorem d1_own {a row col : Nat} {g : K} (hr : row < r a) (hc : col < r (a + 1)) {c : Nat} (hc' : c < r (a + 1)) :
    d1 r e (one (uo r a + (row + col * r a)) g) (a + 1) c = if c = col then lft r e a row * g else 0 := by
  simp only [d1]
  rw [sum_eq_single row]
  · rw [d1_zero e a (fun u hu => one_low hu) row hr, one_core hr hc hr hc']
    by_cases h : c = col
    · rw [if_pos ⟨rfl, rfl, h⟩, if_pos h]; ring
    · rw [if_neg (fun k => h k.2.2), if_neg h]; ring
  · intro i hi hne
    have hi' := mem_range.1 hi
    rw [d1_zero e a (fun u hu => one_low hu) i hi', one_core hr hc hi' hc', if_neg (fun k => hne k.2.1)]; ring
  · intro h; exact absurd (mem_range.2 hr) h

theorem d1_later {a row col : Nat} {g : K} (hr : row < r a) (hc : col < r (a + 1)) {k : Nat} (hk : a < k) {c : Nat} (hc' : c < r (k + 1)) :
    d1 r e (one (uo r a + (row + col * r a)) g) (k + 1) c = ∑ i ∈ range (r k), d1 r e (one (uo r a + (row + col * r a)) g) k i * e (uo r k + (i + c * r k)) := by
  rw [d1]
  refine sum_congr rfl fun i hi => ?_
  rw [one_core hr hc (mem_range.1 hi) hc', if_neg (by omega)]; ring

theorem d2_own {a row col b row' col' : Nat} {g g' : K} (hr : row < r a) (hc : col < r (a + 1)) (hr' : row' < r b) (hc' : col' < r (b + 1)) (hab : a < b) {c : Nat} (hcc : c < r (b + 1)) :
    d2 r e (one (uo r a + (row + col * r a)) g) (one (uo r b + (row' + col' * r b)) g') (b + 1) c =
      if c = col' then d1 r e (one (uo r a + (row + col * r a)) g) b row' * g' else 0 := by
  simp only [d2]
  rw [sum_eq_single row']
  · rw [d2_zero e _ b (fun u hu => one_low hu) row' hr', d1_zero e b (fun u hu => one_low hu) row' hr', one_core hr' hc' hr' hcc]
    by_cases h : c = col'
    · rw [if_pos ⟨rfl, rfl, h⟩, if_pos h]; ring
    · rw [if_neg (fun k => h k.2.2), if_neg h]; ring
  · intro i hi hne
    have hi' := mem_range.1 hi
    rw [d2_zero e _ b (fun u hu => one_low hu) i hi', d1_zero e b (x := one (uo r b + (row' + col' * r b)) g') (fun u hu => one_low hu) i hi', one_core hr' hc' hi' hcc, if_neg (fun k => hne k.2.1)]; ring
  · intro h; exact absurd (mem_range.2 hr') h

theorem d2_later {a row col b row' col' : Nat} {g g' : K} (hr : row < r a) (hc : col < r (a + 1)) (hr' : row' < r b) (hc' : col' < r (b + 1)) (hab : a < b) {k : Nat} (hk : b < k) {c : Nat}
    (hcc : c < r (k + 1)) :
    d2 r e (one (uo r a + (row + col * r a)) g) (one (uo r b + (row' + col' * r b)) g') (k + 1) c =
      ∑ i ∈ range (r k), d2 r e (one (uo r a + (row + col * r a)) g) (one (uo r b + (row' + col' * r b)) g') k i * e (uo r k + (i + c * r k)) := by
  rw [d2]
  refine sum_congr rfl fun i hi => ?_
  rw [one_core hr hc (mem_range.1 hi) hcc, if_neg (by omega), one_core hr' hc' (mem_range.1 hi) hcc, if_neg (by omega)]; ring

theorem leftPart_ok (h : Tab r e d M ranks evals) {a row col : Nat} (ha : 0 < a) (had : a < d) (hr : row < r a) (hc : col < r (a + 1)) (g : K) :
    ∃ s, leftPart ranks evals a row col g ⟨List.replicate M 0, List.replicate M 0, 0⟩ = .ok s ∧ HV r M (a + 1) (d1 r e (one (uo r a + (row + col * r a)) g) (a + 1)) s := by
  have hu1 : uo r 1 = r 1 := by simp [uo, h.first]
  obtain ⟨lf, e1, l1, v1⟩ := moveN_ok (n := r 1) (src := evals) (dst := List.replicate M (0 : K)) (v := e) (fun i hi => h.evals i (by
    have := uo_mono r (show 1 ≤ d by omega); omega)) (by simpa using h.max 1 (by omega))
  obtain ⟨s, e2, hs⟩ := forR_spec (a := 1) (b := a) (body := advance ranks evals) (s := ⟨lf, List.replicate M 0, 0 + r 1⟩) (I := fun k s => HV r M k (lft r e k) s) ha
    ⟨by simpa using l1, by simp, by rw [hu1, Nat.zero_add], fun c hc => by rw [v1 c hc]; simp [lft, h.first, uo]⟩ (fun k h1 h2 s hs => by
      obtain ⟨s', e, h'⟩ := advance_ok h (show k < d by omega) hs
      exact ⟨s', e, h'⟩)
  obtain ⟨lf2, e3, l3, v3⟩ := setOnly_ok (n := r (a + 1)) (col := col) (val := lft r e a row * g) (left := s.left) (by rw [hs.llen]; exact h.max _ had)
  refine ⟨⟨lf2, s.space, s.on + r a * r (a + 1)⟩, ?_, l3.trans hs.llen, hs.slen, by rw [uo_succ, hs.on], fun c hc' => by rw [v3 c hc', d1_own hr hc hc']⟩
  rw [leftPart, rd_of_getElem? (h.ranks 1 (by omega)), bind_ok, e1, bind_ok, e2, bind_ok, rd_of_getElem? (hs.left row hr), bind_ok, rd_of_getElem? (h.ranks a (by omega)), bind_ok,
    rd_of_getElem? (h.ranks (a + 1) had), bind_ok, e3, bind_ok]

/-- `hess_ij` is the mixed second derivative when the two functions change by `gi` and `gj`. -/
theorem hessIJ_ok (h : Tab r e d M ranks evals) {a b rowi coli rowj colj : Nat} (hab : a < b) (hb : b < d) (hri : rowi < r a) (hci : coli < r (a + 1)) (hrj : rowj < r b)
    (hcj : colj < r (b + 1)) (gi gj : K) :
    hessIJ d a b rowi coli rowj colj evals gi gj M ranks = .ok (d2 r e (one (uo r a + (rowi + coli * r a)) gi) (one (uo r b + (rowj + colj * r b)) gj) d 0) := by
  obtain ⟨s, e1, hs⟩ : ∃ s, firstPart ranks evals a rowi coli gi ⟨List.replicate M 0, List.replicate M 0, 0⟩ = .ok s ∧ HV r M (a + 1) (d1 r e (one (uo r a + (rowi + coli * r a)) gi) (a + 1)) s := by
    by_cases ha : a > 0
    · rw [firstPart, if_pos ha]; exact leftPart_ok h ha (by omega) hri hci gi
    · obtain rfl : a = 0 := by omega
      have hrow : rowi = 0 := by rw [h.first] at hri; omega
      have hlen : coli < (List.replicate M (0 : K)).length := by simpa using lt_of_lt_of_le hci (h.max 1 (by omega))
      refine ⟨⟨(List.replicate M 0).set coli gi, List.replicate M 0, r 1⟩, ?_, by simp, by simp, by simp [uo, h.first], fun c hc => ?_⟩
      · rw [firstPart, if_neg ha, wr_ok _ hlen, bind_ok, rd_of_getElem? (h.ranks 1 (by omega)), bind_ok]
      · rw [d1_own hri hci hc, hrow, set_some hlen]
        simp only [lft, if_true, one_mul]
        split
        · rfl
        · rw [List.getElem?_replicate, if_pos (lt_of_lt_of_le hc (h.max 1 (by omega)))]
  obtain ⟨s2, e2, hs2⟩ := forR_spec (a := a + 1) (b := b) (body := advance ranks evals) (s := s) (I := fun k s => HV r M k (d1 r e (one (uo r a + (rowi + coli * r a)) gi) k) s) hab hs
    (fun k h1 h2 s hs => by
      obtain ⟨s', e, h'⟩ := advance_ok h (show k < d by omega) hs
      exact ⟨s', e, h'.congr fun c hc => (d1_later hri hci (by omega) hc).symm⟩)
  obtain ⟨lf, e3, l3, v3⟩ := setOnly_ok (n := r (b + 1)) (col := colj) (val := d1 r e (one (uo r a + (rowi + coli * r a)) gi) b rowj * gj) (left := s2.left) (by rw [hs2.llen]; exact h.max _ hb)
  obtain ⟨s3, e4, hs3⟩ := forR_spec (a := b + 1) (b := d) (body := advance ranks evals) (s := ⟨lf, s2.space, s2.on + r b * r (b + 1)⟩)
    (I := fun k s => HV r M k (d2 r e (one (uo r a + (rowi + coli * r a)) gi) (one (uo r b + (rowj + colj * r b)) gj) k) s) hb
    ⟨l3.trans hs2.llen, hs2.slen, by rw [uo_succ, hs2.on], fun c hc => by rw [v3 c hc, d2_own hri hci hrj hcj hab hc]⟩
    (fun k h1 h2 s hs => by
      obtain ⟨s', e, h'⟩ := advance_ok h (show k < d by omega) hs
      exact ⟨s', e, h'.congr fun c hc => (d2_later hri hci hrj hcj hab (by omega) hc).symm⟩)
  rw [hessIJ, cassert_of (by simpa using hab), bind_ok, e1, bind_ok, e2, bind_ok, rd_of_getElem? (hs2.left rowj hrj), bind_ok, rd_of_getElem? (h.ranks b (by omega)), bind_ok, rd_of_getElem? (h.ranks (b + 1) hb), bind_ok, e3, bind_ok, e4,
    bind_ok, rd_of_getElem? (hs3.left 0 (by rw [h.last]; omega))]

/-! ### All pairs -/

theorem nest_ok {S : Type} {F : FTP K U} {r : Nat → Nat} (hr : ∀ k, k ≤ F.dim → F.ranks[k]? = some (r k)) {a : Nat} (ha : a ≤ F.dim) {pre : Nat → S → C S}
    {body : Nat → Nat → Nat → S → C S} (T : Nat → S → Prop) (I : Nat → Nat → S → Prop)
    (hp : ∀ k, a ≤ k → k < F.dim → ∀ s, T k s → ∃ s', pre k s = .ok s' ∧ I k (uo r k) s')
    (hq : ∀ k, a ≤ k → k < F.dim → ∀ s, I k (uo r (k + 1)) s → T (k + 1) s)
    (hb : ∀ k, a ≤ k → k < F.dim → ∀ col, col < r (k + 1) → ∀ row, row < r k → ∀ s, I k (uo r k + (row + col * r k)) s →
      ∃ s', body k col row s = .ok s' ∧ I k (uo r k + (row + col * r k) + 1) s') {s : S} (hs : T a s) :
    ∃ s', nest F a pre body s = .ok s' ∧ T F.dim s' := by
  refine forR_spec (I := T) ha hs fun k h1 h2 s hs => ?_
  obtain ⟨s1, e1, i1⟩ := hp k h1 h2 s hs
  rw [e1, bind_ok, rd_of_getElem? (hr (k + 1) h2), bind_ok]
  obtain ⟨s2, e2, i2⟩ := forN_spec (n := r (k + 1)) (s := s1) (body := fun col s => do
      let r1 ← rd F.ranks k
      forN r1 (fun row s => body k col row s) s) (I := fun col s => I k (uo r k + col * r k) s) (by simpa using i1) (fun col hc s hs => by
      rw [rd_of_getElem? (hr k (by omega)), bind_ok]
      obtain ⟨s', e, i⟩ := forN_spec (n := r k) (s := s) (body := fun row s => body k col row s) (I := fun row s => I k (uo r k + (row + col * r k)) s) (by simpa using hs)
        (fun row hrow s hs => by
          obtain ⟨s', e, i⟩ := hb k h1 h2 col hc row hrow s hs
          exact ⟨s', e, by rw [show uo r k + (row + 1 + col * r k) = uo r k + (row + col * r k) + 1 by ring]; exact i⟩)
      exact ⟨s', e, by rw [show uo r k + (col + 1) * r k = uo r k + (r k + col * r k) by ring]; exact i⟩)
  exact ⟨s2, e2, hq k h1 h2 s2 (by rw [uo_succ, Nat.mul_comm]; exact i2)⟩

/-- A boundary between cores lies between two parameters. -/
def Sep (r np : Nat → Nat) (p q : Nat) : Prop := ∃ a, p < po np (uo r a) ∧ po np (uo r a) ≤ q

theorem sep_iff {r np : Nat → Nat} {a p q : Nat} (h1 : po np (uo r a) ≤ p) (h2 : p < po np (uo r (a + 1))) : Sep r np p q ↔ po np (uo r (a + 1)) ≤ q := by
  refine ⟨fun ⟨a', h3, h4⟩ => ?_, fun h => ⟨_, h2, h⟩⟩
  have h5 : a < a' := by
    by_contra c
    have := po_mono np (uo_mono r (show a' ≤ a by omega))
    omega
  exact (po_mono np (uo_mono r (show a + 1 ≤ a' from h5))).trans h4

open Classical in
/-- Contents of `hess_vec` after the first `P` parameters were paired with the parameters of later cores. -/
noncomputable def part (r np : Nat → Nat) (n : Nat) (h : Nat → Nat → K) (v : Nat → K) (P k : Nat) : K :=
  ∑ q ∈ range n, ((if k < P ∧ Sep r np k q then h k q * v q else 0) + (if q < P ∧ Sep r np q k then h q k * v q else 0))

open Classical in
theorem part_succ (r np : Nat → Nat) {n : Nat} (h : Nat → Nat → K) (v : Nat → K) {P : Nat} (hP : P < n) (k : Nat) :
    part r np n h v (P + 1) k = part r np n h v P k + (if k = P then ∑ q ∈ range n, (if Sep r np P q then h P q * v q else 0) else 0) + (if Sep r np P k then h P k * v P else 0) := by
  have e1 : (if k = P then ∑ q ∈ range n, (if Sep r np P q then h P q * v q else 0) else 0) = ∑ q ∈ range n, (if k = P ∧ Sep r np P q then h P q * v q else 0) := by
    by_cases c : k = P
    · simp [c]
    · simp [c]
  have e2 : (if Sep r np P k then h P k * v P else 0) = ∑ q ∈ range n, (if q = P then (if Sep r np P k then h P k * v P else 0) else 0) := by
    rw [sum_ite_eq' (range n) P, if_pos (mem_range.2 hP)]
  rw [e1, e2, part, part, ← sum_add_distrib, ← sum_add_distrib]
  refine sum_congr rfl fun q _ => ?_
  have f1 : (if k < P + 1 ∧ Sep r np k q then h k q * v q else 0) = (if k < P ∧ Sep r np k q then h k q * v q else 0) + (if k = P ∧ Sep r np P q then h P q * v q else 0) := by
    by_cases c : k = P
    · subst c; simp
    · have : k < P + 1 ↔ k < P := by omega
      simp [c, this]
  have f2 : (if q < P + 1 ∧ Sep r np q k then h q k * v q else 0) = (if q < P ∧ Sep r np q k then h q k * v q else 0) + (if q = P then (if Sep r np P k then h P k * v P else 0) else 0) := by
    by_cases c : q = P
    · subst c; simp
    · have : q < P + 1 ↔ q < P := by omega
      simp [c, this]
  rw [f1, f2]
  ring

/-- The direction of one parameter: its univariate function changes with the derivative `gr p`. -/
def dir (np : Nat → Nat) (gr : Nat → K) (p u : Nat) : K := if po np u ≤ p ∧ p < po np (u + 1) then gr p else 0

theorem dir_one {np : Nat → Nat} (gr : Nat → K) {u0 l : Nat} (hl : l < np u0) : dir np gr (po np u0 + l) = one u0 (gr (po np u0 + l)) := by
  funext u
  unfold dir one
  by_cases h : u = u0
  · subst h; rw [if_pos ⟨by omega, by rw [po_succ]; omega⟩, if_pos rfl]
  · rw [if_neg h, if_neg]
    rintro ⟨h1, h2⟩
    rcases Nat.lt_or_gt_of_ne h with c | c
    · have := po_mono np (show u + 1 ≤ u0 from c); omega
    · have := po_mono np (show u0 + 1 ≤ u from c); rw [po_succ] at this; omega

/-- What the assembly reads. -/
structure Asm (F : FTP K U) (r np : Nat → Nat) (e gr v : Nat → K) (M : Nat) (evals d1v vec : List K) : Prop where
  lay : Lay F r np
  tab : Tab r e F.dim M F.ranks evals
  d1 : ∀ p, p < po np (uo r F.dim) → d1v[p]? = some (gr p)
  vec : ∀ p, p < po np (uo r F.dim) → vec[p]? = some (v p)

/-- The entry of the Hessian for two parameters, in terms of the derivatives of the univariate functions. -/
def hent (r np : Nat → Nat) (e gr : Nat → K) (d p q : Nat) : K := d2 r e (dir np gr p) (dir np gr q) d 0

variable {F : FTP K U} {np : Nat → Nat} {gr v : Nat → K} {d1v vec : List K}

theorem hessPair_ok (h : Asm F r np e gr v M evals d1v vec) {a rowi coli b rowj colj li lj : Nat} (hab : a < b) (hb : b < F.dim) (hri : rowi < r a) (hci : coli < r (a + 1)) (hrj : rowj < r b)
    (hcj : colj < r (b + 1)) {P Q : Nat} (hP : P = po np (uo r a + (rowi + coli * r a)) + li) (hli : li < np (uo r a + (rowi + coli * r a)))
    (hQ : Q = po np (uo r b + (rowj + colj * r b)) + lj) (hlj : lj < np (uo r b + (rowj + colj * r b))) (hPn : P < po np (uo r F.dim)) (hQn : Q < po np (uo r F.dim)) (hne : P ≠ Q)
    {u : Nat} {hv : List K} {x y : K} (hx : hv[P]? = some x) (hy : hv[Q]? = some y) :
    hessPair F evals d1v vec M a rowi coli P b rowj colj ⟨Q, u, hv⟩ =
      .ok ⟨Q + 1, u, (hv.set P (x + hent r np e gr F.dim P Q * v Q)).set Q (y + hent r np e gr F.dim P Q * v P)⟩ := by
  have hh : hessIJ F.dim a b rowi coli rowj colj evals (gr P) (gr Q) M F.ranks = .ok (hent r np e gr F.dim P Q) := by
    rw [hessIJ_ok h.tab hab hb hri hci hrj hcj, hent, hP, hQ, dir_one gr hli, dir_one gr hlj]
  have lP : P < hv.length := (List.getElem?_eq_some_iff.1 hx).1
  have lQ : Q < hv.length := (List.getElem?_eq_some_iff.1 hy).1
  rw [hessPair]
  dsimp only
  rw [rd_of_getElem? (h.d1 P hPn), bind_ok, rd_of_getElem? (h.d1 Q hQn), bind_ok, hh, bind_ok, rd_of_getElem? hx, bind_ok, rd_of_getElem? (h.vec Q hQn), bind_ok, wr_ok _ lP, bind_ok,
    rd_of_getElem? (show (hv.set P (x + hent r np e gr F.dim P Q * v Q))[Q]? = some y by rw [set_some lP, if_neg hne.symm, hy]), bind_ok, rd_of_getElem? (h.vec P hPn), bind_ok,
    wr_ok _ (show Q < (hv.set P (x + hent r np e gr F.dim P Q * v Q)).length by simpa using lQ), bind_ok]

/-- While one parameter `P` is paired with the parameters `st`, ..., `Q - 1`. -/
def HJ (n Nh P st : Nat) (base : Nat → K) (h : Nat → Nat → K) (v : Nat → K) (Q : Nat) (hv : List K) : Prop :=
  hv.length = Nh ∧ ∀ k, k < n → hv[k]? = some (base k + (if k = P then ∑ q ∈ Ico st Q, h P q * v q else 0) + (if st ≤ k ∧ k < Q then h P k * v P else 0))

theorem hessRow_ok (h : Asm F r np e gr v M evals d1v vec) {a row col l Nh : Nat} (ha : a < F.dim) (hr : row < r a) (hc : col < r (a + 1))
    (hl : l < np (uo r a + (row + col * r a))) (hn : po np (uo r F.dim) ≤ Nh) {s : Hi K} (hp : s.p = po np (uo r a + (row + col * r a)) + l) (hsp : s.sp = po np (uo r (a + 1)))
    (hsu : s.su = uo r (a + 1)) (hlen : s.hv.length = Nh) (hhv : ∀ k, k < po np (uo r F.dim) → s.hv[k]? = some (part r np (po np (uo r F.dim)) (hent r np e gr F.dim) v s.p k)) :
    ∃ hv, hessRow F evals d1v vec M a row col s = .ok { s with p := s.p + 1, hv := hv } ∧ hv.length = Nh ∧
      ∀ k, k < po np (uo r F.dim) → hv[k]? = some (part r np (po np (uo r F.dim)) (hent r np e gr F.dim) v (s.p + 1) k) := by
  classical
  have hu : uo r a + (row + col * r a) < uo r (a + 1) := by rw [uo_succ]; have := idx_lt hr hc; omega
  have hPlo : po np (uo r a) ≤ s.p := by rw [hp]; have := po_mono np (show uo r a ≤ uo r a + (row + col * r a) by omega); omega
  have hPhi : s.p < po np (uo r (a + 1)) := by
    have := po_mono np (show uo r a + (row + col * r a) + 1 ≤ uo r (a + 1) from hu)
    rw [po_succ] at this
    omega
  have hPn : s.p < po np (uo r F.dim) := lt_of_lt_of_le hPhi (po_mono np (uo_mono r ha))
  let J := HJ (po np (uo r F.dim)) Nh s.p (po np (uo r (a + 1))) (part r np (po np (uo r F.dim)) (hent r np e gr F.dim) v s.p) (hent r np e gr F.dim) v
  obtain ⟨t, et, ht1, ht2, ht3, ht4⟩ := nest_ok (F := F) h.lay.ranks (a := a + 1) ha (pre := fun _ t => .ok t)
    (body := fun b colj rowj t => do
      let np ← rd F.npu t.u
      let t ← forN np (fun _ t => hessPair F evals d1v vec M a row col s.p b rowj colj t) t
      .ok { t with u := t.u + 1 }) (s := (⟨s.sp, s.su, s.hv⟩ : Hj K))
    (T := fun b t => t.p = po np (uo r b) ∧ t.u = uo r b ∧ J (po np (uo r b)) t.hv) (I := fun _ u t => t.p = po np u ∧ t.u = u ∧ J (po np u) t.hv)
    (fun _ _ _ s hs => ⟨s, rfl, hs⟩) (fun _ _ _ _ hs => hs) (by
      intro b h1 h2 colj hcj rowj hrj t ⟨t1, t2, t3⟩
      have hub : uo r b + (rowj + colj * r b) < uo r F.dim := unit_lt h2 hrj hcj
      have hstart : po np (uo r (a + 1)) ≤ po np (uo r b + (rowj + colj * r b)) := po_mono np (le_trans (uo_mono r h1) (by omega))
      have hend : po np (uo r b + (rowj + colj * r b)) + np (uo r b + (rowj + colj * r b)) ≤ po np (uo r F.dim) := by
        have := po_mono np (show uo r b + (rowj + colj * r b) + 1 ≤ uo r F.dim from hub)
        rwa [po_succ] at this
      obtain ⟨t', e', a1, a2, a3⟩ := forN_spec (n := np (uo r b + (rowj + colj * r b))) (s := t) (body := fun _ t => hessPair F evals d1v vec M a row col s.p b rowj colj t)
        (I := fun l t => t.p = po np (uo r b + (rowj + colj * r b)) + l ∧ t.u = uo r b + (rowj + colj * r b) ∧ J (po np (uo r b + (rowj + colj * r b)) + l) t.hv)
        ⟨t1, t2, t3⟩ (by
          intro lj hlj t ⟨t1, t2, t3, t4⟩
          obtain ⟨Q, u, hv⟩ := t
          dsimp only at t1 t2 t3 t4
          have hQn : Q < po np (uo r F.dim) := by omega
          have hne : s.p ≠ Q := by omega
          have lP : s.p < hv.length := by omega
          have lQ : Q < hv.length := by omega
          refine ⟨_, hessPair_ok h (by omega) h2 hr hc hrj hcj hp hl t1 hlj hPn hQn hne (t4 _ hPn) (t4 _ hQn), by dsimp only; omega, t2, by simpa using t3, fun k hk => ?_⟩
          dsimp only
          have t1' : po np (uo r b + (rowj + colj * r b)) + (lj + 1) = Q + 1 := by omega
          rw [set_some (by simpa using lQ), set_some lP, ← t1, t1']
          by_cases c1 : k = Q
          · subst c1
            rw [if_pos rfl, if_neg (Ne.symm hne), if_neg (Ne.symm hne), if_neg (show ¬ (po np (uo r (a + 1)) ≤ k ∧ k < k) by omega), if_pos (show po np (uo r (a + 1)) ≤ k ∧ k < k + 1 by omega)]
            simp
          · rw [if_neg c1]
            by_cases c2 : k = s.p
            · subst c2
              rw [if_pos rfl, if_pos rfl, if_pos rfl, if_neg (by omega), if_neg (by omega), sum_Ico_succ_top (by omega)]
              ring_nf
            · rw [if_neg c2, t4 k hk, ← t1, if_neg c2, if_neg c2]
              by_cases c3 : po np (uo r (a + 1)) ≤ k ∧ k < Q
              · rw [if_pos c3, if_pos (by omega)]
              · rw [if_neg c3, if_neg (by omega)])
      refine ⟨{ t' with u := t'.u + 1 }, ?_, ?_, ?_, ?_⟩
      · rw [t2, rd_of_getElem? (h.lay.npu _ hub), bind_ok, e', bind_ok]
      · dsimp only; rw [a1, po_succ]
      · dsimp only; rw [a2]
      · rw [po_succ]; exact a3)
    ⟨hsp, hsu, hlen, fun k hk => by
      rw [hhv k hk, Ico_self, sum_empty, if_neg (show ¬ (po np (uo r (a + 1)) ≤ k ∧ k < po np (uo r (a + 1))) by omega)]
      simp⟩
  refine ⟨t.hv, by rw [hessRow, et, bind_ok], ht3, fun k hk => ?_⟩
  rw [ht4 k hk, part_succ r np _ v hPn]
  have hs1 : ∑ q ∈ Ico (po np (uo r (a + 1))) (po np (uo r F.dim)), hent r np e gr F.dim s.p q * v q =
      ∑ q ∈ range (po np (uo r F.dim)), (if Sep r np s.p q then hent r np e gr F.dim s.p q * v q else 0) := by
    rw [← sum_filter]
    refine sum_congr ?_ fun _ _ => rfl
    ext q
    simp only [mem_Ico, mem_filter, mem_range, sep_iff hPlo hPhi]
    exact and_comm
  rw [hs1]
  congr 2
  by_cases c : Sep r np s.p k
  · rw [if_pos c, if_pos ⟨(sep_iff hPlo hPhi).1 c, hk⟩]
  · rw [if_neg c, if_neg (fun hh => c ((sep_iff hPlo hPhi).2 hh.1))]

theorem maxRank_ok (hL : Lay F r np) : ∃ M, maxRank F = .ok M ∧ ∀ k, k ≤ F.dim → r k ≤ M := by
  obtain ⟨M, e1, h0, h1⟩ := forN_spec (n := F.dim) (s := r 0) (body := fun ii m => do
    let r ← rd F.ranks ii
    .ok (if r > m then r else m)) (I := fun n m => r 0 ≤ m ∧ ∀ k, k < n → r k ≤ m) ⟨le_rfl, by simp⟩ (fun i hi m ⟨h0, h1⟩ => by
      rw [rd_of_getElem? (hL.ranks i (by omega)), bind_ok]
      refine ⟨_, rfl, ?_, fun k hk => ?_⟩
      · split <;> omega
      · rcases Nat.lt_succ_iff_lt_or_eq.1 hk with c | rfl
        · have := h1 k c
          split <;> omega
        · split <;> omega)
  refine ⟨M, by rw [maxRank, rd_of_getElem? (hL.ranks 0 (by omega)), bind_ok, e1], fun k hk => ?_⟩
  rcases Nat.lt_or_eq_of_le hk with c | rfl
  · exact h1 k c
  · rw [hL.last, ← hL.first]; exact h0

theorem precompute_ok (hL : Lay F r np) (ge : U → K → K × List K) (x : List K) (hge : Reports F r np ge x e gr) (hn : uo r F.dim ≤ F.nparams) :
    ∃ q, precompute F ge x = .ok q ∧ (∀ u, u < uo r F.dim → q.evals[u]? = some (e u)) ∧ ∀ p, p < po np (uo r F.dim) → q.d1[p]? = some (gr p) := by
  have hef := evNonlin_ok (e := e) ge x gr F.nparams (by rw [hL.nparams]) hge
  obtain ⟨q, e1, -, -, h1, h2, h3⟩ := forN_spec (n := F.dim) (s := (⟨List.replicate F.nparams 0, List.replicate F.nparams 0, 0, 0⟩ : Pre K)) (body := fun ii s => do
    let r1 ← rd F.ranks ii
    let r2 ← rd F.ranks (ii + 1)
    forN (r1 * r2) (fun jj s => do
      let gv ← evNonlin F ge x ii jj s.onuni s.onparam s.d1
      let evals ← wr s.evals s.onuni gv.2
      let np ← rd F.npu s.onuni
      .ok (⟨evals, gv.1, s.onuni + 1, s.onparam + np⟩ : Pre K)) s)
    (I := fun k s => s.onuni = uo r k ∧ s.onparam = po np (uo r k) ∧ s.evals.length = F.nparams ∧ (∀ u, u < uo r k → s.evals[u]? = some (e u)) ∧
      (s.d1.length = F.nparams ∧ ∀ p, p < po np (uo r k) → s.d1[p]? = some (gr p)))
    ⟨rfl, rfl, by simp, by simp [uo], by simp, by simp [uo, po]⟩ (fun k hk s ⟨a1, a2, a3, a4, a5⟩ => by
      rw [rd_of_getElem? (hL.ranks k (by omega)), bind_ok, rd_of_getElem? (hL.ranks (k + 1) hk), bind_ok]
      obtain ⟨s', e', b⟩ := forN_spec (n := r k * r (k + 1)) (s := s) (body := fun jj s => do
          let gv ← evNonlin F ge x k jj s.onuni s.onparam s.d1
          let evals ← wr s.evals s.onuni gv.2
          let np ← rd F.npu s.onuni
          .ok (⟨evals, gv.1, s.onuni + 1, s.onparam + np⟩ : Pre K))
        (I := fun j s => s.onuni = uo r k + j ∧ s.onparam = po np (uo r k + j) ∧ s.evals.length = F.nparams ∧ (∀ u, u < uo r k + j → s.evals[u]? = some (e u)) ∧
          (s.d1.length = F.nparams ∧ ∀ p, p < po np (uo r k + j) → s.d1[p]? = some (gr p)))
        ⟨a1, a2, a3, a4, a5⟩ (fun j hj s ⟨c1, c2, c3, c4, c5⟩ => by
          obtain ⟨gev, eg, hg⟩ := hef k hk j hj s.d1 c5
          have hu : uo r k + j < uo r F.dim := uo_idx_lt hk hj
          have hul : uo r k + j < s.evals.length := by omega
          refine ⟨⟨s.evals.set (uo r k + j) (e (uo r k + j)), gev, uo r k + j + 1, po np (uo r k + j) + np (uo r k + j)⟩, ?_, by dsimp only; omega, ?_, by simpa using c3, fun u hu => ?_, ?_⟩
          · rw [c1, c2, eg, bind_ok]
            dsimp only
            rw [wr_ok _ hul, bind_ok, rd_of_getElem? (hL.npu _ hu), bind_ok]
          · dsimp only; rw [show uo r k + (j + 1) = uo r k + j + 1 by omega, po_succ]
          · rw [set_some hul]
            split
            · next c => rw [c]
            · exact c4 u (by omega)
          · rw [show uo r k + (j + 1) = uo r k + j + 1 by omega]; exact hg)
      exact ⟨s', e', by rw [uo_succ]; exact b⟩)
  exact ⟨q, e1, h2, h3.2⟩

theorem core_of {r np : Nat → Nat} {d p : Nat} (hp : p < po np (uo r d)) : ∃ a, a < d ∧ po np (uo r a) ≤ p ∧ p < po np (uo r (a + 1)) := by
  obtain ⟨u, l, hu, hl, rfl⟩ := po_split np _ _ hp
  obtain ⟨k, i, j, hk, hi, hj, rfl⟩ := uo_split r _ u hu
  refine ⟨k, hk, ?_, ?_⟩
  · have := po_mono np (show uo r k ≤ uo r k + (i + j * r k) by omega); omega
  · have := po_mono np (show uo r k + (i + j * r k) + 1 ≤ uo r (k + 1) by rw [uo_succ]; have := idx_lt hi hj; omega)
    rw [po_succ] at this; omega

theorem dir_out {a p u : Nat} (h1 : po np (uo r a) ≤ p) (h2 : p < po np (uo r (a + 1))) (hu : u < uo r a ∨ uo r (a + 1) ≤ u) : dir np gr p u = 0 := by
  refine if_neg fun ⟨h3, h4⟩ => ?_
  rcases hu with h | h
  · have := po_mono np (show u + 1 ≤ uo r a from h); omega
  · have := po_mono np h; omega

theorem part_all (hlast : r F.dim = 1) {k : Nat} (hk : k < po np (uo r F.dim)) :
    part r np (po np (uo r F.dim)) (hent r np e gr F.dim) v (po np (uo r F.dim)) k = ∑ q ∈ range (po np (uo r F.dim)), hent r np e gr F.dim k q * v q := by
  classical
  unfold part
  refine sum_congr rfl fun q hq => ?_
  have hq' := mem_range.1 hq
  obtain ⟨a, ha, a1, a2⟩ := core_of hk
  obtain ⟨b, hb, b1, b2⟩ := core_of hq'
  have i1 : (k < po np (uo r F.dim) ∧ Sep r np k q) ↔ po np (uo r (a + 1)) ≤ q := by rw [sep_iff a1 a2]; exact and_iff_right hk
  have i2 : (q < po np (uo r F.dim) ∧ Sep r np q k) ↔ po np (uo r (b + 1)) ≤ k := by rw [sep_iff b1 b2]; exact and_iff_right hq'
  rcases Nat.lt_trichotomy a b with c | c | c
  · have := po_mono np (uo_mono r (show a + 1 ≤ b from c))
    have := po_mono np (uo_mono r (show b ≤ b + 1 by omega))
    rw [if_pos (i1.2 (by omega)), if_neg (fun h => absurd (i2.1 h) (by omega)), add_zero]
  · subst c
    rw [if_neg (fun h => absurd (i1.1 h) (by omega)), if_neg (fun h => absurd (i2.1 h) (by omega)), hent,
      d2_same e (fun u hu => dir_out a1 a2 hu) (fun u hu => dir_out b1 b2 hu) F.dim 0 (by omega)]
    ring
  · have := po_mono np (uo_mono r (show b + 1 ≤ a from c))
    have := po_mono np (uo_mono r (show a ≤ a + 1 by omega))
    rw [if_neg (fun h => absurd (i1.1 h) (by omega)), if_pos (i2.2 (by omega)), zero_add, hent, hent, d2_symm]

/-- The contents of `hess_vec`: for every parameter the sum over all parameters of the mixed second derivatives, as given by the first derivatives of the univariate functions, times the vector. -/
theorem hessvec_ok (hL : Lay F r np) (ge : U → K → K × List K) (x vec hv : List K) (hge : Reports F r np ge x e gr) (hn : uo r F.dim ≤ F.nparams)
    (hvec : ∀ p, p < F.nparams → vec[p]? = some (v p)) (hhv : F.nparams ≤ hv.length) :
    ∃ o, hessvec F ge x vec hv = .ok (0, o) ∧ o.length = hv.length ∧
      ∀ p, p < F.nparams → o[p]? = some (∑ q ∈ range F.nparams, hent r np e gr F.dim p q * v q) := by
  obtain ⟨M, eM, hM⟩ := maxRank_ok hL
  obtain ⟨q, eq, q1, q2⟩ := precompute_ok hL ge x hge hn
  have hA : Asm F r np e gr v M q.evals q.d1 vec := ⟨hL, ⟨hL.ranks, hL.first, hL.last, hM, q1⟩, q2, fun p hp => hvec p (by rw [hL.nparams]; exact hp)⟩
  obtain ⟨z, ez, z1, z2⟩ := forN_spec (n := F.nparams) (s := hv) (body := fun ii hv => wr hv ii 0) (I := fun n (o : List K) => o.length = hv.length ∧ ∀ p, p < n → o[p]? = some 0) ⟨rfl, by simp⟩
    (fun i hi o ⟨o1, o2⟩ => by
      have hl : i < o.length := by omega
      refine ⟨_, wr_ok _ hl, by simp [o1], fun p hp => ?_⟩
      rw [set_some hl]
      split
      · rfl
      · exact o2 p (by omega))
  rw [hL.nparams] at hhv z2 ⊢
  let G := fun P (o : List K) => o.length = hv.length ∧ ∀ k, k < po np (uo r F.dim) → o[k]? = some (part r np (po np (uo r F.dim)) (hent r np e gr F.dim) v P k)
  obtain ⟨t, et, -, -, -, -, t1, t2⟩ := nest_ok (F := F) hL.ranks (a := 0) (by omega) (pre := fun k s => do
      let npc ← rd F.npc k
      let r1 ← rd F.ranks k
      let r2 ← rd F.ranks (k + 1)
      .ok { s with sp := s.sp + npc, su := s.su + r1 * r2 })
    (body := fun a coli rowi s => do
      let np ← rd F.npu s.u
      let s ← forN np (fun _ s => hessRow F q.evals q.d1 vec M a rowi coli s) s
      .ok { s with u := s.u + 1 }) (s := (⟨0, 0, 0, 0, z⟩ : Hi K))
    (T := fun k s => s.p = po np (uo r k) ∧ s.u = uo r k ∧ s.sp = po np (uo r k) ∧ s.su = uo r k ∧ G (po np (uo r k)) s.hv)
    (I := fun k u s => s.p = po np u ∧ s.u = u ∧ s.sp = po np (uo r (k + 1)) ∧ s.su = uo r (k + 1) ∧ G (po np u) s.hv)
    (fun k _ hk s ⟨a1, a2, a3, a4, a5⟩ => by
      refine ⟨{ s with sp := s.sp + (po np (uo r (k + 1)) - po np (uo r k)), su := s.su + r k * r (k + 1) }, ?_, a1, a2, ?_, by dsimp only; rw [a4, uo_succ], a5⟩
      · rw [rd_of_getElem? (hL.npc k hk), bind_ok, rd_of_getElem? (hL.ranks k (by omega)), bind_ok, rd_of_getElem? (hL.ranks (k + 1) hk), bind_ok]
      · dsimp only; rw [a3]; have := po_mono np (uo_mono r (show k ≤ k + 1 by omega)); omega)
    (fun _ _ _ _ hs => hs) (by
      intro a _ ha col hc row hr s ⟨a1, a2, a3, a4, a5⟩
      have hu : uo r a + (row + col * r a) < uo r F.dim := unit_lt ha hr hc
      obtain ⟨s', e', b1, b2, b3, b4, b5⟩ := forN_spec (n := np (uo r a + (row + col * r a))) (s := s) (body := fun _ s => hessRow F q.evals q.d1 vec M a row col s)
        (I := fun l s => s.p = po np (uo r a + (row + col * r a)) + l ∧ s.u = uo r a + (row + col * r a) ∧ s.sp = po np (uo r (a + 1)) ∧ s.su = uo r (a + 1) ∧
          G (po np (uo r a + (row + col * r a)) + l) s.hv) ⟨a1, a2, a3, a4, a5⟩ (fun l hl s ⟨c1, c2, c3, c4, c5, c6⟩ => by
          obtain ⟨o, eo, o1, o2⟩ := hessRow_ok hA ha hr hc hl hhv c1 c3 c4 c5 (by rw [c1]; exact c6)
          exact ⟨_, eo, by dsimp only; omega, c2, c3, c4, o1, by rw [← Nat.add_assoc, ← c1]; exact o2⟩)
      refine ⟨{ s' with u := s'.u + 1 }, ?_, ?_, by dsimp only; rw [b2], b3, b4, by rw [po_succ]; exact b5⟩
      · rw [a2, rd_of_getElem? (hL.npu _ hu), bind_ok, e', bind_ok]
      · dsimp only; rw [b1, po_succ])
    ⟨by simp [uo, po], by simp [uo], by simp [uo, po], by simp [uo], z1, fun k hk => by
      rw [z2 k hk]
      simp [part, uo, po]⟩
  refine ⟨t.hv, ?_, t1, fun p hp => by rw [t2 p hp, part_all hL.last hp]⟩
  rw [hessvec, eM, bind_ok, eq, bind_ok, ez, bind_ok, et, bind_ok]

/-! ### The result is the derivative of the gradient -/

theorem linFam_dir (b w : Nat → ℝ) {n u : Nat} (hu : u < n) : linFam np b u w = ∑ q ∈ range (po np n), w q * dir np b q u := by
  have h1 : po np (u + 1) ≤ po np n := po_mono np hu
  have h2 : ∑ q ∈ range (po np n), w q * dir np b q u = ∑ q ∈ (range (po np n)).filter (fun q => po np u ≤ q ∧ q < po np (u + 1)), w q * b q := by
    rw [sum_filter]
    refine sum_congr rfl fun q _ => ?_
    unfold dir
    split <;> simp
  have h3 : (range (po np n)).filter (fun q => po np u ≤ q ∧ q < po np (u + 1)) = Ico (po np u) (po np (u + 1)) := by
    ext q
    simp only [mem_filter, mem_range, mem_Ico]
    omega
  rw [h2, h3, sum_Ico_eq_sum_range, po_succ, Nat.add_sub_cancel_left, linFam]
  exact sum_congr rfl fun l _ => by ring

theorem linFam_dirDeriv (b θ : Nat → ℝ) (p u : Nat) : HasDerivAt (fun s => linFam np b u (Function.update θ p s)) (dir np b p u) (θ p) := by
  by_cases c : po np u ≤ p ∧ p < po np (u + 1)
  · obtain ⟨l, rfl⟩ : ∃ l, p = po np u + l := ⟨p - po np u, by omega⟩
    rw [dir, if_pos c]
    exact linFam_hasDerivAt np b u θ l (by rw [po_succ] at c; omega)
  · rw [dir, if_neg c]
    have : (fun s => linFam np b u (Function.update θ p s)) = fun _ => linFam np b u θ := funext fun s => linFam_own np b (u + 1) u (by omega) θ p s c
    rw [this]
    exact hasDerivAt_const _ _

theorem linFam_line (b θ w : Nat → ℝ) (u : Nat) (t : ℝ) : HasDerivAt (fun t => linFam np b u fun q => θ q + t * w q) (linFam np b u w) t := by
  refine HasDerivAt.fun_sum fun l _ => ?_
  have := (((hasDerivAt_id t).mul_const (w (po np u + l))).const_add (θ (po np u + l))).const_mul (b (po np u + l))
  simpa using this

/-- C126: `ft_param_hessvec` for univariate functions that are linear in their parameters, with basis values `b`. Entry `p` of the result is the derivative, in the direction of the given vector,
of the partial derivative of the train with respect to parameter `p`, that is, the product of the Hessian with the vector. Partial: linear parameterisations, exact arithmetic, and the return
value is not the value of the train, see `hessvec_value_counterexample` and `hessvec_nonlinear_counterexample`. -/
theorem hessvec_hasDerivAt_partial {F : FTP ℝ U} (hL : Lay F r np) (ge : U → ℝ → ℝ × List ℝ) (x vec hv : List ℝ) (b θ w : Nat → ℝ)
    (hge : Reports F r np ge x (fun u => linFam np b u θ) b) (hn : uo r F.dim ≤ F.nparams) (hvec : ∀ p, p < F.nparams → vec[p]? = some (w p)) (hhv : F.nparams ≤ hv.length) :
    ∃ z o, hessvec F ge x vec hv = .ok (z, o) ∧ o.length = hv.length ∧ ∀ p, p < F.nparams → ∃ h, o[p]? = some h ∧
      HasDerivAt (fun t => _root_.deriv (fun s => trainVal r (fun u => linFam np b u (Function.update (fun q => θ q + t * w q) p s)) F.dim) (θ p + t * w p)) h 0 := by
  obtain ⟨o, e1, e2, e3⟩ := hessvec_ok hL ge x vec hv hge hn hvec hhv
  refine ⟨0, o, e1, e2, fun p hp => ⟨_, e3 p hp, ?_⟩⟩
  have hgrad : (fun t => _root_.deriv (fun s => trainVal r (fun u => linFam np b u (Function.update (fun q => θ q + t * w q) p s)) F.dim) (θ p + t * w p)) =
      fun t => d1 r (fun u => linFam np b u fun q => θ q + t * w q) (dir np b p) F.dim 0 := by
    funext t
    have := hasDerivAt_lft (r := r) (E := fun s u => linFam np b u (Function.update (fun q => θ q + t * w q) p s)) (x := dir np b p) (t0 := θ p + t * w p)
      (fun u => linFam_dirDeriv b (fun q => θ q + t * w q) p u) F.dim 0
    rw [Function.update_eq_self p (fun q => θ q + t * w q)] at this
    exact this.deriv
  rw [hgrad]
  have hd := hasDerivAt_d1 (r := r) (E := fun t u => linFam np b u fun q => θ q + t * w q) (x := dir np b p) (y := fun u => linFam np b u w) (t0 := 0)
    (fun u => linFam_line b θ w u 0) F.dim 0
  refine hd.congr_deriv ?_
  have h0 : (fun u => linFam np b u fun q => θ q + 0 * w q) = fun u => linFam np b u θ := by simp
  rw [h0, d2_congr _ _ F.dim (fun u hu => linFam_dir b w hu) 0 (by rw [hL.last]; omega), d2_sum, hL.nparams]
  exact sum_congr rfl fun q _ => by rw [hent]; ring

/-- The return value is documented as the value of the train, but it is always zero. -/
theorem hessvec_value_counterexample :
    ∃ (F : FTP ℤ Unit) (r np : Nat → Nat), Lay F r np ∧ Reports F r np (fun _ _ => (3, [1])) [0] (fun _ => 3) (fun _ => 1) ∧ trainVal r (fun _ => (3 : ℤ)) F.dim = 3 ∧
      hessvec F (fun _ _ => (3, [1])) [0] [1] [7] = .ok (0, [0]) := by
  refine ⟨⟨1, [1, 1], [1], [1], 1, [3], [[()]]⟩, fun _ => 1, fun _ => 1, ⟨by simp, ?_, ?_, ?_, rfl, rfl, by decide⟩, ?_, by decide, by decide +kernel⟩
  · intro k hk
    dsimp only at hk
    interval_cases k <;> rfl
  · intro u hu
    have : u < 1 := by simpa [uo] using hu
    interval_cases u; rfl
  · intro k hk
    dsimp only at hk
    interval_cases k; rfl
  · intro k hk j hj
    have hk' : k < 1 := hk
    have hj' : j < 1 := hj
    interval_cases k
    interval_cases j
    exact ⟨_, _, _, rfl, rfl, rfl, rfl, rfl, fun l hl => by have : l < 1 := hl; interval_cases l; rfl⟩

/-- The second derivatives of the univariate functions with respect to their own parameters are left out: for the train that consists of the single function `θ ^ 2` at `θ = 3`
(value 9, derivative 6) the second derivative is 2, and the product of the Hessian with the vector 1 is computed as 0. -/
theorem hessvec_nonlinear_counterexample :
    ∃ (F : FTP ℝ Unit), hessvec F (fun _ _ => (9, [6])) [0] [1] [7] = .ok (0, [0]) ∧ HasDerivAt (fun θ : ℝ => θ ^ 2) 6 3 ∧
      HasDerivAt (fun θ : ℝ => _root_.deriv (fun s : ℝ => s ^ 2) θ) 2 3 := by
  have hd : ∀ θ : ℝ, HasDerivAt (fun s : ℝ => s ^ 2) (2 * θ) θ := fun θ => by simpa using hasDerivAt_pow 2 θ
  refine ⟨⟨1, [1, 1], [1], [1], 1, [3], [[()]]⟩, ?_, by have := hd 3; norm_num at this; exact this, ?_⟩
  · simp [hessvec, maxRank, precompute, nest, hessRow, forR, forN_succ, forN_zero, rd, wr, evNonlin, putAt]
  · have : (fun θ : ℝ => _root_.deriv (fun s : ℝ => s ^ 2) θ) = fun θ => 2 * θ := funext fun θ => (hd θ).deriv
    rw [this]
    simpa using (hasDerivAt_id (3 : ℝ)).const_mul 2

/-! ### Instances of the hypotheses -/

example (x0 x1 : ℝ) : ∃ z o, hessvec exF (fun u x => (exF.params.getD (2 * u) 0 + x * exF.params.getD (2 * u + 1) 0, [1, x])) [x0, x1] (List.replicate 8 1) (List.replicate 8 0) = .ok (z, o) := by
  obtain ⟨z, o, h, -⟩ := hessvec_hasDerivAt_partial exF_lay (fun u x => (exF.params.getD (2 * u) 0 + x * exF.params.getD (2 * u + 1) 0, [1, x])) [x0, x1] (List.replicate 8 1) (List.replicate 8 0)
    (fun p => [1, x0, 1, x0, 1, x1, 1, x1].getD p 0) (fun p => exF.params.getD p 0) (fun _ => 1) (exF_reports x0 x1) (by simp [exF, uo, exR, Finset.sum_range_succ])
    (fun p hp => by rw [List.getElem?_replicate, if_pos (show p < 8 from hp)]) (by simp [exF])
  exact ⟨z, o, h⟩

end C3.Sl
