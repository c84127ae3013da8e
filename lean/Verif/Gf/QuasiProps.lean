/-
C146: operations on quasimatrices (rows of functions) agree with the operations on the functions.
-/
import Verif.Gf.Quasi
import Verif.Gf.Props
import Verif.Core.Buf
import Verif.Pw.JumpProps

namespace C3.Gf
open Finset

variable {K V X L : Type} [Field K]
variable {I : Impl K V X} {sem : Fc → V → X → K} {D : X → Prop} {Vd : Fc → V → Prop} {S : Fc → Prop}

/-- The quasimatrix has `n` columns and all of them are good. -/
def QM.Good (Vd : Fc → V → Prop) (S : Fc → Prop) (q : QM V) : Prop := q.funcs.length = q.n ∧ ∀ f ∈ q.funcs, Gf.Good Vd S f

/-- Value of column `j` at `t` (zero outside the columns). -/
def QM.val (sem : Fc → V → X → K) (q : QM V) (j : Nat) (t : X) : K := ((q.funcs[j]?).map (fun f => Gf.val sem f t)).getD 0

omit [Field K] in
theorem collect_ex {α : Type} {n : Nat} {g : Nat → C α} {P : Nat → α → Prop} (h : ∀ i < n, ∃ v, g i = .ok v ∧ P i v) :
    ∃ l, Ft.collect n g = .ok l ∧ l.length = n ∧ ∀ i < n, ∃ v, l[i]? = some v ∧ P i v := by
  obtain ⟨l, e, h1, h2⟩ := forN_spec (n := n) (s := ([] : List α)) (body := fun i l => do
      let v ← g i
      pure (l ++ [v]))
    (I := fun k l => l.length = k ∧ ∀ i < k, ∃ v, l[i]? = some v ∧ P i v) ⟨rfl, fun i hi => absurd hi (by omega)⟩ (by
      intro k hk l ⟨q1, q2⟩
      obtain ⟨v, e, hv⟩ := h k hk
      refine ⟨l ++ [v], by rw [e, bind_ok]; rfl, by simp [q1], ?_⟩
      intro i hi
      by_cases hik : i = k
      · exact ⟨v, by rw [hik, ← q1]; simp, hik ▸ hv⟩
      · obtain ⟨w, w1, w2⟩ := q2 i (by omega)
        exact ⟨w, by rw [List.getElem?_append_left (by omega), w1], w2⟩)
  exact ⟨l, e, h1, h2⟩

theorem QM.Good.get {q : QM V} (h : q.Good Vd S) {i : Nat} (hi : i < q.n) :
    ∃ f, q.funcs[i]? = some f ∧ Gf.Good Vd S f ∧ ∀ t, q.val sem i t = Gf.val sem f t := by
  have hl : i < q.funcs.length := by rw [h.1]; exact hi
  refine ⟨q.funcs[i], List.getElem?_eq_getElem hl, h.2 _ (List.getElem_mem hl), fun t => ?_⟩
  rw [QM.val, List.getElem?_eq_getElem hl]; rfl

theorem good_of {l : List (GF V)} {n : Nat} {P : Nat → GF V → Prop} (hl : l.length = n)
    (h : ∀ i < n, ∃ v, l[i]? = some v ∧ Gf.Good Vd S v ∧ P i v) : QM.Good Vd S ⟨n, l⟩ := by
  refine ⟨hl, fun f hf => ?_⟩
  obtain ⟨i, hi, e⟩ := List.mem_iff_getElem.1 hf
  have hi' : i < l.length := hi
  obtain ⟨v, h1, h2, _⟩ := h i (by omega)
  rw [List.getElem?_eq_getElem hi'] at h1
  rw [← e, Option.some.inj h1]; exact h2

/-- **C146**: the inner product of two quasimatrices is the sum of the inner products of their columns. -/
theorem qmInner_value (hL : LinLaws I sem D Vd S) (hM : Mixable S) {ip : (X → K) → (X → K) → K} (hI : InnerLaws I sem D Vd S ip)
    {a b : QM V} (ha : a.Good Vd S) (hb : b.Good Vd S) (hn : a.n = b.n) :
    qmInner I (some a) (some b) = .ok (∑ i ∈ range a.n, ip (a.val sem i) (b.val sem i)) := by
  unfold qmInner
  simp only []
  rw [cassert_of (by simpa using hn), bind_ok]
  obtain ⟨s, e, hs⟩ := forN_spec (n := a.n) (s := (0 : K)) (body := fun ii mag => do
      let f ← rd a.funcs ii
      let g ← rd b.funcs ii
      let v ← inner I f g
      .ok (mag + v)) (I := fun k s => s = ∑ i ∈ range k, ip (a.val sem i) (b.val sem i)) (by simp) (by
      intro k hk s hs
      obtain ⟨f, f1, f2, f3⟩ := ha.get (sem := sem) hk
      obtain ⟨g, g1, g2, g3⟩ := hb.get (sem := sem) (show k < b.n by omega)
      refine ⟨s + ip (Gf.val sem f) (Gf.val sem g), ?_, ?_⟩
      · rw [rd_of_getElem? f1, bind_ok, rd_of_getElem? g1, bind_ok, inner_ok hL hM hI f2 g2, bind_ok]
      · rw [sum_range_succ, hs, show a.val sem k = Gf.val sem f from funext f3, show b.val sem k = Gf.val sem g from funext g3])
  rw [e, hs]

/-- **C146**: NULL and quasimatrices of different widths are refused. -/
theorem qmInner_refused (a b : QM V) (x : Option (QM V)) : qmInner I none x = .error .assertFail ∧
    qmInner I x none = .error .assertFail ∧ (a.n ≠ b.n → qmInner I (some a) (some b) = .error .assertFail) := by
  refine ⟨rfl, by cases x <;> rfl, fun h => ?_⟩
  unfold qmInner
  simp only []
  rw [decide_eq_false h]; rfl

/-- **C146**: quasimatrix times vector. -/
theorem qmv_value (hL : LinLaws I sem D Vd S) (hM : Mixable S) {q : QM V} (hq : q.Good Vd S) (hn : 0 < q.n) {v : List K}
    (hv : q.n ≤ v.length) : ∃ h, qmv I q v = .ok h ∧ Gf.Good Vd S h ∧
      ∀ t, D t → Gf.val sem h t = ∑ i ∈ range q.n, v.getD i 0 * q.val sem i t := by
  have h0 : ∃ f : Nat → GF V, ∀ i < q.n, q.funcs[i]? = some (f i) ∧ Gf.Good Vd S (f i) ∧ ∀ t, q.val sem i t = Gf.val sem (f i) t := by
    obtain ⟨d, _⟩ := hq.get (sem := sem) hn
    have : ∀ i, ∃ f, i < q.n → q.funcs[i]? = some f ∧ Gf.Good Vd S f ∧ ∀ t, q.val sem i t = Gf.val sem f t := fun i => by
      by_cases hi : i < q.n
      · obtain ⟨f, hf⟩ := hq.get (sem := sem) hi
        exact ⟨f, fun _ => hf⟩
      · exact ⟨d, fun h => absurd h hi⟩
    choose f hf using this
    exact ⟨f, hf⟩
  obtain ⟨f, hf⟩ := h0
  obtain ⟨h, e, h1, h2⟩ := linComb_ok (cs := v) (c := fun i => v.getD i 0) hL hM hn (fun i hi => rd_of_getElem? (hf i hi).1)
    (fun i hi => (hf i hi).2.1) (fun i hi => rd_getD 0 (show i < v.length by omega))
  exact ⟨h, e, h1, fun t ht => by
    rw [h2 t ht]; exact sum_congr rfl fun i hi => by rw [(hf i (mem_range.1 hi)).2.2 t]⟩

/-- **C146**: quasimatrix times matrix (stored by columns): column `j` of the result is the combination with column `j`. -/
theorem qmm_value (hL : LinLaws I sem D Vd S) (hM : Mixable S) {q : QM V} (hq : q.Good Vd S) (hn : 0 < q.n) {R : List K} {b : Nat}
    (hR : R.length = q.n * b) : ∃ B, qmm I q R b = .ok B ∧ B.n = b ∧ B.Good Vd S ∧
      ∀ j < b, ∀ t, D t → B.val sem j t = ∑ i ∈ range q.n, R.getD (j * q.n + i) 0 * q.val sem i t := by
  obtain ⟨l, e, hl, h⟩ := collect_ex (n := b) (g := fun ii => linComb I q.n q.funcs (R.drop (ii * q.n)))
    (P := fun j v => Gf.Good Vd S v ∧ ∀ t, D t → Gf.val sem v t = ∑ i ∈ range q.n, R.getD (j * q.n + i) 0 * q.val sem i t) (by
      intro j hj
      have hle : j * q.n + q.n ≤ R.length := by
        have := Nat.mul_le_mul_right q.n (Nat.succ_le_of_lt hj)
        rw [Nat.succ_mul] at this
        rw [hR, Nat.mul_comm q.n b]; exact this
      obtain ⟨h, e, h1, h2⟩ := qmv_value hL hM hq hn (v := R.drop (j * q.n)) (by rw [List.length_drop]; omega)
      refine ⟨h, e, h1, fun t ht => ?_⟩
      rw [h2 t ht]
      refine sum_congr rfl fun i _ => ?_
      rw [List.getD_eq_getElem?_getD, List.getElem?_drop, ← List.getD_eq_getElem?_getD])
  refine ⟨⟨b, l⟩, by unfold qmm; rw [e, bind_ok], rfl, good_of hl h, ?_⟩
  intro j hj t ht
  obtain ⟨v, h1, _, h3⟩ := h j hj
  rw [QM.val, h1]; exact h3 t ht

/-- **C146**: quasimatrix times transposed matrix: row `j` of the matrix gives column `j` of the result. -/
theorem qmmt_value (hL : LinLaws I sem D Vd S) (hM : Mixable S) {q : QM V} (hq : q.Good Vd S) (hn : 0 < q.n) {R : List K} {b : Nat}
    (hR : R.length = q.n * b) : ∃ B, qmmt I q R b = .ok B ∧ B.n = b ∧ B.Good Vd S ∧
      ∀ j < b, ∀ t, D t → B.val sem j t = ∑ i ∈ range q.n, R.getD (i * b + j) 0 * q.val sem i t := by
  have fill := forN_fill_cm (n := q.n) (m := b) (a := List.replicate (q.n * b) (0 : K)) (body := fun ii jj Rt => do
    let v ← rd R (jj * b + ii)
    wr Rt (ii * q.n + jj) v) (fun i j => R.getD (i * b + j) 0) (by simp) (by
      intro j hj i hi Rt _
      have : i * b + j < R.length := by
        have := Nat.mul_le_mul_right b (Nat.succ_le_of_lt hi)
        rw [Nat.succ_mul] at this
        rw [hR]; omega
      rw [rd_getD 0 this, bind_ok])
  obtain ⟨B, e, h1, h2, h3⟩ := qmm_value hL hM hq hn (R := cm q.n b (fun i j => R.getD (i * b + j) 0)) (b := b) (by simp)
  refine ⟨B, by unfold qmmt; rw [fill, bind_ok, e], h1, h2, ?_⟩
  intro j hj t ht
  rw [h3 j hj t ht]
  refine sum_congr rfl fun i hi => ?_
  rw [List.getD_eq_getElem?_getD, cm_getElem? _ (mem_range.1 hi) hj]; rfl

/-- **C146**: sums of quasimatrices; NULL stands for zero. -/
theorem qmDaxpby_value (hL : LinLaws I sem D Vd S) (hM : Mixable S) {x y : QM V} (hx : x.Good Vd S) (hy : y.Good Vd S) (a b : K) :
    (x.n = y.n → ∃ z, qmDaxpby I a (some x) b (some y) = .ok (some z) ∧ z.n = x.n ∧ z.Good Vd S ∧
      ∀ j < x.n, ∀ t, D t → z.val sem j t = a * x.val sem j t + b * y.val sem j t) ∧
    (∃ z, qmDaxpby I a (some x) b none = .ok (some z) ∧ z.n = x.n ∧ z.Good Vd S ∧
      ∀ j < x.n, ∀ t, D t → z.val sem j t = a * x.val sem j t) ∧
    (∃ z, qmDaxpby I a none b (some y) = .ok (some z) ∧ z.n = y.n ∧ z.Good Vd S ∧
      ∀ j < y.n, ∀ t, D t → z.val sem j t = b * y.val sem j t) ∧
    qmDaxpby I a none b none = .ok none := by
  have one : ∀ (c : K) {w : QM V}, w.Good Vd S → ∃ fs, arrayDaxpby I w.n c 1 (some w.funcs) 0 1 none = .ok fs ∧
      QM.Good Vd S ⟨w.n, fs⟩ ∧ ∀ j < w.n, ∀ t, D t → QM.val sem ⟨w.n, fs⟩ j t = c * w.val sem j t := by
    intro c w hw
    obtain ⟨l, e, hl, h⟩ := collect_ex (n := w.n) (g := fun ii => do
        let f ← rd w.funcs (ii * 1)
        daxpby I c (some f) 0 none)
      (P := fun j v => Gf.Good Vd S v ∧ ∀ t, D t → Gf.val sem v t = c * w.val sem j t) (by
        intro j hj
        obtain ⟨f, f1, f2, f3⟩ := hw.get (sem := sem) hj
        obtain ⟨⟨h, h1, h2, _, h4⟩, _⟩ := daxpby_null hL f2 c 0
        refine ⟨h, by rw [Nat.mul_one, rd_of_getElem? f1, bind_ok, h1], h2, fun t ht => by rw [h4 t ht, f3 t]⟩)
    refine ⟨l, e, good_of hl h, fun j hj t ht => ?_⟩
    obtain ⟨v, h1, _, h3⟩ := h j hj
    rw [QM.val, h1]; exact h3 t ht
  refine ⟨fun hn => ?_, ?_, ?_, rfl⟩
  · obtain ⟨l, e, hl, h⟩ := collect_ex (n := x.n) (g := fun ii => do
        let f ← rd x.funcs (ii * 1)
        let g ← rd y.funcs (ii * 1)
        daxpby I a (some f) b (some g))
      (P := fun j v => Gf.Good Vd S v ∧ ∀ t, D t → Gf.val sem v t = a * x.val sem j t + b * y.val sem j t) (by
        intro j hj
        obtain ⟨f, f1, f2, f3⟩ := hx.get (sem := sem) hj
        obtain ⟨g, g1, g2, g3⟩ := hy.get (sem := sem) (show j < y.n by omega)
        obtain ⟨h, h1, h2, _, h4⟩ := daxpby_ok hL hM f2 g2 a b
        refine ⟨h, by rw [Nat.mul_one, rd_of_getElem? f1, bind_ok, rd_of_getElem? g1, bind_ok, h1], h2, fun t ht => by
          rw [h4 t ht, f3 t, g3 t]⟩)
    refine ⟨⟨x.n, l⟩, by unfold qmDaxpby; simp only [arrayDaxpby]; rw [e, bind_ok], rfl, good_of hl h, fun j hj t ht => ?_⟩
    obtain ⟨v, h1, _, h3⟩ := h j hj
    rw [QM.val, h1]; exact h3 t ht
  · obtain ⟨fs, e, h1, h2⟩ := one a hx
    exact ⟨⟨x.n, fs⟩, by unfold qmDaxpby; simp only []; rw [e, bind_ok], rfl, h1, h2⟩
  · obtain ⟨fs, e, h1, h2⟩ := one b hy
    exact ⟨⟨y.n, fs⟩, by unfold qmDaxpby; simp only []; rw [e, bind_ok], rfl, h1, h2⟩

omit [Field K] in
/-- **C146**: the largest absolute value over the columns: it is the one of the returned column, none is larger, and every earlier column
has a smaller one. -/
theorem qmAbsmax_value [LinearOrder K] {am : GF V → C (L × K)} {q : QM V} (hn : 0 < q.n) (hl : q.funcs.length = q.n) {m : Nat → L × K}
    (ham : ∀ i, ∀ hi : i < q.funcs.length, am q.funcs[i] = .ok (m i)) :
    ∃ col < q.n, qmAbsmax am q = .ok (col, m col) ∧ (∀ i < q.n, (m i).2 ≤ (m col).2) ∧ ∀ i < col, (m i).2 < (m col).2 := by
  unfold qmAbsmax
  rw [rd_of_getElem? (List.getElem?_eq_getElem (show 0 < q.funcs.length by omega)), bind_ok, ham 0 (by omega), bind_ok, forR]
  obtain ⟨s, e, col, h1, h2, h3, h4⟩ := forN_spec (n := q.n - 1) (s := (0, m 0)) (body := fun i (s : Nat × L × K) => do
      let f ← rd q.funcs (1 + i)
      let t ← am f
      .ok (if s.2.2 < t.2 then (1 + i, t) else s))
    (I := fun k s => ∃ col, col ≤ k ∧ s = (col, m col) ∧ (∀ i ≤ k, (m i).2 ≤ (m col).2) ∧ ∀ i < col, (m i).2 < (m col).2)
    ⟨0, le_refl _, rfl, fun i hi => by rw [Nat.le_zero.1 hi], fun i hi => absurd hi (by omega)⟩ (by
      intro k hk s ⟨col, q1, q2, q3, q4⟩
      have hk' : 1 + k < q.funcs.length := by omega
      refine ⟨if s.2.2 < (m (1 + k)).2 then (1 + k, m (1 + k)) else s, ?_, ?_⟩
      · rw [rd_of_getElem? (List.getElem?_eq_getElem hk'), bind_ok, ham _ hk', bind_ok]
      · rw [q2]
        simp only []
        by_cases hc : (m col).2 < (m (1 + k)).2
        · rw [if_pos hc]
          refine ⟨1 + k, by omega, rfl, fun i hi => ?_, fun i hi => ?_⟩
          · by_cases hik : i = 1 + k
            · rw [hik]
            · exact (lt_of_le_of_lt (q3 i (by omega)) hc).le
          · exact lt_of_le_of_lt (q3 i (by omega)) hc
        · rw [if_neg hc]
          refine ⟨col, by omega, rfl, fun i hi => ?_, q4⟩
          by_cases hik : i = 1 + k
          · rw [hik]; exact not_lt.1 hc
          · exact q3 i (by omega))
  exact ⟨col, by omega, by rw [e, h2], fun i hi => h3 i (by omega), h4⟩

/-- **C146**: sums of arrays of functions with strides; a NULL array stands for zeros, two NULL arrays are a NULL access. -/
theorem arrayDaxpby_value (hL : LinLaws I sem D Vd S) (hM : Mixable S) {n ldx ldy : Nat} {x y : List (GF V)} {f g : Nat → GF V}
    (hx : ∀ i < n, x[i * ldx]? = some (f i) ∧ Gf.Good Vd S (f i)) (hy : ∀ i < n, y[i * ldy]? = some (g i) ∧ Gf.Good Vd S (g i))
    (a b : K) :
    (∃ z, arrayDaxpby I n a ldx (some x) b ldy (some y) = .ok z ∧ z.length = n ∧ ∀ i < n, ∃ h, z[i]? = some h ∧ Gf.Good Vd S h ∧
      ∀ t, D t → Gf.val sem h t = a * Gf.val sem (f i) t + b * Gf.val sem (g i) t) ∧
    (∃ z, arrayDaxpby I n a ldx (some x) b ldy none = .ok z ∧ z.length = n ∧ ∀ i < n, ∃ h, z[i]? = some h ∧ Gf.Good Vd S h ∧
      ∀ t, D t → Gf.val sem h t = a * Gf.val sem (f i) t) ∧
    (∃ z, arrayDaxpby I n a ldx none b ldy (some y) = .ok z ∧ z.length = n ∧ ∀ i < n, ∃ h, z[i]? = some h ∧ Gf.Good Vd S h ∧
      ∀ t, D t → Gf.val sem h t = b * Gf.val sem (g i) t) ∧
    (0 < n → arrayDaxpby I n a ldx none b ldy none = .error .null) := by
  refine ⟨collect_ex fun i hi => ?_, collect_ex fun i hi => ?_, collect_ex fun i hi => ?_, fun hn => ?_⟩
  · obtain ⟨h, h1, h2, _, h4⟩ := daxpby_ok hL hM (hx i hi).2 (hy i hi).2 a b
    exact ⟨h, by rw [rd_of_getElem? (hx i hi).1, bind_ok, rd_of_getElem? (hy i hi).1, bind_ok, h1], h2, h4⟩
  · obtain ⟨⟨h, h1, h2, _, h4⟩, _⟩ := daxpby_null hL (hx i hi).2 a 0
    exact ⟨h, by rw [rd_of_getElem? (hx i hi).1, bind_ok, h1], h2, h4⟩
  · obtain ⟨⟨h, h1, h2, _, h4⟩, _⟩ := daxpby_null hL (hy i hi).2 b 0
    exact ⟨h, by rw [rd_of_getElem? (hy i hi).1, bind_ok, h1], h2, h4⟩
  · unfold arrayDaxpby
    simp only []
    rw [if_neg (by omega)]

/-- **C146** finding: the widths are not compared in a sum: a second quasimatrix with fewer columns is read beyond its end. -/
theorem qmDaxpby_width_counterexample (hL : LinLaws I sem D Vd S) (hM : Mixable S) {x y : QM V} (hx : x.Good Vd S) (hy : y.Good Vd S)
    (a b : K) (hn : y.n < x.n) : qmDaxpby I a (some x) b (some y) = .error .oob := by
  have key : Ft.collect x.n (fun ii => do
      let f ← rd x.funcs (ii * 1)
      let g ← rd y.funcs (ii * 1)
      daxpby I a (some f) b (some g)) = .error .oob := by
    unfold Ft.collect
    refine (Jmp.forN_error (c := y.n) (fun i hi l => .inl ?_) (fun l => ?_) _ _).1 hn
    · obtain ⟨f, f1, f2, _⟩ := hx.get (sem := sem) (show i < x.n by omega)
      obtain ⟨g, g1, g2, _⟩ := hy.get (sem := sem) hi
      obtain ⟨h, h1, _⟩ := daxpby_ok hL hM f2 g2 a b
      exact ⟨l ++ [h], by beta_reduce; rw [Nat.mul_one, rd_of_getElem? f1, bind_ok, rd_of_getElem? g1, bind_ok, h1, bind_ok]; rfl⟩
    · obtain ⟨f, f1, _⟩ := hx.get (sem := sem) hn
      beta_reduce
      rw [Nat.mul_one, rd_of_getElem? f1, bind_ok, rd, List.getElem?_eq_none (by rw [hy.1])]; rfl
  unfold qmDaxpby
  simp only [arrayDaxpby]
  rw [key]; rfl

omit [Field K] in
/-- **C146** finding: the largest absolute value of a quasimatrix without columns reads a column that is not there. -/
theorem qmAbsmax_empty_counterexample [LinearOrder K] (am : GF V → C (L × K)) : qmAbsmax am (⟨0, []⟩ : QM V) = .error .oob := rfl

theorem exQGood : QM.Good (fun _ _ => True) exS ⟨2, [exP, exW]⟩ := by
  refine ⟨rfl, fun f hf => ?_⟩
  simp only [List.mem_cons, List.not_mem_nil, or_false] at hf
  rcases hf with rfl | rfl
  exacts [exPGood, exWGood]

example : ∃ B, qmm exImpl ⟨2, [exP, exW]⟩ [1, 2, 3, 4, 5, 6] 3 = .ok B ∧ B.n = 3 := by
  obtain ⟨B, h1, h2, _⟩ := qmm_value exLin exMix (q := ⟨2, [exP, exW]⟩) exQGood (by norm_num) (R := [1, 2, 3, 4, 5, 6]) (b := 3) rfl
  exact ⟨B, h1, h2⟩

example : qmInner exImpl (some ⟨2, [exP, exW]⟩) (some ⟨2, [exW, exW]⟩) = .ok 10 := by
  rw [qmInner_value exLin exMix exInner exQGood (b := ⟨2, [exW, exW]⟩) ⟨rfl, by simp [exWGood]⟩ rfl]
  norm_num [QM.val, val, exP, exW, sum_range_succ]

example : ∃ B, qmmt exImpl ⟨2, [exP, exW]⟩ [1, 2, 3, 4, 5, 6] 3 = .ok B ∧ B.val (fun _ v => v) 1 7 = 2 * 7 + 5 * 2 := by
  obtain ⟨B, h1, _, _, h4⟩ := qmmt_value exLin exMix (q := ⟨2, [exP, exW]⟩) exQGood (by norm_num) (R := [1, 2, 3, 4, 5, 6]) (b := 3) rfl
  refine ⟨B, h1, ?_⟩
  rw [h4 1 (by norm_num) 7 trivial]
  norm_num [QM.val, val, exP, exW, sum_range_succ]

example : ∃ h, qmv exImpl ⟨2, [exP, exW]⟩ [3, 4] = .ok h ∧ val (fun _ v => v) h 7 = 29 := by
  obtain ⟨h, h1, _, h3⟩ := qmv_value exLin exMix (q := ⟨2, [exP, exW]⟩) exQGood (by norm_num) (v := [3, 4]) (by simp)
  refine ⟨h, h1, ?_⟩
  rw [h3 7 trivial]
  norm_num [QM.val, val, exP, exW, sum_range_succ]

example : ∃ z, qmDaxpby exImpl 3 (some ⟨2, [exP, exW]⟩) 5 (some ⟨2, [exP, exW]⟩) = .ok (some z) ∧ z.val (fun _ v => v) 0 7 = 56 := by
  obtain ⟨z, h1, _, _, h4⟩ := (qmDaxpby_value exLin exMix exQGood exQGood 3 5).1 rfl
  refine ⟨z, h1, ?_⟩
  rw [h4 0 (by norm_num) 7 trivial]
  norm_num [QM.val, val, exP]

example : ∃ z, arrayDaxpby exImpl 2 3 2 (some [exP, exW, exP]) 5 1 (some [exW, exW]) = .ok z ∧ z.length = 2 := by
  obtain ⟨⟨z, h1, h2, _⟩, _⟩ := arrayDaxpby_value exLin exMix (n := 2) (ldx := 2) (ldy := 1) (x := [exP, exW, exP]) (y := [exW, exW])
    (f := fun _ => exP) (g := fun _ => exW) (by intro i hi; interval_cases i <;> exact ⟨rfl, exPGood⟩)
    (by intro i hi; interval_cases i <;> exact ⟨rfl, exWGood⟩) 3 5
  exact ⟨z, h1, h2⟩

example : qmDaxpby exImpl 3 (some ⟨2, [exP, exW]⟩) 5 (some ⟨1, [exP]⟩) = .error .oob :=
  qmDaxpby_width_counterexample exLin exMix exQGood (y := ⟨1, [exP]⟩) ⟨rfl, by simp [exPGood]⟩ 3 5 (by norm_num)

example : ∃ col < 2, qmAbsmax (fun f => .ok ((), (val (fun _ v => v) f 1 : ℚ))) ⟨2, [exP, exW]⟩ = .ok (col, (), (col + 1 : ℚ)) := by
  obtain ⟨c, h1, h2, _⟩ := qmAbsmax_value (am := fun f => .ok ((), (val (fun _ v => v) f 1 : ℚ))) (q := ⟨2, [exP, exW]⟩) (by norm_num) rfl
    (m := fun i => ((), (i + 1 : ℚ))) (by
      intro i hi
      have : i < 2 := hi
      interval_cases i <;> norm_num [val, exP, exW])
  exact ⟨c, h1, h2⟩

end C3.Gf
