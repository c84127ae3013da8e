/-
C148: rows, columns and norms of quasimatrix arrays.
-/
import Verif.Gf.Qma
import Verif.Gf.QuasiProps
import Verif.Cross.AdaptProps

namespace C3.Gf
open Finset C3.Ft

variable {K V X : Type} [Field K]
variable {I : Impl K V X} {sem : Fc → V → X → K} {D : X → Prop} {Vd : Fc → V → Prop} {S : Fc → Prop}

/-- Every entry is there and good. -/
def QmaGood (Vd : Fc → V → Prop) (S : Fc → Prop) (a : Qma (GF V)) : Prop :=
  a.funcs.length = a.nrows * a.ncols ∧ ∀ f ∈ a.funcs, Gf.Good Vd S f

/-- Entry `(i,j)` of an array, nothing outside. -/
def entry (a : Qma (GF V)) (i j : Nat) : Option (GF V) := if i < a.nrows ∧ j < a.ncols then a.funcs[j * a.nrows + i]? else none

omit [Field K] in
theorem entry_get {a : Qma (GF V)} (h : QmaGood Vd S a) {i j : Nat} (hi : i < a.nrows) (hj : j < a.ncols) :
    ∃ f, a.funcs[j * a.nrows + i]? = some f ∧ entry a i j = some f ∧ Gf.Good Vd S f := by
  have hl : j * a.nrows + i < a.funcs.length := by rw [h.1]; exact cm_idx_lt hi hj
  exact ⟨_, List.getElem?_eq_getElem hl, by rw [entry, if_pos ⟨hi, hj⟩, List.getElem?_eq_getElem hl], h.2 _ (List.getElem_mem hl)⟩

/-- **C148** Access to an entry, refused outside. -/
theorem qmaGet_value {a : Qma (GF V)} (h : QmaGood Vd S a) (i j : Nat) :
    qmaGet a i j = match entry a i j with | some f => .ok f | none => .error .assertFail := by
  unfold qmaGet
  by_cases hi : i < a.nrows
  · by_cases hj : j < a.ncols
    · obtain ⟨f, h1, h2, _⟩ := entry_get h hi hj
      rw [cassert_of (by simpa using hi), bind_ok, cassert_of (by simpa using hj), bind_ok, rd_of_getElem? h1, h2]
    · rw [cassert_of (by simpa using hi), bind_ok, decide_eq_false hj, entry, if_neg (fun h => hj h.2)]; rfl
  · rw [decide_eq_false hi, entry, if_neg (fun h => hi h.1)]; rfl

theorem idx_inj {n i j i' j' : Nat} (hi : i < n) (hi' : i' < n) (h : j * n + i = j' * n + i') : i = i' ∧ j = j' := by
  have h1 := congrArg (· % n) h
  have h2 := congrArg (· / n) h
  simp only [cm_mod hi, cm_mod hi', cm_div hi, cm_div hi'] at h1 h2
  exact ⟨h1, h2⟩

/-- Setting the entries `(r k, c k)`, one after the other. -/
theorem setLoop {a : Qma (GF V)} (ha : QmaGood Vd S a) {n : Nat} {r c : Nat → Nat} {g : Nat → GF V} {src : Nat → C (GF V)}
    (hr : ∀ k < n, r k < a.nrows) (hc : ∀ k < n, c k < a.ncols) (hinj : ∀ k < n, ∀ l < n, r k = r l → c k = c l → k = l)
    (hs : ∀ k < n, src k = .ok (g k)) (hg : ∀ k < n, Gf.Good Vd S (g k)) :
    ∃ fs, forN n (fun ii fs => do
        let _ ← rd fs (c ii * a.nrows + r ii)
        let f ← src ii
        let f ← copy f
        wr fs (c ii * a.nrows + r ii) f) a.funcs = .ok fs ∧ QmaGood Vd S { a with funcs := fs } ∧
      (∀ k < n, entry { a with funcs := fs } (r k) (c k) = some (g k)) ∧
      ∀ i j, (∀ k < n, ¬ (i = r k ∧ j = c k)) → entry { a with funcs := fs } i j = entry a i j := by
  obtain ⟨fs, e, h1, h2, h3⟩ := forN_spec (n := n) (s := a.funcs) (body := fun ii fs => do
        let _ ← rd fs (c ii * a.nrows + r ii)
        let f ← src ii
        let f ← copy f
        wr fs (c ii * a.nrows + r ii) f)
    (I := fun m fs => QmaGood Vd S { a with funcs := fs } ∧
      (∀ k < n, k < m → entry { a with funcs := fs } (r k) (c k) = some (g k)) ∧
      ∀ i j, (∀ k < n, k < m → ¬ (i = r k ∧ j = c k)) → entry { a with funcs := fs } i j = entry a i j)
    ⟨ha, fun k _ hk => absurd hk (by omega), fun i j _ => rfl⟩ (by
      intro m hm fs ⟨q1, q2, q3⟩
      obtain ⟨f, f1, _, _⟩ := entry_get q1 (hr m hm) (hc m hm)
      have hlt : c m * a.nrows + r m < fs.length := by
        have := q1.1
        dsimp only at this
        rw [this]; exact cm_idx_lt (hr m hm) (hc m hm)
      have hset : ∀ i j, entry { a with funcs := fs.set (c m * a.nrows + r m) (g m) } i j =
          if i = r m ∧ j = c m then some (g m) else entry { a with funcs := fs } i j := by
        intro i j
        by_cases hij : i = r m ∧ j = c m
        · rw [if_pos hij, hij.1, hij.2, entry, if_pos ⟨hr m hm, hc m hm⟩]
          exact List.getElem?_set_self hlt
        · rw [if_neg hij, entry, entry]
          dsimp only
          by_cases hb : i < a.nrows ∧ j < a.ncols
          · rw [if_pos hb, if_pos hb, List.getElem?_set_ne]
            intro he
            obtain ⟨x, y⟩ := idx_inj (hr m hm) hb.1 he
            exact hij ⟨x.symm, y.symm⟩
          · rw [if_neg hb, if_neg hb]
      refine ⟨fs.set (c m * a.nrows + r m) (g m), ?_, ⟨?_, ?_⟩, ?_, ?_⟩
      · rw [rd_of_getElem? f1, bind_ok, hs m hm, bind_ok, copy_ok (hg m hm), bind_ok, wr_ok _ hlt]
      · rw [List.length_set]; exact q1.1
      · intro x hx
        rcases List.mem_or_eq_of_mem_set hx with hx | rfl
        · exact q1.2 x hx
        · exact hg m hm
      · intro k hk hkm
        rw [hset]
        by_cases he : r k = r m ∧ c k = c m
        · rw [if_pos he, hinj k hk m hm he.1 he.2]
        · rw [if_neg he]
          refine q2 k hk ?_
          rcases Nat.lt_or_ge k m with h | h
          · exact h
          · have : k = m := by omega
            exact absurd (this ▸ ⟨rfl, rfl⟩) he
      · intro i j hk
        rw [hset, if_neg (hk m hm (by omega))]
        exact q3 i j fun k h1 h2 => hk k h1 (by omega))
  exact ⟨fs, e, h1, fun k hk => h2 k hk hk, fun i j h => h3 i j fun k hk _ => h k hk⟩

/-- **C148** Setting a row: the row becomes the quasimatrix, every other entry stays. -/
theorem setRow_value {a : Qma (GF V)} (ha : QmaGood Vd S a) {q : QM V} (hq : q.Good Vd S) {row : Nat} (hr : row < a.nrows) (hn : a.ncols ≤ q.n) :
    ∃ a', setRow a row q = .ok a' ∧ a'.nrows = a.nrows ∧ a'.ncols = a.ncols ∧ QmaGood Vd S a' ∧
      (∀ j < a.ncols, entry a' row j = q.funcs[j]?) ∧ ∀ i j, i ≠ row → entry a' i j = entry a i j := by
  have hlen := hq.1
  have hlt : ∀ k, k < a.ncols → k < q.funcs.length := fun k hk => by omega
  rcases Nat.eq_zero_or_pos a.ncols with h0 | h0
  · refine ⟨{ a with funcs := a.funcs }, by rw [setRow, h0, forN_zero, bind_ok, ← h0], rfl, rfl, ha, fun j hj => absurd hj (by omega), fun _ _ _ => rfl⟩
  let d := q.funcs[0]'(hlt 0 h0)
  obtain ⟨fs, e, h1, h2, h3⟩ := setLoop ha (n := a.ncols) (r := fun _ => row) (c := fun k => k) (g := fun k => q.funcs.getD k d)
    (src := fun k => qmGet q k) (fun _ _ => hr) (fun _ h => h) (fun k _ l _ _ h => h)
    (fun k hk => by rw [qmGet, cassert_of (by simp; omega), bind_ok, rd_getD d (hlt k hk)])
    (fun k hk => by rw [List.getD_eq_getElem?_getD, List.getElem?_eq_getElem (hlt k hk)]; exact hq.2 _ (List.getElem_mem _))
  refine ⟨{ a with funcs := fs }, by rw [setRow, e, bind_ok], rfl, rfl, h1, fun j hj => ?_, fun i j hi => h3 i j fun k _ h => hi h.1⟩
  rw [h2 j hj, List.getD_eq_getElem?_getD, List.getElem?_eq_getElem (hlt j hj)]; rfl

/-- **C148** Setting a column. -/
theorem setCol_value {a : Qma (GF V)} (ha : QmaGood Vd S a) {q : QM V} (hq : q.Good Vd S) {col : Nat} (hc : col < a.ncols) (hn : a.nrows ≤ q.n) :
    ∃ a', setCol a col q = .ok a' ∧ a'.nrows = a.nrows ∧ a'.ncols = a.ncols ∧ QmaGood Vd S a' ∧
      (∀ i < a.nrows, entry a' i col = q.funcs[i]?) ∧ ∀ i j, j ≠ col → entry a' i j = entry a i j := by
  have hlen := hq.1
  have hlt : ∀ k, k < a.nrows → k < q.funcs.length := fun k hk => by omega
  rcases Nat.eq_zero_or_pos a.nrows with h0 | h0
  · refine ⟨{ a with funcs := a.funcs }, by rw [setCol, h0, forN_zero, bind_ok, ← h0], rfl, rfl, ha, fun j hj => absurd hj (by omega), fun _ _ _ => rfl⟩
  let d := q.funcs[0]'(hlt 0 h0)
  obtain ⟨fs, e, h1, h2, h3⟩ := setLoop ha (n := a.nrows) (r := fun k => k) (c := fun _ => col) (g := fun k => q.funcs.getD k d)
    (src := fun k => qmGet q k) (fun _ h => h) (fun _ _ => hc) (fun k _ l _ h _ => h)
    (fun k hk => by rw [qmGet, cassert_of (by simp; omega), bind_ok, rd_getD d (hlt k hk)])
    (fun k hk => by rw [List.getD_eq_getElem?_getD, List.getElem?_eq_getElem (hlt k hk)]; exact hq.2 _ (List.getElem_mem _))
  refine ⟨{ a with funcs := fs }, by rw [setCol, e, bind_ok], rfl, rfl, h1, fun j hj => ?_, fun i j hi => h3 i j fun k _ h => hi h.2⟩
  rw [h2 j hj, List.getD_eq_getElem?_getD, List.getElem?_eq_getElem (hlt j hj)]; rfl

/-- **C148** Setting a column from an array of functions is the same as from a quasimatrix. -/
theorem setColGf_value (a : Qma (GF V)) (col : Nat) (q : QM V) (hn : a.nrows ≤ q.n) : setColGf a col q.funcs = setCol a col q := by
  unfold setColGf setCol
  have : ∀ n ≤ a.nrows, forN n (fun ii fs => do
        let _ ← rd fs (col * a.nrows + ii)
        let f ← rd q.funcs ii
        let f ← copy f
        wr fs (col * a.nrows + ii) f) a.funcs = forN n (fun ii fs => do
        let _ ← rd fs (col * a.nrows + ii)
        let f ← qmGet q ii
        let f ← copy f
        wr fs (col * a.nrows + ii) f) a.funcs := by
    intro n
    induction n with
    | zero => intro _; rfl
    | succ n ih =>
      intro hm
      rw [forN_succ, forN_succ, ih (by omega)]
      have : qmGet q n = rd q.funcs n := by rw [qmGet, cassert_of (by simp; omega), bind_ok]
      rw [this]
  rw [this _ (le_refl _)]

theorem forN_each {σ : Type} {n : Nat} {body : Nat → σ → C σ} {s s' : σ} (h : forN n body s = .ok s') : ∀ i < n, ∃ t t', body i t = .ok t' := by
  induction n generalizing s' with
  | zero => intro i hi; omega
  | succ n ih =>
    rw [forN_succ] at h
    obtain ⟨a, h1, h2⟩ := Adp.bind_inv h
    intro i hi
    rcases Nat.lt_or_ge i n with hl | hg
    · exact ih h1 i hl
    · have : i = n := by omega
      exact this ▸ ⟨a, s', h2⟩

/-- **C148** A quasimatrix with too few functions is never accepted as a row or column. -/
theorem set_short (a : Qma (GF V)) (k : Nat) (q : QM V) : (q.n < a.ncols → ∀ r, setRow a k q ≠ .ok r) ∧ (q.n < a.nrows → ∀ r, setCol a k q ≠ .ok r) := by
  have key : ∀ y, qmGet q q.n ≠ .ok y := fun y h => by
    rw [qmGet, decide_eq_false (Nat.lt_irrefl _)] at h
    exact absurd h (by simp [cassert])
  constructor
  · intro hn r h
    obtain ⟨fs, h, _⟩ := Adp.bind_inv h
    obtain ⟨t, t', h⟩ := forN_each h q.n hn
    obtain ⟨_, _, h⟩ := Adp.bind_inv h
    obtain ⟨y, h, _⟩ := Adp.bind_inv h
    exact key y h
  · intro hn r h
    obtain ⟨fs, h, _⟩ := Adp.bind_inv h
    obtain ⟨t, t', h⟩ := forN_each h q.n hn
    obtain ⟨_, _, h⟩ := Adp.bind_inv h
    obtain ⟨y, h, _⟩ := Adp.bind_inv h
    exact key y h

/-- **C148** Extracting a row and a column. -/
theorem extract_value {a : Qma (GF V)} (ha : QmaGood Vd S a) :
    (∀ row < a.nrows, ∃ q, extractRow a row = .ok q ∧ q.n = a.ncols ∧ q.Good Vd S ∧ ∀ j < a.ncols, q.funcs[j]? = entry a row j) ∧
    ∀ col < a.ncols, ∃ q, extractCol a col = .ok q ∧ q.n = a.nrows ∧ q.Good Vd S ∧ ∀ i < a.nrows, q.funcs[i]? = entry a i col := by
  constructor
  · intro row hr
    obtain ⟨l, e, hl, h⟩ := collect_ex (n := a.ncols) (g := fun ii => do
        let f ← rd a.funcs (ii * a.nrows + row)
        copy f) (P := fun j f => Gf.Good Vd S f ∧ entry a row j = some f) (by
      intro j hj
      obtain ⟨f, f1, f2, f3⟩ := entry_get ha hr hj
      exact ⟨f, by rw [rd_of_getElem? f1, bind_ok, copy_ok f3], f3, f2⟩)
    refine ⟨⟨a.ncols, l⟩, by rw [extractRow, e, bind_ok], rfl, good_of hl h, fun j hj => ?_⟩
    obtain ⟨v, h1, _, h3⟩ := h j hj
    rw [h3]; exact h1
  · intro col hc
    obtain ⟨l, e, hl, h⟩ := collect_ex (n := a.nrows) (g := fun ii => do
        let f ← rd a.funcs (col * a.nrows + ii)
        copy f) (P := fun i f => Gf.Good Vd S f ∧ entry a i col = some f) (by
      intro i hi
      obtain ⟨f, f1, f2, f3⟩ := entry_get ha hi hc
      exact ⟨f, by rw [rd_of_getElem? f1, bind_ok, copy_ok f3], f3, f2⟩)
    refine ⟨⟨a.nrows, l⟩, by rw [extractCol, e, bind_ok], rfl, good_of hl h, fun j hj => ?_⟩
    obtain ⟨v, h1, _, h3⟩ := h j hj
    rw [h3]; exact h1

theorem qm_ext {p q : QM V} (hp : p.Good Vd S) (hq : q.Good Vd S) (hn : p.n = q.n) (h : ∀ i < p.n, p.funcs[i]? = q.funcs[i]?) : p = q := by
  obtain ⟨n, l⟩ := p
  obtain ⟨m, l'⟩ := q
  obtain ⟨h1, _⟩ := hp
  obtain ⟨h2, _⟩ := hq
  dsimp only at h1 h2 hn h
  subst hn
  congr 1
  apply List.ext_getElem?
  intro i
  by_cases hi : i < n
  · exact h i hi
  · rw [List.getElem?_eq_none (by omega), List.getElem?_eq_none (by omega)]

/-- **C148** What was set is what is extracted. -/
theorem roundtrip {a : Qma (GF V)} (ha : QmaGood Vd S a) {q : QM V} (hq : q.Good Vd S) :
    (∀ row < a.nrows, q.n = a.ncols → ∃ a', setRow a row q = .ok a' ∧ extractRow a' row = .ok q) ∧
    ∀ col < a.ncols, q.n = a.nrows → ∃ a', setCol a col q = .ok a' ∧ extractCol a' col = .ok q := by
  constructor
  · intro row hr hn
    obtain ⟨a', e, h1, h2, h3, h4, _⟩ := setRow_value ha hq hr (by omega)
    obtain ⟨p, e', g1, g2, g3⟩ := (extract_value h3).1 row (by omega)
    refine ⟨a', e, ?_⟩
    rw [e', qm_ext g2 hq (by omega) fun i hi => ?_]
    rw [g3 i (by omega), h4 i (by omega)]
  · intro col hc hn
    obtain ⟨a', e, h1, h2, h3, h4, _⟩ := setCol_value ha hq hc (by omega)
    obtain ⟨p, e', g1, g2, g3⟩ := (extract_value h3).2 col (by omega)
    refine ⟨a', e, ?_⟩
    rw [e', qm_ext g2 hq (by omega) fun i hi => ?_]
    rw [g3 i (by omega), h4 i (by omega)]

/-- **C148** finding: a column number outside of the array is not refused but read beyond the end. -/
theorem extractCol_range_counterexample {a : Qma (GF V)} (ha : QmaGood Vd S a) {col : Nat} (hc : a.ncols ≤ col) (hn : 0 < a.nrows) :
    extractCol a col = .error .oob := by
  have hle : a.funcs.length ≤ col * a.nrows := by
    rw [ha.1, Nat.mul_comm]; exact Nat.mul_le_mul_right _ hc
  unfold extractCol Ft.collect
  rw [(Jmp.forN_error (E := .oob) (c := 0) (fun i hi => absurd hi (by omega)) (fun l => ?_) a.nrows []).1 hn]
  · rfl
  · beta_reduce
    rw [rd, List.getElem?_eq_none (by omega)]; rfl

section Norm
variable [LinearOrder K]

theorem sumLoop (hL : LinLaws I sem D Vd S) (hM : Mixable S) {ip : (X → K) → (X → K) → K} (hI : InnerLaws I sem D Vd S ip) {n : Nat}
    {fs : List (GF V)} {u : Nat → X → K} (h : ∀ i < n, ∃ f, fs[i]? = some f ∧ Gf.Good Vd S f ∧ ∀ t, D t → Gf.val sem f t = u i t) :
    forN n (fun ii out => do
      let f ← rd fs ii
      let v ← inner I f f
      .ok (out + v)) 0 = .ok (∑ i ∈ range n, ip (u i) (u i)) := by
  obtain ⟨s, e, hs⟩ := forN_spec (n := n) (s := (0 : K)) (body := fun ii out => do
      let f ← rd fs ii
      let v ← inner I f f
      .ok (out + v)) (I := fun k s => s = ∑ i ∈ range k, ip (u i) (u i)) (by simp) (by
      intro k hk s hs
      obtain ⟨f, f1, f2, f3⟩ := h k hk
      refine ⟨s + ip (u k) (u k), ?_, by rw [sum_range_succ, hs]⟩
      rw [rd_of_getElem? f1, bind_ok, inner_ok hL hM hI f2 f2, bind_ok, hI.congr _ _ _ _ f3 f3])
  rw [e, hs]

/-- **C148** The norm is the root of the sum of the inner products of the entries with themselves. -/
theorem qmaNorm2_value [IsStrictOrderedRing K] (hL : LinLaws I sem D Vd S) (hM : Mixable S) {ip : (X → K) → (X → K) → K}
    (hI : InnerLaws I sem D Vd S ip) (hp : ∀ u, 0 ≤ ip u u) (sq : K → K) {a : Qma (GF V)} (ha : QmaGood Vd S a) {u : Nat → X → K}
    (hu : ∀ i < a.ncols * a.nrows, ∃ f, a.funcs[i]? = some f ∧ ∀ t, D t → Gf.val sem f t = u i t) :
    qmaNorm2 I sq a = .ok (sq (∑ i ∈ range (a.ncols * a.nrows), ip (u i) (u i))) := by
  unfold qmaNorm2
  rw [sumLoop hL hM hI (u := u) (fun i hi => by
    obtain ⟨f, h1, h2⟩ := hu i hi
    exact ⟨f, h1, ha.2 f (List.mem_of_getElem? h1), h2⟩), bind_ok]
  have h0 : 0 ≤ ∑ i ∈ range (a.ncols * a.nrows), ip (u i) (u i) := sum_nonneg fun i _ => hp _
  rw [if_neg (not_lt.2 h0), abs_of_nonneg h0]

/-- **C148** The distance is the root of the sum over the entries of the inner product of the difference with itself. -/
theorem qmaNorm2diff_value [IsStrictOrderedRing K] (hL : LinLaws I sem D Vd S) (hM : Mixable S) {ip : (X → K) → (X → K) → K}
    (hI : InnerLaws I sem D Vd S ip) (hp : ∀ u, 0 ≤ ip u u) (sq : K → K) {a b : Qma (GF V)} (ha : QmaGood Vd S a) (hb : QmaGood Vd S b)
    {u v : Nat → X → K} (hu : ∀ i < a.ncols * a.nrows, ∃ f, a.funcs[i]? = some f ∧ ∀ t, D t → Gf.val sem f t = u i t)
    (hv : ∀ i < a.ncols * a.nrows, ∃ f, b.funcs[i]? = some f ∧ ∀ t, D t → Gf.val sem f t = v i t) :
    qmaNorm2diff I sq a b = .ok (sq (∑ i ∈ range (a.ncols * a.nrows), ip (fun t => u i t - v i t) (fun t => u i t - v i t))) := by
  unfold qmaNorm2diff
  obtain ⟨l, e, hl, h⟩ := collect_ex (n := a.ncols * a.nrows) (g := fun ii => do
      let f ← rd a.funcs (ii * 1)
      let g ← rd b.funcs (ii * 1)
      daxpby I 1 (some f) (-1) (some g))
    (P := fun i f => Gf.Good Vd S f ∧ ∀ t, D t → Gf.val sem f t = u i t - v i t) (by
      intro i hi
      obtain ⟨f, f1, f2⟩ := hu i hi
      obtain ⟨g, g1, g2⟩ := hv i hi
      obtain ⟨h, h1, h2, _, h4⟩ := daxpby_ok hL hM (ha.2 f (List.mem_of_getElem? f1)) (hb.2 g (List.mem_of_getElem? g1)) 1 (-1)
      refine ⟨h, by rw [Nat.mul_one, rd_of_getElem? f1, bind_ok, rd_of_getElem? g1, bind_ok, h1], h2, fun t ht => ?_⟩
      rw [h4 t ht, f2 t ht, g2 t ht]; ring)
  simp only [arrayDaxpby]
  rw [e, bind_ok, sumLoop hL hM hI (u := fun i t => u i t - v i t) h, bind_ok]
  rw [if_neg (not_lt.2 (sum_nonneg fun i _ => hp _))]

/-- **C148** A negative sum of inner products ends the program. -/
theorem qmaNorm2_refused (hL : LinLaws I sem D Vd S) (hM : Mixable S) {ip : (X → K) → (X → K) → K}
    (hI : InnerLaws I sem D Vd S ip) (sq : K → K) {a : Qma (GF V)} (ha : QmaGood Vd S a) {u : Nat → X → K}
    (hu : ∀ i < a.ncols * a.nrows, ∃ f, a.funcs[i]? = some f ∧ ∀ t, D t → Gf.val sem f t = u i t)
    (hn : ∑ i ∈ range (a.ncols * a.nrows), ip (u i) (u i) < 0) : qmaNorm2 I sq a = .error .exit := by
  unfold qmaNorm2
  rw [sumLoop hL hM hI (u := u) (fun i hi => by
    obtain ⟨f, h1, h2⟩ := hu i hi
    exact ⟨f, h1, ha.2 f (List.mem_of_getElem? h1), h2⟩), bind_ok, if_pos hn]

/-- **C148** finding: the shapes are not compared: the distance to an array does not depend on its numbers of rows and columns. -/
theorem qmaNorm2diff_shape_counterexample (sq : K → K) (a b : Qma (GF V)) (r c : Nat) :
    qmaNorm2diff I sq a { b with nrows := r, ncols := c } = qmaNorm2diff I sq a b := rfl

end Norm

/-! ### Examples -/

def exA : Qma (GF (ℚ → ℚ)) := ⟨2, 2, [exP, exP, exW, exP]⟩

theorem exAGood : QmaGood (fun _ _ => True) exS exA := ⟨rfl, by simp [exA, exPGood, exWGood]⟩

example : ∃ a', setRow exA 1 ⟨2, [exP, exW]⟩ = .ok a' ∧ extractRow a' 1 = .ok ⟨2, [exP, exW]⟩ :=
  (roundtrip exAGood exQGood).1 1 (by decide) rfl

example : ∃ a', setCol exA 1 ⟨2, [exP, exW]⟩ = .ok a' ∧ entry a' 1 0 = entry exA 1 0 := by
  obtain ⟨a', h, _, _, _, _, h'⟩ := setCol_value exAGood exQGood (col := 1) (by decide) (by decide)
  exact ⟨a', h, h' 1 0 (by decide)⟩

example : qmaGet exA 0 1 = .ok exW := qmaGet_value exAGood 0 1
example : qmaGet exA 2 1 = .error .assertFail := qmaGet_value exAGood 2 1
example : extractCol exA 2 = .error .oob := extractCol_range_counterexample exAGood (by decide) (by decide)
example : ∀ r, setRow exA 0 ⟨1, [exP]⟩ ≠ .ok r := (set_short exA 0 _).1 (by decide)

example : qmaNorm2 exImpl id ⟨1, 2, [exP, exW]⟩ = .ok 9 := by
  rw [qmaNorm2_value exLin exMix exInner (fun u => add_nonneg (mul_self_nonneg _) (mul_self_nonneg _)) id (a := ⟨1, 2, [exP, exW]⟩)
    ⟨rfl, by simp [exPGood, exWGood]⟩ (u := fun i => if i = 0 then (fun x => x) else fun _ => 2) (by
      intro i hi
      have : i < 2 := hi
      interval_cases i
      · exact ⟨exP, rfl, fun _ _ => rfl⟩
      · exact ⟨exW, rfl, fun _ _ => rfl⟩)]
  norm_num [sum_range_succ]

/-- The functions of the example with a negative form. -/
def exNeg : Impl ℚ (ℚ → ℚ) ℚ := { exImpl with inner := fun _ v w => .ok (-(v 1 * w 1)) }

theorem exNegLin : LinLaws exNeg (fun _ v => v) (fun _ => True) (fun _ _ => True) exS := by
  constructor
  all_goals first | exact exLin.1 | exact exLin.2 | exact exLin.3 | exact exLin.4 | exact exLin.5 | exact exLin.6

example : qmaNorm2 exNeg id ⟨1, 1, [exP]⟩ = .error .exit :=
  qmaNorm2_refused exNegLin exMix (ip := fun f g => -(f 1 * g 1))
    ⟨fun _ _ _ _ _ _ => rfl, fun f f' g g' h h' => by rw [h _ trivial, h' _ trivial]⟩ id (a := ⟨1, 1, [exP]⟩) ⟨rfl, by simp [exPGood]⟩
    (u := fun _ x => x) (by intro i hi; have : i < 1 := hi; interval_cases i; exact ⟨exP, rfl, fun _ _ => rfl⟩) (by norm_num)

example : qmaNorm2diff exImpl id ⟨1, 1, [exP]⟩ ⟨1, 1, [exW]⟩ = .ok 5 := by
  rw [qmaNorm2diff_value exLin exMix exInner (fun u => add_nonneg (mul_self_nonneg _) (mul_self_nonneg _)) id (a := ⟨1, 1, [exP]⟩)
    (b := ⟨1, 1, [exW]⟩) ⟨rfl, by simp [exPGood]⟩ ⟨rfl, by simp [exWGood]⟩ (u := fun _ x => x) (v := fun _ _ => 2)
    (by intro i hi; have : i < 1 := hi; interval_cases i; exact ⟨exP, rfl, fun _ _ => rfl⟩)
    (by intro i hi; have : i < 1 := hi; interval_cases i; exact ⟨exW, rfl, fun _ _ => rfl⟩)]
  norm_num

end C3.Gf
