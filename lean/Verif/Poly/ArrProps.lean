/- C36 (arrays) and C65 (parameter gradients) for orthogonal polynomial expansions. -/
import Verif.Poly.EvalProps

set_option linter.unusedSectionVars false

namespace C3.Poly
open Finset
open C3.Lin (dv dv_ok)
variable {K : Type} [Field K] [LinearOrder K] [IsStrictOrderedRing K]

/-- Outputs `off, …, off+n-1` hold `v`, everything else is as in `a`. -/
def Window (n off : Nat) (v : Nat → K) (a b : List K) : Prop :=
  b.length = a.length ∧ (∀ i < n, b[off + i]? = some (v i)) ∧ ∀ k, (k < off ∨ off + n ≤ k) → b[k]? = a[k]?

theorem window_of {n off : Nat} {v : Nat → K} {a b : List K} (hlen : off + n ≤ a.length) (h1 : b.length = a.length)
    (h2 : ∀ i < n, b.getD (off + i) 0 = v i) (h3 : ∀ k, (k < off ∨ off + n ≤ k) → b[k]? = a[k]?) : Window n off v a b := by
  refine ⟨h1, fun i hi => ?_, h3⟩
  have hl : off + i < b.length := by omega
  rw [← h2 i hi, List.getD_eq_getElem?_getD, List.getElem?_eq_getElem hl]; rfl

theorem Window.getD {n off : Nat} {v : Nat → K} {a b : List K} (h : Window n off v a b) {i : Nat} (hi : i < n) :
    b.getD (off + i) 0 = v i := by
  rw [List.getD_eq_getElem?_getD, h.2.1 i hi]; rfl

theorem Window.trans {n off : Nat} {v w : Nat → K} {a b c : List K} (h : Window n off v a b) (h' : Window n off w b c) :
    Window n off w a c :=
  ⟨h'.1.trans h.1, h'.2.1, fun k hk => (h'.2.2 k hk).trans (h.2.2 k hk)⟩

theorem arrEach_ok (sq : K → K) {n off : Nat} {parr : List (Ope K)} {x : K} {out : List K} (g : Nat → Ope K) (v : Nat → K)
    (hp : ∀ i < n, parr[i]? = some (g i)) (hv : ∀ i < n, eval sq (g i) x = .ok (v i)) (hlen : off + n ≤ out.length) :
    ∃ out', arrEach sq n parr x off out = .ok out' ∧ Window n off v out out' := by
  obtain ⟨b, e, h1, h2, h3⟩ := forN_window (n := n) (off := off) (a := out) (fun i _ => v i) hlen
    (body := fun ii out => do
      let f ← rd parr ii
      let v ← eval sq f x
      wr out (off + ii) v)
    (fun i hi b hb => by rw [rd_of_getElem? (hp i hi), bind_ok, hv i hi, bind_ok, wr_ok _ (by omega)])
  exact ⟨b, e, window_of hlen h1 h2 h3⟩

theorem arrAdd_ok {n off it : Nat} {parr : List (Ope K)} {p : K} {out : List K} (always : Bool) (g : Nat → Ope K)
    (hp : ∀ i < n, parr[i]? = some (g i)) (hw : ∀ i < n, (g i).WF) (ha : always = true → ∀ i < n, it < (g i).num)
    (hlen : off + n ≤ out.length) :
    ∃ out', arrAdd n parr always it p off out = .ok out' ∧
      Window n off (fun i => out.getD (off + i) 0 + (g i).cf it * p) out out' := by
  obtain ⟨b, e, h1, h2, h3⟩ := forN_window (n := n) (off := off) (a := out)
    (fun i o => o + (g i).cf it * p) hlen
    (body := fun ii out => do
      let f ← rd parr ii
      if always || decide (f.num > it) then do
        let c ← rd f.coeff it
        let o ← rd out (off + ii)
        wr out (off + ii) (o + p * c)
      else pure out)
    (fun i hi b hb => by
      rw [rd_of_getElem? (hp i hi), bind_ok]
      by_cases hn : it < (g i).num
      · rw [if_pos (by simp [hn]), (hw i hi).rdc hn, bind_ok, rd_getD 0 (by omega), bind_ok, wr_ok _ (by omega), Ope.cf,
          if_pos hn, mul_comm p]
      · have : always = false := by
          cases always with
          | false => rfl
          | true => exact absurd (ha rfl i hi) hn
        rw [if_neg (by simp [hn, this]), Ope.cf, if_neg hn, zero_mul, add_zero, set_getD_self (by omega)]; rfl)
  exact ⟨b, e, window_of hlen h1 h2 h3⟩

theorem val_cf {f : Ope K} {N : Nat} (hN : f.num ≤ N) (x : K) :
    f.val x = ∑ k ∈ range N, f.cf k * f.fam.p k (f.map.slope * x + f.map.off) := by
  obtain ⟨m, rfl⟩ := Nat.exists_eq_add_of_le hN
  rw [sum_range_add, Ope.val]
  have e2 : ∑ k ∈ range m, f.cf (f.num + k) * f.fam.p (f.num + k) (f.map.slope * x + f.map.off) = 0 :=
    sum_eq_zero (fun k _ => by rw [Ope.cf, if_neg (by omega), zero_mul])
  rw [e2, add_zero]
  exact sum_congr rfl (fun k hk => by rw [Ope.cf, if_pos (mem_range.1 hk)])

theorem allSame_ok {n : Nat} {parr : List (Ope K)} {pt : PT} (g : Nat → Ope K) (hp : ∀ i < n, parr[i]? = some (g i)) :
    ∃ b, allSame n parr pt = .ok b ∧ (b = true → ∀ i, 1 ≤ i → i < n → (g i).fam.pt = pt) := by
  rcases Nat.lt_or_ge n 1 with h | h
  · refine ⟨true, ?_, fun _ i h1 h2 => by omega⟩
    rw [allSame, forR, show n - 1 = 0 by omega]; rfl
  · refine forR_spec (I := fun m b => b = true → ∀ i, 1 ≤ i → i < m → (g i).fam.pt = pt) h (fun _ i h1 h2 => by omega) ?_
    intro i h1 h2 b hb
    cases b with
    | false => exact ⟨false, rfl, by simp⟩
    | true =>
      refine ⟨decide ((g i).fam.pt = pt), ?_, ?_⟩
      · rw [if_pos rfl, rd_of_getElem? (hp i h2), bind_ok]; rfl
      · intro hd k hk1 hk2
        rcases Nat.lt_or_eq_of_le (Nat.lt_succ_iff.1 hk2) with h4 | h4
        · exact hb rfl k hk1 h4
        · rw [h4]; exact of_decide_eq_true hd

theorem arrMax_ok {n off : Nat} {parr : List (Ope K)} {out : List K} (g : Nat → Ope K) (hp : ∀ i < n, parr[i]? = some (g i))
    (hlen : off + n ≤ out.length) :
    ∃ r, arrMax n parr off out = .ok r ∧ (∀ i < n, (g i).num ≤ r.1) ∧ Window n off (fun _ => 0) out r.2 := by
  obtain ⟨r, e, h0, h1, h2, h3⟩ := forN_spec (n := n) (s := ((0 : Nat), out))
    (body := fun ii (s : Nat × List K) => do
      let f ← rd parr ii
      let o ← wr s.2 (off + ii) 0
      pure (if f.num > s.1 then f.num else s.1, o))
    (I := fun m r => (∀ i < m, (g i).num ≤ r.1) ∧ r.2.length = out.length ∧ (∀ i < m, r.2.getD (off + i) 0 = 0) ∧
      ∀ k, (k < off ∨ off + m ≤ k) → r.2[k]? = out[k]?)
    ⟨fun i hi => absurd hi (Nat.not_lt_zero _), rfl, fun i hi => absurd hi (Nat.not_lt_zero _), fun _ _ => rfl⟩
    (by
      rintro i hi r ⟨h0, h1, h2, h3⟩
      refine ⟨_, by rw [rd_of_getElem? (hp i hi), bind_ok, wr_ok _ (by omega), bind_ok]; rfl, ?_, ?_, ?_, ?_⟩
      · intro k hk
        dsimp only
        rcases Nat.lt_or_eq_of_le (Nat.lt_succ_iff.1 hk) with h4 | h4
        · have := h0 k h4; split <;> omega
        · subst h4; split <;> omega
      · rw [List.length_set, h1]
      · intro k hk
        dsimp only
        rcases Nat.lt_or_eq_of_le (Nat.lt_succ_iff.1 hk) with h4 | h4
        · rw [List.getD_eq_getElem?_getD, List.getElem?_set_ne (by omega), ← List.getD_eq_getElem?_getD, h2 k h4]
        · subst h4
          rw [List.getD_eq_getElem?_getD, List.getElem?_set_self (by omega)]; rfl
      · intro k hk
        dsimp only
        rw [List.getElem?_set_ne (by omega), h3 k (by omega)])
  exact ⟨r, e, h0, window_of hlen h1 h2 h3⟩

theorem arrJoint_ok {n off M : Nat} {parr : List (Ope K)} {f : Ope K} {xn : K} {out : List K} (g : Nat → Ope K)
    (hp : ∀ i < n, parr[i]? = some (g i)) (hw : ∀ i < n, (g i).WF) (hM : ∀ i < n, (g i).num ≤ M)
    (hz : ∀ i < n, out.getD (off + i) 0 = 0) (hlen : off + n ≤ out.length) :
    ∃ out', arrJoint n parr f xn M off out = .ok out' ∧
      Window n off (fun i => ∑ k ∈ range (M + 2), (g i).cf k * f.fam.p k xn) out out' := by
  obtain ⟨o1, e1, w1⟩ := arrAdd_ok (it := 0) (p := f.fam.c0) (out := out) (off := off) true g hp hw
    (fun _ i hi => (hw i hi).pos) hlen
  obtain ⟨o2, e2, w2⟩ := arrAdd_ok (it := 1) (p := f.fam.l0 + f.fam.l1 * xn) (out := o1) (off := off) false g hp hw
    (by simp) (by rw [w1.1]; exact hlen)
  have w12 : Window n off (fun i => ∑ k ∈ range 2, (g i).cf k * f.fam.p k xn) out o2 := by
    refine ⟨w2.1.trans w1.1, fun i hi => ?_, fun k hk => (w2.2.2 k hk).trans (w1.2.2 k hk)⟩
    rw [w2.2.1 i hi]
    dsimp only
    rw [w1.getD hi, hz i hi]
    simp [sum_range_succ]
  rw [arrJoint, e1, bind_ok, e2, bind_ok]
  obtain ⟨s, hs, hs1, hs2, hs3⟩ := forN_spec (n := M - 2) (σ := K × K × List K)
    (s := (f.fam.c0, f.fam.l0 + f.fam.l1 * xn, o2))
    (body := fun j (s : K × K × List K) => do
      let out ← arrAdd n parr false (2 + j) (wp f.fam s.1 s.2.1 (2 + j) xn) off s.2.2
      pure (s.2.1, wp f.fam s.1 s.2.1 (2 + j) xn, out))
    (I := fun j s => s.1 = f.fam.p j xn ∧ s.2.1 = f.fam.p (j + 1) xn ∧
      Window n off (fun i => ∑ k ∈ range (j + 2), (g i).cf k * f.fam.p k xn) out s.2.2)
    ⟨rfl, rfl, w12⟩
    (by
      rintro j hj s ⟨h1, h2, h3⟩
      obtain ⟨o, e, w⟩ := arrAdd_ok (it := 2 + j) (p := wp f.fam s.1 s.2.1 (2 + j) xn) (out := s.2.2) (off := off) false g hp hw
        (by simp) (by rw [h3.1]; exact hlen)
      have ep : wp f.fam s.1 s.2.1 (2 + j) xn = f.fam.p (j + 2) xn := by rw [h1, h2, Nat.add_comm 2 j, wp_p]
      refine ⟨(s.2.1, wp f.fam s.1 s.2.1 (2 + j) xn, o), by rw [e]; rfl, h2, ep, ?_⟩
      refine ⟨w.1.trans h3.1, fun i hi => ?_, fun k hk => (w.2.2 k hk).trans (h3.2.2 k hk)⟩
      rw [w.2.1 i hi]
      dsimp only
      rw [h3.getD hi, ep, sum_range_succ _ (j + 2), Nat.add_comm 2 j])
  refine ⟨s.2.2, by rw [forR, hs]; rfl, hs3.1, fun i hi => ?_, hs3.2.2⟩
  rw [hs3.2.1 i hi]
  congr 1
  dsimp only
  have hi' := hM i hi
  refine (sum_subset (range_mono (by omega)) (fun k _ hk => ?_))
  rw [mem_range] at hk
  rw [Ope.cf, if_neg (by omega), zero_mul]

/-- C36: evaluating an array of expansions gives every expansion's own value, provided that (as documented) all have the same
bounds, i.e. the same mapping, that expansions with the same type tag have the same recurrence, and that none is weighted. -/
theorem arrEval_value (sq : K → K) {n off : Nat} {parr : List (Ope K)} {x : K} {out : List K} (g : Nat → Ope K) (hn : 1 ≤ n)
    (hp : ∀ i < n, parr[i]? = some (g i)) (hw : ∀ i < n, (g i).WF) (hk : ∀ i < n, (g i).krist = false)
    (hm : ∀ i < n, (g i).map = (g 0).map) (hf : ∀ i < n, (g i).fam.pt = (g 0).fam.pt → (g i).fam = (g 0).fam)
    (hlen : off + n ≤ out.length) :
    ∃ out', arrEval sq n parr x off out = .ok out' ∧ Window n off (fun i => (g i).val x) out out' := by
  rw [arrEval, rd_of_getElem? (hp 0 hn), bind_ok, hk 0 hn, if_neg (by simp)]
  obtain ⟨b, eb, hb⟩ := allSame_ok (pt := (g 0).fam.pt) g hp
  rw [eb, bind_ok]
  by_cases hc : (!b || decide ((g 0).fam.pt = .cheb)) = true
  · rw [if_pos hc]
    exact arrEach_ok sq g _ hp (fun i hi => eval_value sq (hw i hi) (hk i hi) x) hlen
  · rw [if_neg hc]
    have hbt : b = true := by
      cases b with
      | true => rfl
      | false => simp at hc
    obtain ⟨r, er, hM, wz⟩ := arrMax_ok (out := out) (off := off) g hp hlen
    rw [er, bind_ok]
    obtain ⟨o, e, w⟩ := arrJoint_ok (f := g 0) (xn := (g 0).map.map x) (out := r.2) (off := off) g hp hw hM
      (fun i hi => wz.getD hi) (by rw [wz.1]; exact hlen)
    refine ⟨o, e, w.1.trans wz.1, fun i hi => ?_, fun k hk => (w.2.2 k hk).trans (wz.2.2 k hk)⟩
    rw [w.2.1 i hi]
    dsimp only
    rw [val_cf (f := g i) (N := r.1 + 2) (by have := hM i hi; omega)]
    have hfam : (g i).fam = (g 0).fam := by
      refine hf i hi ?_
      rcases Nat.eq_zero_or_pos i with h | h
      · rw [h]
      · exact hb hbt i h hi
    rw [hm i hi, hfam]; rfl

theorem arrEval_each {sq : K → K} {n off : Nat} {parr : List (Ope K)} {x : K} {out : List K} (g : Nat → Ope K) (hn : 1 ≤ n)
    (hp : ∀ i < n, parr[i]? = some (g i)) (h : (g 0).krist = true) :
    arrEval sq n parr x off out = arrEach sq n parr x off out := by
  rw [arrEval, rd_of_getElem? (hp 0 hn), bind_ok, if_pos h]

/-- C36: evaluating an array of expansions at many points, with strides; every value must be at most `big` (`1e100`), larger ones
end the program. -/
theorem arrEvalN_value (sq : K → K) (big : K) {n N incx incy : Nat} {parr : List (Ope K)} {x y : List K} (g : Nat → Ope K)
    (hn : 1 ≤ n) (hp : ∀ i < n, parr[i]? = some (g i)) (hw : ∀ i < n, (g i).WF) (hk : ∀ i < n, (g i).krist = false)
    (hm : ∀ i < n, (g i).map = (g 0).map) (hf : ∀ i < n, (g i).fam.pt = (g 0).fam.pt → (g i).fam = (g 0).fam)
    (hx : ∀ j < N, j * incx < x.length) (hinc : n ≤ incy) (hy : ∀ j < N, j * incy + n ≤ y.length)
    (hb : ∀ j < N, ∀ i < n, (g i).val (x.getD (j * incx) 0) ≤ big) :
    ∃ y', arrEvalN sq big n parr N x incx y incy = .ok y' ∧ y'.length = y.length ∧
      (∀ j < N, ∀ i < n, y'[j * incy + i]? = some ((g i).val (x.getD (j * incx) 0))) ∧
      ∀ k, (∀ j < N, ∀ i < n, k ≠ j * incy + i) → y'[k]? = y[k]? := by
  have sep : ∀ j j' i, j < j' → i < n → j * incy + i < j' * incy := by
    intro j j' i hj hi
    have : (j + 1) * incy ≤ j' * incy := Nat.mul_le_mul_right _ hj
    have e : (j + 1) * incy = j * incy + incy := by ring
    omega
  rw [arrEvalN, rd_of_getElem? (hp 0 hn), bind_ok, hk 0 hn, if_neg (by simp)]
  obtain ⟨y1, e1, hl1, hu1⟩ := forN_spec (n := N) (s := y)
    (body := fun jj y => forN n (fun ii y => wr y (ii + jj * incy) (0 : K)) y)
    (I := fun m y1 => y1.length = y.length ∧ ∀ k, (∀ j < m, ∀ i < n, k ≠ j * incy + i) → y1[k]? = y[k]?)
    ⟨rfl, fun _ _ => rfl⟩
    (by
      rintro j hj b ⟨h1, h2⟩
      obtain ⟨c, e, c1, _, c3⟩ := forN_window (n := n) (off := j * incy) (a := b) (fun _ _ => 0) (by have := hy j hj; omega)
        (body := fun ii y => wr y (ii + j * incy) (0 : K))
        (fun i hi b' hb' => by have := hy j hj; rw [wr_ok _ (by omega), Nat.add_comm])
      refine ⟨c, e, c1.trans h1, fun k hk => ?_⟩
      rw [c3 k, h2 k (fun j' hj' i hi => hk j' (by omega) i hi)]
      by_contra hc
      push Not at hc
      exact hk j (by omega) (k - j * incy) (by omega) (by omega))
  rw [e1, bind_ok]
  obtain ⟨y2, e2, hl2, hv2, hu2⟩ := forN_spec (n := N) (s := y1)
    (body := fun jj y => do
      let v ← rd x (jj * incx)
      arrEval sq n parr v (jj * incy) y)
    (I := fun m y2 => y2.length = y.length ∧
      (∀ j < m, ∀ i < n, y2[j * incy + i]? = some ((g i).val (x.getD (j * incx) 0))) ∧
      ∀ k, (∀ j < N, ∀ i < n, k ≠ j * incy + i) → y2[k]? = y[k]?)
    ⟨hl1, fun j hj => absurd hj (Nat.not_lt_zero _), hu1⟩
    (by
      rintro j hj b ⟨h1, h2, h3⟩
      obtain ⟨c, e, w1, w2, w3⟩ := arrEval_value sq (x := x.getD (j * incx) 0) (off := j * incy) (out := b) g hn hp hw hk hm hf
        (by have := hy j hj; omega)
      refine ⟨c, by rw [rd_getD 0 (hx j hj), bind_ok, e], w1.trans h1, ?_, ?_⟩
      · intro j' hj' i hi
        rcases Nat.lt_or_eq_of_le (Nat.lt_succ_iff.1 hj') with h4 | h4
        · rw [w3 _ (Or.inl (sep j' j i h4 hi)), h2 j' h4 i hi]
        · rw [h4]; exact w2 i hi
      · intro k hk'
        rw [w3 k, h3 k hk']
        by_contra hc
        push Not at hc
        exact hk' j hj (k - j * incy) (by omega) (by omega))
  rw [e2, bind_ok]
  have e3 : forN N (fun jj (_ : Unit) => forN n (fun ii (_ : Unit) => do
      let v ← rd y2 (ii + jj * incy)
      if v > big then (.error .exit : C Unit) else pure ()) ()) () = .ok () := by
    refine forN_traj (fun _ => ()) (fun j hj => forN_traj (fun _ => ()) (fun i hi => ?_))
    rw [rd_of_getElem? (v := (g i).val (x.getD (j * incx) 0)) (by rw [Nat.add_comm]; exact hv2 j hj i hi), bind_ok,
      if_neg (not_lt.2 (hb j hj i hi))]; rfl
  rw [e3]
  exact ⟨y2, rfl, hl2, hv2, hu2⟩

/-- Gradient of the value with respect to the coefficients, times the inverse Kristoffel weight when weighted. -/
theorem gradRow_ok {f : Ope K} (hf : 1 ≤ f.num) {xn : K} {off : Nat} {grad : List K} (hlen : off + f.num ≤ grad.length) :
    ∃ s, gradRow f xn off grad = .ok s ∧ s.den = ∑ k ∈ range f.num, f.fam.p k xn ^ 2 ∧
      Window f.num off (fun k => f.fam.p k xn) grad s.grad := by
  rw [gradRow, wr_ok _ (by omega), bind_ok]
  by_cases h1 : f.num > 1
  · rw [if_pos h1, wr_ok _ (by rw [List.length_set]; omega), bind_ok]
    obtain ⟨s, hs, i1, i2, i3, i4, i5, i6⟩ := forN_spec (n := f.num - 2) (σ := Gt K)
      (s := ⟨f.fam.c0, f.fam.l0 + f.fam.l1 * xn,
        f.fam.c0 * f.fam.c0 + (f.fam.l0 + f.fam.l1 * xn) * (f.fam.l0 + f.fam.l1 * xn),
        (grad.set off f.fam.c0).set (off + 1) (f.fam.l0 + f.fam.l1 * xn)⟩)
      (body := fun j => gradStep f xn off (2 + j))
      (I := fun j s => s.p0 = f.fam.p j xn ∧ s.p1 = f.fam.p (j + 1) xn ∧ s.den = ∑ k ∈ range (j + 2), f.fam.p k xn ^ 2 ∧
        s.grad.length = grad.length ∧ (∀ k < j + 2, s.grad[off + k]? = some (f.fam.p k xn)) ∧
        ∀ k, (k < off ∨ off + (j + 2) ≤ k) → s.grad[k]? = grad[k]?)
      (by
        refine ⟨rfl, rfl, by simp [sum_range_succ, pow_two], by simp, ?_, ?_⟩
        · intro k hk
          have : k = 0 ∨ k = 1 := by omega
          rcases this with rfl | rfl
          · rw [List.getElem?_set_ne (by omega), Nat.add_zero, List.getElem?_set_self (by omega)]; rfl
          · rw [List.getElem?_set_self (by rw [List.length_set]; omega)]; rfl
        · intro k hk
          rw [List.getElem?_set_ne (by omega), List.getElem?_set_ne (by omega)])
      (by
        rintro j hj s ⟨h1, h2, h3, h4, h5, h6⟩
        have ep : wp f.fam s.p0 s.p1 (2 + j) xn = f.fam.p (j + 2) xn := by rw [h1, h2, Nat.add_comm 2 j, wp_p]
        refine ⟨_, by rw [gradStep, wr_ok _ (by omega), bind_ok]; rfl, h2, ep, ?_, ?_, ?_, ?_⟩
        · dsimp only; rw [h3, ep, sum_range_succ _ (j + 2), pow_two (f.fam.p (j + 2) xn)]
        · dsimp only; rw [List.length_set, h4]
        · intro k hk
          dsimp only
          rcases Nat.lt_or_eq_of_le (Nat.lt_succ_iff.1 hk) with h7 | h7
          · rw [List.getElem?_set_ne (by omega), h5 k (by omega)]
          · rw [show off + k = off + (2 + j) by omega, List.getElem?_set_self (by omega), ep, h7]
        · intro k hk
          dsimp only
          rw [List.getElem?_set_ne (by omega), h6 k (by omega)])
    rw [show f.num - 2 + 2 = f.num by omega] at i3 i5 i6
    exact ⟨s, by rw [forR, hs], i3, i4, i5, i6⟩
  · have hn : f.num = 1 := by omega
    rw [if_neg h1, hn]
    refine ⟨_, rfl, by simp [pow_two], by simp, ?_, ?_⟩
    · intro k hk
      obtain rfl : k = 0 := by omega
      dsimp only
      rw [Nat.add_zero, List.getElem?_set_self (by omega)]; rfl
    · intro k hk
      dsimp only
      rw [List.getElem?_set_ne (by omega)]

/-- C65: the parameter gradient at several points: row `i` holds the basis polynomials at point `i`, i.e. the partial derivatives
of the (linear) value with respect to the coefficients. -/
theorem paramGrad_value (sq : K → K) {f : Ope K} (hf : 1 ≤ f.num) (hk : f.krist = false) {nx : Nat} {x grad : List K}
    (hx : nx ≤ x.length) (hg : nx * f.num ≤ grad.length) :
    ∃ g, paramGrad sq f nx x grad = .ok g ∧ g.length = grad.length ∧
      (∀ i < nx, ∀ k < f.num, g[i * f.num + k]? = some (f.fam.p k (f.map.slope * x.getD i 0 + f.map.off))) ∧
      ∀ k, nx * f.num ≤ k → g[k]? = grad[k]? := by
  refine (forN_spec (n := nx) (s := grad)
    (I := fun m g => g.length = grad.length ∧
      (∀ i < m, ∀ k < f.num, g[i * f.num + k]? = some (f.fam.p k (f.map.slope * x.getD i 0 + f.map.off))) ∧
      ∀ k, m * f.num ≤ k → g[k]? = grad[k]?)
    ⟨rfl, fun i hi => absurd hi (Nat.not_lt_zero _), fun _ _ => rfl⟩ ?_)
  rintro i hi b ⟨h1, h2, h3⟩
  have hle : i * f.num + f.num ≤ nx * f.num := by
    have : (i + 1) * f.num ≤ nx * f.num := Nat.mul_le_mul_right _ hi
    rwa [Nat.succ_mul] at this
  obtain ⟨s, es, _, w1, w2, w3⟩ := gradRow_ok hf (xn := f.map.map (x.getD i 0)) (off := i * f.num) (grad := b) (by omega)
  refine ⟨s.grad, ?_, w1.trans h1, ?_, ?_⟩
  · rw [rd_getD 0 (by omega), bind_ok, es, bind_ok, gradScale, hk]; rfl
  · intro j hj k hkn
    rcases Nat.lt_or_eq_of_le (Nat.lt_succ_iff.1 hj) with h4 | h4
    · have : j * f.num + k < i * f.num := by
        have : (j + 1) * f.num ≤ i * f.num := Nat.mul_le_mul_right _ h4
        rw [Nat.succ_mul] at this; omega
      rw [w3 _ (Or.inl this), h2 j h4 k hkn]
    · subst h4; exact w2 k hkn
  · intro k hk'
    rw [Nat.succ_mul] at hk'
    rw [w3 k (Or.inr hk'), h3 k (by omega)]

theorem gradScale_ok (sq : K → K) {f : Ope K} (hk : f.krist = true) {den : K} (hn : (f.num : K) ≠ 0) (hq : sq (den / f.num) ≠ 0)
    {off : Nat} {grad : List K} (hlen : off + f.num ≤ grad.length) :
    ∃ g, gradScale sq f den off grad = .ok g ∧
      Window f.num off (fun k => grad.getD (off + k) 0 / sq (den / f.num)) grad g := by
  rw [gradScale, if_pos hk]
  obtain ⟨b, e, h1, h2, h3⟩ := forN_window (n := f.num) (off := off) (a := grad) (fun _ o => o / sq (den / f.num)) hlen
    (body := fun jj g => do
      let v ← rd g (off + jj)
      let q ← dv den f.num
      let r ← dv v (sq q)
      wr g (off + jj) r)
    (fun i hi b hb => by
      rw [rd_getD 0 (by omega), bind_ok, dv_ok hn, bind_ok, dv_ok hq, bind_ok, wr_ok _ (by omega)])
  exact ⟨b, e, window_of hlen h1 h2 h3⟩

/-- C65: with Kristoffel weighting every entry is divided by the square root of the mean square of the basis at the point, just
as the value is (`eval_krist`). -/
theorem paramGrad_krist (sq : K → K) {f : Ope K} (hf : 1 ≤ f.num) (hk : f.krist = true) {nx : Nat} {x grad : List K}
    (hx : nx ≤ x.length) (hg : nx * f.num ≤ grad.length) (hq : ∀ i < nx, sq (f.meanSq (x.getD i 0)) ≠ 0) :
    ∃ g, paramGrad sq f nx x grad = .ok g ∧ g.length = grad.length ∧
      (∀ i < nx, ∀ k < f.num, g[i * f.num + k]? =
        some (f.fam.p k (f.map.slope * x.getD i 0 + f.map.off) / sq (f.meanSq (x.getD i 0)))) ∧
      ∀ k, nx * f.num ≤ k → g[k]? = grad[k]? := by
  have hn : (f.num : K) ≠ 0 := by exact_mod_cast (by omega : f.num ≠ 0)
  refine (forN_spec (n := nx) (s := grad)
    (I := fun m g => g.length = grad.length ∧
      (∀ i < m, ∀ k < f.num, g[i * f.num + k]? =
        some (f.fam.p k (f.map.slope * x.getD i 0 + f.map.off) / sq (f.meanSq (x.getD i 0)))) ∧
      ∀ k, m * f.num ≤ k → g[k]? = grad[k]?)
    ⟨rfl, fun i hi => absurd hi (Nat.not_lt_zero _), fun _ _ => rfl⟩ ?_)
  rintro i hi b ⟨h1, h2, h3⟩
  have hle : i * f.num + f.num ≤ nx * f.num := by
    have : (i + 1) * f.num ≤ nx * f.num := Nat.mul_le_mul_right _ hi
    rwa [Nat.succ_mul] at this
  obtain ⟨s, es, hd, w⟩ := gradRow_ok hf (xn := f.map.map (x.getD i 0)) (off := i * f.num) (grad := b) (by omega)
  have hd' : s.den / f.num = f.meanSq (x.getD i 0) := by rw [hd]; rfl
  obtain ⟨g, eg, w1, w2, w3⟩ := gradScale_ok sq hk (den := s.den) (off := i * f.num) (grad := s.grad) hn
    (by rw [hd']; exact hq i hi) (by rw [w.1]; omega)
  refine ⟨g, ?_, w1.trans (w.1.trans h1), ?_, ?_⟩
  · rw [rd_getD 0 (by omega), bind_ok, es, bind_ok, eg]
  · intro j hj k hkn
    rcases Nat.lt_or_eq_of_le (Nat.lt_succ_iff.1 hj) with h4 | h4
    · have : j * f.num + k < i * f.num := by
        have : (j + 1) * f.num ≤ i * f.num := Nat.mul_le_mul_right _ h4
        rw [Nat.succ_mul] at this; omega
      rw [w3 _ (Or.inl this), w.2.2 _ (Or.inl this), h2 j h4 k hkn]
    · subst h4
      rw [w2 k hkn]
      dsimp only
      rw [w.getD hkn, hd']; rfl
  · intro k hk'
    rw [Nat.succ_mul] at hk'
    rw [w3 k (Or.inr hk'), w.2.2 k (Or.inr hk'), h3 k (by omega)]

/-- C65: gradient and value at one point, without weighting. -/
theorem paramGrad2_value_partial (sq : K → K) {f : Ope K} (hf : f.WF) (hk : f.krist = false) {x : K} {grad : List K}
    (hg : f.num ≤ grad.length) :
    ∃ g, paramGrad2 sq f x grad = .ok (f.val x, g) ∧
      Window f.num 0 (fun k => f.fam.p k (f.map.slope * x + f.map.off)) grad g := by
  obtain ⟨s, es, _, w⟩ := gradRow_ok hf.pos (xn := f.map.map x) (off := 0) (grad := grad) (by omega)
  obtain ⟨o, eo, ho, _⟩ := evalSum_ok hf (f.map.map x)
  refine ⟨s.grad, ?_, w⟩
  rw [paramGrad2, es, bind_ok, eo, bind_ok, gradScale, hk, if_neg (by simp), pure_eq_ok, bind_ok, ho]; rfl

/-- The basis polynomials are the gradient: changing coefficient `k` by `t` changes the value by `t p_k`. -/
theorem val_set {f : Ope K} (h : f.WF) {k : Nat} (hk : k < f.num) (t x : K) :
    ({ f with coeff := f.coeff.set k (f.coeff.getD k 0 + t) } : Ope K).val x =
      f.val x + t * f.fam.p k (f.map.slope * x + f.map.off) := by
  have hl : k < f.coeff.length := lt_of_lt_of_le hk (h.num_le.trans h.alloc_le)
  simp only [Ope.val]
  have e : ∀ j ∈ range f.num, (f.coeff.set k (f.coeff.getD k 0 + t)).getD j 0 * f.fam.p j (f.map.slope * x + f.map.off) =
      f.coeff.getD j 0 * f.fam.p j (f.map.slope * x + f.map.off) +
        if j = k then t * f.fam.p k (f.map.slope * x + f.map.off) else 0 := by
    intro j _
    by_cases hj : j = k
    · subst hj
      rw [if_pos rfl, List.getD_eq_getElem?_getD (l := f.coeff.set _ _), List.getElem?_set_self hl]
      simp; ring
    · rw [if_neg hj, add_zero, List.getD_eq_getElem?_getD (l := f.coeff.set _ _), List.getElem?_set_ne (Ne.symm hj),
        ← List.getD_eq_getElem?_getD]
  rw [sum_congr rfl e, sum_add_distrib, sum_ite_eq' (range f.num) k, if_pos (mem_range.2 hk)]

/-- With Kristoffel weighting the gradient is that of the weighted value, but the value returned beside it is the unweighted
one: for the weighted constant `2 * 3` (basis polynomial constant 2) evaluation gives 3, the combined routine 6. -/
theorem paramGrad2_counterexample :
    ∃ f : Ope ℝ, f.WF ∧ f.krist = true ∧ eval Real.sqrt f 0 = .ok 3 ∧ ∃ g, paramGrad2 Real.sqrt f 0 [0] = .ok (6, g) := by
  have h2 : Real.sqrt 4 = 2 := by rw [show (4 : ℝ) = 2 ^ 2 by norm_num]; exact Real.sqrt_sq (by norm_num)
  refine ⟨⟨⟨.herm, fun _ => 1, fun _ => 0, fun _ => -1, -1, 1, 2, 0, 1, fun _ => 1⟩, 1, 0, 1, ⟨1, 0, 1, 0⟩, 1, [3], true⟩,
    ⟨by decide, by decide, by decide, by simp⟩, rfl, ?_, [1], ?_⟩
  · rw [eval]
    norm_num [evalSum, evalFirst, evalSecond, kristScale, dv, rd, forR, forN, h2]
  · norm_num [paramGrad2, evalSum, evalFirst, evalSecond, gradRow, gradScale, dv, rd, wr, forR, forN, h2]

example : ∃ (parr : List (Ope ℚ)) (g : Nat → Ope ℚ), (∀ i < 2, parr[i]? = some (g i)) ∧ (∀ i < 2, (g i).WF) ∧
    (∀ i < 2, (g i).krist = false) ∧ (∀ i < 2, (g i).map = (g 0).map) ∧
    (∀ i < 2, (g i).fam.pt = (g 0).fam.pt → (g i).fam = (g 0).fam) ∧
    arrEval id 2 parr 2 0 [0, 0] = .ok [6, 6] :=
  ⟨[exCheb, exCheb], fun _ => exCheb, fun i hi => by match i, hi with | 0, _ => rfl | 1, _ => rfl, fun _ _ => exCheb_wf, fun _ _ => rfl, fun _ _ => rfl, fun _ _ _ => rfl,
    by decide +kernel⟩

example : (2 : Nat) * exCheb.num ≤ ([0, 0, 0, 0, 0, 0] : List ℚ).length ∧
    paramGrad id exCheb 2 [1, 2] [0, 0, 0, 0, 0, 0] = .ok [1, 0, -1, 1, 1, 1] := ⟨by decide, by decide +kernel⟩

end C3.Poly
