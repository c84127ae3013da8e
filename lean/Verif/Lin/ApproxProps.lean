/- C62: approximation by linear elements interpolates; C63: functions with given zeros. -/
import Verif.Lin.Approx
import Verif.Lin.AlgProps
import Mathlib.Data.List.Chain
import Mathlib.Algebra.Order.Archimedean.Basic
import Mathlib.Tactic.Linarith

set_option linter.unusedSectionVars false

namespace C3.Lin
variable {K : Type} [Field K] [LinearOrder K] [IsStrictOrderedRing K]

/-- Two neighbouring nodes of an adaptive grid: either closer than the minimal spacing, or one of them is the midpoint of a
segment, with the other as an end, on which the function is close to its chord (relative to the midpoint value). -/
def Fine (f : K → K) (delta hmin a b : K) : Prop :=
  b - a ≤ hmin ∨ |(f a + f (2 * b - a)) / 2 - f b| < delta * |f b| ∨ |(f (2 * a - b) + f b) / 2 - f a| < delta * |f a|

/-- Neighbouring pairs of the adaptive list. -/
def Nb (f : K → K) (delta hmin : K) (p q : K × K) : Prop := p.1 < q.1 ∧ Fine f delta hmin p.1 q.1

theorem accept_lt {delta fl fr fm : K} (h : accept delta fl fr fm = true) : |(fl + fr) / 2 - fm| < delta * |fm| := by
  rw [accept, decide_eq_true_eq] at h
  exact (div_lt_iff₀ (abs_pos.2 h.1)).1 h.2

/-- Shape of the list of pairs between `xl` and `xr`: starts and ends there, increasing and fine, values of the function. -/
structure Grid (f : K → K) (delta hmin xl xr : K) (L : List (K × K)) : Prop where
  shape : ∃ m, L = (xl, f xl) :: (m ++ [(xr, f xr)])
  chain : L.IsChain (Nb f delta hmin)
  vals : ∀ p ∈ L, p.2 = f p.1

theorem Grid.concat {f : K → K} {delta hmin a b c : K} {L M : List (K × K)} (h1 : Grid f delta hmin a b L)
    (h2 : Grid f delta hmin b c M) : Grid f delta hmin a c (L ++ M.drop 1) := by
  obtain ⟨m, rfl⟩ := h1.shape
  obtain ⟨n, rfl⟩ := h2.shape
  have e : (a, f a) :: (m ++ [(b, f b)]) ++ List.drop 1 ((b, f b) :: (n ++ [(c, f c)])) =
      ((a, f a) :: m) ++ (b, f b) :: (n ++ [(c, f c)]) := by simp
  refine ⟨⟨m ++ (b, f b) :: n, by rw [e]; simp⟩, ?_, ?_⟩
  · rw [e, List.isChain_split]
    exact ⟨by simpa using h1.chain, h2.chain⟩
  · intro p hp
    rcases List.mem_append.1 hp with hp | hp
    · exact h1.vals p hp
    · exact h2.vals p (List.mem_of_mem_drop hp)

theorem adapt_ok {f : K → K} {delta hmin : K} (hh : 0 < hmin) : ∀ N fuel xl xr, N < fuel → xl < xr →
    xr - xl ≤ hmin * 2 ^ N → ∃ L, adapt f delta hmin fuel xl (f xl) xr (f xr) = .ok L ∧ Grid f delta hmin xl xr L := by
  intro N
  induction N with
  | zero =>
    intro fuel xl xr hN hlt hw
    obtain ⟨k, rfl⟩ : ∃ k, fuel = k + 1 := ⟨fuel - 1, by omega⟩
    rw [pow_zero, mul_one] at hw
    refine ⟨_, by rw [adapt, if_pos hw]; rfl, ⟨[], rfl⟩, ?_, ?_⟩
    · exact List.isChain_pair.2 ⟨hlt, .inl hw⟩
    · intro p hp
      rcases List.mem_cons.1 hp with rfl | hp
      · rfl
      · rw [List.mem_singleton.1 hp]
  | succ N ih =>
    intro fuel xl xr hN hlt hw
    obtain ⟨k, rfl⟩ : ∃ k, fuel = k + 1 := ⟨fuel - 1, by omega⟩
    rw [adapt]
    by_cases h1 : xr - xl ≤ hmin
    · refine ⟨_, by rw [if_pos h1]; rfl, ⟨[], rfl⟩, ?_, ?_⟩
      · exact List.isChain_pair.2 ⟨hlt, .inl h1⟩
      · intro p hp
        rcases List.mem_cons.1 hp with rfl | hp
        · rfl
        · rw [List.mem_singleton.1 hp]
    rw [if_neg h1]
    have m1 : xl < (xl + xr) / 2 := by linarith
    have m2 : (xl + xr) / 2 < xr := by linarith
    by_cases h2 : accept delta (f xl) (f xr) (f ((xl + xr) / 2)) = true
    · refine ⟨_, by rw [if_pos h2]; rfl, ⟨[((xl + xr) / 2, f ((xl + xr) / 2))], rfl⟩, ?_, ?_⟩
      · have hl := accept_lt h2
        refine List.isChain_cons_cons.2 ⟨⟨m1, .inr (.inl ?_)⟩, List.isChain_pair.2 ⟨m2, .inr (.inr ?_)⟩⟩
        · show |(f xl + f (2 * ((xl + xr) / 2) - xl)) / 2 - f ((xl + xr) / 2)| < _
          rw [show 2 * ((xl + xr) / 2) - xl = xr by ring]; exact hl
        · show |(f (2 * ((xl + xr) / 2) - xr) + f xr) / 2 - f ((xl + xr) / 2)| < _
          rw [show 2 * ((xl + xr) / 2) - xr = xl by ring]; exact hl
      · intro p hp
        rcases List.mem_cons.1 hp with rfl | hp
        · rfl
        rcases List.mem_cons.1 hp with rfl | hp
        · rfl
        · rw [List.mem_singleton.1 hp]
    · rw [if_neg h2]
      have e2 : hmin * 2 ^ (N + 1) = 2 * (hmin * 2 ^ N) := by ring
      obtain ⟨L, a1, a2⟩ := ih k xl ((xl + xr) / 2) (by omega) m1 (by linarith)
      obtain ⟨M, b1, b2⟩ := ih k ((xl + xr) / 2) xr (by omega) m2 (by linarith)
      exact ⟨_, by rw [a1, bind_ok, b1, bind_ok, pure_eq_ok], a2.concat b2⟩

/-- An expansion that interpolates `f` on an increasing grid from `a` to `b` whose neighbouring nodes are `Fine`. -/
structure Interp (f : K → K) (delta hmin a b : K) (h : LE K) : Prop where
  wf : h.WF
  first : h.nd 0 = a
  last : h.nd (h.num - 1) = b
  val : ∀ i < h.num, h.cf i = f (h.nd i)
  fine : ∀ i, i + 1 < h.num → Fine f delta hmin (h.nd i) (h.nd (i + 1))

theorem map_getD0 {L : List (K × K)} (g : K × K → K) {i : Nat} (hi : i < L.length) : (L.map g).getD i 0 = g L[i] := by
  simp [List.getD_eq_getElem?_getD, List.getElem?_eq_getElem hi]

theorem ofPairs_ok {f : K → K} {delta hmin a b : K} {L : List (K × K)} (h : Grid f delta hmin a b L) :
    ∃ e, ofPairs L = .ok e ∧ Interp f delta hmin a b e ∧ ∀ p ∈ L, ∃ i < e.num, e.nd i = p.1 := by
  obtain ⟨m, hm⟩ := h.shape
  have hlen : L.length = m.length + 2 := by rw [hm]; simp
  have nb : ∀ i (hi : i + 1 < L.length), Nb f delta hmin L[i] L[i + 1] := fun i hi => List.IsChain.getElem h.chain i hi
  refine ⟨⟨L.length, L.map (·.1), L.map (·.2)⟩, ?_, ⟨⟨by simp, by simp, ?_, ?_⟩, ?_, ?_, ?_, ?_⟩, ?_⟩
  · rw [ofPairs, cassert_of (decide_eq_true (by omega)), bind_ok, pure_eq_ok]
  · show 2 ≤ L.length; omega
  · intro i hi
    have hi' : i + 1 < L.length := hi
    show (L.map (·.1)).getD i 0 < (L.map (·.1)).getD (i + 1) 0
    rw [map_getD0 _ (by omega), map_getD0 _ hi']
    exact (nb i hi').1
  · show (L.map (·.1)).getD 0 0 = a
    rw [hm]; simp
  · show (L.map (·.1)).getD (L.length - 1) 0 = b
    rw [map_getD0 _ (by omega)]
    have : L[L.length - 1]? = some (b, f b) := by
      rw [hlen, hm]; simp
    rw [List.getElem?_eq_getElem (by omega)] at this
    rw [Option.some.inj this]
  · intro i hi
    have hi' : i < L.length := hi
    show (L.map (·.2)).getD i 0 = f ((L.map (·.1)).getD i 0)
    rw [map_getD0 _ hi', map_getD0 _ hi']
    exact h.vals _ (List.getElem_mem _)
  · intro i hi
    have hi' : i + 1 < L.length := hi
    show Fine f delta hmin ((L.map (·.1)).getD i 0) ((L.map (·.1)).getD (i + 1) 0)
    rw [map_getD0 _ (by omega), map_getD0 _ hi']
    exact (nb i hi').2
  · intro p hp
    obtain ⟨i, hi, e⟩ := List.mem_iff_getElem.1 hp
    refine ⟨i, hi, ?_⟩
    show (L.map (·.1)).getD i 0 = p.1
    rw [map_getD0 _ hi, e]

/-- **C62** Adaptive approximation without starting nodes: for a positive minimal spacing it ends (some recursion depth is enough,
and every larger one gives a result, too), and the result interpolates the function on an increasing grid from the lower to the
upper bound, fine in the sense of `Fine`. -/
theorem approx_adapt_value [Archimedean K] {f : K → K} {o : AOpts K} (ha : o.adapt = true) (hn : o.nodes = none) (hh : 0 < o.hmin)
    (hb : o.lb < o.ub) :
    ∃ N, ∀ fuel, N < fuel → ∃ e, approx fuel o f = .ok e ∧ Interp f o.delta o.hmin o.lb o.ub e := by
  obtain ⟨N, hN⟩ := pow_unbounded_of_one_lt ((o.ub - o.lb) / o.hmin) (one_lt_two : (1 : K) < 2)
  refine ⟨N, fun fuel hf => ?_⟩
  rw [div_lt_iff₀ hh] at hN
  obtain ⟨L, h1, h2⟩ := adapt_ok (f := f) (delta := o.delta) hh N fuel o.lb o.ub hf hb (by rw [mul_comm]; exact hN.le)
  obtain ⟨e, h3, h4, _⟩ := ofPairs_ok h2
  exact ⟨e, by rw [approx, ha, hn]; dsimp only; rw [h1, bind_ok, h3], h4⟩

/-- **C62** Adaptive approximation with starting nodes keeps all of them. -/
theorem approx_nodes_value [Archimedean K] {f : K → K} {o : AOpts K} {x : List K} (ha : o.adapt = true) (hn : o.nodes = some x)
    (hh : 0 < o.hmin) (hx : (LE.mk o.num x x).WF) :
    ∃ N, ∀ fuel, N < fuel → ∃ e, approx fuel o f = .ok e ∧
      Interp f o.delta o.hmin (x.getD 0 0) (x.getD (o.num - 1) 0) e ∧ ∀ i < o.num, ∃ k < e.num, e.nd k = x.getD i 0 := by
  have two : 2 ≤ o.num := hx.two
  have hlen : x.length = o.num := hx.hn
  obtain ⟨N, hN⟩ := pow_unbounded_of_one_lt ((x.getD (o.num - 1) 0 - x.getD 0 0) / o.hmin) (one_lt_two : (1 : K) < 2)
  refine ⟨N, fun fuel hf => ?_⟩
  rw [div_lt_iff₀ hh] at hN
  have seg : ∀ i, i + 1 < o.num → ∃ L, adapt f o.delta o.hmin fuel (x.getD i 0) (f (x.getD i 0)) (x.getD (i + 1) 0) (f (x.getD (i + 1) 0)) = .ok L ∧
      Grid f o.delta o.hmin (x.getD i 0) (x.getD (i + 1) 0) L := by
    intro i hi
    have a1 : x.getD 0 0 ≤ x.getD i 0 := hx.le (Nat.zero_le i) (show i < o.num by omega)
    have a2 : x.getD (i + 1) 0 ≤ x.getD (o.num - 1) 0 := hx.le (show i + 1 ≤ o.num - 1 by omega) (show o.num - 1 < o.num by omega)
    exact adapt_ok hh N fuel _ _ hf (hx.inc i hi) (by rw [mul_comm]; linarith)
  obtain ⟨L0, p1, p2⟩ := seg 0 (by omega)
  obtain ⟨s, q1, q2, q3, q4⟩ := forR_spec (σ := List (K × K) × K) (a := 2) (b := o.num) (s := (L0, x.getD 1 0))
    (body := adaptNext f o.delta o.hmin fuel x)
    (I := fun m s => s.2 = x.getD (m - 1) 0 ∧ Grid f o.delta o.hmin (x.getD 0 0) (x.getD (m - 1) 0) s.1 ∧
      ∀ i < m, ∃ p ∈ s.1, p.1 = x.getD i 0) two
    (by
      refine ⟨rfl, p2, fun i hi => ?_⟩
      obtain ⟨m, hm⟩ := p2.shape
      have : i = 0 ∨ i = 1 := by omega
      rcases this with rfl | rfl
      · exact ⟨(x.getD 0 0, f (x.getD 0 0)), by rw [hm]; simp, rfl⟩
      · exact ⟨(x.getD 1 0, f (x.getD 1 0)), by rw [hm]; simp, rfl⟩)
    (by
      rintro m hm1 hm2 ⟨xy, xr⟩ ⟨r1, r2, r3⟩
      have r1' : xr = x.getD (m - 1) 0 := r1
      subst r1'
      have hmm : m - 1 + 1 = m := by omega
      obtain ⟨L, t1, t2⟩ := seg (m - 1) (by omega)
      rw [hmm] at t1 t2
      refine ⟨(xy ++ L.drop 1, x.getD m 0), ?_, rfl, r2.concat t2, fun i hi => ?_⟩
      · rw [adaptNext, rd_getD 0 (by omega), bind_ok, t1, bind_ok, pure_eq_ok]
      · by_cases e : i < m
        · obtain ⟨p, hp, e⟩ := r3 i e
          exact ⟨p, List.mem_append_left _ hp, e⟩
        · have : i = m := by omega
          subst this
          obtain ⟨k, hk⟩ := t2.shape
          exact ⟨(x.getD i 0, f (x.getD i 0)), List.mem_append_right _ (by rw [hk]; simp), rfl⟩)
  obtain ⟨e, u1, u2, u3⟩ := ofPairs_ok q3
  refine ⟨e, ?_, u2, ?_⟩
  · rw [approx, ha, hn]
    dsimp only
    rw [adaptNodes, cassert_of (by simp; omega), bind_ok, rd_getD 0 (by omega), bind_ok, rd_getD 0 (by omega), bind_ok, p1, bind_ok,
      q1, bind_ok, u1]
  · intro i hi
    obtain ⟨p, hp, e1⟩ := q4 i hi
    obtain ⟨k, hk, e2⟩ := u3 p hp
    exact ⟨k, hk, by rw [e2, e1]⟩

/-- **C62** Fixed-grid approximation: the given nodes, with the function's values. -/
theorem approx_fixed_value {f : K → K} {o : AOpts K} {x : List K} (fuel : Nat) (ha : o.adapt = false) (hn : o.nodes = some x)
    (hx : (LE.mk o.num x x).WF) :
    ∃ e, approx fuel o f = .ok e ∧ e.WF ∧ e.nodes = x ∧ ∀ i < e.num, e.cf i = f (e.nd i) := by
  have two : 2 ≤ o.num := hx.two
  have hlen : x.length = o.num := hx.hn
  have fill := forN_fill_all (n := o.num) (a := List.replicate o.num (0 : K)) (body := fun i c => do
    let y ← rd x i
    wr c i (f y)) (fun i => f (x.getD i 0)) (by simp) (by
      intro i hi b _
      rw [rd_getD 0 (by omega), bind_ok])
  have ht : x.take o.num = x := List.take_of_length_le (by omega)
  refine ⟨⟨o.num, x, (List.range o.num).map fun i => f (x.getD i 0)⟩, ?_, WF.swap hx (by simp), rfl, fun i hi => ?_⟩
  · rw [approx, ha, hn]
    dsimp only
    rw [approxFixed, if_neg (by omega), fill, bind_ok, ht, rd_getD 0 (by omega), bind_ok, pure_eq_ok]
  · show ((List.range o.num).map _).getD i 0 = _
    rw [map_range_getD _ hi]; rfl

/-- **C62** An interpolating expansion evaluates to the function at every node that is separated from the others. -/
theorem interp_eval {tol delta hmin a b : K} {f : K → K} {e : LE K} (ht : 0 ≤ tol) (h : Interp f delta hmin a b e) (hs : e.Sep tol) {i : Nat}
    (hi : i < e.num) : eval tol e (e.nd i) = .ok (f (e.nd i)) := by
  rw [eval_node h.wf ht hi (fun j hj => hs i hi j hj), h.val i hi]

/-- **C62** Product on a common grid: exact at every node. -/
theorem prodSame_value {tol : K} (ht : 0 ≤ tol) {f g : LE K} (hf : f.WF) (hg : g.WF) (hn : f.nodes = g.nodes) (hs : f.Sep tol) :
    ∃ h, prodSame tol f g = .ok h ∧ h.WF ∧ h.nodes = f.nodes ∧ ∀ i < f.num, h.cf i = f.cf i * g.cf i ∧
      eval tol h (f.nd i) = .ok (f.cf i * g.cf i) := by
  have hnum : f.num = g.num := by rw [← hf.hn, ← hg.hn, hn]
  have two := hf.two
  have nd : ∀ i, f.nd i = g.nd i := fun i => by rw [LE.nd, LE.nd, hn]
  have sg : g.Sep tol := by
    intro i hi j hj h
    rw [← nd, ← nd] at h
    exact hs i (by omega) j (by omega) h
  have fill := forN_fill_all (n := f.num) (a := List.replicate f.num (0 : K)) (body := fun i c => do
    let x ← rd f.nodes i
    let u ← eval tol f x
    let w ← eval tol g x
    wr c i (u * w)) (fun i => f.cf i * g.cf i) (by simp) (by
      intro i hi b _
      rw [LE.rd_nd hf hi, bind_ok, eval_node hf ht hi (fun j hj => hs i hi j hj), bind_ok, nd,
        eval_node hg ht (by omega) (fun j hj => sg i (by omega) j hj), bind_ok])
  have htake : f.nodes.take f.num = f.nodes := List.take_of_length_le (by rw [hf.hn])
  have hw : (LE.mk f.num f.nodes ((List.range f.num).map fun i => f.cf i * g.cf i)).WF := WF.swap hf (by simp)
  have hcf : ∀ i < f.num, (LE.mk f.num f.nodes ((List.range f.num).map fun i => f.cf i * g.cf i)).cf i = f.cf i * g.cf i := by
    intro i hi
    show ((List.range f.num).map _).getD i 0 = _
    rw [map_range_getD _ hi]
  refine ⟨_, ?_, hw, rfl, fun i hi => ⟨hcf i hi, ?_⟩⟩
  · rw [prodSame, sdiscp_ok hf hg hnum, bind_ok, cassert_of (by
      rw [decide_eq_true_eq]; intro i _; rw [nd, sub_self, abs_zero]; exact ht), bind_ok, fill, bind_ok, htake,
      LE.rd_nd hf (by omega), bind_ok, pure_eq_ok]
  · have := eval_node hw ht hi (fun j hj => hs i hi j hj)
    rw [hcf i hi] at this
    exact this

/-- **C62** Constants and affine functions are reproduced at every point of the range, on the given nodes or on the two bounds. -/
theorem linear_value {tol : K} (ht : 0 ≤ tol) (a b : K) {o : Opts K}
    (h : (o.num = 0 ∧ o.lb < o.ub) ∨ (LE.mk o.num o.nodes o.nodes).WF) :
    ∃ e, linear a b o = .ok e ∧ e.WF ∧ (o.num = 0 → e.nd 0 = o.lb ∧ e.nd (e.num - 1) = o.ub) ∧ (o.num ≠ 0 → e.nodes = o.nodes) ∧
      ∀ x, e.nd 0 ≤ x → x ≤ e.nd (e.num - 1) → (∀ k < e.num, |x - e.nd k| ≤ tol → x = e.nd k) → eval tol e x = .ok (a * x + b) := by
  have main : ∀ n (xs : List K), gridOf o = .ok (n, xs) → (LE.mk n xs xs).WF →
      ∃ e, linear a b o = .ok e ∧ e.WF ∧ e.nodes = xs ∧ e.num = n ∧ ∀ x, e.nd 0 ≤ x → x ≤ e.nd (e.num - 1) →
        (∀ k < e.num, |x - e.nd k| ≤ tol → x = e.nd k) → eval tol e x = .ok (a * x + b) := by
    intro n xs hg hw
    have hlen : xs.length = n := hw.hn
    have fill := forN_fill_all (n := n) (a := List.replicate n (0 : K)) (body := fun i c => do
      let x ← rd xs i
      wr c i (a * x + b)) (fun i => a * xs.getD i 0 + b) (by simp) (by
        intro i hi c _
        rw [rd_getD 0 (by omega), bind_ok])
    have hw' : (LE.mk n xs ((List.range n).map fun i => a * xs.getD i 0 + b)).WF := WF.swap hw (by simp)
    refine ⟨_, by rw [linear, hg, bind_ok]; dsimp only; rw [fill, bind_ok, pure_eq_ok], hw', rfl, rfl, fun x hl hh hx => ?_⟩
    rw [eval_value_partial hw' ht hx]
    congr 1
    obtain ⟨i, q1, q2, q3⟩ := seg_exists hw' hl hh
    have q1' : i + 1 < n := q1
    have hd := (sub_pos.2 (hw'.inc i q1)).ne'
    rw [pl_seg hw' q1 q2 q3]
    have e1 : (LE.mk n xs ((List.range n).map fun i => a * xs.getD i 0 + b)).cf i =
        a * (LE.mk n xs ((List.range n).map fun i => a * xs.getD i 0 + b)).nd i + b := by
      show ((List.range n).map _).getD i 0 = _
      rw [map_range_getD _ (by omega)]; rfl
    have e2 : (LE.mk n xs ((List.range n).map fun i => a * xs.getD i 0 + b)).cf (i + 1) =
        a * (LE.mk n xs ((List.range n).map fun i => a * xs.getD i 0 + b)).nd (i + 1) + b := by
      show ((List.range n).map _).getD (i + 1) 0 = _
      rw [map_range_getD _ q1']; rfl
    rw [e1, e2]
    field_simp
    ring
  rcases h with ⟨h0, hb⟩ | h
  · obtain ⟨e, p1, p2, p3, p4, p5⟩ := main 2 [o.lb, o.ub] (by rw [gridOf, if_pos h0]) ⟨rfl, rfl, le_rfl, by
      intro i hi
      have : i = 0 := by dsimp at hi; omega
      subst this; exact hb⟩
    refine ⟨e, p1, p2, fun _ => ?_, fun hne => absurd h0 hne, p5⟩
    rw [LE.nd, LE.nd, p3, p4]; exact ⟨rfl, rfl⟩
  · have two : 2 ≤ o.num := h.two
    have hl : o.nodes.length = o.num := h.hn
    obtain ⟨e, p1, p2, p3, p4, p5⟩ := main o.num o.nodes (by
      rw [gridOf, if_neg (by omega), if_pos (by omega), List.take_of_length_le (by omega)]) h
    exact ⟨e, p1, p2, fun h0 => by omega, fun _ => p3, p5⟩

theorem constant_value {tol : K} (ht : 0 ≤ tol) (a : K) {o : Opts K}
    (h : (o.num = 0 ∧ o.lb < o.ub) ∨ (LE.mk o.num o.nodes o.nodes).WF) :
    ∃ e, constant a o = .ok e ∧ e.WF ∧ (o.num = 0 → e.nd 0 = o.lb ∧ e.nd (e.num - 1) = o.ub) ∧ (o.num ≠ 0 → e.nodes = o.nodes) ∧
      ∀ x, e.nd 0 ≤ x → x ≤ e.nd (e.num - 1) → eval tol e x = .ok a := by
  have main : ∀ n (xs : List K), gridOf o = .ok (n, xs) → (LE.mk n xs xs).WF →
      ∃ e, constant a o = .ok e ∧ e.WF ∧ e.nodes = xs ∧ e.num = n ∧ ∀ x, e.nd 0 ≤ x → x ≤ e.nd (e.num - 1) →
        eval tol e x = .ok a := by
    intro n xs hg hw
    have fill := forN_fill_all (n := n) (a := List.replicate n (0 : K)) (body := fun i c => wr c i a) (fun _ => a) (by simp)
      (by intro i hi c _; rfl)
    have hw' : (LE.mk n xs ((List.range n).map fun _ => a)).WF := WF.swap hw (by simp)
    refine ⟨_, by rw [constant, hg, bind_ok]; dsimp only; rw [fill, bind_ok, pure_eq_ok], hw', rfl, rfl, fun x hl hh => ?_⟩
    obtain ⟨i, t, hi, _, _, h3, _⟩ := eval_form hw' ht hl hh
    have hi' : i + 1 < n := hi
    have := h3 ((List.range n).map fun _ => a) (by simp)
    rw [map_range_getD _ (by omega), map_range_getD _ hi'] at this
    rw [this]; congr 1; ring
  rcases h with ⟨h0, hb⟩ | h
  · obtain ⟨e, p1, p2, p3, p4, p5⟩ := main 2 [o.lb, o.ub] (by rw [gridOf, if_pos h0]) ⟨rfl, rfl, le_rfl, by
      intro i hi
      have : i = 0 := by dsimp at hi; omega
      subst this; exact hb⟩
    refine ⟨e, p1, p2, fun _ => ?_, fun hne => absurd h0 hne, p5⟩
    rw [LE.nd, LE.nd, p3, p4]; exact ⟨rfl, rfl⟩
  · have two : 2 ≤ o.num := h.two
    have hl : o.nodes.length = o.num := h.hn
    obtain ⟨e, p1, p2, p3, p4, p5⟩ := main o.num o.nodes (by
      rw [gridOf, if_neg (by omega), if_pos (by omega), List.take_of_length_le (by omega)]) h
    exact ⟨e, p1, p2, fun h0 => by omega, fun _ => p3, p5⟩

/-- **C62** A function that is zero everywhere is never accepted, so with minimal spacing 0 the adaptation does not end. -/
theorem adapt_zero_diverges : ∀ fuel (xl xr delta : K), xl < xr → adapt (fun _ : K => 0) delta 0 fuel xl 0 xr 0 = .error .diverge := by
  intro fuel
  induction fuel with
  | zero => intros; rfl
  | succ fuel ih =>
    intro xl xr delta h
    rw [adapt, if_neg (by linarith), if_neg (by simp [accept]), ih _ _ _ (by linarith)]
    rfl

/-! ### Functions with given zeros -/

theorem nonzero_iff {tol : K} {zeros : List K} {x : K} : nonzero tol zeros x = true ↔ ∀ z ∈ zeros, tol ≤ |x - z| := by
  simp [nonzero]

/-- **C63** On a fixed grid: the coefficient is 0 at the nodes within the tolerance of a requested zero and 1 at all others; since
there are more nodes than zeros, and if the nodes are further apart than twice the tolerance, some node has the value 1. -/
theorem onezero_fixed_value {tol : K} {zeros x : List K} {o : AOpts K} (ha : o.adapt = false) (hn : o.nodes = some x)
    (hx : (LE.mk o.num x x).WF) (hnz : zeros.length < o.num) :
    ∃ e, onezero tol zeros o = .ok e ∧ e.WF ∧ e.nodes = x ∧
      (∀ i < o.num, (e.cf i = 0 ∨ e.cf i = 1) ∧ (e.cf i = 0 ↔ ∃ z ∈ zeros, |x.getD i 0 - z| < tol)) ∧
      ((∀ i < o.num, ∀ j < o.num, i ≠ j → 2 * tol ≤ |x.getD i 0 - x.getD j 0|) → ∃ i < o.num, e.cf i = 1) := by
  have hlen : x.length = o.num := hx.hn
  have two : 2 ≤ o.num := hx.two
  have body : ∀ i < o.num, ∀ c : List K, c.length = o.num → c.getD i 0 = (List.replicate o.num (0 : K)).getD i 0 →
      (do let y ← rd x i
          if nonzero tol zeros y then wr c i 1 else pure c : C (List K)) =
        wr c i (if nonzero tol zeros (x.getD i 0) then 1 else 0) := by
    intro i hi c hc hz
    rw [rd_getD 0 (by omega), bind_ok]
    by_cases h : nonzero tol zeros (x.getD i 0) = true
    · rw [if_pos h, if_pos h]
    · rw [if_neg h, if_neg h, wr_ok _ (by omega), pure_eq_ok]
      congr 1
      apply List.ext_getElem? 
      intro k
      by_cases hk : k = i
      · subst hk
        rw [List.getElem?_set_self (by omega), List.getElem?_eq_getElem (by omega)]
        rw [List.getD_eq_getElem?_getD, List.getElem?_eq_getElem (by omega)] at hz
        simp [hi] at hz
        rw [hz]
      · rw [List.getElem?_set_ne (by omega)]
  have fill := forN_inplace (n := o.num) (a := List.replicate o.num (0 : K)) (body := fun i c => do
    let y ← rd x i
    if nonzero tol zeros y then wr c i 1 else pure c) (by simp)
    (fun i _ => if nonzero tol zeros (x.getD i 0) then 1 else 0) body
  have hw : (LE.mk o.num x ((List.range o.num).map fun i => if nonzero tol zeros (x.getD i 0) then (1 : K) else 0)).WF :=
    WF.swap hx (by simp)
  have hcf : ∀ i < o.num, (LE.mk o.num x ((List.range o.num).map fun i => if nonzero tol zeros (x.getD i 0) then (1 : K) else 0)).cf i =
      if nonzero tol zeros (x.getD i 0) then (1 : K) else 0 := by
    intro i hi
    show ((List.range o.num).map _).getD i 0 = _
    rw [map_range_getD _ hi]
  refine ⟨_, ?_, hw, rfl, fun i hi => ?_, fun hsep => ?_⟩
  · rw [onezero, ha, hn]
    dsimp only
    rw [onezeroFixed, cassert_of (decide_eq_true hnz), bind_ok, if_neg (by omega), fill, bind_ok,
      List.take_of_length_le (by omega), pure_eq_ok]
  · rw [hcf i hi]
    by_cases h : nonzero tol zeros (x.getD i 0) = true
    · rw [if_pos h]
      refine ⟨.inr rfl, fun e => absurd e one_ne_zero, ?_⟩
      rintro ⟨z, hz, hlt⟩
      exact absurd hlt (not_lt.2 (nonzero_iff.1 h z hz))
    · rw [if_neg h]
      refine ⟨.inl rfl, fun _ => ?_, fun _ => rfl⟩
      by_contra hc
      exact h (nonzero_iff.2 fun z hz => not_lt.1 fun hlt => hc ⟨z, hz, hlt⟩)
  · by_contra hc
    have all : ∀ i : Fin o.num, ∃ k : Fin zeros.length, |x.getD i 0 - zeros[k]| < tol := by
      intro i
      by_contra hno
      apply hc
      refine ⟨i, i.2, ?_⟩
      rw [hcf i i.2, if_pos]
      refine nonzero_iff.2 fun z hz => ?_
      obtain ⟨k, hk, e⟩ := List.mem_iff_getElem.1 hz
      refine not_lt.1 fun hlt => hno ⟨⟨k, hk⟩, ?_⟩
      simpa [e] using hlt
    choose k hk using all
    have inj : Function.Injective k := by
      intro i j hij
      by_contra hne
      have h1 := hk i
      have h2 := hk j
      rw [← hij] at h2
      have h3 := hsep i i.2 j j.2 (fun e => hne (Fin.ext e))
      have h4 := abs_sub_le (x.getD i 0) (zeros[k i]) (x.getD j 0)
      rw [abs_sub_comm (zeros[k i])] at h4
      linarith
    have := Fintype.card_le_of_injective k inj
    simp at this
    omega

theorem ins_lt {x : K} {l : List K} (h : ∀ y ∈ l, x < y) : ins x l = x :: l := by
  cases l with
  | nil => rfl
  | cons y l => rw [ins, if_pos (h y (by simp)).le]

theorem sort_sorted : ∀ (l : List K), l.Pairwise (· < ·) → sort l = l
  | [], _ => rfl
  | x :: l, h => by
    rw [List.pairwise_cons] at h
    show ins x (sort l) = _
    rw [sort_sorted l h.2, ins_lt h.1]

theorem wf_of_pairwise {xs cs : List K} {n : Nat} (h : xs.Pairwise (· < ·)) (h1 : xs.length = n) (h2 : cs.length = n) (h3 : 2 ≤ n) :
    (LE.mk n xs cs).WF := by
  refine ⟨h1, h2, h3, fun i hi => ?_⟩
  have hi' : i + 1 < n := hi
  show xs.getD i 0 < xs.getD (i + 1) 0
  have := List.pairwise_iff_getElem.1 h i (i + 1) (by omega) (by omega) (by omega)
  simpa [List.getD_eq_getElem?_getD, List.getElem?_eq_getElem (show i < xs.length by omega),
    List.getElem?_eq_getElem (show i + 1 < xs.length by omega)] using this

theorem getD_of_getElem? {l : List K} {i : Nat} {v : K} (h : l[i]? = some v) : l.getD i 0 = v := by
  rw [List.getD_eq_getElem?_getD, h]; rfl

/-- **C63** Adaptive case, requested zeros in increasing order, strictly inside the bounds or touching the upper bound or both
bounds: the result is a well-formed expansion on the whole range that vanishes at every requested location and is 1 somewhere.
Missing: no zeros at all, zeros at the lower bound only, and unsorted zeros, refuted below. -/
theorem onezero_adapt_value_partial {tol : K} (ht : 0 < tol) {zeros : List K} {o : AOpts K} (ha : o.adapt = true)
    (hne : zeros ≠ []) (hs : zeros.Pairwise (· < ·)) (hb : o.lb < o.ub)
    (hlo : ∀ z ∈ zeros, o.lb < z ∧ tol ≤ |z - o.lb| ∨ z = o.lb) (hhi : ∀ z ∈ zeros, z < o.ub ∧ tol ≤ |z - o.ub| ∨ z = o.ub)
    (hcase : o.lb ∈ zeros → o.ub ∈ zeros) :
    ∃ e, onezero tol zeros o = .ok e ∧ e.WF ∧ e.nd 0 = o.lb ∧ e.nd (e.num - 1) = o.ub ∧
      (∀ z ∈ zeros, ∃ i < e.num, e.nd i = z ∧ e.cf i = 0) ∧ ∃ i < e.num, e.cf i = 1 := by
  have hpos : 0 < zeros.length := List.length_pos_iff.2 hne
  have lt_of : ∀ i j (hi : i < zeros.length) (hj : j < zeros.length), i < j → zeros[i] < zeros[j] :=
    fun i j hi hj hij => List.pairwise_iff_getElem.1 hs i j hi hj hij
  have lbz : ∀ z ∈ zeros, o.lb ≤ z := fun z hz => by
    rcases hlo z hz with h | h
    · exact h.1.le
    · exact h.ge
  have zub : ∀ z ∈ zeros, z ≤ o.ub := fun z hz => by
    rcases hhi z hz with h | h
    · exact h.1.le
    · exact h.le
  have m0 : zeros[0] ∈ zeros := List.getElem_mem _
  have ml : zeros[zeros.length - 1] ∈ zeros := List.getElem_mem _
  have onlb : |zeros[0] - o.lb| < tol ↔ zeros[0] = o.lb := by
    constructor
    · intro h
      rcases hlo _ m0 with h' | h'
      · exact absurd h (not_lt.2 h'.2)
      · exact h'
    · intro h; rw [h, sub_self, abs_zero]; exact ht
  have onub : |zeros[zeros.length - 1] - o.ub| < tol ↔ zeros[zeros.length - 1] = o.ub := by
    constructor
    · intro h
      rcases hhi _ ml with h' | h'
      · exact absurd h (not_lt.2 h'.2)
      · exact h'
    · intro h; rw [h, sub_self, abs_zero]; exact ht
  have minz : ∀ z ∈ zeros, zeros[0] ≤ z := by
    intro z hz
    obtain ⟨k, hk, e⟩ := List.mem_iff_getElem.1 hz
    rcases Nat.eq_zero_or_pos k with rfl | hk0
    · exact e.le
    · rw [← e]; exact (lt_of 0 k hpos hk hk0).le
  have maxz : ∀ z ∈ zeros, z ≤ zeros[zeros.length - 1] := by
    intro z hz
    obtain ⟨k, hk, e⟩ := List.mem_iff_getElem.1 hz
    rcases Nat.lt_or_ge k (zeros.length - 1) with hk0 | hk0
    · rw [← e]; exact (lt_of k _ hk (by omega) hk0).le
    · have : k = zeros.length - 1 := by omega
      subst this; exact e.ge
  have start : onezero tol zeros o = onezeroAdapt tol zeros o.lb o.ub := by rw [onezero, ha]
  rw [start, onezeroAdapt, if_neg (by omega), sort_sorted zeros hs, rd_ok hpos, bind_ok, rd_ok (show zeros.length - 1 < zeros.length by omega),
    bind_ok]
  by_cases hl : zeros[0] = o.lb
  · -- both ends
    have hu : zeros[zeros.length - 1] = o.ub :=
      le_antisymm (zub _ ml) (maxz _ (hcase (hl ▸ m0)))
    have h2 : 1 < zeros.length := by
      by_contra hc
      have : zeros.length - 1 = 0 := by omega
      simp only [this] at hu
      rw [hl] at hu; exact absurd hu hb.ne
    rw [decide_eq_true (onlb.2 hl), decide_eq_true (onub.2 hu)]
    dsimp only
    rw [rd_ok h2, bind_ok]
    have h01 : o.lb < zeros[1] := hl ▸ lt_of 0 1 hpos h2 (by omega)
    have hge : ∀ z ∈ zeros.drop 1, zeros[1] ≤ z := by
      intro z hz
      obtain ⟨k, hk, e⟩ := List.mem_iff_getElem.1 hz
      rw [List.getElem_drop] at e
      rw [List.length_drop] at hk
      rcases Nat.eq_zero_or_pos k with rfl | hk0
      · exact e.le
      · rw [← e]; exact (lt_of 1 (1 + k) h2 (by omega) (by omega)).le
    have hpw : (o.lb :: (o.lb + zeros[1]) / 2 :: zeros.drop 1).Pairwise (· < ·) := by
      rw [List.pairwise_cons, List.pairwise_cons]
      refine ⟨fun y hy => ?_, fun y hy => ?_, hs.sublist (List.drop_sublist _ _)⟩
      · rcases List.mem_cons.1 hy with rfl | hy
        · linarith
        · exact h01.trans_le (hge y hy)
      · have := hge y hy; linarith
    have hlen : (o.lb :: (o.lb + zeros[1]) / 2 :: zeros.drop 1).length = zeros.length + 1 := by simp; omega
    have idx : ∀ k, 1 ≤ k → k < zeros.length → (o.lb :: (o.lb + zeros[1]) / 2 :: zeros.drop 1)[k + 1]? = zeros[k]? := by
      intro k hk _
      obtain ⟨m, rfl⟩ : ∃ m, k = m + 1 := ⟨k - 1, by omega⟩
      rw [List.getElem?_cons_succ, List.getElem?_cons_succ, List.getElem?_drop, Nat.add_comm]
    refine ⟨_, rfl, wf_of_pairwise hpw hlen (by simp; omega) (by omega), rfl, ?_, ?_, 1, by show 1 < zeros.length + 1; omega, rfl⟩
    · apply getD_of_getElem?
      show (o.lb :: (o.lb + zeros[1]) / 2 :: zeros.drop 1)[zeros.length + 1 - 1]? = _
      rw [show zeros.length + 1 - 1 = zeros.length - 1 + 1 by omega, idx _ (by omega) (by omega),
        List.getElem?_eq_getElem (by omega), hu]
    · intro z hz
      obtain ⟨k, hk, e⟩ := List.mem_iff_getElem.1 hz
      rcases Nat.eq_zero_or_pos k with rfl | hk0
      · exact ⟨0, by show 0 < zeros.length + 1; omega, by rw [← e, hl]; rfl, rfl⟩
      · refine ⟨k + 1, by show k + 1 < zeros.length + 1; omega, getD_of_getElem? ?_, getD_of_getElem? ?_⟩
        · show (o.lb :: (o.lb + zeros[1]) / 2 :: zeros.drop 1)[k + 1]? = _
          rw [idx k hk0 hk, List.getElem?_eq_getElem hk, e]
        · show (0 :: 1 :: List.replicate (zeros.length - 1) (0 : K))[k + 1]? = _
          obtain ⟨m, rfl⟩ : ∃ m, k = m + 1 := ⟨k - 1, by omega⟩
          rw [List.getElem?_cons_succ, List.getElem?_cons_succ, List.getElem?_replicate, if_pos (by omega)]
  · rw [decide_eq_false (fun h => hl (onlb.1 h))]
    have hlb : ∀ z ∈ zeros, o.lb < z := fun z hz => (lt_of_le_of_ne (lbz _ m0) (Ne.symm hl)).trans_le (minz z hz)
    by_cases hu : zeros[zeros.length - 1] = o.ub
    · rw [decide_eq_true (onub.2 hu)]
      dsimp only
      have hpw : (o.lb :: zeros).Pairwise (· < ·) := List.pairwise_cons.2 ⟨hlb, hs⟩
      refine ⟨_, rfl, wf_of_pairwise hpw (by simp) (by simp) (by omega), rfl, ?_, ?_, 0, by show 0 < zeros.length + 1; omega, rfl⟩
      · apply getD_of_getElem?
        show (o.lb :: zeros)[zeros.length + 1 - 1]? = _
        rw [show zeros.length + 1 - 1 = zeros.length - 1 + 1 by omega, List.getElem?_cons_succ,
          List.getElem?_eq_getElem (by omega), hu]
      · intro z hz
        obtain ⟨k, hk, e⟩ := List.mem_iff_getElem.1 hz
        refine ⟨k + 1, by show k + 1 < zeros.length + 1; omega, getD_of_getElem? ?_, getD_of_getElem? ?_⟩
        · show (o.lb :: zeros)[k + 1]? = _
          rw [List.getElem?_cons_succ, List.getElem?_eq_getElem hk, e]
        · show (1 :: List.replicate zeros.length (0 : K))[k + 1]? = _
          simp [hk]
    · rw [decide_eq_false (fun h => hu (onub.1 h))]
      dsimp only
      have hub : ∀ z ∈ zeros, z < o.ub := fun z hz => (maxz z hz).trans_lt (lt_of_le_of_ne (zub _ ml) hu)
      have hpw : (o.lb :: zeros ++ [o.ub]).Pairwise (· < ·) := by
        rw [List.cons_append, List.pairwise_cons, List.pairwise_append]
        refine ⟨fun y hy => ?_, hs, List.pairwise_singleton _ _, fun a h b hb' => ?_⟩
        · rcases List.mem_append.1 hy with hy | hy
          · exact hlb y hy
          · rw [List.mem_singleton.1 hy]; exact hb
        · rw [List.mem_singleton.1 hb']; exact hub a h
      refine ⟨_, rfl, wf_of_pairwise hpw (by simp) (by simp) (by omega), rfl, ?_, ?_, zeros.length + 1,
        by show zeros.length + 1 < zeros.length + 2; omega, ?_⟩
      · apply getD_of_getElem?
        show (o.lb :: zeros ++ [o.ub])[zeros.length + 2 - 1]? = _
        rw [List.getElem?_append_right (by simp)]; simp
      · intro z hz
        obtain ⟨k, hk, e⟩ := List.mem_iff_getElem.1 hz
        refine ⟨k + 1, by show k + 1 < zeros.length + 2; omega, getD_of_getElem? ?_, getD_of_getElem? ?_⟩
        · show (o.lb :: zeros ++ [o.ub])[k + 1]? = _
          rw [List.getElem?_append_left (by simp; omega), List.getElem?_cons_succ, List.getElem?_eq_getElem hk, e]
        · show (List.replicate (zeros.length + 1) (0 : K) ++ [1])[k + 1]? = _
          rw [List.getElem?_append_left (by simp; omega), List.getElem?_replicate, if_pos (by omega)]
      · apply getD_of_getElem?
        show (List.replicate (zeros.length + 1) (0 : K) ++ [1])[zeros.length + 1]? = _
        rw [List.getElem?_append_right (by simp)]; simp

/-- **C63** No zeros requested: both nodes are 0, whatever the bounds. -/
theorem onezero_none_counterexample (tol : ℚ) :
    onezero tol [] ⟨0, none, 3, 5, true, 1, 1⟩ = .ok ⟨2, [0, 0], [1, 0]⟩ := rfl

/-- **C63** Zeros at the lower bound and inside: the last zero is lost and the lower bound appears twice. -/
theorem onezero_lower_counterexample :
    onezero (1 / 10 ^ 14 : ℚ) [0, 1 / 2] ⟨0, none, 0, 1, true, 1, 1⟩ = .ok ⟨3, [0, 0, 1], [0, 0, 1]⟩ ∧
    eval (1 / 10 ^ 15 : ℚ) ⟨3, [0, 0, 1], [0, 0, 1]⟩ (1 / 2) = .ok (1 / 2) := by
  constructor
  · decide +kernel
  · decide +kernel

/-- **C63** Zeros not in increasing order: the upper bound is not recognised and appears twice. -/
theorem onezero_unsorted_counterexample :
    onezero (1 / 10 ^ 14 : ℚ) [1, 1 / 2] ⟨0, none, 0, 1, true, 1, 1⟩ = .ok ⟨4, [0, 1 / 2, 1, 1], [0, 0, 0, 1]⟩ := by
  decide +kernel

/-! ### The hypotheses are satisfiable -/

example := approx_adapt_value (f := fun x : ℚ => x ^ 2) (o := ⟨0, none, 0, 1, true, 1 / 100, 1 / 8⟩) rfl rfl (by norm_num) (by norm_num)
example := approx_nodes_value (f := fun x : ℚ => x ^ 2) (o := ⟨3, some [0, 1, 3], 0, 3, true, 1 / 100, 1 / 8⟩) rfl rfl (by norm_num)
  (WF.swap exWF rfl)
example := approx_fixed_value (f := fun x : ℚ => x ^ 2) (o := ⟨3, some [0, 1, 3], 0, 3, false, 1, 1⟩) 0 rfl rfl (WF.swap exWF rfl)
example := prodSame_value (tol := (0 : ℚ)) le_rfl exWF exWF rfl (by
  intro i hi j hj h
  have e := sub_eq_zero.1 (abs_nonpos_iff.1 h)
  rcases lt_trichotomy i j with h | h | h
  · exact absurd e (exWF.lt h hj).ne
  · exact h.symm
  · exact absurd e (exWF.lt h hi).ne')
example := linear_value (tol := (0 : ℚ)) le_rfl 2 1 (o := ⟨0, [], 0, 1⟩) (.inl ⟨rfl, by norm_num⟩)
example := constant_value (tol := (0 : ℚ)) le_rfl 2 (o := ⟨3, [0, 1, 3], 0, 3⟩) (.inr (WF.swap exWF rfl))
example := onezero_fixed_value (tol := (1 / 10 : ℚ)) (zeros := [1]) (o := ⟨3, some [0, 1, 3], 0, 3, false, 1, 1⟩) rfl rfl
  (WF.swap exWF rfl) (by decide)
example := onezero_adapt_value_partial (tol := (1 / 10 : ℚ)) (by norm_num) (zeros := [1, 2]) (o := ⟨0, none, 0, 3, true, 1, 1⟩) rfl
  (by simp) (by simp) (by norm_num) (by intro z hz; left; simp at hz; rcases hz with rfl | rfl <;> norm_num)
  (by intro z hz; left; simp at hz; rcases hz with rfl | rfl <;> norm_num) (by simp)

end C3.Lin
