/-
The two loop recursion of limited memory BFGS is the product with the recursively updated matrix; walking the list.
-/
import Verif.Opt.LbfgsList

set_option linter.unusedSectionVars false

namespace C3.Opt
open Finset

variable {K : Type} [Field K] [LinearOrder K] [IsStrictOrderedRing K]

/-- Specification: the inverse Hessian of limited memory BFGS, the pairs `es` (newest first) applied to `gam` times the identity. -/
def lmat (d : Nat) (gam : K) : List (Entry K) → Nat → Nat → K
  | [] => fun i j => if i = j then gam else 0
  | e :: es => bfgs d (lmat d gam es) (gv e.s) (gv e.y)

theorem lmat_symm (d : Nat) (gam : K) : ∀ es : List (Entry K), SymM d (lmat d gam es)
  | [] => fun i _ j _ => by simp [lmat, eq_comm]
  | e :: es => bfgs_symm (lmat_symm d gam es) _ _

/-- Specification: scaling of the starting matrix. -/
def lgam (d : Nat) (scale : Bool) : List (Entry K) → K
  | [] => 1
  | e :: _ => if dot d e.y e.y > 1 / 10 ^ 15 ∧ scale = true then e.rho / dot d e.y e.y else 1

/-- The iterates of the first loop. -/
def qK (d : Nat) (es : Nat → Entry K) (g : List K) : Nat → List K
  | 0 => g
  | k + 1 => (List.range d).map fun i =>
      (qK d es g k).getD i 0 + -(1 / (es k).rho * dot d (es k).s (qK d es g k)) * (es k).y.getD i 0

/-- The coefficients of the first loop. -/
def aK (d : Nat) (es : Nat → Entry K) (g : List K) (k : Nat) : K := 1 / (es k).rho * dot d (es k).s (qK d es g k)

/-- The iterates of the second loop. -/
def rK (d : Nat) (es : Nat → Entry K) (g : List K) (n : Nat) (q0 : List K) : Nat → List K
  | 0 => q0
  | j + 1 => (List.range d).map fun i => (rK d es g n q0 j).getD i 0 +
      (aK d es g (n - 1 - j) - 1 / (es (n - 1 - j)).rho * dot d (es (n - 1 - j)).y (rK d es g n q0 j)) * (es (n - 1 - j)).s.getD i 0

theorem qK_length (d : Nat) (es : Nat → Entry K) {g : List K} (hg : g.length = d) : ∀ k, (qK d es g k).length = d
  | 0 => hg
  | k + 1 => by simp [qK]

theorem rK_length (d : Nat) (es : Nat → Entry K) (g : List K) (n : Nat) {q0 : List K} (h : q0.length = d) : ∀ k, (rK d es g n q0 k).length = d
  | 0 => h
  | k + 1 => by simp [rK]

theorem drop_map_range {α : Type} (f : Nat → α) {n k : Nat} (hk : k < n) :
    ((List.range n).map f).drop k = f k :: ((List.range n).map f).drop (k + 1) := by
  rw [List.drop_eq_getElem_cons (by simpa using hk)]
  simp

/-- The second loop computes products with the recursively updated matrix. -/
theorem two_loop {d n : Nat} {es : Nat → Entry K} {g : List K} {gam : K} (h0 : ∀ k < n, (es k).rho = dot d (es k).s (es k).y)
    (h1 : ∀ k < n, (es k).rho ≠ 0) : ∀ j ≤ n, ∀ i < d, gv (rK d es g n ((List.range d).map fun i => gam * (qK d es g n).getD i 0) j) i =
      mulv d (lmat d gam (((List.range n).map es).drop (n - j))) (gv (qK d es g (n - j))) i := by
  intro j
  induction j with
  | zero =>
    intro _ i hi
    rw [rK, Nat.sub_zero, List.drop_eq_nil_of_le (by simp), lmat, mulv]
    simp [gv, hi]
  | succ j ih =>
    intro hj i hi
    have ih := ih (by omega)
    obtain ⟨k, hk⟩ : ∃ k, k = n - 1 - j := ⟨_, rfl⟩
    have e1 : n - (j + 1) = k := by omega
    have e2 : n - j = k + 1 := by omega
    rw [e2] at ih
    rw [e1, drop_map_range es (by omega : k < n), lmat, mulv_bfgs]
    generalize hA : lmat d gam (((List.range n).map es).drop (k + 1)) = A at ih ⊢
    have hs : SymM d A := by rw [← hA]; exact lmat_symm _ _ _
    have hr := h1 k (by omega)
    have hq : ∀ i < d, gv (qK d es g (k + 1)) i = gv (qK d es g k) i - aK d es g k * gv (es k).y i := by
      intro i hi
      rw [qK, gv, aK]; simp [hi, gv]; ring
    have hr' : ∀ i < d, gv (rK d es g n ((List.range d).map fun i => gam * (qK d es g n).getD i 0) j) i =
        mulv d A (gv (qK d es g k)) i - aK d es g k * mulv d A (gv (es k).y) i := by
      intro i hi
      rw [ih i hi, mulv_congr (fun _ _ => rfl) hq, mulv_sub_smul]
    rw [rK, ← hk]
    generalize rK d es g n ((List.range d).map fun i => gam * (qK d es g n).getD i 0) j = R at hr'
    have eg : gv ((List.range d).map fun i => R.getD i 0 + (aK d es g k - 1 / (es k).rho * dot d (es k).y R) * (es k).s.getD i 0) i =
        gv R i + (aK d es g k - 1 / (es k).rho * dot d (es k).y R) * gv (es k).s i := by
      simp [gv, hi]
    rw [eg, hr' i hi, dot_ip, ip_congr (fun _ _ => rfl) hr', ip_sub, ip_smul, ip_comm d (mulv d A (gv (es k).y)), ip_mulv_comm hs (gv (es k).y) (gv (qK d es g k)),
      aK, dot_ip, h0 k (by omega), dot_ip]
    rw [h0 k (by omega), dot_ip] at hr
    field_simp
    ring

/-- C84: the matrix of limited memory BFGS is positive definite when all stored pairs have positive inner product. -/
theorem lmat_posDef {d : Nat} {gam : K} (hg : 0 < gam) : ∀ {es : List (Entry K)}, (∀ e ∈ es, 0 < dot d e.s e.y) → PosDef d (lmat d gam es)
  | [], _ => by
    intro v ⟨i, hi, hv⟩
    have e : ip d v (mulv d (lmat d gam []) v) = ∑ i ∈ range d, gam * v i ^ 2 := by
      refine sum_congr rfl fun i hi => ?_
      rw [mulv]
      simp only [lmat, ite_mul, zero_mul, sum_ite_eq, hi, if_true]; ring
    rw [e]
    exact sum_pos' (fun i _ => by positivity) ⟨i, mem_range.mpr hi, by positivity⟩
  | e :: es, h => bfgs_posDef (lmat_symm d gam es) (lmat_posDef hg fun e he => h e (List.mem_cons_of_mem _ he)) (h e (List.mem_cons_self ..))

theorem lgam_pos {d : Nat} {scale : Bool} {es : List (Entry K)} (h : ∀ e ∈ es, 0 < e.rho) : 0 < lgam d scale es := by
  cases es with
  | nil => exact one_pos
  | cons e es =>
    rw [lgam]
    split
    · next hc => exact div_pos (h e (List.mem_cons_self ..)) (lt_trans (by positivity) hc.1)
    · exact one_pos

/-! Walking the list. -/

theorem Rep.cursor {l : LL K} {id : Nat → Nat} {nd : Nat → Node K} (h : Rep l id nd) (st : Nat) (cs : Option Nat) :
    Rep ⟨l.m, l.d, l.size, l.head, st, cs, l.heap⟩ id nd :=
  ⟨h.le, h.heapLen, h.heap, h.inj, h.head, h.next, h.prev, h.opened, h.closed, h.slen, h.ylen⟩

/-- `l'` is `l` up to the position of the cursor. -/
def Same (l l' : LL K) : Prop := l'.m = l.m ∧ l'.d = l.d ∧ l'.size = l.size ∧ l'.head = l.head ∧ l'.heap = l.heap

theorem Same.rep {l l' : LL K} (s : Same l l') {id : Nat → Nat} {nd : Nat → Node K} (h : Rep l id nd) : Rep l' id nd := by
  obtain ⟨m, d, size, head, st, cs, heap⟩ := l'
  obtain ⟨rfl, rfl, rfl, rfl, rfl⟩ := s
  exact h.cursor st cs

/-- The cursor of a walk forward has passed `k` nodes. -/
def AtF (l : LL K) (id : Nat → Nat) (k : Nat) : Prop := l.step = k ∧ (0 < k → l.cstep = some (id (k - 1)))

/-- The cursor of a walk backward has passed `k` nodes. -/
def AtB (l : LL K) (id : Nat → Nat) (k : Nat) : Prop := l.step = k ∧ (0 < k → l.cstep = some (id (l.size - k)))

theorem lstep_ok {l : LL K} {id : Nat → Nat} {nd : Nat → Node K} (h : Rep l id nd) {k : Nat} (hk : k < l.size) (ha : AtF l id k) :
    ∃ l', lstep l = .ok (l', nd k) ∧ Same l l' ∧ (k + 1 < l.size → AtF l' id (k + 1)) := by
  obtain ⟨a1, a2⟩ := ha
  rw [lstep, a1]
  by_cases hk0 : k = 0
  · rw [if_pos (by omega), h.head (by omega), deref, rd_some (h.heap 0 (by omega)), bind_ok, hk0]
    refine ⟨_, rfl, ⟨rfl, rfl, rfl, (h.head (by omega)).symm, rfl⟩, fun _ => ⟨rfl, fun _ => ?_⟩⟩
    rfl
  · rw [if_neg (by omega), a2 (by omega), deref, rd_some (h.heap (k - 1) (by omega)), bind_ok, h.next (k - 1) (by omega), show k - 1 + 1 = k by omega, deref,
      rd_some (h.heap k hk), bind_ok]
    refine ⟨_, rfl, ⟨rfl, rfl, rfl, rfl, rfl⟩, fun hlt => ⟨?_, fun _ => rfl⟩⟩
    dsimp only
    rw [if_neg (by omega)]

theorem lback_ok {l : LL K} {id : Nat → Nat} {nd : Nat → Node K} (h : Rep l id nd) {k : Nat} (hk : k < l.size) (ha : AtB l id k) :
    ∃ l', lback l = .ok (l', nd (l.size - 1 - k)) ∧ Same l l' ∧ (k + 1 < l.size → AtB l' id (k + 1)) := by
  obtain ⟨a1, a2⟩ := ha
  rw [lback, a1]
  by_cases hk0 : k = 0
  · rw [if_pos (by omega)]
    obtain ⟨c, e1, e2⟩ := forR_spec (a := 1) (b := l.size) (I := fun i c => c = some (id (i - 1)))
      (body := fun _ c => (do
        let n ← deref l.heap c
        pure n.next : C (Option Nat))) (s := l.head) (by omega) (h.head (by omega)) (by
        intro i h1 h2 c hc
        rw [hc, deref, rd_some (h.heap (i - 1) (by omega)), bind_ok, h.next (i - 1) (by omega)]
        exact ⟨_, rfl, by rw [show i - 1 + 1 = i by omega, show i + 1 - 1 = i by omega]⟩)
    rw [e1, bind_ok, e2, deref, rd_some (h.heap (l.size - 1) (by omega)), bind_ok, hk0]
    exact ⟨_, rfl, ⟨rfl, rfl, rfl, rfl, rfl⟩, fun _ => ⟨rfl, fun _ => rfl⟩⟩
  · have e := h.prev (l.size - 1 - k) (by omega)
    rw [show l.size - 1 - k + 1 = l.size - k by omega] at e
    rw [if_neg (by omega), a2 (by omega), deref, rd_some (h.heap (l.size - k) (by omega)), bind_ok, e, deref,
      rd_some (h.heap (l.size - 1 - k) (by omega)), bind_ok]
    refine ⟨_, rfl, ⟨rfl, rfl, rfl, rfl, rfl⟩, fun hlt => ⟨?_, fun _ => ?_⟩⟩
    · dsimp only
      rw [if_neg (by omega)]
    · dsimp only
      rw [show l.size - (k + 1) = l.size - 1 - k by omega]

theorem recip_ok {r : K} (h : r ≠ 0) : recip r = .ok (1 / r) := by rw [recip, if_neg h]; rfl

/-- The two loop recursion on a list in order: the product of the matrix with the gradient. -/
theorem lbfgsHg_ok {l : LL K} {id : Nat → Nat} {nd : Nat → Node K} (h : Rep l id nd) {iter m : Nat} (hm : l.m = m)
    (hs : l.size = min iter m) (hpos : 0 < l.size) (hit : ∀ k < l.size, (nd k).iter = iter - 1 - k)
    (hrho : ∀ k < l.size, (nd k).rhoinv = dot l.d (nd k).s (nd k).y) (hne : ∀ k < l.size, (nd k).rhoinv ≠ 0) (scale : Bool)
    {alpha g q : List K} (hal : alpha.length = m) (hg : g.length = l.d) (hq : q.length = l.d) :
    ∃ st, lbfgsHg iter m l.d 1 scale alpha g q l = .ok st ∧ Same l st.l ∧ st.alpha.length = m ∧
      st.q = (List.range l.d).map fun i =>
        mulv l.d (lmat l.d (lgam l.d scale ((List.range l.size).map fun k => pay (nd k))) ((List.range l.size).map fun k => pay (nd k))) (gv g) i := by
  have hb : (if iter ≤ m then iter else m) = l.size := by split <;> omega
  have hi : (if iter ≤ m then 0 else iter - m) = iter - l.size := by split <;> omega
  obtain ⟨es, hes⟩ : ∃ es : Nat → Entry K, es = fun k => pay (nd k) := ⟨_, rfl⟩
  rw [lbfgsHg, hb, hi, dcopy_ok hg hq, bind_ok]
  -- the first loop
  obtain ⟨st, e1, s1, f1, a1, a2, q1, n1⟩ := forN_spec (n := l.size) (body := fun k st => hg1 l.d l.size (iter - l.size) k st)
    (s := ⟨l.reset, alpha, g, 0, 0⟩)
    (I := fun k st => Same l st.l ∧ (k < l.size → AtF st.l id k) ∧ st.alpha.length = m ∧
      (∀ j < k, st.alpha.getD (l.size - 1 - j) 0 = aK l.d es g j) ∧ st.q = qK l.d es g k ∧
      (0 < k → st.num = (es 0).rho ∧ st.den = dot l.d (es 0).y (es 0).y))
    ⟨⟨rfl, rfl, rfl, rfl, rfl⟩, fun _ => ⟨rfl, fun hh => by omega⟩, hal, fun j hj => by omega, rfl, fun hh => by omega⟩ (by
      intro k hk st ⟨s1, f1, a1, a2, q1, n1⟩
      have hql : st.q.length = l.d := by rw [q1]; exact qK_length _ _ hg k
      have hr := s1.rep h
      obtain ⟨l', b1, b2, b3⟩ := lstep_ok hr (by rw [s1.2.2.1]; exact hk) (f1 hk)
      rw [hg1, b1, bind_ok]
      dsimp only
      have hden : hgDen l.d l.size (l.size - 1 - k) (nd k) st.den =
          Except.ok (if l.size - 1 - k = l.size - 1 then dot l.d (nd k).y (nd k).y else st.den) := by
        rw [hgDen]
        split
        · exact dot_ok (h.ylen k hk) (h.ylen k hk)
        · rfl
      rw [hden, bind_ok, cassert_of (by rw [hit k hk]; simp; omega), bind_ok, recip_ok (hne k hk), bind_ok, dot_ok (h.slen k hk) hql, bind_ok,
        wr_ok _ (by rw [a1]; have := h.le; omega), bind_ok, daxpy_ok _ (h.ylen k hk) hql, bind_ok]
      refine ⟨_, rfl, ⟨b2.1.trans s1.1, b2.2.1.trans s1.2.1, b2.2.2.1.trans s1.2.2.1, b2.2.2.2.1.trans s1.2.2.2.1, b2.2.2.2.2.trans s1.2.2.2.2⟩,
        fun hlt => b3 (by rw [s1.2.2.1]; exact hlt), by simp [a1], ?_, ?_, ?_⟩
      · intro j hj
        dsimp only
        by_cases hjk : j = k
        · rw [hjk, List.getD_eq_getElem?_getD, List.getElem?_set_self (by rw [a1]; have := h.le; omega), Option.getD_some, aK, ← q1, hes]; rfl
        · rw [List.getD_eq_getElem?_getD, List.getElem?_set_ne (by omega), ← List.getD_eq_getElem?_getD]
          exact a2 j (by omega)
      · dsimp only
        rw [qK, ← q1, hes]; rfl
      · intro _
        dsimp only
        by_cases hk0 : k = 0
        · rw [if_pos (by omega), if_pos (by omega), hk0, hes]; exact ⟨rfl, rfl⟩
        · rw [if_neg (by omega), if_neg (by omega)]
          exact n1 (by omega))
  rw [e1, bind_ok]
  have hql : st.q.length = l.d := by rw [q1]; exact qK_length _ _ hg _
  obtain ⟨gam, hgam⟩ : ∃ gam, gam = lgam l.d scale ((List.range l.size).map es) := ⟨_, rfl⟩
  obtain ⟨hn, hd⟩ := n1 hpos
  have hgam' : gam = if st.den > 1 / 10 ^ 15 ∧ scale = true then 1 * st.num / st.den else 1 := by
    have := drop_map_range es hpos
    rw [List.drop_zero] at this
    rw [hgam, this, lgam, hn, hd, one_mul]
  rw [C3.Lin.forN_inplace hql (fun i v => gam * v) (by
    intro i hi b hb e
    rw [rd_getD 0 (by omega), bind_ok, e, hgam']
    split
    · rw [mul_comm]
    · rw [mul_comm]), bind_ok]
  -- the second loop
  obtain ⟨st', e2, s2, f2, a3, a4, q2⟩ := forN_spec (n := l.size) (body := fun ii st => hg2 l.d ii st)
    (s := ⟨st.l.reset, st.alpha, (List.range l.d).map fun i => gam * st.q.getD i 0, st.num, st.den⟩)
    (I := fun k st' => Same l st'.l ∧ (k < l.size → AtB st'.l id k) ∧ st'.alpha.length = m ∧ st'.alpha = st.alpha ∧
      st'.q = rK l.d es g l.size ((List.range l.d).map fun i => gam * st.q.getD i 0) k)
    ⟨s1, fun _ => ⟨rfl, fun hh => by omega⟩, a1, rfl, rfl⟩ (by
      intro k hk st' ⟨s2, f2, a3, a4, q2⟩
      have hql : st'.q.length = l.d := by rw [q2]; exact rK_length _ _ _ _ (by simp) k
      have hr := s2.rep h
      obtain ⟨l', b1, b2, b3⟩ := lback_ok hr (by rw [s2.2.2.1]; exact hk) (f2 hk)
      rw [s2.2.2.1] at b1
      have hk' : l.size - 1 - k < l.size := by omega
      have hrd : rd st'.alpha k = .ok (aK l.d es g (l.size - 1 - k)) := by
        rw [rd_getD 0 (by rw [a3]; have := h.le; omega), a4, ← a2 (l.size - 1 - k) hk', show l.size - 1 - (l.size - 1 - k) = k by omega]
      rw [hg2, b1, bind_ok]
      dsimp only
      rw [recip_ok (hne _ hk'), bind_ok, dot_ok (h.ylen _ hk') hql, bind_ok, hrd, bind_ok, daxpy_ok _ (h.slen _ hk') hql, bind_ok]
      refine ⟨_, rfl, ⟨b2.1.trans s2.1, b2.2.1.trans s2.2.1, b2.2.2.1.trans s2.2.2.1, b2.2.2.2.1.trans s2.2.2.2.1, b2.2.2.2.2.trans s2.2.2.2.2⟩,
        fun hlt => b3 (by rw [s2.2.2.1]; exact hlt), a3, a4, ?_⟩
      dsimp only
      rw [rK, ← q2, hes]; rfl)
  refine ⟨st', e2, s2, a3, ?_⟩
  rw [q2, q1]
  have key := two_loop (d := l.d) (n := l.size) (es := es) (g := g) (gam := gam) (by rw [hes]; exact hrho) (by rw [hes]; exact hne) l.size le_rfl
  rw [Nat.sub_self, List.drop_zero] at key
  have e3 : (fun k => pay (nd k)) = es := hes.symm
  rw [e3, ← hgam]
  apply List.ext_getElem
  · rw [rK_length _ _ _ _ (by simp)]; simp
  · intro i h1 h2
    have hi : i < l.d := by simpa using h2
    have := key i hi
    rw [gv, List.getD_eq_getElem?_getD, List.getElem?_eq_getElem h1, Option.getD_some] at this
    rw [this]; simp [qK]

theorem forN_first_error {σ : Type} {n : Nat} {body : Nat → σ → C σ} {s : σ} {e : Err} (hn : 0 < n) (h : body 0 s = .error e) :
    forN n body s = .error e := by
  induction n with
  | zero => omega
  | succ n ih =>
    rw [forN_succ]
    by_cases h0 : n = 0
    · subst h0; exact h
    · rw [ih (by omega)]; rfl

/-- If the newest pair has inner product zero the recursion divides by zero. -/
theorem lbfgsHg_zero {l : LL K} {id : Nat → Nat} {nd : Nat → Node K} (h : Rep l id nd) {iter m : Nat} (hm : l.m = m)
    (hs : l.size = min iter m) (hpos : 0 < l.size) (hit : (nd 0).iter = iter - 1) (h0 : (nd 0).rhoinv = 0) (scale : Bool)
    {alpha g q : List K} (hg : g.length = l.d) (hq : q.length = l.d) :
    lbfgsHg iter m l.d 1 scale alpha g q l = .error .ub := by
  have hb : (if iter ≤ m then iter else m) = l.size := by split <;> omega
  have hi : (if iter ≤ m then 0 else iter - m) = iter - l.size := by split <;> omega
  rw [lbfgsHg, hb, hi, dcopy_ok hg hq, bind_ok, forN_first_error hpos, bind_error]
  obtain ⟨l', b1, _⟩ := lstep_ok (l := l.reset) (h.cursor 0 l.cstep) (k := 0) hpos ⟨rfl, fun hh => by omega⟩
  rw [hg1, b1, bind_ok]
  dsimp only
  rw [hgDen, if_pos (by omega), dot_ok (h.ylen 0 hpos) (h.ylen 0 hpos), bind_ok, cassert_of (by rw [hit]; simp; omega), bind_ok, recip, if_pos h0, bind_error]

end C3.Opt
