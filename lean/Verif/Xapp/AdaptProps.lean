/-
C108: cross approximation with rank adaptation.
-/
import Verif.Xapp.AdaptModel
import Verif.Xapp.Props
import Verif.Ind.Props

set_option linter.unusedSectionVars false

namespace C3.Xa
open Finset C3.Ft C3.Round C3.Mv C3.Fw C3.Ind
variable {U X : Type} [Zero X] {e : Ev ℝ U X} {F : Fam U X} {I : Integ ℝ X}

/-- More nodes span as well. -/
theorem rspan_append {f : List X → ℝ} {d k : Nat} {S : List (List X)} (h : RSpan F f d k S) (T : List (List X)) :
    RSpan F f d k (S ++ T) := by
  intro w hw hwo
  obtain ⟨g, hg⟩ := h w hw hwo
  refine ⟨fun b => if b < S.length then g b else 0, fun y hy hyo => ?_⟩
  rw [hg y hy hyo, List.length_append, sum_range_add]
  rw [sum_eq_zero (s := range T.length) (fun b _ => by
    dsimp only
    rw [if_neg (by omega), zero_mul]), add_zero]
  refine sum_congr rfl fun b hb => ?_
  dsimp only
  rw [if_pos (mem_range.1 hb), List.getD_eq_getElem?_getD, List.getD_eq_getElem?_getD,
    List.getElem?_append_left (mem_range.1 hb)]
where
  sum_range_add {M : Type} [AddCommMonoid M] {f : Nat → M} {n m : Nat} :
      ∑ i ∈ range (n + m), f i = ∑ i ∈ range n, f i + ∑ i ∈ range m, f (n + i) := by
    exact Finset.sum_range_add f n m

/-- State of the adaptation: ranks `rk`, right index sets `Ss`. -/
structure KInv (F : Fam U X) (d : Nat) (rk : Nat → Nat) (Ss : Nat → List (List X)) (t : Ra X) : Prop where
  rko : RkOk d t.ranks rk
  found : t.found = t.ranks
  rl : t.right.length = d
  right : ∀ j < d, RightAt F d rk t.right j (Ss j)

theorem set_range_map (d : Nat) (rk : Nat → Nat) {i : Nat} (v : Nat) :
    ((List.range d).map rk).set i v = (List.range d).map (Function.update rk i v) := by
  refine List.ext_getElem? fun k => ?_
  by_cases hk : k < d
  · by_cases hik : i = k
    · subst hik
      rw [List.getElem?_set_self (by simpa using hk), List.getElem?_map, List.getElem?_range hk, Option.map_some,
        Function.update_self]
    · rw [List.getElem?_set_ne hik, List.getElem?_map, List.getElem?_map, List.getElem?_range hk, Option.map_some, Option.map_some,
        Function.update_of_ne (Ne.symm hik)]
  · rw [List.getElem?_eq_none (by simp; omega), List.getElem?_eq_none (by simp; omega)]

/-- One rank. -/
theorem kickAt_ok {a : CArgs} {d : Nat} {rk : Nat → Nat} {Ss : Nat → List (List X)} {t : Ra X} (h : KInv F d rk Ss t) {i : Nat}
    (h1 : 1 ≤ i) (h2 : i < d) {mx : Nat} (hmx : a.maxranks[i - 1]? = some mx) (hlt : rk i < mx) :
    ∃ t' S', kickAt a i t = .ok t' ∧ t'.adapt = true ∧
      KInv F d (Function.update rk i (rk i + kickSize (rk i) a.kickrank mx)) (Function.update Ss (i - 1) (Ss (i - 1) ++ S')) t' := by
  obtain ⟨ks, hks⟩ : ∃ ks, ks = kickSize (rk i) a.kickrank mx := ⟨_, rfl⟩
  obtain ⟨r, r1, r2, r3⟩ := h.right (i - 1) (by omega)
  have hpos : 0 < (Ss (i - 1)).length := by
    rw [r3]; exact h.rko.pos _ (by omega)
  rw [show i - 1 + 1 = i by omega] at r3
  obtain ⟨rows, z, hz⟩ : ∃ rows z, Ss (i - 1) = rows ++ [z] :=
    ⟨_, _, (List.dropLast_append_getLast (List.ne_nil_of_length_pos hpos)).symm⟩
  have hr : r = some (Ind.mk (d - 1 - (i - 1)) (rows ++ [z])) := by
    rcases r2.ptr with q | q
    · exact absurd q.1 (by omega)
    · rw [q.2, hz]
  have hzl : z.length = d - 1 - (i - 1) := r2.len z (by rw [hz]; simp)
  have hilen : i < t.ranks.length := by rw [h.rko.eq]; simp; omega
  have hset : t.ranks.set i (rk i + ks) = (List.range (d + 1)).map (Function.update rk i (rk i + ks)) := by
    rw [h.rko.eq]; exact set_range_map (d + 1) rk (rk i + ks)
  refine ⟨⟨t.ranks.set i (rk i + ks), t.ranks.set i (rk i + ks), t.right.set (i - 1)
    (some (Ind.mk (d - 1 - (i - 1)) (rows ++ [z] ++ List.replicate ks z))), true⟩, List.replicate ks z, ?_, rfl, ?_⟩
  · rw [kickAt, rd_of_getElem? (h.rko.get (show i ≤ d by omega)), bind_ok, rd_of_getElem? hmx, bind_ok, if_pos hlt, h.found,
      rd_of_getElem? (h.rko.get (show i ≤ d by omega)), bind_ok, ← hks, wr_ok (a := t.ranks) _ hilen, bind_ok,
      rd_of_getElem? r1, bind_ok, hr, copylast_spec _ _ _ hzl, bind_ok, wr_ok (a := t.right) _ (by rw [h.rl]; omega), bind_ok,
      rd_of_getElem? (List.getElem?_set_self hilen), bind_ok, wr_ok (a := t.ranks) _ hilen, bind_ok, pure_eq_ok]
  · rw [← hks]
    refine ⟨⟨hset, ?_, ?_, ?_⟩, rfl, by rw [List.length_set]; exact h.rl, ?_⟩
    · rw [Function.update_of_ne (by omega)]; exact h.rko.first
    · rw [Function.update_of_ne (by omega)]; exact h.rko.last
    · intro k hk
      by_cases hki : k = i
      · subst hki; rw [Function.update_self]; have := h.rko.pos k hk; omega
      · rw [Function.update_of_ne hki]; exact h.rko.pos k hk
    · intro j hj
      by_cases hji : j = i - 1
      · subst hji
        rw [Function.update_self]
        refine ⟨_, List.getElem?_set_self (by rw [h.rl]; omega), ⟨?_, ?_, Or.inr ⟨by omega, by rw [hz]⟩⟩, ?_⟩
        · intro q hq
          rcases List.mem_append.1 hq with hq | hq
          · exact r2.len q hq
          · rw [List.eq_of_mem_replicate hq]; exact hzl
        · intro q hq
          rcases List.mem_append.1 hq with hq | hq
          · exact r2.on q hq
          · rw [List.eq_of_mem_replicate hq]; exact r2.on z (by rw [hz]; simp)
        · rw [List.length_append, List.length_replicate, r3, show i - 1 + 1 = i by omega, Function.update_self]
      · rw [Function.update_of_ne hji]
        obtain ⟨q, q1, q2, q3⟩ := (h.right j hj).set (i := i - 1) (Ne.symm hji) (some (Ind.mk (d - 1 - (i - 1)) (rows ++ [z] ++ List.replicate ks z)))
        exact ⟨q, q1, q2, by rw [Function.update_of_ne (by omega)]; exact q3⟩

/-- All ranks below number `i` have been looked at; `rk0` are the ranks before. -/
structure KStep (F : Fam U X) (a : CArgs) (frk : List Nat) (d : Nat) (rk0 : Nat → Nat) (Ss0 : Nat → List (List X)) (mx : Nat → Nat)
    (i : Nat) (t : Ra X) (rk : Nat → Nat) (Ss : Nat → List (List X)) : Prop extends KInv F d rk Ss t where
  spans : ∀ f : List X → ℝ, Spans F f d Ss0 → Spans F f d Ss
  rest : ∀ j, i ≤ j → rk j = rk0 j
  ge : ∀ j, rk0 j ≤ rk j
  le : ∀ j, rk j ≤ max (rk0 j) (mx j)
  same : t.adapt = false → rk = rk0 ∧ ∀ j, 1 ≤ j → j < i → frk[j]? ≠ some (rk0 j) ∨ mx j ≤ rk0 j
  grow : t.adapt = true → 0 < a.kickrank → ∃ j, 1 ≤ j ∧ j < i ∧ rk0 j < rk j ∧ rk0 j < mx j
  raised : ∀ j, 1 ≤ j → j < i → frk[j]? = some (rk0 j) → rk0 j < mx j → t.adapt = true
  zero : a.kickrank = 0 → rk = rk0

theorem kickAll_ok {a : CArgs} {frk : List Nat} {d : Nat} (hd : a.dim = d) (hd1 : 1 ≤ d) {rk0 : Nat → Nat}
    {Ss0 : Nat → List (List X)} {mx : Nat → Nat} (hmx : ∀ i, 1 ≤ i → i < d → a.maxranks[i - 1]? = some (mx i))
    (hfl : d ≤ frk.length) {t : Ra X} (h : KInv F d rk0 Ss0 t) :
    ∃ t' rk Ss, kickAll a frk t = .ok t' ∧ KStep F a frk d rk0 Ss0 mx d t' rk Ss := by
  rw [kickAll, hd]
  obtain ⟨t', e1, rk, Ss, e2⟩ := forR_spec (a := 1) (b := d) (body := kickStep a frk) (s := { t with adapt := false })
    (I := fun i t' => ∃ rk Ss, KStep F a frk d rk0 Ss0 mx i t' rk Ss) hd1
    ⟨rk0, Ss0, ⟨⟨h.rko, h.found, h.rl, h.right⟩, fun _ h => h, fun _ _ => rfl, fun _ => le_rfl, fun _ => le_max_left _ _,
      fun _ => ⟨rfl, fun j h1 h2 => absurd h2 (by omega)⟩, fun h => absurd h (by simp), fun j h1 h2 => absurd h2 (by omega), fun _ => rfl⟩⟩
    (by
      rintro i h1 h2 t1 ⟨rk, Ss, q⟩
      have hfound : t1.found[i]? = some (rk i) := by rw [q.found]; exact q.rko.get (by omega)
      have hri : rk i = rk0 i := q.rest i le_rfl
      rw [kickStep, rd_of_getElem? hfound, bind_ok, rd_ok (show i < frk.length by omega), bind_ok]
      have hg : frk[i]? = some frk[i] := List.getElem?_eq_getElem _
      by_cases hc : rk i = frk[i]
      · rw [if_pos hc]
        by_cases hlt : rk i < mx i
        · obtain ⟨t2, S', k1, k2, k3⟩ := kickAt_ok q.toKInv h1 h2 (hmx i h1 h2) hlt
          refine ⟨t2, k1, _, _, k3, ?_, ?_, ?_, ?_, fun h => absurd h (by simp [k2]), ?_, fun _ _ _ _ _ => k2, ?_⟩
          · intro f hf j hj
            have := q.spans f hf
            by_cases hji : j = i - 1
            · subst hji
              rw [Function.update_self]
              exact rspan_append (this _ hj) S'
            · rw [Function.update_of_ne hji]; exact this j hj
          · intro j hj
            rw [Function.update_of_ne (by omega)]; exact q.rest j (by omega)
          · intro j
            by_cases hji : j = i
            · subst hji; rw [Function.update_self]; have := q.ge j; omega
            · rw [Function.update_of_ne hji]; exact q.ge j
          · intro j
            by_cases hji : j = i
            · subst hji
              rw [Function.update_self, kickSize]
              split <;> omega
            · rw [Function.update_of_ne hji]; exact q.le j
          · intro _ hk
            refine ⟨i, h1, by omega, ?_, by omega⟩
            rw [Function.update_self, kickSize]
            split <;> omega
          · intro hk0
            rw [kickSize, hk0, if_pos (by omega), Nat.add_zero, Function.update_eq_self]
            exact q.zero hk0
        · rw [kickAt, rd_of_getElem? (q.rko.get (show i ≤ d by omega)), bind_ok, rd_of_getElem? (hmx i h1 h2), bind_ok, if_neg hlt]
          refine ⟨t1, rfl, rk, Ss, q.toKInv, q.spans, fun j hj => q.rest j (by omega), q.ge, q.le, fun hf => ?_, fun x y => ?_, ?_, q.zero⟩
          · refine ⟨(q.same hf).1, fun j j1 j2 => ?_⟩
            by_cases hji : j = i
            · subst hji; right; omega
            · exact (q.same hf).2 j j1 (by omega)
          · obtain ⟨j, j1, j2, j3⟩ := q.grow x y
            exact ⟨j, j1, by omega, j3⟩
          · intro j j1 j2 j3 j4
            by_cases hji : j = i
            · subst hji; omega
            · exact q.raised j j1 (by omega) j3 j4
      · rw [if_neg hc]
        refine ⟨t1, rfl, rk, Ss, q.toKInv, q.spans, fun j hj => q.rest j (by omega), q.ge, q.le, fun hf => ?_, fun x y => ?_, ?_, q.zero⟩
        · refine ⟨(q.same hf).1, fun j j1 j2 => ?_⟩
          by_cases hji : j = i
          · subst hji
            left
            rw [hg]
            intro hh
            exact hc (by rw [hri]; exact (Option.some.inj hh).symm)
          · exact (q.same hf).2 j j1 (by omega)
        · obtain ⟨j, j1, j2, j3⟩ := q.grow x y
          exact ⟨j, j1, by omega, j3⟩
        · intro j j1 j2 j3 j4
          by_cases hji : j = i
          · subst hji
            rw [hg] at j3
            exact absurd (by rw [hri]; exact (Option.some.inj j3).symm) hc
          · exact q.raised j j1 (by omega) j3 j4)
  exact ⟨t', rk, Ss, e1, e2⟩

/-- Contract of the constant train that stands for a train with too small a norm: `d` dimensions, all ranks 1. -/
def ZeroLaw (e : Ev ℝ U X) (F : Fam U X) (d : Nat) (o : RdOps U) : Prop :=
  ∃ z, o.zero = .ok z ∧ z.Ok F ∧ z.dim = d ∧ z.ranks = List.replicate (d + 1) 1 ∧
    ∀ x : List X, x.length = d → On F 0 x → value e z.cores x = 0

theorem Ok_ranks_length {a : FT ℝ U} (h : a.Ok F) : a.ranks.length = a.dim + 1 := by
  rw [h.wf.ranks, List.length_cons, List.length_map, h.wf.dim]

theorem round_any {o : RdOps U} (h : Laws e F I o) {d : Nat} (hz : ZeroLaw e F d o) {a : FT ℝ U} (ha : a.Ok F) (had : a.dim = d)
    (h2 : 2 ≤ d) (thr eps : ℝ) :
    ∃ b, ftRound o none thr a eps = .ok b ∧ b.Ok F ∧ b.dim = d ∧ ∀ k ≤ d, b.ranks.getD k 0 ≤ a.ranks.getD k 0 := by
  by_cases ht : thr ≤ nrm e I a
  · obtain ⟨b, b1, b2, -⟩ := roundMain_ok h.int h.mem h.lin h.inner h.qr h.lq h.svd ha (by omega) (mr := none) (by simp) eps
    exact ⟨b, by rw [round_run h ha ht, b1], b2.ok, by rw [b2.dim, had], fun k _ => b2.ranks k⟩
  · obtain ⟨z, z1, z2, z3, z4, -⟩ := hz
    refine ⟨z, by rw [round_small h ha (not_le.1 ht), z1], z2, z3, fun k hk => ?_⟩
    have hk' : k < a.ranks.length := by rw [Ok_ranks_length ha]; omega
    have hp := ha.pos k _ (List.getElem?_eq_getElem hk')
    rw [z4, List.getD_eq_getElem?_getD, List.getElem?_replicate, if_pos (by omega), List.getD_eq_getElem?_getD,
      List.getElem?_eq_getElem hk']
    exact hp

/-- One cross approximation inside the adaptation. -/
theorem cross_pass {o : XOps U X} (h : XLaws e F I o) {f : List X → ℝ} {d : Nat} (hd : 2 ≤ d) (hf : Fib e F d f) {rk : Nat → Nat}
    {Ss : Nat → List (List X)} {t : Ra X} (ht : KInv F d rk Ss t) {fw : Fwrap X ℝ} (hfw : FwOk f d fw)
    {left : List (Option (CIndex X))} (hl : left.length = d) (hl0 : left[0]? = some none) {ref : FT ℝ U} (hr : ref.Ok F)
    (hrd : ref.dim = d) (eps : ℝ) {maxiter fuel : Nat} (hm : 0 < maxiter) (hfu : maxiter ≤ fuel) :
    ∃ c s Ss', cross e o d t.ranks eps maxiter fuel fw left t.right ref = .ok (c, s) ∧ Pass e F f d rk t.ranks Ss' c s ∧
      (Spans F f d Ss → Spans F f d Ss' ∧ Exact e F f d c) := by
  have hst : Start e F f d rk Ss ⟨fw, left, t.right, List.replicate d none⟩ :=
    ⟨⟨hfw, hl, ht.rl, List.length_replicate⟩, hl0, ht.right⟩
  rw [cross, copy_ok hr.wf, bind_ok]
  rcases xLoop_total h hd hf ht.rko (eps := eps) maxiter fuel 0 hst
    (fti := { ref with sp1 := none, sp2 := none, sp3 := none }) (copy_Ok hr) hrd (fti2 := none) (by simp) with
    ⟨b, s, Ss', r1, r2, r3⟩ | ⟨-, r2⟩
  · exact ⟨b, s, Ss', r1, r2, r3⟩
  · exact absurd ⟨hm, by omega⟩ r2

/-- The result: `b` is the rounding of a cross approximation `c` with the ranks `rk`. -/
structure Adapted (e : Ev ℝ U X) (F : Fam U X) (o : XOps U X) (f : List X → ℝ) (d : Nat) (a : CArgs) (mx : Nat → Nat) (rk0 : Nat → Nat)
    (P : Prop) (b : FT ℝ U) (t : Ra X) (rk : Nat → Nat) (c : FT ℝ U) (s : Xs U X) (Ss' : Nat → List (List X)) : Prop where
  rko : RkOk d t.ranks rk
  pass : Pass e F f d rk t.ranks Ss' c s
  round : ftRound o.rd none o.thr c a.epsround = .ok b
  exact : P → Exact e F f d c
  ge : ∀ j, rk0 j ≤ rk j
  le : ∀ j, rk j ≤ max (rk0 j) (mx j)
  resolved : ∀ j, 1 ≤ j → j < d → b.ranks[j]? ≠ some (rk j) ∨ mx j ≤ rk j

theorem measure_lt {d : Nat} {rk rk' mx : Nat → Nat} (h : ∀ j, rk j ≤ rk' j) {j : Nat} (hj : j < d) (h1 : rk j < rk' j) (h2 : rk j < mx j) :
    ∑ j ∈ range d, (mx j - rk' j) < ∑ j ∈ range d, (mx j - rk j) :=
  sum_lt_sum (fun i _ => Nat.sub_le_sub_left (h i) _) ⟨j, mem_range.2 hj, by omega⟩

theorem raLoop_ok {o : XOps U X} (h : XLaws e F I o) {f : List X → ℝ} {d : Nat} (hz : ZeroLaw e F d o.rd) (hd : 2 ≤ d) (hf : Fib e F d f)
    {a : CArgs} (had : a.dim = d) (hk : 0 < a.kickrank) (hm : 0 < a.maxiter) (hfu : a.maxiter ≤ a.fuel) {mx : Nat → Nat}
    (hmx : ∀ i, 1 ≤ i → i < d → a.maxranks[i - 1]? = some (mx i)) {ref : FT ℝ U} (hr : ref.Ok F) (hrd : ref.dim = d) {P : Prop} :
    ∀ (n : Nat) {ftr : FT ℝ U} {t : Ra X} {fw : Fwrap X ℝ} {left : List (Option (CIndex X))} {rk : Nat → Nat} {Ss : Nat → List (List X)},
      KInv F d rk Ss t → (P → Spans F f d Ss) → FwOk f d fw → left.length = d → left[0]? = some none →
      (t.adapt = true → ∑ j ∈ range d, (mx j - rk j) < n) →
      (t.adapt = false → ∃ c s Ss', Adapted e F o f d a mx rk P ftr t rk c s Ss') →
      ∃ b t' rk' c s Ss', raLoop e o a ref n ftr t fw left = .ok (b, t') ∧ t'.adapt = false ∧
        Adapted e F o f d a mx rk P b t' rk' c s Ss' := by
  intro n
  induction n with
  | zero =>
    intro ftr t fw left rk Ss ht hP hfw hl hl0 hn hdone
    cases hta : t.adapt with
    | true => exact absurd (hn hta) (by omega)
    | false =>
      obtain ⟨c, s, Ss', q⟩ := hdone hta
      refine ⟨ftr, t, rk, c, s, Ss', ?_, hta, q⟩
      rw [raLoop, hta]; rfl
  | succ n ih =>
    intro ftr t fw left rk Ss ht hP hfw hl hl0 hn hdone
    cases hta : t.adapt with
    | false =>
      obtain ⟨c, s, Ss', q⟩ := hdone hta
      refine ⟨ftr, t, rk, c, s, Ss', ?_, hta, q⟩
      rw [raLoop, hta]; rfl
    | true =>
      obtain ⟨c, s, Ss1, c1, c2, c3⟩ := cross_pass h hd hf ht hfw hl hl0 hr hrd a.epsilon hm hfu
      obtain ⟨b, b1, b2, b3, b4⟩ := round_any h.rd hz c2.ok c2.dim hd o.thr a.epsround
      have hk1 : KInv F d rk Ss1 { t with right := s.right } := ⟨ht.rko, ht.found, c2.rl, c2.right⟩
      obtain ⟨t', rk', Ss', k1, k2⟩ := kickAll_ok had (by omega) hmx (by rw [Ok_ranks_length b2, b3]; omega : d ≤ b.ranks.length) hk1
      obtain ⟨b', t'', rk'', c', s', Ss'', r1, r2, r3⟩ := ih (ftr := b) (t := t') (fw := s.fw) (left := s.left) k2.toKInv
        (fun p => k2.spans f (c3 (hP p)).1) c2.fw c2.ll c2.left
        (fun hta' => by
          obtain ⟨j, j1, j2, j3, j4⟩ := k2.grow hta' hk
          have := measure_lt k2.ge j2 j3 j4
          have := hn hta
          omega)
        (fun hta' => by
          obtain ⟨q1, q2⟩ := k2.same hta'
          subst q1
          have heq : t'.ranks = t.ranks := by rw [k2.rko.eq, ht.rko.eq]
          refine ⟨c, s, Ss1, ⟨k2.rko, by rw [heq]; exact c2, b1, fun p => (c3 (hP p)).2, fun _ => le_rfl, fun _ => le_max_left _ _, q2⟩⟩)
      refine ⟨b', t'', rk'', c', s', Ss'', ?_, r2, r3.rko, r3.pass, r3.round, r3.exact,
        fun j => le_trans (k2.ge j) (r3.ge j), fun j => ?_, r3.resolved⟩
      · rw [raLoop, if_pos hta, had, c1, bind_ok]
        dsimp only
        rw [b1, bind_ok, k1, bind_ok, r1]
      · have := r3.le j
        have := k2.le j
        omega

end C3.Xa
