/-
C144: jumps are found by polynomial annihilation. The jump function of a polynomial of small degree is zero and that of a polynomial with
a jump is the height; the search ends, reports increasing locations inside the domain, none for an affine function, and one near the jump.
-/
import Verif.Pw.JumpLemmas
import Mathlib.Analysis.SpecialFunctions.Log.Base

namespace C3.Jmp

open Finset

variable {K : Type} [Field K] [LinearOrder K] [IsStrictOrderedRing K]

/-- **C144**: at distinct points (at most nine of them) with values of a polynomial of degree below the number of points minus one plus `a`
to the right of `x`, the jump function is `a`, or the check of the normalisation aborts. -/
theorem evalJump_value {eps x : K} {t v : List K} {off n : Nat} (he : 0 < eps) (hn : 0 < n) (hn9 : n ≤ 9) (ht : off + n ≤ t.length)
    (hv : off + n ≤ v.length) (inj : ∀ i < n, ∀ j < n, t.getD (off + i) 0 = t.getD (off + j) 0 → i = j) (P : Polynomial K) (a : K)
    (hP : P.degree < ((n - 1 : Nat) : WithBot Nat))
    (hval : ∀ i < n, v.getD (off + i) 0 = P.eval (t.getD (off + i) 0) + if x < t.getD (off + i) 0 then a else 0) :
    evalJump eps x t off v n = .ok a ∨ evalJump eps x t off v n = .error .assertFail := by
  rw [evalJump_eq (τ := fun i => t.getD (off + i) 0) (ν := fun i => v.getD (off + i) 0) he hn hn9
    (fun i hi => by rw [List.getD_eq_getElem?_getD, List.getElem?_eq_getElem (show off + i < t.length by omega)]; rfl)
    (fun i hi => by rw [List.getD_eq_getElem?_getD, List.getElem?_eq_getElem (show off + i < v.length by omega)]; rfl) inj]
  split_ifs with hd
  · left
    have hne : den x (fun i => t.getD (off + i) 0) n ≠ 0 := fun h0 => by
      rw [h0, abs_zero] at hd; exact absurd hd (not_le.2 he)
    rw [jump_exact inj P a hP hval, mul_div_assoc, div_self hne, mul_one]
  · exact Or.inr rfl

/-- The first case occurs: on the points `0, 1, 3` the values `1, 3, 12` of `2 t + 1` and a jump of five before the last point. -/
example : evalJump (1 / 1000 : ℚ) 2 [0, 1, 3] 0 [1, 3, 12] 3 = .ok 5 := by decide +kernel

/-- **C144**: the stencil lies inside the points, has the wanted size, and contains both neighbours of `x`. -/
theorem getStencil_value {x : K} {t : List K} {nst c : Nat} (sorted : ∀ i j, i < j → j < t.length → t.getD i 0 < t.getD j 0)
    (hc : c + 1 < t.length) (hlo : t.getD c 0 < x) (hhi : x < t.getD (c + 1) 0) (h2 : 2 ≤ nst) (hn : nst ≤ t.length) :
    ∃ st, getStencil x nst t t.length = .ok st ∧ st ≤ c ∧ c + 2 ≤ st + nst ∧ st + nst ≤ t.length := by
  refine getStencil_ok (τ := fun i => t.getD i 0) rfl
    (fun i hi => by rw [List.getD_eq_getElem?_getD, List.getElem?_eq_getElem hi]; rfl) hc ?_ ?_ h2 hn
  · intro i hi
    rcases Nat.lt_or_eq_of_le hi with h | h
    · exact (sorted i c h (by omega)).trans hlo
    · rw [h]; exact hlo
  · intro i hi hl
    rcases Nat.lt_or_eq_of_le (show c + 1 ≤ i from hi) with h | h
    · exact hhi.trans (sorted (c + 1) i h hl)
    · rw [← h]; exact hhi

example : getStencil (5 / 2 : ℚ) 3 [0, 1, 2, 4, 5] 5 = .ok 1 := by decide +kernel

/-- The stencil need not be the closest points: with `x` in the first interval the first points are always taken. -/
example : getStencil (19 / 10 : ℚ) 3 [0, 2, 3] 3 = .ok 0 := by decide +kernel

/-- **C144**: on equispaced points (spacing `h` at most one) `minmod_eval` succeeds, and its result is the minmod of the jump functions of
the orders `a` to `b`: zero if two signs differ, else one of them, the smallest in magnitude. -/
theorem minmod_value {eps o h x : K} {t v : List K} {N a b c : Nat} (he : 0 < eps) (he1 : eps ≤ 1) (hh : 0 < h) (hh1 : h ≤ 1)
    (hN : t.length = N) (hNv : N ≤ v.length) (ht : ∀ i < N, t[i]? = some (o + (i : K) * h))
    (hc : c + 1 < N) (hlo : o + (c : K) * h < x) (hhi : x < o + ((c + 1 : Nat) : K) * h) (ha : 1 ≤ a) (hab : a ≤ b) (hb : b ≤ 8)
    (hbN : b + 1 ≤ N) :
    ∃ (J : Nat → K) (r : K), (∀ m, a ≤ m → m ≤ b → jumpAt eps x t v N m = .ok (J m)) ∧ minmod eps x t v N a b = .ok r ∧
      (((∃ m, a ≤ m ∧ m ≤ b ∧ ¬ (J m < 0 ↔ J a < 0)) ∧ r = 0) ∨
        ((∀ m, a ≤ m → m ≤ b → ((J m < 0 ↔ J a < 0) ∧ |r| ≤ |J m|)) ∧ ∃ m, a ≤ m ∧ m ≤ b ∧ r = J m)) ∧
      ∀ (P : Polynomial K) (z : K), P.degree < (a : WithBot Nat) →
        (∀ i < N, v.getD i 0 = P.eval (o + (i : K) * h) + if x < o + (i : K) * h then z else 0) → r = z := by
  have hex : ∀ m, ∃ J, a ≤ m → m ≤ b → jumpAt eps x t v N m = .ok J ∧ ∀ (P : Polynomial K) (z : K), P.degree < (m : WithBot Nat) →
      (∀ i < N, v.getD i 0 = P.eval (o + (i : K) * h) + if x < o + (i : K) * h then z else 0) → J = z := by
    intro m
    by_cases hm : a ≤ m ∧ m ≤ b
    · obtain ⟨J, hJ⟩ := jumpAt_equi (v := v) (ν := fun i => v.getD i 0) (m := m) he he1 hh hh1 hN ht
        (fun i hi => by rw [List.getD_eq_getElem?_getD, List.getElem?_eq_getElem (show i < v.length by omega)]; rfl)
        hc hlo hhi (by omega) (by omega) (by omega)
      exact ⟨J, fun _ _ => hJ⟩
    · exact ⟨0, fun h1 h2 => absurd ⟨h1, h2⟩ hm⟩
  choose J hJ using hex
  obtain ⟨r, e, hr⟩ := minmod_ok (J := J) hab (fun m h1 h2 => (hJ m h1 h2).1)
  refine ⟨J, r, fun m h1 h2 => (hJ m h1 h2).1, e, hr, ?_⟩
  intro P z hP hv
  exact hr.const hab (fun m h1 h2 => (hJ m h1 h2).2 P z (lt_of_lt_of_le hP (by exact_mod_cast h1)) hv)

/-- Orders two and three have the same sign, the smaller in magnitude is returned. -/
example : jumpAt (1 / 1000 : ℚ) (5 / 4) [0, 1 / 2, 1, 3 / 2, 2, 5 / 2] [0, 0, 1, 0, 0, 0] 6 2 = .ok (-2) ∧
    jumpAt (1 / 1000 : ℚ) (5 / 4) [0, 1 / 2, 1, 3 / 2, 2, 5 / 2] [0, 0, 1, 0, 0, 0] 6 3 = .ok (-3 / 2) ∧
    minmod (1 / 1000 : ℚ) (5 / 4) [0, 1 / 2, 1, 3 / 2, 2, 5 / 2] [0, 0, 1, 0, 0, 0] 6 2 3 = .ok (-3 / 2) := by decide +kernel


/-- Order two gives minus one and a higher order is not negative: zero. -/
example : jumpAt (1 / 1000 : ℚ) (5 / 4) [0, 1 / 2, 1, 3 / 2, 2, 5 / 2] [0, 0, 1, 1, 0, 0] 6 2 = .ok (-1) ∧
    minmod (1 / 1000 : ℚ) (5 / 4) [0, 1 / 2, 1, 3 / 2, 2, 5 / 2] [0, 0, 1, 1, 0, 0] 6 2 5 = .ok 0 := by decide +kernel

/-- **C144**: on equispaced points with a polynomial and a jump of height `z` in the interval of `x`, a discontinuity is reported exactly
if `z` is larger than the threshold of the spacing. -/
theorem discExists_value {eps o h x : K} {thr : K → K} {t v : List K} {N a b c : Nat} (he : 0 < eps) (he1 : eps ≤ 1) (hh : 0 < h)
    (hh1 : h ≤ 1) (hN : t.length = N) (hNv : N ≤ v.length) (ht : ∀ i < N, t[i]? = some (o + (i : K) * h))
    (hc : c + 1 < N) (hlo : o + (c : K) * h < x) (hhi : x < o + ((c + 1 : Nat) : K) * h) (ha : 1 ≤ a) (hab : a ≤ b) (hb : b ≤ 8)
    (hbN : b + 1 ≤ N) :
    ∃ d, discExists eps thr x t v N a b = .ok d ∧ ∀ (P : Polynomial K) (z : K), P.degree < (a : WithBot Nat) →
        (∀ i < N, v.getD i 0 = P.eval (o + (i : K) * h) + if x < o + (i : K) * h then z else 0) → (d = true ↔ thr h < |z|) := by
  obtain ⟨J, r, _, e, _, hr⟩ := minmod_value he he1 hh hh1 hN hNv ht hc hlo hhi ha hab hb hbN
  refine ⟨decide (¬ |r| ≤ thr h), ?_, ?_⟩
  · unfold discExists
    rw [e, bind_ok, spacing_equi hh (by omega) ht, bind_ok]
  · intro P z hP hv
    rw [hr P z hP hv]; simp

/-- One interval of the search. -/
theorem ljCell_ok {eps lb h : K} {thr : K → K} {f : K → K} {rec : K → K → List K → C (List K)} {nsplit : Nat} {pts : List K}
    (he : 0 < eps) (he1 : eps ≤ 1) (hh : 0 < h) (hh1 : h ≤ 1) (hn : 5 ≤ nsplit) (hl : pts.length = nsplit + 1)
    (ht : ∀ i < nsplit + 1, pts[i]? = some (lb + (i : K) * h)) {ii : Nat} (hi : ii < nsplit) :
    ∃ d : Bool, (∀ edges, ljCell eps thr rec nsplit pts (pts.map f) ii edges
        = if d then rec (lb + (ii : K) * h) (lb + ((ii + 1 : Nat) : K) * h) edges else .ok edges) ∧
      ∀ (P : Polynomial K) (z : K), P.degree < ((2 : Nat) : WithBot Nat) →
        (∀ i < nsplit + 1, f (lb + (i : K) * h) = P.eval (lb + (i : K) * h) + if ii < i then z else 0) → (d = true ↔ thr h < |z|) := by
  set x := (lb + (ii : K) * h + (lb + ((ii + 1 : Nat) : K) * h)) / 2 with hx
  have xe : x = lb + (ii : K) * h + h / 2 := by rw [hx]; push_cast; ring
  have hlo : lb + (ii : K) * h < x := by rw [xe]; linarith
  have hhi : x < lb + ((ii + 1 : Nat) : K) * h := by rw [xe]; push_cast; linarith
  obtain ⟨J, r, _, e, _, _⟩ := minmod_value (v := pts.map f) (a := 2) (b := 5) he he1 hh hh1 hl (by simp [hl]) ht
    (show ii + 1 < nsplit + 1 by omega) hlo hhi (by omega) (by omega) (by omega) (by omega)
  obtain ⟨d, ed, hd⟩ := discExists_value (thr := thr) (v := pts.map f) (a := 2) (b := 5) he he1 hh hh1 hl (by simp [hl]) ht
    (show ii + 1 < nsplit + 1 by omega) hlo hhi (by omega) (by omega) (by omega) (by omega)
  refine ⟨d, fun edges => ?_, fun P z hP hf => hd P z hP fun i hi' => ?_⟩
  · unfold ljCell
    rw [rd_of_getElem? (ht ii (by omega)), bind_ok, rd_of_getElem? (ht (ii + 1) (by omega)), bind_ok, ed, bind_ok, e, bind_ok]
  · rw [List.getD_eq_getElem?_getD, List.getElem?_map, ht i hi']
    simp only [Option.map_some, Option.getD_some]
    rw [hf i hi']
    congr 1
    refine if_congr ?_ rfl rfl
    constructor
    · intro hlt
      have : ((ii + 1 : Nat) : K) ≤ (i : K) := by exact_mod_cast hlt
      have := mul_le_mul_of_nonneg_right this hh.le
      linarith
    · intro hlt
      by_contra hcon
      have : (i : K) ≤ (ii : K) := by exact_mod_cast not_lt.1 hcon
      have := mul_le_mul_of_nonneg_right this hh.le
      linarith

/-- **C144** (the search): on a domain of width at most `nsplit`, with at least five subdomains and enough depth of recursion for the
resolution, `locate_jumps` ends. The old edges are kept; the new ones lie strictly inside the domain, in increasing order. A function that
is affine on the domain gets none (if the domain is not narrower than the resolution). A function that is affine up to one jump at `ξ`
whose height is larger than the first spacing gets an edge closer to `ξ` than half the resolution. -/
theorem locate_value {eps tol : K} {thr f : K → K} {nsplit : Nat} (he : 0 < eps) (he1 : eps ≤ 1) (hn : 5 ≤ nsplit)
    (hthr : ∀ h, 0 < h → 0 ≤ thr h ∧ thr h ≤ h) (k : Nat) : ∀ (lb ub : K) (edges : List K), lb < ub → ub - lb ≤ nsplit →
    ub - lb < tol * (nsplit : K) ^ k →
    ∃ new, locate eps thr f nsplit tol (k + 1) lb ub edges = .ok (edges ++ new) ∧ (∀ e ∈ new, lb < e ∧ e < ub) ∧
      new.Pairwise (· < ·) ∧
      (∀ P : Polynomial K, P.degree < ((2 : Nat) : WithBot Nat) → (∀ s, lb ≤ s → s ≤ ub → f s = P.eval s) → tol ≤ ub - lb → new = []) ∧
      (∀ (P : Polynomial K) (z ξ : K), P.degree < ((2 : Nat) : WithBot Nat) → lb < ξ → ξ ≤ ub →
        (∀ s, lb ≤ s → s ≤ ub → f s = P.eval s + if ξ ≤ s then z else 0) → (ub - lb) / nsplit < |z| →
        ∃ e ∈ new, |e - ξ| < tol / 2) := by
  have hn0 : (0 : K) < (nsplit : K) := by exact_mod_cast (show 0 < nsplit by omega)
  have hn1 : (1 : K) ≤ (nsplit : K) := by exact_mod_cast (show 1 ≤ nsplit by omega)
  induction k with
  | zero =>
    intro lb ub edges hlu _ hw
    rw [pow_zero, mul_one] at hw
    refine ⟨[(ub + lb) / 2], by rw [locate, if_pos hw], ?_, by simp, fun _ _ _ hc => absurd hw (not_lt.2 hc), ?_⟩
    · intro e he'
      rw [List.mem_singleton.1 he']
      constructor <;> linarith
    · intro P z ξ _ h1 h2 _ _
      refine ⟨(ub + lb) / 2, by simp, ?_⟩
      rw [abs_lt]; constructor <;> linarith
  | succ k ih =>
    intro lb ub edges hlu hwn hw
    by_cases hnar : ub - lb < tol
    · refine ⟨[(ub + lb) / 2], by rw [locate, if_pos hnar], ?_, by simp, fun _ _ _ hc => absurd hnar (not_lt.2 hc), ?_⟩
      · intro e he'
        rw [List.mem_singleton.1 he']
        constructor <;> linarith
      · intro P z ξ _ h1 h2 _ _
        refine ⟨(ub + lb) / 2, by simp, ?_⟩
        rw [abs_lt]; constructor <;> linarith
    · obtain ⟨pts, ep, hl, ht⟩ := lsp_ok lb ub (show 0 < nsplit by omega)
      rw [locate, if_neg hnar, ep, bind_ok]
      set h := (ub - lb) / (nsplit : K) with hh'
      have hh : 0 < h := div_pos (by linarith) hn0
      have hh1 : h ≤ 1 := by rw [hh', div_le_one hn0]; exact hwn
      have hnh : (nsplit : K) * h = ub - lb := by rw [hh']; field_simp
      have mono : ∀ i j : Nat, i ≤ j → lb + (i : K) * h ≤ lb + (j : K) * h := fun i j hij => by
        have : (i : K) ≤ (j : K) := by exact_mod_cast hij
        have := mul_le_mul_of_nonneg_right this hh.le
        linarith
      have p0 : ∀ i : Nat, lb ≤ lb + (i : K) * h := fun i => by simpa using mono 0 i (by omega)
      have pn : ∀ i : Nat, i ≤ nsplit → lb + (i : K) * h ≤ ub := fun i hi => by
        have := mono i nsplit hi
        rw [hnh] at this; linarith
      have step : ∀ i : Nat, lb + ((i + 1 : Nat) : K) * h - (lb + (i : K) * h) = h := fun i => by push_cast; ring
      have hsub : h < tol * (nsplit : K) ^ k := by
        rw [hh', div_lt_iff₀ hn0, mul_assoc, ← pow_succ]; exact hw
      obtain ⟨s, e, new, h1, h2, h3, h4, h5⟩ := forN_spec (n := nsplit) (s := edges)
        (body := ljCell eps thr (locate eps thr f nsplit tol (k + 1)) nsplit pts (pts.map f))
        (I := fun j s => ∃ new, s = edges ++ new ∧ (∀ e ∈ new, lb < e ∧ e < lb + (j : K) * h) ∧ new.Pairwise (· < ·) ∧
          (∀ P : Polynomial K, P.degree < ((2 : Nat) : WithBot Nat) → (∀ s, lb ≤ s → s ≤ ub → f s = P.eval s) → new = []) ∧
          (∀ (P : Polynomial K) (z ξ : K), P.degree < ((2 : Nat) : WithBot Nat) → lb < ξ → ξ ≤ lb + (j : K) * h →
            (∀ s, lb ≤ s → s ≤ ub → f s = P.eval s + if ξ ≤ s then z else 0) → h < |z| → ∃ e ∈ new, |e - ξ| < tol / 2))
        ⟨[], by simp, by simp, by simp, by simp, fun P z ξ _ a1 a2 => absurd a1 (not_lt.2 (by simpa using a2))⟩ (by
          intro ii hi s ⟨new, q1, q2, q3, q4, q5⟩
          obtain ⟨d, ed, hd⟩ := ljCell_ok (f := f) (thr := thr) (rec := locate eps thr f nsplit tol (k + 1)) he he1 hh hh1 hn hl ht hi
          have aff : ∀ P : Polynomial K, P.degree < ((2 : Nat) : WithBot Nat) → (∀ s, lb ≤ s → s ≤ ub → f s = P.eval s) → d = false := by
            intro P hP hf
            have := hd P 0 hP (fun i hi' => by rw [hf _ (p0 i) (pn i (by omega))]; simp)
            rw [abs_zero] at this
            rw [Bool.eq_false_iff]
            exact fun hc => absurd (this.1 hc) (not_lt.2 (hthr h hh).1)
          have jmp : ∀ (P : Polynomial K) (z ξ : K), P.degree < ((2 : Nat) : WithBot Nat) → lb + (ii : K) * h < ξ →
              ξ ≤ lb + ((ii + 1 : Nat) : K) * h →
              (∀ s, lb ≤ s → s ≤ ub → f s = P.eval s + if ξ ≤ s then z else 0) → h < |z| → d = true := by
            intro P z ξ hP a1 a2 hf hz
            refine (hd P z hP (fun i hi' => ?_)).2 (lt_of_le_of_lt (hthr h hh).2 hz)
            rw [hf _ (p0 i) (pn i (by omega))]
            congr 1
            refine if_congr ?_ rfl rfl
            constructor
            · intro hx
              by_contra hcon
              exact absurd (lt_of_lt_of_le a1 hx) (not_lt.2 (mono i ii (by omega)))
            · intro hx
              exact a2.trans (mono (ii + 1) i hx)
          rw [ed s]
          cases d with
          | false =>
            refine ⟨s, rfl, new, q1, fun e he' => ⟨(q2 e he').1, lt_of_lt_of_le (q2 e he').2 (mono ii (ii + 1) (by omega))⟩, q3, q4, ?_⟩
            intro P z ξ hP a1 a2 hf hz
            by_cases hx : ξ ≤ lb + (ii : K) * h
            · exact q5 P z ξ hP a1 hx hf hz
            · exact absurd (jmp P z ξ hP (not_le.1 hx) a2 hf hz) (by simp)
          | true =>
            obtain ⟨nw, w1, w2, w3, _, w5⟩ := ih (lb + (ii : K) * h) (lb + ((ii + 1 : Nat) : K) * h) s
              (by have := step ii; linarith) (by rw [step ii]; linarith) (by rw [step ii]; exact hsub)
            refine ⟨edges ++ (new ++ nw), ?_, new ++ nw, rfl, ?_, ?_, ?_, ?_⟩
            · rw [if_pos rfl, w1, q1, List.append_assoc]
            · intro e he'
              rcases List.mem_append.1 he' with hm | hm
              · exact ⟨(q2 e hm).1, lt_of_lt_of_le (q2 e hm).2 (mono ii (ii + 1) (by omega))⟩
              · exact ⟨lt_of_le_of_lt (p0 ii) (w2 e hm).1, (w2 e hm).2⟩
            · rw [List.pairwise_append]
              exact ⟨q3, w3, fun a ha b hb => (q2 a ha).2.trans (w2 b hb).1⟩
            · intro P hP hf
              exact absurd (aff P hP hf) (by simp)
            · intro P z ξ hP a1 a2 hf hz
              by_cases hx : ξ ≤ lb + (ii : K) * h
              · obtain ⟨e, em, ee⟩ := q5 P z ξ hP a1 hx hf hz
                exact ⟨e, List.mem_append.2 (Or.inl em), ee⟩
              · obtain ⟨e, em, ee⟩ := w5 P z ξ hP (not_le.1 hx) a2
                  (fun s b1 b2 => hf s ((p0 ii).trans b1) (b2.trans (pn (ii + 1) (by omega)))) (by
                    rw [step ii]
                    exact lt_of_le_of_lt (div_le_self hh.le hn1) hz)
                exact ⟨e, List.mem_append.2 (Or.inr em), ee⟩)
      have hend : lb + (nsplit : K) * h = ub := by rw [hnh]; ring
      rw [hend] at h2 h5
      exact ⟨new, by rw [e, h1], h2, h3, fun P hP hf _ => h4 P hP hf, h5⟩

theorem forN_error {σ : Type} {body : Nat → σ → C σ} {E : Err} {c : Nat} (hlt : ∀ i < c, ∀ s, (∃ s', body i s = .ok s') ∨ body i s = .error E)
    (hc : ∀ s, body c s = .error E) (n : Nat) (s : σ) : (c < n → forN n body s = .error E) ∧
      (n ≤ c → (∃ s', forN n body s = .ok s') ∨ forN n body s = .error E) := by
  induction n with
  | zero => exact ⟨fun h => absurd h (by omega), fun _ => Or.inl ⟨s, rfl⟩⟩
  | succ n ih =>
    refine ⟨fun h => ?_, fun h => ?_⟩
    · by_cases hcn : c < n
      · rw [forN_succ, ih.1 hcn]; rfl
      · have : n = c := by omega
        rw [forN_succ]
        rcases ih.2 (by omega) with ⟨s', e⟩ | e
        · rw [e, ebind_ok, this, hc]
        · rw [e]; rfl
    · rw [forN_succ]
      rcases ih.2 (by omega) with ⟨s', e⟩ | e
      · rw [e, ebind_ok]; exact hlt n (by omega) s'
      · rw [e]; exact Or.inr rfl

theorem exists_cell {lb h ξ : K} {n : Nat} (h0 : lb < ξ) (h1 : ξ ≤ lb + (n : K) * h) :
    ∃ c < n, lb + (c : K) * h < ξ ∧ ξ ≤ lb + ((c + 1 : Nat) : K) * h := by
  induction n with
  | zero => simp at h1; exact absurd h0 (not_lt.2 h1)
  | succ n ih =>
    by_cases hq : ξ ≤ lb + (n : K) * h
    · obtain ⟨c, hc, w⟩ := ih hq
      exact ⟨c, by omega, w⟩
    · exact ⟨n, by omega, not_le.1 hq, h1⟩

/-- Finding: with a resolution that is zero (or negative) the recursion never ends on a function that is affine up to one jump: no depth
suffices. `tol` is not checked. -/
theorem locate_tol_diverges {eps tol : K} {thr f : K → K} {nsplit : Nat} (he : 0 < eps) (he1 : eps ≤ 1) (hn : 5 ≤ nsplit)
    (hthr : ∀ h, 0 < h → 0 ≤ thr h ∧ thr h ≤ h) (htol : tol ≤ 0) (P : Polynomial K) (z ξ : K)
    (hP : P.degree < ((2 : Nat) : WithBot Nat)) (k : Nat) : ∀ (lb ub : K) (edges : List K), lb < ub → ub - lb ≤ nsplit → lb < ξ → ξ ≤ ub →
    (∀ s, lb ≤ s → s ≤ ub → f s = P.eval s + if ξ ≤ s then z else 0) → (ub - lb) / nsplit < |z| →
    locate eps thr f nsplit tol k lb ub edges = .error .diverge := by
  have hn0 : (0 : K) < (nsplit : K) := by exact_mod_cast (show 0 < nsplit by omega)
  have hn1 : (1 : K) ≤ (nsplit : K) := by exact_mod_cast (show 1 ≤ nsplit by omega)
  have aff : ∀ (k : Nat) (lb ub : K) (edges : List K), lb < ub → ub - lb ≤ nsplit → (∀ s, lb ≤ s → s ≤ ub → f s = P.eval s) →
      (∃ s', locate eps thr f nsplit tol k lb ub edges = .ok s') ∨ locate eps thr f nsplit tol k lb ub edges = .error .diverge := by
    intro k lb ub edges hlu hwn hf
    cases k with
    | zero => exact Or.inr rfl
    | succ k =>
      obtain ⟨pts, ep, hl, ht⟩ := lsp_ok lb ub (show 0 < nsplit by omega)
      left
      rw [locate, if_neg (not_lt.2 (by linarith)), ep, bind_ok]
      set h := (ub - lb) / (nsplit : K) with hh'
      have hh : 0 < h := div_pos (by linarith) hn0
      have hh1 : h ≤ 1 := by rw [hh', div_le_one hn0]; exact hwn
      have hnh : (nsplit : K) * h = ub - lb := by rw [hh']; field_simp
      obtain ⟨s, e, _⟩ := forN_spec (n := nsplit) (s := edges)
        (body := ljCell eps thr (locate eps thr f nsplit tol k) nsplit pts (pts.map f)) (I := fun _ _ => True) trivial (by
          intro ii hi s _
          obtain ⟨d, ed, hd⟩ := ljCell_ok (f := f) (thr := thr) (rec := locate eps thr f nsplit tol k) he he1 hh hh1 hn hl ht hi
          have hd0 : d = false := by
            have := hd P 0 hP (fun i hi' => by
              have a1 : (0 : K) ≤ (i : K) * h := by positivity
              have a2 : (i : K) * h ≤ (nsplit : K) * h :=
                mul_le_mul_of_nonneg_right (by exact_mod_cast (show i ≤ nsplit by omega)) hh.le
              rw [hf _ (by linarith) (by linarith)]; simp)
            rw [abs_zero] at this
            rw [Bool.eq_false_iff]
            exact fun hc => absurd (this.1 hc) (not_lt.2 (hthr h hh).1)
          exact ⟨s, by rw [ed s, hd0]; rfl, trivial⟩)
      exact ⟨s, e⟩
  induction k with
  | zero => intro lb ub edges _ _ _ _ _ _; rfl
  | succ k ih =>
    intro lb ub edges hlu hwn x1 x2 hf hz
    obtain ⟨pts, ep, hl, ht⟩ := lsp_ok lb ub (show 0 < nsplit by omega)
    rw [locate, if_neg (not_lt.2 (by linarith)), ep, bind_ok]
    set h := (ub - lb) / (nsplit : K) with hh'
    have hh : 0 < h := div_pos (by linarith) hn0
    have hh1 : h ≤ 1 := by rw [hh', div_le_one hn0]; exact hwn
    have hnh : (nsplit : K) * h = ub - lb := by rw [hh']; field_simp
    have mono : ∀ i j : Nat, i ≤ j → lb + (i : K) * h ≤ lb + (j : K) * h := fun i j hij => by
      have : (i : K) ≤ (j : K) := by exact_mod_cast hij
      have := mul_le_mul_of_nonneg_right this hh.le
      linarith
    have p0 : ∀ i : Nat, lb ≤ lb + (i : K) * h := fun i => by simpa using mono 0 i (by omega)
    have pn : ∀ i : Nat, i ≤ nsplit → lb + (i : K) * h ≤ ub := fun i hi => by
      have := mono i nsplit hi
      rw [hnh] at this; linarith
    have step : ∀ i : Nat, lb + ((i + 1 : Nat) : K) * h - (lb + (i : K) * h) = h := fun i => by push_cast; ring
    obtain ⟨c, hc, c1, c2⟩ := exists_cell (n := nsplit) (h := h) x1 (by rw [hnh]; linarith)
    refine (forN_error (c := c) (E := .diverge) (fun i hi s => ?_) (fun s => ?_) nsplit edges).1 hc
    · obtain ⟨d, ed, _⟩ := ljCell_ok (f := f) (thr := thr) (rec := locate eps thr f nsplit tol k) he he1 hh hh1 hn hl ht
        (show i < nsplit by omega)
      rw [ed s]
      cases d with
      | false => exact Or.inl ⟨s, rfl⟩
      | true =>
        refine aff k _ _ s (by have := step i; linarith) (by rw [step i]; linarith) (fun q b1 b2 => ?_)
        rw [hf q ((p0 i).trans b1) (b2.trans (pn (i + 1) (by omega))), if_neg, add_zero]
        exact not_le.2 (lt_of_le_of_lt (b2.trans (mono (i + 1) c (by omega))) c1)
    · obtain ⟨d, ed, hd⟩ := ljCell_ok (f := f) (thr := thr) (rec := locate eps thr f nsplit tol k) he he1 hh hh1 hn hl ht hc
      have hd1 : d = true := by
        refine (hd P z hP (fun i hi' => ?_)).2 (lt_of_le_of_lt (hthr h hh).2 hz)
        rw [hf _ (p0 i) (pn i (by omega))]
        congr 1
        refine if_congr ?_ rfl rfl
        constructor
        · intro hx
          by_contra hcon
          exact absurd (lt_of_lt_of_le c1 hx) (not_lt.2 (mono i c (by omega)))
        · intro hx
          exact c2.trans (mono (c + 1) i hx)
      rw [ed s, hd1, if_pos rfl]
      exact ih _ _ s (by have := step c; linarith) (by rw [step c]; linarith) c1 c2
        (fun q b1 b2 => hf q ((p0 c).trans b1) (b2.trans (pn (c + 1) (by omega)))) (by
          rw [step c]; exact lt_of_le_of_lt (div_le_self hh.le hn1) hz)

/-- A unit interval with a step of height two has no end. -/
example (k : Nat) : locate (1 / 1000 : ℚ) (fun h => h / 10) (fun s => if 1 / 3 ≤ s then 2 else 0) 5 0 k 0 1 [] = .error .diverge :=
  locate_tol_diverges (by norm_num) (by norm_num) (le_refl _) (fun h hh => ⟨by positivity, by linarith⟩) (le_refl _) 0 2 (1 / 3)
    (by rw [Polynomial.degree_zero]; exact WithBot.bot_lt_coe 2) k 0 1 [] (by norm_num) (by norm_num) (by norm_num) (by norm_num)
    (fun s _ _ => by simp) (by norm_num)

/-- The threshold of the code, `10^floor(log10 h)`, meets the hypothesis of `locate_value`. -/
theorem tenThr_law (h : ℝ) (hh : 0 < h) : 0 ≤ (10 : ℝ) ^ ((⌊Real.logb 10 h⌋ : ℤ) : ℝ) ∧ (10 : ℝ) ^ ((⌊Real.logb 10 h⌋ : ℤ) : ℝ) ≤ h := by
  refine ⟨by positivity, ?_⟩
  calc (10 : ℝ) ^ ((⌊Real.logb 10 h⌋ : ℤ) : ℝ) ≤ (10 : ℝ) ^ (Real.logb 10 h) :=
        Real.rpow_le_rpow_of_exponent_le (by norm_num) (Int.floor_le _)
    _ = h := Real.rpow_logb (by norm_num) (by norm_num) hh

/-- A step of height two at one third is found on the unit interval (the hypotheses hold with two levels; the threshold of a tenth of
the spacing is a lower one). -/
example : ∃ new, locate (1 / 1000 : ℚ) (fun h => h / 10) (fun s => if 1 / 3 ≤ s then 2 else 0) 5 (1 / 10) 3 0 1 [] = .ok ([] ++ new) ∧
    ∃ e ∈ new, |e - 1 / 3| < 1 / 10 / 2 := by
  obtain ⟨new, h1, _, _, _, h5⟩ := locate_value (eps := (1 / 1000 : ℚ)) (tol := 1 / 10) (thr := fun h => h / 10)
    (f := fun s => if 1 / 3 ≤ s then 2 else 0) (nsplit := 5) (by norm_num) (by norm_num) (le_refl _)
    (fun h hh => ⟨by positivity, by linarith⟩) 2 0 1 [] (by norm_num) (by norm_num) (by norm_num)
  exact ⟨new, h1, h5 0 2 (1 / 3) (by rw [Polynomial.degree_zero]; exact WithBot.bot_lt_coe 2) (by norm_num) (by norm_num) (fun s _ _ => by simp) (by norm_num)⟩

/-- Finding: a domain that is narrower than the resolution gets an edge at its midpoint although the function is constant. -/
theorem locate_narrow_counterexample :
    locate (1 / 1000 : ℚ) (fun h => h / 10) (fun _ => 7) 5 (1 / 10) 1 0 (1 / 20) [] = .ok [1 / 40] := by decide +kernel

/-- Finding: with four subdomains the jump function of order five needs more points than there are; the search aborts by assertion for a
constant function (and for every function whose lower orders agree in sign). -/
theorem locate_few_counterexample :
    locate (1 / 1000 : ℚ) (fun h => h / 10) (fun _ => 7) 4 (1 / 10) 9 0 1 [] = .error .assertFail := by decide +kernel

/-- Finding: the normalisation scales with the spacing to the power of minus the order, but is compared with the machine precision; a
spacing of ten thousand aborts by assertion for a constant function, though the points are perfectly distinct. -/
theorem locate_wide_counterexample :
    locate (1 / 4503599627370496 : ℚ) (fun h => h / 10) (fun _ => 7) 5 (1 / 10) 9 0 50000 [] = .error .assertFail := by decide +kernel

end C3.Jmp
