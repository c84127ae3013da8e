/- C42, C47: grids and flat-index conversion. -/
import Verif.Arr.Model
import Verif.Core.Buf
import Verif.Core.Sum
import Verif.Tt.TensorProps
import Mathlib.Tactic.IntervalCases

namespace C3.Arr
open C3.Tt (colPos)

theorem pred64_eq {n : Nat} (h : 0 < n) (hn : n ≤ 2 ^ 64) : pred64 n = n - 1 := by
  rw [pred64, wrap]
  have : n + (2 ^ 64 - 1) = (n - 1) + 2 ^ 64 := by omega
  rw [this, Nat.add_mod_right, Nat.mod_eq_of_lt (by omega)]

/-- What `linspace` stores, for any rounding. -/
theorem linspace_ok (rnd : ℚ → ℚ) (min max : ℚ) {N : Nat} (h : 0 < N) (hN : N < 2 ^ 64) :
    linspace rnd min max N = .ok ((List.range (N - 1)).map (fun (i : Nat) =>
      rnd (rnd (rnd (i : ℚ) * rnd (rnd (max - min) / rnd ((N - 1 : Nat) : ℚ))) + min)) ++ [max]) := by
  rw [linspace, pred64_eq h (by omega)]
  rw [forN_fill (off := 0) (fun (i : Nat) => rnd (rnd (rnd (i : ℚ) * rnd (rnd (max - min) / rnd ((N - 1 : Nat) : ℚ))) + min))
    (by simp) (fun i _ b _ => by rw [Nat.zero_add]), bind_ok]
  have hN1 : N = (N - 1) + 1 := by omega
  rw [wr_ok _ (by simp; omega)]
  congr 1
  rw [List.take_zero, List.nil_append, List.set_append_right _ _ (by simp)]
  congr 1
  rw [List.drop_replicate, show N - (0 + (N - 1)) = 1 by omega]
  simp

/-- **C47** In exact arithmetic `linspace` returns `N` points, the `i`-th being `min + i (max-min)/(N-1)`; the first is
`min`, the last `max`. -/
theorem linspace_value (min max : ℚ) {N : Nat} (h : 2 ≤ N) (hN : N < 2 ^ 64) :
    ∃ l, linspace id min max N = .ok l ∧ l.length = N ∧
      ∀ i < N, l[i]? = some (min + i * ((max - min) / (N - 1))) := by
  refine ⟨_, linspace_ok id min max (by omega) hN, by simp; omega, fun i hi => ?_⟩
  have hc : ((N - 1 : Nat) : ℚ) = N - 1 := by push_cast [Nat.cast_sub (show 1 ≤ N by omega)]; ring
  have hne : (N : ℚ) - 1 ≠ 0 := by
    have : (2 : ℚ) ≤ N := by exact_mod_cast h
    intro h0; linarith
  by_cases hl : i < N - 1
  · rw [List.getElem?_append_left (by simpa using hl), List.getElem?_map, List.getElem?_range hl]
    simp only [Option.map_some, id_eq, hc]
    congr 1; ring
  · have : i = N - 1 := by omega
    subst this
    rw [List.getElem?_append_right (by simp)]
    simp only [List.length_map, List.length_range, Nat.sub_self, List.getElem?_cons_zero, hc]
    congr 1; field_simp; ring

/-- **C47** With any rounding that leaves 0 and the lower bound unchanged, the first point is exactly `min` and the last
exactly `max`, whatever the rounding of the spacing. -/
theorem linspace_ends {rnd : ℚ → ℚ} (hr : RoundNearest rnd) {min max : ℚ} (hm : Dbl min) {N : Nat} (h : 2 ≤ N)
    (hN : N < 2 ^ 64) :
    ∃ l, linspace rnd min max N = .ok l ∧ l.length = N ∧ l[0]? = some min ∧ l[N - 1]? = some max := by
  refine ⟨_, linspace_ok rnd min max (by omega) hN, by simp; omega, ?_, ?_⟩
  · rw [List.getElem?_append_left (by simp; omega), List.getElem?_map, List.getElem?_range (by omega)]
    simp only [Option.map_some, Nat.cast_zero, hr.exact dbl_zero, zero_mul, zero_add, hr.exact hm]
  · rw [List.getElem?_append_right (by simp)]; simp

/-- **C47** A single point is `max`; no points at all write outside the array. -/
theorem linspace_one (rnd : ℚ → ℚ) (min max : ℚ) : linspace rnd min max 1 = .ok [max] := by
  rw [linspace_ok rnd min max (by omega) (by norm_num)]; rfl

/-- **C47** In exact arithmetic with a positive step, `arange` returns the points `start + k step`, `k = 0,1,..`, that do
not exceed `stop` (including `stop` itself when it is hit). -/
theorem arange_value {start stop step : ℚ} (hs : 0 < step) (hle : start ≤ stop) (hb : (stop - start) / step < 2 ^ 63) :
    ∃ N l, arange id start stop step = .ok (N, l) ∧ l.length = N ∧ (∀ i < N, l[i]? = some (start + step * i)) ∧
      ∀ k : Nat, k < N ↔ start + step * k ≤ stop := by
  have h0 : 0 ≤ (stop - start) / step := div_nonneg (by linarith) hs.le
  have hf0 : 0 ≤ ⌊(stop - start) / step⌋ := Int.floor_nonneg.2 h0
  have hf1 : ⌊(stop - start) / step⌋ < 2 ^ 63 := Int.floor_lt.2 (by exact_mod_cast hb)
  obtain ⟨n, hn⟩ : ∃ n : Nat, ⌊(stop - start) / step⌋ = n := ⟨_, (Int.toNat_of_nonneg hf0).symm⟩
  have hn1 : n < 2 ^ 63 := by rw [hn] at hf1; exact_mod_cast hf1
  have e1 : lrintFloor ((stop - start) / step) = .ok n := by
    rw [lrintFloor, if_pos ⟨by omega, hf1⟩, hn]
    congr 1; omega
  have e2 : wrap (n + 1) = n + 1 := by rw [wrap]; exact Nat.mod_eq_of_lt (by omega)
  refine ⟨n + 1, (List.range (n + 1)).map (fun (i : Nat) => start + step * i), ?_, by simp, fun i hi => ?_, fun k => ?_⟩
  · rw [arange, if_neg hs.ne']
    simp only [id_eq]
    rw [e1, bind_ok, e2, forN_fill_all (fun (i : Nat) => start + step * i) (by simp) (fun i _ b _ => rfl), bind_ok]; rfl
  · rw [List.getElem?_map, List.getElem?_range hi]; rfl
  · rw [Nat.lt_succ_iff, ← Int.ofNat_le (m := k), ← hn, Int.le_floor, le_div_iff₀ hs]
    push_cast
    constructor <;> intro h <;> linarith

example := arange_value (start := 0) (stop := 1) (step := 1/3) (by norm_num) (by norm_num) (by norm_num)
example := linspace_value 0 1 (N := 5) (by norm_num) (by norm_num)
example : ∃ rnd, RoundNearest rnd := roundNearest_exists

/-! ### Diagonal matrix, concatenation, products -/

/-- **C47** `diag` puts the numbers on the diagonal of an otherwise zero matrix. -/
theorem diag_value {K : Type} [Zero K] {N : Nat} {arr : List K} (h : N ≤ arr.length) :
    ∃ l, diag N arr = .ok l ∧ l.length = N * N ∧
      ∀ i < N, ∀ j < N, l[j * N + i]? = some (if i = j then arr.getD i 0 else 0) := by
  obtain ⟨b, h1, h2, h3, h4⟩ := forN_scatter (n := N) (a := List.replicate (N * N) (0 : K)) (body := fun ii a => do
      let x ← rd arr ii
      wr a (ii * N + ii) x) (fun i => i * N + i) (fun i => arr.getD i 0)
      (fun i hi => by rw [List.length_replicate]; exact cm_idx_lt hi hi)
      (fun i hi j hj e => by
        have := congrArg (· % N) e
        simp only [cm_mod hi, cm_mod hj] at this
        exact this)
      (fun i hi b hb _ _ => by rw [rd_getD 0 (by omega), bind_ok])
  refine ⟨b, h1, by rw [h2, List.length_replicate], fun i hi j hj => ?_⟩
  by_cases hij : i = j
  · subst hij; rw [if_pos rfl, h3 i hi]
  · rw [if_neg hij, h4, List.getElem?_replicate, if_pos (cm_idx_lt hi hj)]
    intro k hk e
    have m := congrArg (· % N) e
    have d := congrArg (· / N) e
    simp only [cm_mod hi, cm_mod hk, cm_div hi, cm_div hk] at m d
    omega

/-- **C47** Column concatenation: first the one array, then the other. -/
theorem dconcatCols_value {K : Type} [Zero K] {r c1 c2 : Nat} {a b : List K} (ha : a.length = r * c1) (hb : b.length = r * c2) :
    dconcatCols r c1 c2 a b = .ok (a ++ b) := by
  have mv : ∀ (n : Nat) (dst : List K) (off : Nat) (src : List K), off + n ≤ dst.length → src.length = n →
      move n dst off src = .ok (dst.take off ++ src ++ dst.drop (off + n)) := by
    intro n dst off src h1 h2
    rw [move, forN_fill (fun i => src.getD i 0) h1 (fun i hi b _ => by rw [rd_getD 0 (by omega), bind_ok])]
    congr 3
    apply List.ext_getElem? ; intro i
    by_cases hi : i < n
    · simp [List.getElem?_range hi, List.getElem?_eq_getElem (show i < src.length by omega)]
    · rw [List.getElem?_eq_none (by simp; omega), List.getElem?_eq_none (by omega)]
  rw [dconcatCols, mv _ _ _ _ (by rw [List.length_replicate, Nat.mul_add]; omega) ha, bind_ok,
    mv _ _ _ _ (by simp [ha, Nat.mul_add]) hb]
  congr 1
  simp only [List.take_zero, List.nil_append, Nat.zero_add]
  rw [← ha, List.take_left', List.drop_of_length_le (by simp [ha, Nat.mul_add]), List.append_nil]
  rfl

theorem iprodSz_ok : ∀ (N : Nat) (ns : List Nat), N ≤ ns.length → iprodSz N ns = .ok (wrap (ns.take N).prod) := by
  intro N ns h
  obtain ⟨s, h1, h2⟩ := forN_spec (n := N) (s := 1) (body := fun i p => do
      let x ← rd ns i
      pure (wrap (p * x))) (I := fun i p => p = wrap (ns.take i).prod) (by simp [wrap])
    (by
      rintro i hi p rfl
      refine ⟨wrap (wrap (ns.take i).prod * ns.getD i 0), by rw [rd_getD 0 (by omega), bind_ok, pure_eq_ok], ?_⟩
      have hi' : i < ns.length := by omega
      rw [List.take_succ_eq_append_getElem hi', List.prod_append, List.prod_singleton, wrap, wrap, wrap,
        Nat.mod_mul_mod]
      simp [List.getElem?_eq_getElem hi'])
  rw [iprodSz, h1, h2]

/-- **C42** The product of sizes is exact when it fits. -/
theorem iprodSz_value {N : Nat} {ns : List Nat} (h : N ≤ ns.length) (hb : (ns.take N).prod < 2 ^ 64) :
    iprodSz N ns = .ok (ns.take N).prod := by
  rw [iprodSz_ok N ns h, wrap, Nat.mod_eq_of_lt hb]

/-! ### Flat index to multi-index -/

theorem dbl_nat {n : Nat} (h : n ≤ 2 ^ 53) : Dbl (n : ℚ) := by
  rcases Nat.lt_or_ge n (2 ^ 53) with h1 | h1
  · exact ⟨n, 0, by rw [abs_of_nonneg (by positivity)]; exact_mod_cast h1, by norm_num, by norm_num, by simp⟩
  · have : n = 2 ^ 53 := by omega
    subst this
    exact ⟨2 ^ 52, 1, by norm_num, by norm_num, by norm_num, by norm_num⟩

theorem lrintFloor_nat {n : Nat} (h : n < 2 ^ 63) : lrintFloor (n : ℚ) = .ok n := by
  have e : ⌊(n : ℚ)⌋ = (n : ℤ) := Int.floor_natCast n
  rw [lrintFloor, e, if_pos ⟨by omega, by exact_mod_cast h⟩]
  congr 1; omega

theorem prod_take_succ {ns : List Nat} {j : Nat} (h : j < ns.length) :
    (ns.take (j + 1)).prod = (ns.take j).prod * ns.getD j 0 := by
  rw [List.take_succ_eq_append_getElem h, List.prod_append, List.prod_singleton]
  simp [List.getElem?_eq_getElem h]

theorem prod_take_pos {ns : List Nat} (h : ∀ n ∈ ns, 0 < n) (j : Nat) : 0 < (ns.take j).prod := by
  apply Nat.pos_of_ne_zero
  rw [Ne, List.prod_eq_zero_iff]
  intro h0
  exact absurd (h 0 (List.mem_of_mem_take h0)) (by omega)

theorem getD_pos {ns : List Nat} (h : ∀ n ∈ ns, 0 < n) {j : Nat} (hj : j < ns.length) : 0 < ns.getD j 0 := by
  rw [List.getD_eq_getElem?_getD, List.getElem?_eq_getElem hj]
  exact h _ (List.getElem_mem hj)

theorem prod_take_le {ns : List Nat} (h : ∀ n ∈ ns, 0 < n) {i j : Nat} (hij : i ≤ j) (hj : j ≤ ns.length) :
    (ns.take i).prod ≤ (ns.take j).prod := by
  induction j with
  | zero => have : i = 0 := by omega
            subst this; exact le_refl _
  | succ j ih =>
    rcases Nat.lt_or_ge i (j + 1) with h1 | h1
    · rw [prod_take_succ (by omega)]
      exact le_trans (ih (by omega) (by omega)) (Nat.le_mul_of_pos_right _ (getD_pos h (by omega)))
    · have : i = j + 1 := by omega
      rw [this]

/-- **C42** For every list of positive mode sizes and every index below their product, the computed multi-index is in
range and its column-major position is the given index: any sizes for which the stride of the last mode fits in 64 bits,
with all but the first at most `2^53`. Missing: larger sizes, for which the quotient does not survive the conversion to
`double` (`bigToMulti_counterexample`). -/
theorem bigToMulti_value_partial {rnd : ℚ → ℚ} (hr : RoundNearest rnd) {ns multi : List Nat} {big : Nat}
    (hd : 0 < ns.length) (hdl : ns.length < 2 ^ 64) (hml : multi.length = ns.length) (hpos : ∀ n ∈ ns, 0 < n)
    (hsz : ∀ k, 0 < k → k < ns.length → ns.getD k 0 ≤ 2 ^ 53) (hfit : (ns.take (ns.length - 1)).prod < 2 ^ 64)
    (hb64 : big < 2 ^ 64) (hbig : big < ns.prod) :
    ∃ m, bigToMulti rnd big ns.length ns multi = .ok m ∧ m.length = ns.length ∧
      (∀ k < ns.length, m.getD k 0 < ns.getD k 0) ∧ colPos ns m = big := by
  obtain ⟨d, hd1⟩ : ∃ d, ns.length = d + 1 := ⟨ns.length - 1, by omega⟩
  have hp : pred64 ns.length = d := by rw [pred64_eq hd (by omega)]; omega
  have htop : ns.take (d + 1) = ns := List.take_of_length_le (by omega)
  rw [show ns.length - 1 = d by omega] at hfit
  obtain ⟨st, hst, h1, h2, h3, h4, h5, h6⟩ := forN_spec (n := d) (s := (big, (ns.take d).prod, multi))
    (body := fun t => bigStep rnd ns (d - t))
    (I := fun t st => st.2.1 = (ns.take (d - t)).prod ∧ st.1 < (ns.take (d - t + 1)).prod ∧ st.1 < 2 ^ 64 ∧
      st.2.2.length = d + 1 ∧ (∀ k, d - t < k → k ≤ d → st.2.2.getD k 0 < ns.getD k 0) ∧
      st.1 + (ns.take (d - t + 1)).prod * colPos (ns.drop (d - t + 1)) (st.2.2.drop (d - t + 1)) = big)
    ⟨rfl, by simpa [htop] using hbig, hb64, by rw [hml, hd1], fun k h1 h2 => by omega, by
      simp [htop, colPos, List.drop_of_length_le (show ns.length ≤ d + 1 by omega)]⟩
    (by
      rintro t ht ⟨b, p, m⟩ ⟨rfl, hb, hb', hm, hlt, hsum⟩
      obtain ⟨j, hj⟩ : ∃ j, d - t = j + 1 := ⟨d - t - 1, by omega⟩
      have hj' : d - (t + 1) = j := by omega
      simp only [hj, hj'] at hb hlt hsum ⊢
      simp only at hm hb'
      have pp := prod_take_pos hpos (j + 1)
      have hn1 : 0 < ns.getD (j + 1) 0 := getD_pos hpos (by omega)
      have hn0 : 0 < ns.getD j 0 := getD_pos hpos (by omega)
      have hq : b / (ns.take (j + 1)).prod < ns.getD (j + 1) 0 := by
        rw [Nat.div_lt_iff_lt_mul pp, Nat.mul_comm, ← prod_take_succ (by omega)]; exact hb
      have hq53 : b / (ns.take (j + 1)).prod ≤ 2 ^ 53 := by
        have := hsz (j + 1) (by omega) (by omega); omega
      have hmodlt : b % (ns.take (j + 1)).prod < (ns.take (j + 1)).prod := Nat.mod_lt _ pp
      have hdm := Nat.div_add_mod b (ns.take (j + 1)).prod
      have hwr : wrap (b + (2 ^ 64 - wrap (b / (ns.take (j + 1)).prod * (ns.take (j + 1)).prod)))
          = b % (ns.take (j + 1)).prod := by
        have hle : b / (ns.take (j + 1)).prod * (ns.take (j + 1)).prod ≤ b := Nat.div_mul_le_self _ _
        rw [Nat.mul_comm] at hdm
        rw [wrap, wrap, Nat.mod_eq_of_lt (show b / (ns.take (j + 1)).prod * (ns.take (j + 1)).prod < 2 ^ 64 by omega)]
        omega
      have hpd : (ns.take (j + 1)).prod / ns.getD j 0 = (ns.take j).prod := by
        rw [prod_take_succ (by omega), Nat.mul_div_cancel _ hn0]
      refine ⟨(b % (ns.take (j + 1)).prod, (ns.take j).prod, m.set (j + 1) (b / (ns.take (j + 1)).prod)), ?_, rfl, hmodlt,
        lt_of_le_of_lt (Nat.mod_le _ _) hb', by simpa using hm, ?_, ?_⟩
      · rw [bigStep, if_neg (by simp only; omega)]
        simp only
        rw [hr.exact (dbl_nat hq53), lrintFloor_nat (by omega), bind_ok, wr_ok _ (by omega), bind_ok, Nat.add_sub_cancel,
          rd_getD 0 (by omega), bind_ok, if_neg (by omega), hwr, hpd, pure_eq_ok]
      · intro k hk1 hk2
        simp only [List.getD_eq_getElem?_getD]
        by_cases hk : j + 1 = k
        · subst hk
          rw [List.getElem?_set_self (by omega), Option.getD_some]
          simpa only [List.getD_eq_getElem?_getD] using hq
        · rw [List.getElem?_set_ne hk]
          have := hlt k (by omega) hk2
          simpa only [List.getD_eq_getElem?_getD] using this
      · simp only
        rw [← hsum, C3.Tt.colPos_drop (k := j + 1) (by simp; omega) (by omega)]
        have e1 : (m.set (j + 1) (b / (ns.take (j + 1)).prod)).getD (j + 1) 0 = b / (ns.take (j + 1)).prod := by
          rw [List.getD_eq_getElem?_getD, List.getElem?_set_self (by omega)]; rfl
        have e2 : (m.set (j + 1) (b / (ns.take (j + 1)).prod)).drop (j + 1 + 1) = m.drop (j + 1 + 1) := by
          rw [List.drop_set_of_lt (by omega)]
        rw [e1, e2, prod_take_succ (j := j + 1) (by omega)]
        generalize colPos (ns.drop (j + 1 + 1)) (m.drop (j + 1 + 1)) = c
        conv_rhs => rw [← hdm]
        ring)
  obtain ⟨b, p, m⟩ := st
  simp only [Nat.sub_self, Nat.zero_add] at h1 h2 h3 h4 h5 h6
  have h10 : (ns.take 1).prod = ns.getD 0 0 := by
    have := prod_take_succ (ns := ns) (j := 0) (by omega)
    simpa using this
  rw [h10] at h2 h6
  refine ⟨m.set 0 b, ?_, by rw [List.length_set, h4, hd1], ?_, ?_⟩
  · rw [bigToMulti, hp, iprodSz_value (by omega) hfit, bind_ok, hst, bind_ok, wr_ok _ (show 0 < m.length by omega)]
  · intro k hk
    simp only [List.getD_eq_getElem?_getD]
    by_cases hk0 : 0 = k
    · subst hk0
      rw [List.getElem?_set_self (by omega), Option.getD_some]
      simpa only [List.getD_eq_getElem?_getD] using h2
    · rw [List.getElem?_set_ne hk0]
      have := h5 k (by omega) (by omega)
      simpa only [List.getD_eq_getElem?_getD] using this
  · have := C3.Tt.colPos_drop (ns := ns) (es := m.set 0 b) (k := 0) (by simp; omega) (by omega)
    rw [List.drop_zero, List.drop_zero] at this
    rw [this, ← h6, Nat.zero_add]
    have e1 : (m.set 0 b).getD 0 0 = b := by
      rw [List.getD_eq_getElem?_getD, List.getElem?_set_self (by omega)]; rfl
    rw [e1, List.drop_set_of_lt (by omega)]

/-- Column-major positions of in-range multi-indices are distinct. -/
theorem colPos_inj : ∀ (ns a b : List Nat), a.length = ns.length → b.length = ns.length →
    (∀ k < ns.length, a.getD k 0 < ns.getD k 0) → (∀ k < ns.length, b.getD k 0 < ns.getD k 0) →
    colPos ns a = colPos ns b → a = b
  | [], [], [], _, _, _, _, _ => rfl
  | n :: ns, x :: a, y :: b, ha, hb, hla, hlb, e => by
    have hx : x < n := by simpa using hla 0 (by simp)
    have hy : y < n := by simpa using hlb 0 (by simp)
    simp only [colPos] at e
    have h1 : x = y := by
      have := congrArg (· % n) e
      simpa [Nat.add_mul_mod_self_left, Nat.mod_eq_of_lt hx, Nat.mod_eq_of_lt hy] using this
    have h2 : colPos ns a = colPos ns b := by
      subst h1
      exact Nat.eq_of_mul_eq_mul_left (show 0 < n by omega) (by omega)
    rw [h1, colPos_inj ns a b (by simpa using ha) (by simpa using hb)
      (fun k hk => by simpa using hla (k + 1) (by simpa using hk))
      (fun k hk => by simpa using hlb (k + 1) (by simpa using hk)) h2]

/-- **C42** The other composition: flattening an in-range multi-index and converting back returns it. -/
theorem bigToMulti_flatten_partial {rnd : ℚ → ℚ} (hr : RoundNearest rnd) {ns multi es : List Nat}
    (hd : 0 < ns.length) (hdl : ns.length < 2 ^ 64) (hml : multi.length = ns.length) (hes : es.length = ns.length)
    (hlt : ∀ k < ns.length, es.getD k 0 < ns.getD k 0)
    (hsz : ∀ k, 0 < k → k < ns.length → ns.getD k 0 ≤ 2 ^ 53) (hfit : ns.prod ≤ 2 ^ 64)
    (hfit' : (ns.take (ns.length - 1)).prod < 2 ^ 64) :
    bigToMulti rnd (colPos ns es) ns.length ns multi = .ok es := by
  have hpos : ∀ n ∈ ns, 0 < n := by
    intro n hn
    obtain ⟨k, hk, rfl⟩ := List.mem_iff_getElem.1 hn
    have := hlt k hk
    simp only [List.getD_eq_getElem?_getD, List.getElem?_eq_getElem hk, Option.getD_some] at this
    omega
  have hl := C3.Tt.colPos_lt ns es hes hlt
  obtain ⟨m, h1, h2, h3, h4⟩ := bigToMulti_value_partial hr hd hdl hml hpos hsz hfit' (by omega) hl
  rw [h1, colPos_inj ns m es h2 hes h3 hlt h4]

/-- Doubles of magnitude at least `2^53` are even integers. -/
theorem dbl_even {r : ℚ} (h : Dbl r) (hr : 2 ^ 53 ≤ r) : ∃ k : ℤ, r = k * 2 := by
  obtain ⟨m, e, hm, h1, h2, rfl⟩ := h
  have hpos : (0:ℚ) < 2 ^ e := zpow_pos (by norm_num) _
  have hm' : (m : ℚ) < 2 ^ 53 := by exact_mod_cast (abs_lt.1 hm).2
  have he : 1 ≤ e := by
    by_contra hlt
    have hz : (2 : ℚ) ^ e ≤ 1 := zpow_le_one_of_nonpos₀ (by norm_num) (by omega)
    have h3 : (m:ℚ) * 2 ^ e < 2 ^ 53 * 2 ^ e := mul_lt_mul_of_pos_right hm' hpos
    have h4 : (2:ℚ) ^ 53 * 2 ^ e ≤ 2 ^ 53 * 1 := mul_le_mul_of_nonneg_left hz (by positivity)
    linarith
  obtain ⟨n, rfl⟩ : ∃ n : ℕ, e = 1 + n := ⟨(e - 1).toNat, by omega⟩
  refine ⟨m * 2 ^ n, ?_⟩
  push_cast
  rw [zpow_add₀ (by norm_num), zpow_natCast, zpow_one]
  ring

/-- **C42** With a second mode of size `2^54` the conversion of index `2^53+1` does not return `(0, 2^53+1)`, whatever
the direction in which ties are rounded. -/
theorem bigToMulti_counterexample {rnd : ℚ → ℚ} (hr : RoundNearest rnd) :
    colPos [1, 2 ^ 54] [0, 2 ^ 53 + 1] = 2 ^ 53 + 1 ∧
      bigToMulti rnd (2 ^ 53 + 1) 2 [1, 2 ^ 54] [0, 0] ≠ .ok [0, 2 ^ 53 + 1] := by
  refine ⟨rfl, fun h => ?_⟩
  have hp : pred64 2 = 1 := by decide
  have hi : iprodSz 1 [1, 2 ^ 54] = .ok 1 := by decide
  have hstep : forN 1 (fun t => bigStep rnd [1, 2 ^ 54] (1 - t)) (2 ^ 53 + 1, 1, [0, 0])
      = bigStep rnd [1, 2 ^ 54] 1 (2 ^ 53 + 1, 1, [0, 0]) := rfl
  rw [bigToMulti, hp, hi, bind_ok, hstep, bigStep, if_neg (by decide)] at h
  simp only [Nat.div_one] at h
  rcases hq : lrintFloor (rnd ((2 ^ 53 + 1 : Nat) : ℚ)) with er | q
  · rw [hq] at h; cases h
  · rw [hq, bind_ok, wr_ok _ (by decide), bind_ok, Nat.sub_self, rd_ok (by decide), bind_ok, if_neg (by decide), pure_eq_ok,
      bind_ok, wr_ok _ (by simp)] at h
    have hq1 : q = 2 ^ 53 + 1 := by
      have := congrArg (fun r : C (List Nat) => match r with | .ok l => l.getD 1 0 | .error _ => 0) h
      simpa using this
    subst hq1
    rw [lrintFloor] at hq
    split at hq
    · rename_i hin
      have hq2 : (⌊rnd ((2 ^ 53 + 1 : Nat) : ℚ)⌋ % 2 ^ 64).toNat = 2 ^ 53 + 1 := by injection hq
      have hd53 : Dbl (2 ^ 53) := by have := dbl_nat (n := 2 ^ 53) le_rfl; push_cast at this; exact this
      have hn := hr.nearest ((2 ^ 53 + 1 : Nat) : ℚ) _ hd53
      have hn' : |rnd ((2 ^ 53 + 1 : Nat) : ℚ) - (2 ^ 53 + 1)| ≤ 1 := by
        have e : ((2 ^ 53 + 1 : Nat) : ℚ) = 2 ^ 53 + 1 := by push_cast; ring
        rw [e] at hn ⊢
        exact le_trans hn (by norm_num)
      obtain ⟨hlo, hhi⟩ := abs_le.1 hn'
      obtain ⟨k, hk⟩ := dbl_even (hr.dbl ((2 ^ 53 + 1 : Nat) : ℚ)) (by linarith)
      rw [hk] at hq2 hlo hhi
      have hfl : ⌊(k : ℚ) * 2⌋ = k * 2 := by
        have : (k : ℚ) * 2 = ((k * 2 : ℤ) : ℚ) := by push_cast; ring
        rw [this, Int.floor_intCast]
      rw [hfl] at hq2
      have h1 : (2 ^ 52 : ℚ) ≤ k := by linarith
      have h1' : 2 ^ 52 ≤ k := by exact_mod_cast h1
      have h2 : (k : ℚ) ≤ 2 ^ 52 + 1 := by linarith
      have h2' : k ≤ 2 ^ 52 + 1 := by exact_mod_cast h2
      omega
    · cases hq

example {rnd : ℚ → ℚ} (hr : RoundNearest rnd) := bigToMulti_value_partial hr (ns := [3, 4, 2]) (multi := [0, 0, 0]) (big := 17)
  (by decide) (by decide) rfl (by decide) (by intro k h1 h2; simp at h2; interval_cases k <;> decide) (by decide) (by decide)
  (by decide)
example {rnd : ℚ → ℚ} (hr : RoundNearest rnd) := bigToMulti_flatten_partial hr (ns := [3, 4]) (multi := [0, 0]) (es := [2, 1])
  (by decide) (by decide) rfl rfl (by decide) (by intro k h1 h2; simp at h2; interval_cases k; decide) (by decide) (by decide)

end C3.Arr
