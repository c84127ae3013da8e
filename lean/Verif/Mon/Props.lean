/-
C10: the hash table is a first-write-wins map.  C11: the caching monitor.
-/
import Verif.Mon.Lemmas
import Verif.Packed.Props

namespace C3.Mon
variable {P : Type}

/-- C10: after any history of insertions into a new table of any size `≥ 1`: every lookup returns the value of the
first insertion with that key (or reports absence), each insertion reported 2 exactly when its key was already
present and 0 otherwise, and the number of stored pairs is the number of distinct keys. -/
theorem hashtable_first_write_wins (size : Nat) (hs : 1 ≤ size) (hist : List (Key × P)) :
    ∃ ht0 codes ht, create size = some ht0 ∧ addRun hist ht0 = .ok (codes, ht) ∧
      (∀ k, lookup ht k = .ok ((hist.find? (fun kv => kv.1 == k)).map (·.2))) ∧
      codes.length = hist.length ∧
      (∀ i (hi : i < hist.length), codes[i]? = some (if hist[i].1 ∈ (hist.take i).map Prod.fst then 2 else 0)) ∧
      nstored ht = .ok (hist.map Prod.fst).toFinset.card := by
  obtain ⟨ht0, hc, hrep, _⟩ := rep_create (P := P) size hs
  obtain ⟨codes, ht, hrun, hrep', _, hl, hcodes⟩ := addRun_rep hrep hist
  refine ⟨ht0, codes, ht, hc, hrun, ?_, hl, ?_, ?_⟩
  · intro k
    rw [lookup_rep hrep', keep_find]; simp
  · intro i hi
    have := hcodes i hi
    simpa using this
  · rw [nstored_rep hrep']
    have h1 : (keep hist []).length = ((keep hist []).map Prod.fst).toFinset.card := by
      rw [List.toFinset_card_of_nodup hrep'.nodup, List.length_map]
    rw [h1]
    congr 2
    ext k
    simp only [List.mem_toFinset]
    rw [keep_keys]; simp

/-- C10: inserting an existing key changes nothing. -/
theorem hashtable_reinsert_noop (size : Nat) (hs : 1 ≤ size) (hist : List (Key × P)) (cp : Key × P)
    (hk : cp.1 ∈ hist.map Prod.fst) :
    ∃ ht0 codes ht, create size = some ht0 ∧ addRun hist ht0 = .ok (codes, ht) ∧ add ht cp = .ok (2, ht) := by
  obtain ⟨ht0, hc, hrep, _⟩ := rep_create (P := P) size hs
  obtain ⟨codes, ht, hrun, hrep', _⟩ := addRun_rep hrep hist
  exact ⟨ht0, codes, ht, hc, hrun, add_rep_hit hrep' cp ((keep_keys _ _ _).2 (.inr hk))⟩

/-- A table of size zero cannot be created. -/
theorem hashtable_create_zero : (create 0 : Option (Table P)) = none := rfl

/-- Non-trivial instance: a table with one bucket, so that all keys collide, and a repeated key. -/
example : ∃ ht0 ht, create 1 = some ht0 ∧ addRun [([97], 1), ([98], 2), ([97], 3)] ht0 = .ok ([0, 0, 2], ht) ∧
    lookup ht [97] = .ok (some 1) ∧ nstored ht = .ok 2 := ⟨_, _, rfl, rfl, rfl, rfl⟩

variable {X V : Type}

/-- C11 (call count): for every evaluation history the underlying function is called at a subsequence of the requested
points, exactly once for each distinct key text. -/
theorem monitor_calls_once (text : X → Key) (f : X → V) (pack : V → P) (unpack : P → V) (size : Nat) (hs : 1 ≤ size)
    (xs : List X) :
    ∃ ht vs st, create size = some ht ∧ monitorRun text f pack unpack xs ⟨ht, []⟩ = .ok (vs, st) ∧
      st.calls.Sublist xs ∧ (st.calls.map text).Nodup ∧ ∀ x ∈ xs, text x ∈ st.calls.map text := by
  obtain ⟨ht, hc, hrep⟩ := mrep_init (P := P) (text := text) (f := f) (pack := pack) size hs
  obtain ⟨vs, st, hr, _, hcalls, _⟩ := monitorRun_rep (unpack := unpack) hrep xs
  simp only [List.nil_append, List.map_nil] at hcalls
  obtain ⟨a, _, c⟩ := fresh_keys (text := text) xs []
  refine ⟨ht, vs, st, hc, hr, hcalls ▸ fresh_sublist _ _, hcalls ▸ a, ?_⟩
  intro x hx
  rcases c x hx with h | h
  · simp at h
  · exact hcalls ▸ h

/-- C11 (transparency): the monitor returns the function's value at every requested point, provided requested points
with the same key text have the same function value and the value encoding is lossless (see
`C3.Packed.packed_roundtrip`). The proviso on keys is needed: see `monitor_transparent_counterexample`. -/
theorem monitor_transparent_partial (text : X → Key) (f : X → V) (pack : V → P) (unpack : P → V) (size : Nat)
    (hs : 1 ≤ size) (xs : List X) (hpk : ∀ x ∈ xs, unpack (pack (f x)) = f x)
    (hkey : ∀ x ∈ xs, ∀ y ∈ xs, text x = text y → f x = f y) :
    ∃ ht st, create size = some ht ∧ monitorRun text f pack unpack xs ⟨ht, []⟩ = .ok (xs.map f, st) := by
  obtain ⟨ht, hc, hrep⟩ := mrep_init (P := P) (text := text) (f := f) (pack := pack) size hs
  obtain ⟨vs, st, hr, _, hcalls, hl, hv⟩ := monitorRun_rep (unpack := unpack) hrep xs
  simp only [List.nil_append, List.map_nil] at hcalls
  refine ⟨ht, st, hc, ?_⟩
  have : vs = xs.map f := by
    apply List.ext_getElem?
    intro i
    by_cases hi : i < xs.length
    · obtain ⟨h1, h2⟩ := hv i hi
      rw [List.getElem?_map, List.getElem?_eq_getElem hi, Option.map_some]
      by_cases hin : text xs[i] ∈ (xs.take i).map text
      · obtain ⟨y, hy, hye, hyv⟩ := h2 (.inr hin)
        have hyx : y ∈ xs := (hcalls ▸ fresh_sublist (text := text) xs []).subset hy
        rw [hyv, hpk y hyx, hkey y hyx xs[i] (List.getElem_mem hi) hye]
      · exact h1 (by simp) hin
    · rw [List.getElem?_eq_none (by omega), List.getElem?_eq_none (by simpa using hi)]
  rw [hr, this]

/-- The 12-byte value encoding used by the monitor, as total functions (`[]`/0 on impossible outcomes). -/
def pack12 (rnd : ℚ → ℚ) (v : ℚ) : List UInt8 := match Packed.serPacked rnd v with | .ok b => b | .error _ => []
def unpack12 (rnd : ℚ → ℚ) (b : List UInt8) : ℚ := match Packed.dePacked rnd b with | .ok v => v.1 | .error _ => 0

/-- C11 with the actual value encoding: for a function with finite double values the monitor is transparent on points
whose key texts determine the value. -/
theorem monitor_transparent_packed_partial {rnd : ℚ → ℚ} (hr : RoundNearest rnd) (text : X → Key) (f : X → ℚ)
    (size : Nat) (hs : 1 ≤ size) (xs : List X) (hf : ∀ x ∈ xs, Dbl (f x))
    (hkey : ∀ x ∈ xs, ∀ y ∈ xs, text x = text y → f x = f y) :
    ∃ ht st, create size = some ht ∧
      monitorRun text f (pack12 rnd) (unpack12 rnd) xs ⟨ht, []⟩ = .ok (xs.map f, st) := by
  refine monitor_transparent_partial text f (pack12 rnd) (unpack12 rnd) size hs xs ?_ hkey
  intro x hx
  obtain ⟨b, h1, _, h2⟩ := Packed.packed_roundtrip hr (hf x hx) []
  rw [List.append_nil] at h2
  simp only [pack12, unpack12, h1, h2]

/-- Non-trivial instance: squares of integers, keys are decimal digits of the absolute value, so `2` and `-2` share
a key and a value. -/
example : (∀ x ∈ [(2:ℤ), -2, 3], (id (x * x)) = x * x) ∧
    ∀ x ∈ [(2:ℤ), -2, 3], ∀ y ∈ [(2:ℤ), -2, 3], Packed.asciiNat x.natAbs = Packed.asciiNat y.natAbs → x * x = y * y := by
  constructor
  · intro x _; rfl
  · decide

theorem log_one_plus : Int.log 2 |(1 + 1 / 2 ^ 52 : ℚ)| = 0 := by
  apply le_antisymm
  · have h := Int.zpow_log_le_self (b := 2) (r := |(1 + 1 / 2 ^ 52 : ℚ)|) (by norm_num) (by norm_num)
    by_contra hc
    have hc : 1 ≤ Int.log 2 |(1 + 1 / 2 ^ 52 : ℚ)| := by omega
    have h2 : ((2:ℕ):ℚ) ^ (1:ℤ) ≤ ((2:ℕ):ℚ) ^ Int.log 2 |(1 + 1 / 2 ^ 52 : ℚ)| :=
      zpow_le_zpow_right₀ (by norm_num) hc
    have := le_trans h2 h
    norm_num at this
  · have h := Int.lt_zpow_succ_log_self (b := 2) (by norm_num) |(1 + 1 / 2 ^ 52 : ℚ)|
    by_contra hc
    have hc : Int.log 2 |(1 + 1 / 2 ^ 52 : ℚ)| + 1 ≤ 0 := by omega
    have h2 : ((2:ℕ):ℚ) ^ (Int.log 2 |(1 + 1 / 2 ^ 52 : ℚ)| + 1) ≤ ((2:ℕ):ℚ) ^ (0:ℤ) :=
      zpow_le_zpow_right₀ (by norm_num) hc
    have := lt_of_lt_of_le h h2
    norm_num at this

theorem log_one : Int.log 2 |(1 : ℚ)| = 0 := by simp

/-- The doubles 1 and 1 + 2^-52 have the same 15-digit text. -/
theorem text_collision : Packed.textOf 1 = Packed.textOf (1 + 1 / 2 ^ 52) := by
  have f1 : frexp 1 = (1 / 2, 1) := by
    simp only [frexp, log_one]; norm_num
  have f2 : frexp (1 + 1 / 2 ^ 52) = (1 / 2 + 1 / 2 ^ 53, 1) := by
    simp only [frexp, log_one_plus]; norm_num
  have tn : Int.toNat 500000000000000 = 500000000000000 := rfl
  have g1 : Packed.roundEven (|(1 / 2 : ℚ)| * 10 ^ 15) = 500000000000000 := by
    have hfl : ⌊|(1 / 2 : ℚ)| * 10 ^ 15⌋ = 500000000000000 := by
      rw [Int.floor_eq_iff]; norm_num
    simp only [Packed.roundEven, hfl, tn]; norm_num
  have g2 : Packed.roundEven (|(1 / 2 + 1 / 2 ^ 53 : ℚ)| * 10 ^ 15) = 500000000000000 := by
    have hab : |(1 / 2 + 1 / 2 ^ 53 : ℚ)| = 1 / 2 + 1 / 2 ^ 53 := abs_of_pos (by norm_num)
    have hfl : ⌊|(1 / 2 + 1 / 2 ^ 53 : ℚ)| * 10 ^ 15⌋ = 500000000000000 := by
      rw [Int.floor_eq_iff, hab]; norm_num
    simp only [Packed.roundEven, hfl, tn]; rw [hab]; norm_num
  simp only [Packed.textOf, f1, f2, g1, g2]
  norm_num

/-- C11 counterexample: with the key text the code uses, evaluating a function first at the double 1 and then at the
next double returns the cached value instead of the function's value, although the value encoding is lossless. -/
theorem monitor_transparent_counterexample :
    ∃ (f : ℚ → ℚ) (ht : Table ℚ) (st : MState ℚ ℚ), Dbl 1 ∧ Dbl (1 + 1 / 2 ^ 52) ∧ create 5 = some ht ∧
      monitorRun Packed.textOf f id id [1, 1 + 1 / 2 ^ 52] ⟨ht, []⟩ = .ok ([0, 0], st) ∧
      f (1 + 1 / 2 ^ 52) = 1 := by
  have hne : (1 + 1 / 2 ^ 52 : ℚ) ≠ 1 := by norm_num
  let f : ℚ → ℚ := fun x => if x = 1 then 0 else 1
  obtain ⟨ht, hc, hrep⟩ := mrep_init (P := ℚ) (text := Packed.textOf) (f := f) (pack := id) 5 (by norm_num)
  obtain ⟨vs, st, hr, _, hcalls, hl, hv⟩ := monitorRun_rep (unpack := id) hrep [1, 1 + 1 / 2 ^ 52]
  have hfr : fresh Packed.textOf [1, 1 + 1 / 2 ^ 52] [] = [1] := by
    simp only [fresh, List.not_mem_nil, if_false, List.nil_append]
    rw [if_pos (by rw [← text_collision]; simp)]
  simp only [List.nil_append, List.map_nil, hfr] at hcalls
  refine ⟨f, ht, st, ⟨1, 0, by norm_num, by norm_num, by norm_num, by norm_num⟩,
    ⟨2 ^ 52 + 1, -52, by norm_num, by norm_num, by norm_num, by norm_num⟩, hc, ?_, ?_⟩
  · rw [hr]
    have h0 := (hv 0 (by simp)).1 (by simp) (by simp)
    obtain ⟨y, hy, -, h1⟩ := (hv 1 (by simp)).2 (.inr (by simp [text_collision]))
    rw [hcalls, List.mem_singleton] at hy
    subst hy
    have : vs = [0, 0] := by
      apply List.ext_getElem?
      intro i
      rcases i with _ | _ | i
      · rw [h0]; simp [f]
      · rw [h1]; simp [f]
      · rw [List.getElem?_eq_none (by rw [hl]; simp)]; simp
    rw [this]
  · simp only [f, if_neg hne]

end C3.Mon
