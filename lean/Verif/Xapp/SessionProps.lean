/-
C131: driving an approximation session: options, starting points, arguments, approximation.
-/
import Verif.Xapp.Session
import Verif.Xapp.AdaptMain
import Verif.Ind.Props

set_option linter.unusedSectionVars false

namespace C3.Xa
open Finset C3.Ft C3.Round C3.Mv C3.Fw C3.Ind
variable {U X O W : Type} [Zero X] {e : Ev ℝ U X} {F : Fam U X} {I : Integ ℝ X}

/-- The `i`-th node for the last `k` coordinates when dimension `j` has the starting points `start[j]` and rank `j` is `rk j`:
it continues node `i` for the last `k-1` coordinates, or node 0 when there are fewer. -/
def rnode (start : List (List X)) (rk : Nat → Nat) (d : Nat) : Nat → Nat → List X
  | 0, _ => []
  | k + 1, i => (start.getD (d - (k + 1)) []).getD i 0 :: rnode start rk d k (if i < rk (d - k) then i else 0)

theorem rnode_length {start : List (List X)} {rk : Nat → Nat} {d : Nat} : ∀ (k i : Nat), (rnode start rk d k i).length = k
  | 0, _ => rfl
  | k + 1, i => by rw [rnode, List.length_cons, rnode_length]

/-- With the same rank everywhere the nodes are the columns of the starting points. -/
theorem rnode_same {start : List (List X)} {rk : Nat → Nat} {d r : Nat} (hs : start.length = d) :
    ∀ k, k ≤ d → (∀ j, d - k < j → j < d → rk j = r) → ∀ i < r, rnode start rk d k i = (start.drop (d - k)).map (·.getD i 0)
  | 0, _, _, i, _ => by rw [rnode, Nat.sub_zero, List.drop_eq_nil_of_le (by omega)]; rfl
  | k + 1, hk, hrk, i, hi => by
    have hlt : d - (k + 1) < start.length := by omega
    have hg : start.getD (d - (k + 1)) [] = start[d - (k + 1)] := by
      rw [List.getD_eq_getElem?_getD, List.getElem?_eq_getElem hlt, Option.getD_some]
    rw [rnode, List.drop_eq_getElem_cons hlt, List.map_cons, hg]
    congr 1
    by_cases h0 : k = 0
    · subst h0
      rw [rnode, List.drop_eq_nil_of_le (by omega)]; rfl
    · rw [if_pos (by rw [hrk (d - k) (by omega) (by omega)]; exact hi),
        rnode_same hs k (by omega) (fun j h1 h2 => hrk j (by omega) h2) i hi]
      rw [show d - (k + 1) + 1 = d - k by omega]

theorem rows_eq {start : List (List X)} {rk : Nat → Nat} {d : Nat} (hd : 2 ≤ d) (hs : start.length = d)
    {rows : Nat → List (List X)} (hl : ∀ k, 1 ≤ k → k < d → (rows k).length = rk (d - k))
    (h1 : rows 1 = ((start.getD (d - 1) []).take (rk (d - 1))).map (fun x => [x]))
    (hx : ∀ k, 2 ≤ k → k < d → Extends 1 (rows (k - 1)) (start.getD (d - k) []) (rows k)) :
    ∀ k, 1 ≤ k → k < d → rows k = (List.range (rk (d - k))).map (rnode start rk d k) := by
  intro k
  induction k with
  | zero => intro h; omega
  | succ k ih =>
    intro hk1 hkd
    have hlen := hl (k + 1) hk1 hkd
    refine List.ext_getElem? fun i => ?_
    by_cases hi : i < rk (d - (k + 1))
    · rw [List.getElem?_map, List.getElem?_range hi, Option.map_some]
      by_cases h0 : k = 0
      · subst h0
        rw [h1, List.getElem?_map]
        have hle : i < ((start.getD (d - 1) []).take (rk (d - 1))).length := by
          have := congrArg List.length h1
          rw [List.length_map, hlen] at this
          rw [← this]; exact hi
        rw [List.getElem?_eq_getElem hle, Option.map_some, List.getElem_take, rnode, rnode]
        have hle' : i < (start.getD (d - 1) []).length := by rw [List.length_take] at hle; omega
        have hg : (start.getD (d - (0 + 1)) []).getD i 0 = (start.getD (d - 1) [])[i] := by
          show (start.getD (d - 1) []).getD i 0 = _
          rw [List.getD_eq_getElem?_getD (a := (0 : X)), List.getElem?_eq_getElem hle', Option.getD_some]
        rw [hg]
      · have ih' := ih (by omega) (by omega)
        obtain ⟨o, v, e1, e2, e3⟩ := hx (k + 1) (by omega) hkd i (by rw [hlen]; exact hi)
        have hpl := hl k (by omega) (by omega)
        rw [Nat.add_sub_cancel, hpl] at e1
        rw [e3, if_neg (by decide), rnode]
        have hv : (start.getD (d - (k + 1)) []).getD i 0 = v := by rw [List.getD_eq_getElem?_getD, e2]; rfl
        rw [hv]
        congr 1
        rw [ih', List.getElem?_map] at e1
        have hb : (if i < rk (d - k) then i else 0) < rk (d - k) := by
          by_contra hc
          rw [List.getElem?_eq_none (by simpa using hc)] at e1
          cases e1
        rw [List.getElem?_range hb, Option.map_some] at e1
        rw [Option.some.inj e1]
    · rw [List.getElem?_eq_none (by omega), List.getElem?_eq_none (by simp; omega)]

/-- The arguments right after the initialisation with the given ranks. -/
noncomputable def fca0 (d : Nat) (ranks : List Nat) (r1 : Nat) (v : Int) : Fca :=
  ⟨d, ranks, 1 / 10 ^ 10, 5, true, 1 / 10 ^ 14, 5, List.replicate (d - 1) (r1 + 20), v⟩

theorem forR_const {n a b : Nat} (r : Nat) : ∀ l : List Nat, l.length = n → a ≤ b → b ≤ n →
    forR a b (fun ii l => wr l ii r) l = .ok ((List.range n).map fun k => if a ≤ k ∧ k < b then r else l.getD k 0) := by
  intro l hl hab hb
  obtain ⟨out, h1, h2⟩ := forR_spec (fun i (out : List Nat) => out = (List.range n).map fun k => if a ≤ k ∧ k < i then r else l.getD k 0)
    (body := fun ii l => wr l ii r) (s := l) hab (by
      refine List.ext_getElem? fun k => ?_
      by_cases hk : k < n
      · rw [List.getElem?_map, List.getElem?_range hk, Option.map_some, if_neg (by omega), List.getD_eq_getElem?_getD,
          List.getElem?_eq_getElem (by omega), Option.getD_some]
      · rw [List.getElem?_eq_none (by omega), List.getElem?_eq_none (by simp; omega)]) (by
      rintro i h1 h2 s rfl
      refine ⟨_, wr_ok _ (by simp; omega), ?_⟩
      refine List.ext_getElem? fun k => ?_
      by_cases hk : k < n
      · by_cases he : k = i
        · subst he
          rw [List.getElem?_set_self (by simpa using hk), List.getElem?_map, List.getElem?_range hk, Option.map_some,
            if_pos (by omega)]
        · rw [List.getElem?_set_ne (by omega), List.getElem?_map, List.getElem?_map, List.getElem?_range hk,
            Option.map_some, Option.map_some]
          congr 1
          by_cases hc : a ≤ k ∧ k < i
          · rw [if_pos hc, if_pos (by omega)]
          · rw [if_neg hc, if_neg (by omega)]
      · rw [List.getElem?_eq_none (by simp; omega), List.getElem?_eq_none (by simp; omega)])
  rw [h1, h2]

/-- The ranks of an approximation with one and the same rank inside. -/
def sameRanks (d r : Nat) : List Nat := (List.range (d + 1)).map fun k => if k = 0 ∨ k = d then 1 else r

theorem fcaAlloc_ok {d r : Nat} (hd : 1 ≤ d) :
    fcaAlloc d r = .ok ⟨d, sameRanks d r, 1 / 10 ^ 10, 5, true, 1 / 10 ^ 10, 5, List.replicate (d - 1) (r + 20), 0⟩ := by
  rw [fcaAlloc, wr_ok _ (by simp), bind_ok, forR_const (n := d + 1) r _ (by simp) hd (by omega), bind_ok, wr_ok _ (by simp), bind_ok]
  have hr : ((List.range (d + 1)).map fun k => if 1 ≤ k ∧ k < d then r else ((List.replicate (d + 1) 0).set 0 1).getD k 0).set d 1
      = sameRanks d r := by
    refine List.ext_getElem? fun k => ?_
    by_cases hk : k < d + 1
    · rw [sameRanks, List.getElem?_map, List.getElem?_range hk, Option.map_some]
      by_cases hkd : k = d
      · subst hkd
        rw [List.getElem?_set_self (by simp), if_pos (Or.inr rfl)]
      · rw [List.getElem?_set_ne (by omega), List.getElem?_map, List.getElem?_range hk, Option.map_some]
        congr 1
        by_cases h0 : k = 0
        · subst h0
          rw [if_neg (by omega), if_pos (Or.inl rfl), List.getD_eq_getElem?_getD, List.getElem?_set_self (by simp)]; rfl
        · rw [if_pos (by omega), if_neg (by omega)]
    · rw [List.getElem?_eq_none (by simp; omega), List.getElem?_eq_none (by simp [sameRanks]; omega)]
  rw [hr, if_neg (by omega)]
  rw [forN_fill (off := 0) (fun _ : Nat => r + 20) (by simp) (fun i hi b _ => by
    rw [rd_of_getElem? (show (sameRanks d r)[i + 1]? = some r by
      rw [sameRanks, List.getElem?_map, List.getElem?_range (by omega), Option.map_some, if_neg (by omega)]), bind_ok, Nat.zero_add]),
    bind_ok]
  congr 2
  rw [List.take_zero, List.nil_append, List.drop_eq_nil_of_le (by simp), List.append_nil]
  refine List.ext_getElem? fun k => ?_
  by_cases hk : k < d - 1
  · rw [List.getElem?_map, List.getElem?_range hk, List.getElem?_replicate, if_pos hk]; rfl
  · rw [List.getElem?_eq_none (by simp; omega), List.getElem?_eq_none (by simp; omega)]

theorem allSet_ok (l : List O) : allSet (l.map some) = .ok l := by
  induction l with
  | nil => rfl
  | cons a l ih => rw [List.map_cons, allSet, ih]; rfl

/-- A session of `d ≥ 2` dimensions in which the options of all dimensions are set. -/
structure Sess.Set (s : Sess U X O W) (d : Nat) (l : List O) : Prop where
  two : 2 ≤ d
  dim : s.dim = d
  type : s.type = .cross
  fapp : s.fapp = l.map some
  isl : s.isl.length = d
  isr : s.isr.length = d

/-- The right index sets for the given starting points and ranks. -/
def rsets (start : List (List X)) (rk : Nat → Nat) (d j : Nat) : List (List X) :=
  if j = d - 1 then [[]] else (List.range (rk (j + 1))).map (rnode start rk d (d - 1 - j))

/-- A session that is ready for cross approximation: arguments `f`, reference train `ref`, right index sets `Ss`. -/
structure Sess.Ready (s : Sess U X O W) (d : Nat) (f : Fca) (Ss : Nat → List (List X)) (ref : FT ℝ U) : Prop where
  type : s.type = .cross
  fca : s.fca = some f
  fdim : f.dim = d
  ref : s.ftref = some ref
  llen : s.isl.length = d
  lfirst : s.isl[0]? = some none
  slen : s.isr.length = d
  slast : s.isr[d - 1]? = some none
  sets : ∀ j < d - 1, s.isr[j]? = some (some (Ind.mk (d - 1 - j) (Ss j))) ∧ f.ranks[j + 1]? = some (Ss j).length
  setsEnd : Ss (d - 1) = [[]]

theorem setUp_ok {o : SOps U X O} {s : Sess U X O W} {d : Nat} {l : List O} (hs : s.Set d l) {f : Fca} (hf : f.dim = d)
    (hrl : f.ranks.length = d + 1) (hp : ∀ r ∈ f.ranks, 0 < r) {start : List (List X)} (hst : start.length = d)
    (hn : ∀ i < d, f.ranks.getD i 0 ≤ (start.getD i []).length ∧ f.ranks.getD (i + 1) 0 ≤ (start.getD i []).length)
    {ref : FT ℝ U} (href : o.one l = .ok ref) :
    ∃ s', setUp o s f start = .ok s' ∧ s'.Ready d f (rsets start (fun k => f.ranks.getD k 0) d) ref ∧
      s'.dim = d ∧ s'.fapp = s.fapp ∧ s'.fopt = s.fopt ∧
      ∀ k, 1 ≤ k → k < d → ∃ rows, s'.isl[k]? = some (some (Ind.mk k rows)) ∧ rows.length = f.ranks.getD k 0 ∧
        ∀ r ∈ rows, r.length = k := by
  obtain ⟨two, dim, type, fapp, isl, isr⟩ := hs
  have hgd : ∀ (i : Nat) (h : i < f.ranks.length), f.ranks.getD i 0 = f.ranks[i] := fun i h => by
    rw [List.getD_eq_getElem?_getD, List.getElem?_eq_getElem h]; rfl
  have hgs : ∀ (i : Nat) (h : i < start.length), start.getD i [] = start[i] := fun i h => by
    rw [List.getD_eq_getElem?_getD, List.getElem?_eq_getElem h]; rfl
  obtain ⟨out, rows, r1, r2, r3, r4, r5, r6⟩ := array_initialize_reverse d two s.isr isr (f.ranks.take d) start
    (by simp [hrl]) hst (fun i h1 h2 => by
      rw [List.length_take] at h1
      rw [List.getElem_take]
      refine ⟨hp _ (List.getElem_mem _), ?_⟩
      have := (hn i (by omega)).1
      rwa [hgd i (by omega), hgs i h2] at this)
  obtain ⟨out', rows', q1, q2, q3, q4, q5, q6⟩ := array_initialize_forward d two s.isl isl (f.ranks.drop 1) start 0 (by decide)
    (by simp [hrl]) hst (fun i h1 h2 => by
      rw [List.length_drop] at h1
      rw [List.getElem_drop]
      refine ⟨hp _ (List.getElem_mem _), ?_⟩
      have := (hn i (by omega)).2
      rw [hgd (i + 1) (by omega), hgs i h2] at this
      have hc : f.ranks[1 + i] = f.ranks[i + 1] := by congr 1; omega
      rw [hc]; exact this)
  have hrk : ∀ k, 1 ≤ k → k < d → (rows k).length = f.ranks.getD (d - k) 0 := fun k h1 h2 => by
    rw [(r5 k h1 h2).2.1, List.getElem_take, hgd]
  have hrows := rows_eq (start := start) (rk := fun k => f.ranks.getD k 0) two hst hrk (by
      rw [r4, List.getElem_take, hgs _ (by omega), hgd]) (fun k h1 h2 => by
      rw [hgs _ (by omega)]; exact r6 k h1 h2)
  refine ⟨{ s with isl := out', isr := out, fca := some f, ftref := some ref }, ?_, ?_, dim, rfl, rfl, fun k h1 h2 => ?_⟩
  · rw [setUp, dim, r1, bind_ok, q1, bind_ok, fapp, allSet_ok, bind_ok, href, bind_ok]; rfl
  · refine ⟨type, rfl, hf, rfl, q2, q3, r2, r3, fun j hj => ?_, by rw [rsets, if_pos rfl]⟩
    have h5 := (r5 (d - 1 - j) (by omega) (by omega)).1
    rw [show d - 1 - (d - 1 - j) = j by omega, hrows (d - 1 - j) (by omega) (by omega)] at h5
    rw [rsets, if_neg (by omega)]
    rw [show d - (d - 1 - j) = j + 1 by omega] at h5
    refine ⟨h5, ?_⟩
    rw [List.length_map, List.length_range, List.getElem?_eq_getElem (by omega), hgd _ (by omega)]
  · refine ⟨rows' k, (q5 k h1 h2).1, ?_, (q5 k h1 h2).2.2⟩
    rw [(q5 k h1 h2).2.1, List.getElem_drop, hgd k (by omega)]
    congr 1
    omega

theorem sameRanks_length (d r : Nat) : (sameRanks d r).length = d + 1 := by simp [sameRanks]

theorem sameRanks_get {d r k : Nat} (hk : k ≤ d) : (sameRanks d r).getD k 0 = if k = 0 ∨ k = d then 1 else r := by
  rw [List.getD_eq_getElem?_getD, sameRanks, List.getElem?_map, List.getElem?_range (by omega)]; rfl

/-- The right index sets with one and the same rank: in position `j` the `r` columns of the points of the later dimensions. -/
def colSets (start : List (List X)) (d r j : Nat) : List (List X) :=
  if j = d - 1 then [[]] else (List.range r).map fun i => (start.drop (j + 1)).map (·.getD i 0)

theorem rsets_same {start : List (List X)} {d r : Nat} (hd : 2 ≤ d) (hs : start.length = d) {j : Nat} (hj : j < d) :
    rsets start (fun k => (sameRanks d r).getD k 0) d j = colSets start d r j := by
  rw [rsets, colSets]
  split
  · rfl
  · rw [sameRanks_get (by omega), if_neg (by omega)]
    refine List.map_congr_left fun i hi => ?_
    rw [rnode_same hs (d - 1 - j) (by omega) (fun k h1 h2 => by
      rw [sameRanks_get (by omega), if_neg (by omega)]) i (List.mem_range.1 hi)]
    rw [show d - (d - 1 - j) = j + 1 by omega]

theorem Sess.Ready.congr {s : Sess U X O W} {d : Nat} {f : Fca} {Ss Ss' : Nat → List (List X)} {ref : FT ℝ U}
    (h : s.Ready d f Ss ref) (hd : 0 < d) (he : ∀ j < d, Ss j = Ss' j) : s.Ready d f Ss' ref := by
  refine ⟨h.type, h.fca, h.fdim, h.ref, h.llen, h.lfirst, h.slen, h.slast, fun j hj => ?_, ?_⟩
  · rw [← he j (by omega)]; exact h.sets j hj
  · rw [← he (d - 1) (by omega)]; exact h.setsEnd

/-- C131: initialisation with the rank `r ≥ 1` and at least `r` starting points per dimension. The session is ready; all inner
ranks are `r`; node `i` of every index set consists of the `i`-th starting points; all other arguments have their default
values, whatever they were before. -/
theorem initCross_ready {o : SOps U X O} {s : Sess U X O W} {d : Nat} {l : List O} (hs : s.Set d l) {r : Nat} (hr : 0 < r)
    (v : Int) {start : List (List X)} (hst : start.length = d) (hn : ∀ p ∈ start, r ≤ p.length) {ref : FT ℝ U}
    (href : o.one l = .ok ref) :
    ∃ s', initCross o s r v (some start) = .ok s' ∧ s'.Ready d (fca0 d (sameRanks d r) r v) (colSets start d r) ref ∧
      s'.dim = d ∧ s'.fapp = s.fapp ∧ s'.fopt = s.fopt := by
  have h2 := hs.two
  have hpl : ∀ i < d, r ≤ (start.getD i []).length := fun i hi => by
    rw [List.getD_eq_getElem?_getD, List.getElem?_eq_getElem (by omega)]
    exact hn _ (List.getElem_mem _)
  obtain ⟨s', h1, h3, h4, h5, h6, -⟩ := setUp_ok hs (f := fca0 d (sameRanks d r) r v) rfl (sameRanks_length d r)
    (fun x hx => by
      obtain ⟨k, -, rfl⟩ := List.mem_map.1 hx
      split <;> omega) hst (fun i hi => by
      have := hpl i hi
      show (sameRanks d r).getD i 0 ≤ _ ∧ (sameRanks d r).getD (i + 1) 0 ≤ _
      rw [sameRanks_get (by omega), sameRanks_get (by omega)]
      constructor <;> split <;> omega) href
  refine ⟨s', ?_, h3.congr (by omega) (fun j hj => rsets_same h2 hst hj), h4, h5, h6⟩
  rw [initCross, cassert_of (by simpa using hs.type), starts, bind_ok, bind_ok, hs.dim, fcaAlloc_ok (by omega), bind_ok]
  exact h1

/-- The points of the grid in all dimensions. -/
theorem starts_grid {o : SOps U X O} {s : Sess U X O W} {d : Nat} {l : List O} (hs : s.Set d l) (hl : l.length = d)
    {n : Nat → C Nat} {g : Nat → List X} (hg : ∀ i a, l[i]? = some a → ∃ k, n i = .ok k ∧ o.grid a k = .ok (g i)) :
    starts o s n none = .ok ((List.range d).map g) := by
  rw [starts, hs.dim]
  have := forN_fill (off := 0) (n := d) (a := List.replicate d ([] : List X)) (body := fun ii l => do
      let a ← rd s.fapp ii
      let k ← n ii
      let g ← gridOf o a k
      wr l ii g) g (by simp) (fun i hi b _ => by
    have hil : i < l.length := by omega
    obtain ⟨k, h1, h2⟩ := hg i l[i] (List.getElem?_eq_getElem hil)
    rw [rd_of_getElem? (show s.fapp[i]? = some (some l[i]) by
      rw [hs.fapp, List.getElem?_map, List.getElem?_eq_getElem hil]; rfl), bind_ok, h1, bind_ok, gridOf, h2, bind_ok, Nat.zero_add])
  rw [this]
  congr 1
  rw [List.take_zero, List.nil_append, List.drop_eq_nil_of_le (by simp), List.append_nil]

/-- C131: the same when no starting points are given: they are the grid points between the bounds of each dimension. -/
theorem initCross_grid {o : SOps U X O} {s : Sess U X O W} {d : Nat} {l : List O} (hs : s.Set d l) (hl : l.length = d) {r : Nat}
    (hr : 0 < r) (v : Int) {g : Nat → List X} (hg : ∀ i a, l[i]? = some a → o.grid a r = .ok (g i) ∧ (g i).length = r)
    {ref : FT ℝ U} (href : o.one l = .ok ref) :
    ∃ s', initCross o s r v none = .ok s' ∧
      s'.Ready d (fca0 d (sameRanks d r) r v) (colSets ((List.range d).map g) d r) ref := by
  obtain ⟨s', h1, h2, -⟩ := initCross_ready hs hr v (start := (List.range d).map g) (by simp) (fun p hp => by
    obtain ⟨i, hi, rfl⟩ := List.mem_map.1 hp
    have hil : i < l.length := by rw [hl]; exact List.mem_range.1 hi
    rw [(hg i l[i] (List.getElem?_eq_getElem hil)).2]) href
  refine ⟨s', ?_, h2⟩
  rw [← h1, initCross, initCross, starts_grid hs hl (n := fun _ => .ok r) (g := g) (fun i a ha => ⟨r, rfl, (hg i a ha).1⟩)]
  rfl

/-- C131, partial: different ranks. Only when every dimension has enough starting points for the rank before it and for the
rank behind it (the grid the code makes for itself need not, see below). -/
theorem initHet_partial {o : SOps U X O} {s : Sess U X O W} {d : Nat} {l : List O} (hs : s.Set d l) {ranks : List Nat}
    (hrl : ranks.length = d + 1) (hp : ∀ r ∈ ranks, 0 < r) (v : Int) {start : List (List X)} (hst : start.length = d)
    (hn : ∀ i < d, ranks.getD i 0 ≤ (start.getD i []).length ∧ ranks.getD (i + 1) 0 ≤ (start.getD i []).length)
    {ref : FT ℝ U} (href : o.one l = .ok ref) :
    ∃ s', initHet o s ranks v (some start) = .ok s' ∧
      s'.Ready d (fca0 d ranks (ranks.getD 1 0) v) (rsets start (fun k => ranks.getD k 0) d) ref := by
  have h2 := hs.two
  obtain ⟨s', h1, h3, -⟩ := setUp_ok hs (f := fca0 d ranks (ranks.getD 1 0) v) rfl hrl hp hst hn href
  refine ⟨s', ?_, h3⟩
  rw [initHet, cassert_of (by simpa using hs.type), starts, bind_ok, bind_ok,
    rd_of_getElem? (show ranks[1]? = some (ranks.getD 1 0) by
      rw [List.getD_eq_getElem?_getD, List.getElem?_eq_getElem (by omega)]; rfl), bind_ok, hs.dim, fcaAlloc_ok (by omega), bind_ok]
  dsimp only
  rw [forN_fill (off := 0) (fun i : Nat => ranks.getD i 0) (by rw [sameRanks_length]; omega) (fun i hi b _ => by
    rw [rd_of_getElem? (show ranks[i]? = some (ranks.getD i 0) by
      rw [List.getD_eq_getElem?_getD, List.getElem?_eq_getElem (by omega)]; rfl), bind_ok, Nat.zero_add]), bind_ok]
  have : List.take 0 (sameRanks d (ranks.getD 1 0)) ++ (List.range (d + 1)).map (fun i => ranks.getD i 0) ++
      List.drop (0 + (d + 1)) (sameRanks d (ranks.getD 1 0)) = ranks := by
    rw [List.take_zero, List.nil_append, List.drop_eq_nil_of_le (by rw [sameRanks_length]; omega), List.append_nil]
    refine List.ext_getElem? fun k => ?_
    by_cases hk : k < d + 1
    · rw [List.getElem?_map, List.getElem?_range hk, Option.map_some, List.getD_eq_getElem?_getD,
        List.getElem?_eq_getElem (by omega)]; rfl
    · rw [List.getElem?_eq_none (by simp; omega), List.getElem?_eq_none (by omega)]
  rw [this]
  exact h1

/-! ### The single arguments -/

/-- What a call changes. -/
def Arg.eff (d : Nat) (f : Fca) : Arg → Fca
  | .verbose v => { f with verbose := v }
  | .roundTol e => { f with epsround := e }
  | .crossTol e => { f with epsilon := e }
  | .kickrank k => { f with kickrank := k }
  | .maxiter n => { f with maxiter := n }
  | .maxrank n => { f with maxranks := List.replicate (d - 1) n }

theorem maxrankAll_ok {f : Fca} {d : Nat} (hd : f.dim = d) (hm : f.maxranks.length = d - 1) (n : Nat) :
    maxrankAll f n = .ok { f with maxranks := List.replicate (d - 1) n } := by
  rw [maxrankAll, hd, forN_fill (off := 0) (fun _ : Nat => n) (by omega) (fun i hi b _ => by rw [Nat.zero_add]), bind_ok]
  congr 2
  rw [List.take_zero, List.nil_append, List.drop_eq_nil_of_le (by omega), List.append_nil]
  refine List.ext_getElem? fun k => ?_
  by_cases hk : k < d - 1
  · rw [List.getElem?_map, List.getElem?_range hk, List.getElem?_replicate, if_pos hk]; rfl
  · rw [List.getElem?_eq_none (by simp; omega), List.getElem?_eq_none (by simp; omega)]

theorem Sess.Ready.args {s : Sess U X O W} {d : Nat} {f f' : Fca} {Ss : Nat → List (List X)} {ref : FT ℝ U}
    (h : s.Ready d f Ss ref) (hd : f'.dim = d) (hr : f'.ranks = f.ranks) : Sess.Ready { s with fca := some f' } d f' Ss ref :=
  ⟨h.type, rfl, hd, h.ref, h.llen, h.lfirst, h.slen, h.slast, fun j hj => by rw [hr]; exact h.sets j hj, h.setsEnd⟩

/-- C131: any sequence of argument calls on a ready session succeeds, keeps it ready with the same index sets, ranks and
reference train, and changes exactly the arguments that were set, the last value of each counting. -/
theorem setArgs_ready {d : Nat} {Ss : Nat → List (List X)} {ref : FT ℝ U} (l : List Arg) :
    ∀ {f : Fca} {s : Sess U X O W}, s.Ready d f Ss ref → f.maxranks.length = d - 1 →
    ∃ s', setArgs l s = .ok s' ∧ s'.Ready d (l.foldl (Arg.eff d) f) Ss ref ∧ s'.fapp = s.fapp ∧ s'.fopt = s.fopt ∧ s'.dim = s.dim ∧
      (l.foldl (Arg.eff d) f).ranks = f.ranks ∧ (l.foldl (Arg.eff d) f).adapt = f.adapt ∧
      (l.foldl (Arg.eff d) f).maxranks.length = d - 1 := by
  induction l with
  | nil => intro f s h hm; exact ⟨s, rfl, h, rfl, rfl, rfl, rfl, rfl, hm⟩
  | cons a l ih =>
    intro f s h hm
    have key : fcaSet f a = .ok (a.eff d f) ∧ (a.eff d f).dim = d ∧ (a.eff d f).ranks = f.ranks ∧ (a.eff d f).adapt = f.adapt ∧
        (a.eff d f).maxranks.length = d - 1 := by
      cases a with
      | maxrank n => exact ⟨maxrankAll_ok h.fdim hm n, h.fdim, rfl, rfl, by simp [Arg.eff]⟩
      | _ => exact ⟨rfl, h.fdim, rfl, rfl, hm⟩
    obtain ⟨k1, k2, k3, k4, k5⟩ := key
    obtain ⟨s', q1, q2, q3, q4, q5, q6, q7, q8⟩ := ih (h.args k2 k3) k5
    refine ⟨s', ?_, q2, q3, q4, q5, q6.trans k3, q7.trans k4, q8⟩
    rw [setArgs, setArg, h.fca]
    dsimp only
    rw [k1, bind_ok]
    exact q1

/-- C131: before the initialisation each of these calls ends the program, and so does the approximation. -/
theorem not_ready (e : Ev ℝ U X) (o : SOps U X O) {s : Sess U X O W} (h : s.fca = none) (a : Arg) (fuel n : Nat) (fw : Fwrap X ℝ)
    (adapt : Int) : setArg s a = .error .exit ∧ doCross e o fuel n s fw adapt = .error .assertFail := by
  refine ⟨by rw [setArg, h], ?_⟩
  rw [doCross, h]
  by_cases ht : s.type = .cross
  · rw [cassert_of (by simpa using ht)]; rfl
  · rw [cassert, if_neg (by simpa using ht)]; rfl

/-- C131: a session of unspecified kind is refused when it is created, and a session of another kind than cross approximation is created
but refuses initialisation and approximation. -/
theorem kind_refused (e : Ev ℝ U X) (o : SOps U X O) (type : AType) (ht : type ≠ .cross) (d r fuel n : Nat) (v adapt : Int)
    (ranks : List Nat) (fw : Fwrap X ℝ) (st : Option (List (List X))) :
    (create type d : C (Sess U X O W)) = .error .exit ∨
      ∃ s : Sess U X O W, create type d = .ok s ∧ type = .regress ∧ initCross o s r v st = .error .assertFail ∧
        initHet o s ranks v st = .error .assertFail ∧ doCross e o fuel n s fw adapt = .error .assertFail := by
  match type, ht with
  | .regress, _ =>
    refine .inr ⟨_, rfl, rfl, ?_, ?_, ?_⟩
    · rw [initCross, cassert, if_neg (by simp)]; rfl
    · rw [initHet, cassert, if_neg (by simp)]; rfl
    · rw [doCross, cassert, if_neg (by simp)]; rfl
  | .unspec, _ => exact .inl rfl

/-! ### The options of the dimensions -/

/-- A sequence of `c3approx_set_approx_opts_dim` calls. -/
def setApproxs : List (Nat × O) → Sess U X O W → C (Sess U X O W)
  | [], s => .ok s
  | a :: l, s => do
    let s ← setApprox s a.1 a.2
    setApproxs l s

/-- The last option given for dimension `i`. -/
def lastFor (calls : List (Nat × O)) (i : Nat) : Option O := ((calls.filter (·.1 = i)).getLast?).map (·.2)

theorem lastFor_cons (a : Nat × O) (l : List (Nat × O)) (i : Nat) :
    lastFor (a :: l) i = (lastFor l i).or (if a.1 = i then some a.2 else none) := by
  unfold lastFor
  by_cases h : a.1 = i
  · rw [List.filter_cons_of_pos (by simpa using h), if_pos h]
    cases hf : l.filter (·.1 = i) with
    | nil => simp
    | cons b m =>
      rw [List.getLast?_cons_cons, List.getLast?_eq_some_getLast (List.cons_ne_nil b m)]
      rfl
  · rw [List.filter_cons_of_neg (by simpa using h), if_neg h, Option.or_none]

theorem setApproxs_ok (calls : List (Nat × O)) : ∀ (s : Sess U X O W), s.fapp.length = s.dim → (∀ a ∈ calls, a.1 < s.dim) →
    ∃ f, setApproxs calls s = .ok { s with fapp := f } ∧ f.length = s.dim ∧
      ∀ i < s.dim, f[i]? = some ((lastFor calls i).or (s.fapp.getD i none)) := by
  induction calls with
  | nil =>
    intro s hl _
    refine ⟨s.fapp, rfl, hl, fun i hi => ?_⟩
    rw [show lastFor ([] : List (Nat × O)) i = none from rfl, Option.none_or, List.getD_eq_getElem?_getD,
      List.getElem?_eq_getElem (by omega)]; rfl
  | cons a l ih =>
    intro s hl hc
    have ha := hc a (List.mem_cons_self ..)
    obtain ⟨f, h1, h2, h3⟩ := ih { s with fapp := s.fapp.set a.1 (some a.2) } (by simpa using hl)
      (fun b hb => hc b (List.mem_cons_of_mem _ hb))
    refine ⟨f, ?_, h2, fun i hi => ?_⟩
    · rw [setApproxs, setApprox, cassert_of (by simpa using ha), bind_ok, wr_ok _ (by omega), bind_ok]
      exact h1
    · rw [h3 i hi, lastFor_cons]
      dsimp only
      congr 1
      by_cases he : a.1 = i
      · subst he
        rw [if_pos rfl, List.getD_eq_getElem?_getD, List.getElem?_set_self (by omega)]
        cases lastFor l a.1 <;> rfl
      · rw [if_neg he, Option.or_none, List.getD_eq_getElem?_getD, List.getElem?_set_ne he, ← List.getD_eq_getElem?_getD]

/-- C131: a fresh session for which every dimension was given options (in any order, also repeatedly) has the last ones. -/
theorem configured {d : Nat} (hd : 2 ≤ d) {calls : List (Nat × O)} (hc : ∀ a ∈ calls, a.1 < d) {l : List O} (hl : l.length = d)
    (hlast : ∀ i < d, lastFor calls i = l[i]?) :
    ∃ s : Sess U X O W, (do
      let s ← create (W := W) .cross d
      setApproxs calls s) = .ok s ∧ s.Set d l := by
  obtain ⟨f, h1, h2, h3⟩ := setApproxs_ok (U := U) (X := X) (W := W) calls ⟨d, .cross, List.replicate d none, List.replicate d none,
    List.replicate d none, List.replicate d none, none, none⟩ (by simp) hc
  refine ⟨_, by rw [create, bind_ok]; exact h1, hd, rfl, rfl, ?_, by simp, by simp⟩
  refine List.ext_getElem? fun i => ?_
  by_cases hi : i < d
  · rw [h3 i hi, hlast i hi, List.getElem?_map, List.getElem?_eq_getElem (by omega)]; rfl
  · dsimp only at h2 ⊢
    rw [List.getElem?_eq_none (by omega), List.getElem?_eq_none (by simp; omega)]

/-! ### The approximation -/

/-- A ready session with positive ranks, 1 at both ends, and nodes in the domain is an admissible input of the algorithm. -/
theorem Sess.Ready.input {s : Sess U X O W} {d : Nat} {fc : Fca} {Ss : Nat → List (List X)} {ref : FT ℝ U}
    (h : s.Ready d fc Ss ref) (hd : 2 ≤ d) (hrl : fc.ranks.length = d + 1) (hr0 : fc.ranks[0]? = some 1) (hr1 : fc.ranks[d]? = some 1)
    (hp : ∀ r ∈ fc.ranks, 0 < r) {f : List X → ℝ} (hfib : Fib e F d f) {fw : Fwrap X ℝ} (hfw : FwOk f d fw)
    (hpts : ∀ j < d - 1, ∀ r ∈ Ss j, r.length = d - 1 - j ∧ On F (j + 1) r) (hrd : ref.dim = d) (hro : ref.Ok F) :
    Input e F f d fc.ranks fw s.isl s.isr Ss ref :=
  ⟨hd, hfib, hrl, hr0, hr1, hp, hfw, h.llen, h.lfirst, h.slen, h.slast, h.sets, h.setsEnd, hpts, hrd, hro⟩

/-- The nodes made of columns of starting points in the domain are in the domain. -/
theorem colSets_pts {start : List (List X)} {d r : Nat} (hst : start.length = d) (hn : ∀ p ∈ start, r ≤ p.length)
    (hdom : ∀ (k : Nat) p, start[k]? = some p → ∀ x ∈ p, F.D k x) :
    ∀ j < d - 1, ∀ q ∈ colSets start d r j, q.length = d - 1 - j ∧ On F (j + 1) q := by
  intro j hj q hq
  rw [colSets, if_neg (by omega)] at hq
  obtain ⟨i, hi, rfl⟩ := List.mem_map.1 hq
  have hi := List.mem_range.1 hi
  refine ⟨by simp; omega, fun k x hx => ?_⟩
  rw [List.getElem?_map, List.getElem?_drop] at hx
  cases hp : start[j + 1 + k]? with
  | none => rw [hp] at hx; cases hx
  | some p =>
    rw [hp] at hx
    have hx : p.getD i 0 = x := Option.some.inj hx
    have hpi : i < p.length := lt_of_lt_of_le hi (hn p (List.mem_of_getElem? hp))
    rw [List.getD_eq_getElem?_getD, List.getElem?_eq_getElem hpi] at hx
    rw [← hx]
    exact hdom _ p hp _ (List.getElem_mem hpi)

/-- The whole session: create, set the options, initialise, set the arguments, approximate. -/
noncomputable def session (e : Ev ℝ U X) (o : SOps U X O) (d : Nat) (calls : List (Nat × O)) (r : Nat) (v : Int)
    (startin : Option (List (List X))) (args : List Arg) (fuel n : Nat) (fw : Fwrap X ℝ) (adapt : Int) :
    C (FT ℝ U × Sess U X O Unit) := do
  let s ← create .cross d
  let s ← setApproxs calls s
  let s ← initCross o s r v startin
  let s ← setArgs args s
  doCross e o fuel n s fw adapt

theorem fold_eps (d : Nat) : ∀ (args : List Arg) (f : Fca), 0 < f.epsilon → (∀ t, Arg.crossTol t ∈ args → 0 < t) →
    0 < (args.foldl (Arg.eff d) f).epsilon := by
  intro args
  induction args with
  | nil => intro f h _; exact h
  | cons a l ih =>
    intro f h ht
    refine ih _ ?_ (fun t h => ht t (List.mem_cons_of_mem _ h))
    cases a with
    | crossTol t => exact ht t (List.mem_cons_self ..)
    | _ => exact h

/-- What the caller of a session provides: the number of dimensions, options for all of them, the rank, starting points in the
domain, the function. -/
structure Caller (e : Ev ℝ U X) (F : Fam U X) (o : SOps U X O) (f : List X → ℝ) (d : Nat) (calls : List (Nat × O)) (l : List O)
    (r : Nat) (start : List (List X)) (fw : Fwrap X ℝ) : Prop where
  two : 2 ≤ d
  fib : Fib e F d f
  fw : FwOk f d fw
  lt : ∀ a ∈ calls, a.1 < d
  len : l.length = d
  last : ∀ i < d, lastFor calls i = l[i]?
  one : ∃ ref, o.one l = .ok ref ∧ ref.Ok F ∧ ref.dim = d
  pos : 0 < r
  slen : start.length = d
  enough : ∀ p ∈ start, r ≤ p.length
  dom : ∀ (k : Nat) p, start[k]? = some p → ∀ x ∈ p, F.D k x

/-- The arguments when the approximation starts. -/
noncomputable def finalArgs (d r : Nat) (v : Int) (args : List Arg) : Fca := args.foldl (Arg.eff d) (fca0 d (sameRanks d r) r v)

theorem session_core {o : SOps U X O} {f : List X → ℝ} {d : Nat} {calls : List (Nat × O)} {l : List O} {r : Nat}
    {start : List (List X)} {fw : Fwrap X ℝ} (h : Caller e F o f d calls l r start fw) (v : Int) (args : List Arg) (fuel n : Nat)
    (adapt : Int) :
    ∃ (s : Sess U X O Unit) (ref : FT ℝ U), session e o d calls r v (some start) args fuel n fw adapt = doCross e o fuel n s fw adapt ∧
      s.Ready d (finalArgs d r v args) (colSets start d r) ref ∧
      (finalArgs d r v args).ranks = sameRanks d r ∧ (finalArgs d r v args).adapt = true ∧
      (finalArgs d r v args).maxranks.length = d - 1 ∧
      Input e F f d (sameRanks d r) fw s.isl s.isr (colSets start d r) ref := by
  have h2 := h.two
  obtain ⟨ref, hone, hrok, hrd⟩ := h.one
  obtain ⟨s1, a1, a2⟩ := configured (U := U) (X := X) (W := Unit) h.two h.lt h.len h.last
  obtain ⟨s2, b1, b2, -⟩ := initCross_ready a2 h.pos v h.slen h.enough hone
  obtain ⟨s3, c1, c2, -, -, -, c6, c7, c8⟩ := setArgs_ready args b2 (by simp [fca0])
  refine ⟨s3, ref, ?_, c2, c6, c7, c8, ?_⟩
  · rw [create, bind_ok] at a1
    rw [session, create, bind_ok, a1, bind_ok, b1, bind_ok, c1, bind_ok]
  · have hrk : (args.foldl (Arg.eff d) (fca0 d (sameRanks d r) r v)).ranks = sameRanks d r := c6
    have := c2.input (e := e) (F := F) h2 (by rw [hrk, sameRanks_length]) (by
      rw [hrk, sameRanks, List.getElem?_map, List.getElem?_range (by omega)]; rfl) (by
      rw [hrk, sameRanks, List.getElem?_map, List.getElem?_range (by omega)]; simp) (by
      rw [hrk]
      intro x hx
      obtain ⟨k, -, rfl⟩ := List.mem_map.1 hx
      have := h.pos
      split <;> omega) h.fib h.fw (colSets_pts h.slen h.enough h.dom) hrd hrok
    rwa [hrk] at this

/-- C131: a session with rank `r` and starting points at which the sections of the function span all its sections returns the
function exactly, whatever else was set, as long as only positive tolerances were. The inner ranks are all `r`. -/
theorem session_exact_partial {o : SOps U X O} (hx : XLaws e F I o.x) {f : List X → ℝ} {d : Nat} {calls : List (Nat × O)} {l : List O}
    {r : Nat} {start : List (List X)} {fw : Fwrap X ℝ} (h : Caller e F o f d calls l r start fw) (v : Int) {args : List Arg}
    (ht : ∀ t, Arg.crossTol t ∈ args → 0 < t)
    (hs : ∀ j < d - 1, RSpan F f d (j + 1) ((List.range r).map fun i => (start.drop (j + 1)).map (·.getD i 0)))
    {fuel : Nat} (hfu : 3 ≤ fuel) (n : Nat) :
    ∃ b s, session e o d calls r v (some start) args fuel n fw 0 = .ok (b, s) ∧ b.Ok F ∧ b.dim = d ∧ b.ranks = sameRanks d r ∧
      ∀ x : List X, x.length = d → On F 0 x → value e b.cores x = f x := by
  obtain ⟨s, ref, h1, h2, h3, -, -, h6⟩ := session_core h v args fuel n 0
  obtain ⟨b, s', q1, q2, q3, q4, q5⟩ := cross_exact_partial hx h6 (fun j hj => by
    have := hs j hj
    rwa [colSets, if_neg (by omega)]) (eps := (finalArgs d r v args).epsilon)
    (fold_eps d args _ (by norm_num [fca0]) ht) (finalArgs d r v args).maxiter hfu
  refine ⟨b, { s with isr := s'.right }, ?_, q2, q3, q4, q5⟩
  rw [h1, doCross, cassert_of (by simpa using h2.type), bind_ok, h2.fca, h2.ref]
  dsimp only
  rw [if_pos rfl, h2.fdim, h3, q1, bind_ok]
  rfl

/-- C131: with rank adaptation the session ends, and no rank of the result exceeds the larger of the starting rank and the
maximal rank in force. -/
theorem session_adapt_partial {o : SOps U X O} (hx : XLaws e F I o.x) {f : List X → ℝ} {d : Nat} (hz : ZeroLaw e F d o.x.rd)
    {calls : List (Nat × O)} {l : List O} {r : Nat} {start : List (List X)} {fw : Fwrap X ℝ}
    (h : Caller e F o f d calls l r start fw) (v : Int) {args : List Arg} (hk : 0 < (finalArgs d r v args).kickrank)
    (hm : 0 < (finalArgs d r v args).maxiter) {fuel n : Nat} (hfu : (finalArgs d r v args).maxiter ≤ fuel)
    (hn : room d (sameRanks d r) (finalArgs d r v args).maxranks ≤ n) {adapt : Int} (ha : adapt ≠ 0) :
    ∃ b s, session e o d calls r v (some start) args fuel n fw adapt = .ok (b, s) ∧ b.Ok F ∧ b.dim = d ∧
      ∀ j, 1 ≤ j → j < d → b.ranks.getD j 0 ≤ max r ((finalArgs d r v args).maxranks.getD (j - 1) 0) := by
  obtain ⟨s, ref, h1, h2, h3, h4, h5, h6⟩ := session_core h v args fuel n adapt
  obtain ⟨b, t, q1, q2, q3, -, q5⟩ := crossAdapt_ranks_partial hx hz h6 (a := (finalArgs d r v args).args fuel) h2.fdim h4 hk hm hfu
    (by show d - 1 ≤ (finalArgs d r v args).maxranks.length; rw [h5]) hn
  refine ⟨b, { s with isr := t.right, fca := some { finalArgs d r v args with ranks := t.ranks } }, ?_, q2, q3, fun j hj1 hj2 => ?_⟩
  · rw [h1, doCross, cassert_of (by simpa using h2.type), bind_ok, h2.fca, h2.ref]
    dsimp only
    rw [if_neg ha, h3, q1, bind_ok]
    rfl
  · obtain ⟨e1, -, e3, -⟩ := q5 j hj1 hj2
    rw [sameRanks_get (by omega), if_neg (by omega)] at e3
    exact e1.trans e3

/-! ### Where the code does not do what its documentation says -/

/-- C131, disagreement: with different ranks and no starting points given, the grid of dimension `i` gets only rank `i` points,
but rank `i+1` are read from it: `[1,2,3,1]` reads behind the end of the array. -/
theorem initHet_grid_counterexample {o : SOps U X O} {s : Sess U X O W} {l : List O} (hs : s.Set 3 l) (hl : l.length = 3)
    (hg : ∀ a k, ∃ g, o.grid a k = .ok g ∧ g.length = k) (v : Int) : initHet o s [1, 2, 3, 1] v none = .error .oob := by
  obtain ⟨a0, a1, a2, rfl⟩ := List.length_eq_three.1 hl
  obtain ⟨g0, p0, q0⟩ := hg a0 2
  obtain ⟨g1, p1, q1⟩ := hg a1 2
  obtain ⟨g2, p2, q2⟩ := hg a2 3
  have hst := starts_grid hs hl (o := o) (n := hetCount [1, 2, 3, 1]) (g := fun i => if i = 0 then g0 else if i = 1 then g1 else g2) (by
    intro i a ha
    rcases i with _ | _ | _ | i
    · cases ha; exact ⟨2, rfl, p0⟩
    · cases ha; exact ⟨2, rfl, p1⟩
    · cases ha; exact ⟨3, rfl, p2⟩
    · simp at ha)
  rw [show (List.range 3).map (fun i => if i = 0 then g0 else if i = 1 then g1 else g2) = [g0, g1, g2] from rfl] at hst
  obtain ⟨x0, x1, rfl⟩ := List.length_eq_two.1 q0
  obtain ⟨y0, y1, rfl⟩ := List.length_eq_two.1 q1
  obtain ⟨z0, z1, z2, rfl⟩ := List.length_eq_three.1 q2
  obtain ⟨i0, i1, i2, hi⟩ := List.length_eq_three.1 hs.isr
  obtain ⟨j0, j1, j2, hj⟩ := List.length_eq_three.1 hs.isl
  rw [initHet, cassert_of (by simpa using hs.type), bind_ok, hst, bind_ok, show rd [1, 2, 3, 1] 1 = .ok 2 from rfl, bind_ok, hs.dim,
    fcaAlloc_ok (by omega), bind_ok]
  rw [show forN (3 + 1) (fun ii r => do
    let x ← rd [1, 2, 3, 1] ii
    wr r ii x) (sameRanks 3 2) = .ok [1, 2, 3, 1] from rfl, bind_ok, setUp, hs.dim, hi, hj]
  rfl

/-- C131: with enough starting points the same ranks work. -/
example {o : SOps U ℕ O} {s : Sess U ℕ O W} {l : List O} (hs : s.Set 3 l) {ref : FT ℝ U} (h : o.one l = .ok ref) :
    ∃ s', initHet o s [1, 2, 3, 1] 0 (some [[0, 1], [0, 1, 2], [0, 1, 2]]) = .ok s' ∧
      s'.isr[0]? = some (some (Ind.mk 2 [[0, 0], [1, 1]])) := by
  obtain ⟨s', h1, h2⟩ := initHet_partial hs (ranks := [1, 2, 3, 1]) rfl (by decide) 0 (start := [[0, 1], [0, 1, 2], [0, 1, 2]]) rfl
    (by decide) h
  exact ⟨s', h1, (h2.sets 0 (by decide)).1⟩

/-- C131, disagreement: functions of one variable cannot be approximated through the interface. -/
theorem initCross_dim1_actual {o : SOps U X O} {s : Sess U X O W} (hd : s.dim = 1) (ht : s.type = .cross) (r : Nat) (v : Int)
    (start : List (List X)) : initCross o s r v (some start) = .error .assertFail := by
  rw [initCross, cassert_of (by simpa using ht), starts, bind_ok, bind_ok, hd, fcaAlloc_ok le_rfl, bind_ok, setUp, hd, arrayInitialize,
    if_neg (by decide), if_pos rfl]
  rfl

/-! ### An example -/

/-- The interface on square-summable sequences. -/
noncomputable def sSess : SOps L2 ℕ Unit := ⟨sXa, fun _ n => .ok (List.range n), fun _ => .ok (sFt 1)⟩

theorem diag2_caller : Caller sEv sFam sSess diag2 2 [(1, ()), (0, ()), (1, ())] [(), ()] 2 [[0, 1], [0, 1]] dfw where
  two := le_rfl
  fib := diag2_fib
  fw := ⟨rfl, rfl, rfl⟩
  lt := by decide
  len := rfl
  last := by intro i hi; rcases i with _ | _ | i
             · rfl
             · rfl
             · omega
  one := ⟨sFt 1, rfl, sFt_ok 1, rfl⟩
  pos := Nat.two_pos
  slen := rfl
  enough := by decide
  dom := fun _ _ _ _ _ => trivial

/-- A session that sets the options twice for one dimension and the tolerance twice, and approximates `e₀ ⊗ e₀ + e₁ ⊗ e₁`. -/
example : ∃ b s, session sEv sSess 2 [(1, ()), (0, ()), (1, ())] 2 0 (some [[0, 1], [0, 1]])
      [.crossTol 1, .kickrank 3, .crossTol (1 / 2)] 3 0 dfw 0 = .ok (b, s) ∧ b.ranks = [1, 2, 1] ∧
    ∀ x : List ℕ, x.length = 2 → value sEv b.cores x = diag2 x := by
  obtain ⟨b, s, h1, -, -, h4, h5⟩ := session_exact_partial (I := sInteg) s_xLaws diag2_caller 0
    (args := [.crossTol 1, .kickrank 3, .crossTol (1 / 2)]) (by
      intro t ht
      simp at ht
      rcases ht with rfl | rfl <;> norm_num) (fun j hj => by
      obtain rfl : j = 0 := by omega
      exact diag2_spans 0 (by omega)) (fuel := 3) le_rfl 0
  exact ⟨b, s, h1, h4, fun x hx => h5 x hx fun _ _ _ => trivial⟩

end C3.Xa
