/- Helper lemmas for the hash table and the monitor. -/
import Verif.Mon.Model
import Mathlib.Data.Finset.Card
import Mathlib.Data.Finset.Dedup
import Mathlib.Algebra.BigOperators.Group.List.Basic

namespace C3.Mon
variable {P : Type}

theorem hashsimple_lt (size : Nat) (h : 0 < size) (k : Key) : hashsimple size k < size :=
  Nat.mod_lt _ h

/-- `fs` holds the stored pairs, newest first. -/
structure Rep (ht : Table P) (fs : List (Key × P)) : Prop where
  pos : 0 < ht.size
  len : ht.table.length = ht.size
  nodup : (fs.map Prod.fst).Nodup
  bucket : ∀ i (h : i < ht.table.length), ht.table[i] = fs.filter (fun kv => hashsimple ht.size kv.1 == i)

theorem rep_create (size : Nat) (h : 1 ≤ size) :
    ∃ ht, (create size : Option (Table P)) = some ht ∧ Rep ht [] ∧ ht.size = size := by
  refine ⟨⟨size, List.replicate size []⟩, ?_, ⟨h, by simp, by simp, ?_⟩, rfl⟩
  · simp [create]; omega
  · intro i hi; simp

theorem find_filter (fs : List (Key × P)) (s : Nat) (k : Key) :
    (fs.filter (fun kv => hashsimple s kv.1 == hashsimple s k)).find? (fun kv => kv.1 == k)
      = fs.find? (fun kv => kv.1 == k) := by
  induction fs with
  | nil => rfl
  | cons a fs ih =>
    by_cases hk : a.1 = k
    · subst hk; simp
    · by_cases hh : hashsimple s a.1 = hashsimple s k
      · simp [hh, hk, ih]
      · simp [hh, hk, ih]

theorem lookup_rep {ht : Table P} {fs : List (Key × P)} (h : Rep ht fs) (k : Key) :
    lookup ht k = .ok ((fs.find? (fun kv => kv.1 == k)).map (·.2)) := by
  have hlt : hashsimple ht.size k < ht.table.length := by rw [h.len]; exact hashsimple_lt _ h.pos _
  simp only [lookup, rd_ok hlt, bind_ok, h.bucket _ hlt, find_filter, pure_eq_ok]

theorem add_rep_hit {ht : Table P} {fs : List (Key × P)} (h : Rep ht fs) (cp : Key × P)
    (hk : cp.1 ∈ fs.map Prod.fst) : add ht cp = .ok (2, ht) := by
  obtain ⟨q, hq, hqk⟩ := List.mem_map.1 hk
  have : (fs.find? (fun kv => kv.1 == cp.1)).isSome := by
    rw [List.find?_isSome]; exact ⟨q, hq, by simp [hqk]⟩
  obtain ⟨v, hv⟩ := Option.isSome_iff_exists.1 this
  simp [add, lookup_rep h, hv]

theorem add_rep_miss {ht : Table P} {fs : List (Key × P)} (h : Rep ht fs) (cp : Key × P)
    (hk : cp.1 ∉ fs.map Prod.fst) : ∃ ht', add ht cp = .ok (0, ht') ∧ Rep ht' (cp :: fs) ∧ ht'.size = ht.size := by
  have hf : fs.find? (fun kv => kv.1 == cp.1) = none := by
    rw [List.find?_eq_none]; intro q hq hqk
    exact hk (List.mem_map.2 ⟨q, hq, by simpa using hqk⟩)
  have hlt : hashsimple ht.size cp.1 < ht.table.length := by rw [h.len]; exact hashsimple_lt _ h.pos _
  refine ⟨⟨ht.size, ht.table.set (hashsimple ht.size cp.1) (cp :: ht.table[hashsimple ht.size cp.1])⟩, ?_, ?_, rfl⟩
  · simp [add, lookup_rep h, hf, rd_ok hlt, wr_ok _ hlt]
  · refine ⟨h.pos, by simpa using h.len, ?_, ?_⟩
    · simp only [List.map_cons, List.nodup_cons]; exact ⟨hk, h.nodup⟩
    · intro i hi
      simp only [List.length_set] at hi
      by_cases hi' : hashsimple ht.size cp.1 = i
      · subst hi'; simp [h.bucket _ hlt]
      · simp [hi', h.bucket i hi]

theorem sum_filter_hash (fs : List (Key × P)) (s : Nat) (hs : 0 < s) :
    ((List.range s).map (fun i => (fs.filter (fun kv => hashsimple s kv.1 == i)).length)).sum = fs.length := by
  induction fs with
  | nil => simp
  | cons a fs ih =>
    have hlt := hashsimple_lt s hs a.1
    have : ∀ i, ((a :: fs).filter (fun kv => hashsimple s kv.1 == i)).length
        = (fs.filter (fun kv => hashsimple s kv.1 == i)).length + (if i = hashsimple s a.1 then 1 else 0) := by
      intro i
      by_cases h : hashsimple s a.1 = i
      · simp [h]
      · have h' : ¬ i = hashsimple s a.1 := fun e => h e.symm
        simp [h, h']
    simp only [this, List.sum_map_add, ih, List.length_cons]
    congr 1
    have h2 : ∀ n, hashsimple s a.1 < n →
        ((List.range n).map (fun i => if i = hashsimple s a.1 then 1 else 0)).sum = 1 := by
      intro n hn
      induction n with
      | zero => omega
      | succ n ihn =>
        rw [List.range_succ, List.map_append, List.sum_append]
        by_cases e : n = hashsimple s a.1
        · have : ((List.range n).map (fun i => if i = hashsimple s a.1 then 1 else 0)).sum = 0 := by
            apply List.sum_eq_zero
            intro x hx
            obtain ⟨i, hi, rfl⟩ := List.mem_map.1 hx
            have := List.mem_range.1 hi
            rw [if_neg (by omega)]
          rw [this]; simp [e]
        · rw [ihn (by omega)]; simp [e]
    exact h2 s hlt

theorem nstored_rep {ht : Table P} {fs : List (Key × P)} (h : Rep ht fs) : nstored ht = .ok fs.length := by
  obtain ⟨N, hrun, hN⟩ := forN_spec
    (I := fun i (N : Nat) => N = ((List.range i).map
      (fun i => (fs.filter (fun kv => hashsimple ht.size kv.1 == i)).length)).sum)
    (n := ht.size) (s := 0)
    (body := fun ii N => do
      let pl ← rd ht.table ii
      pure (N + pl.length)) (by simp)
    (by
      intro i hi N hN
      have hlt : i < ht.table.length := by rw [h.len]; exact hi
      refine ⟨_, by rw [rd_ok hlt, bind_ok, pure_eq_ok], ?_⟩
      rw [hN, List.range_succ, List.map_append, List.sum_append, h.bucket i hlt]; simp)
  rw [nstored, hrun, hN, sum_filter_hash _ _ h.pos]

/-- Pairs kept after inserting `hist` on top of `fs`. -/
def keep : List (Key × P) → List (Key × P) → List (Key × P)
  | [], fs => fs
  | p :: ps, fs => if p.1 ∈ fs.map Prod.fst then keep ps fs else keep ps (p :: fs)

theorem keep_find (hist fs : List (Key × P)) (k : Key) :
    (keep hist fs).find? (fun kv => kv.1 == k)
      = ((fs.find? (fun kv => kv.1 == k)).or (hist.find? (fun kv => kv.1 == k))) := by
  induction hist generalizing fs with
  | nil => simp [keep]
  | cons p ps ih =>
    simp only [keep]
    split
    · rename_i hp
      rw [ih]
      by_cases hk : p.1 = k
      · subst hk
        obtain ⟨q, hq, hqk⟩ := List.mem_map.1 hp
        have : (fs.find? (fun kv => kv.1 == p.1)).isSome := by
          rw [List.find?_isSome]; exact ⟨q, hq, by simp [hqk]⟩
        obtain ⟨v, hv⟩ := Option.isSome_iff_exists.1 this
        simp [hv]
      · simp [hk]
    · rename_i hp
      rw [ih]
      by_cases hk : p.1 = k
      · subst hk
        have hf : fs.find? (fun kv => kv.1 == p.1) = none := by
          rw [List.find?_eq_none]; intro q hq hqk
          exact hp (List.mem_map.2 ⟨q, hq, by simpa using hqk⟩)
        simp [hf]
      · simp [hk]

theorem keep_keys (hist fs : List (Key × P)) (k : Key) :
    k ∈ (keep hist fs).map Prod.fst ↔ k ∈ fs.map Prod.fst ∨ k ∈ hist.map Prod.fst := by
  induction hist generalizing fs with
  | nil => simp [keep]
  | cons p ps ih =>
    simp only [keep]
    split
    · rename_i hp
      rw [ih]
      constructor
      · rintro (h | h)
        · exact .inl h
        · exact .inr (List.mem_cons_of_mem _ h)
      · rintro (h | h)
        · exact .inl h
        · rcases List.mem_cons.1 h with h | h
          · exact .inl (h ▸ hp)
          · exact .inr h
    · rw [ih]; simp only [List.map_cons, List.mem_cons]; tauto

theorem addRun_rep {ht : Table P} {fs : List (Key × P)} (h : Rep ht fs) (hist : List (Key × P)) :
    ∃ codes ht', addRun hist ht = .ok (codes, ht') ∧ Rep ht' (keep hist fs) ∧ ht'.size = ht.size ∧
      codes.length = hist.length ∧
      ∀ i (hi : i < hist.length), codes[i]? =
        some (if hist[i].1 ∈ fs.map Prod.fst ∨ hist[i].1 ∈ (hist.take i).map Prod.fst then 2 else 0) := by
  induction hist generalizing ht fs with
  | nil => exact ⟨[], ht, rfl, h, rfl, rfl, by simp⟩
  | cons p ps ih =>
    by_cases hp : p.1 ∈ fs.map Prod.fst
    · obtain ⟨codes, ht', hr, hrep, hs, hl, hc⟩ := ih h
      refine ⟨2 :: codes, ht', by simp [addRun, add_rep_hit h p hp, hr], by simpa [keep, hp] using hrep, hs,
        by simp [hl], ?_⟩
      intro i hi
      rcases i with _ | i
      · simp only [List.getElem?_cons_zero, List.getElem_cons_zero, hp, true_or, if_true]
      · have := hc i (by simpa using hi)
        simp only [List.getElem?_cons_succ, List.getElem_cons_succ, List.take_succ_cons, List.map_cons,
          List.mem_cons, this]
        congr 1
        have hi' : i < ps.length := by simpa using hi
        by_cases e : ps[i].1 = p.1
        · simp only [e, hp, true_or]
        · simp only [e, false_or]
    · obtain ⟨ht1, hr1, hrep1, hs1⟩ := add_rep_miss h p hp
      obtain ⟨codes, ht', hr, hrep, hs, hl, hc⟩ := ih hrep1
      refine ⟨0 :: codes, ht', by simp [addRun, hr1, hr], by simpa only [keep, if_neg hp] using hrep, hs.trans hs1,
        by simp [hl], ?_⟩
      intro i hi
      rcases i with _ | i
      · simp only [List.getElem?_cons_zero, List.getElem_cons_zero, List.take_zero, List.map_nil,
          List.not_mem_nil, or_false, if_neg hp]
      · have := hc i (by simpa using hi)
        simp only [List.getElem?_cons_succ, List.getElem_cons_succ, List.take_succ_cons, List.map_cons,
          List.mem_cons, this]
        congr 1
        simp only [or_assoc, or_left_comm]

end C3.Mon

namespace C3.Mon
variable {P X V : Type} {text : X → Key} {f : X → V} {pack : V → P} {unpack : P → V}

def MRep (text : X → Key) (f : X → V) (pack : V → P) (st : MState X P) : Prop :=
  Rep st.evals (st.calls.reverse.map (fun x => (text x, pack (f x))))

theorem mkeys (calls : List X) :
    (calls.reverse.map (fun x => (text x, pack (f x)))).map Prod.fst = (calls.map text).reverse := by
  simp [List.map_reverse, Function.comp_def]

theorem monitorEval_hit {st : MState X P} (h : MRep text f pack st) (x : X) (hx : text x ∈ st.calls.map text) :
    ∃ y ∈ st.calls, text y = text x ∧ monitorEval text f pack unpack x st = .ok (unpack (pack (f y)), st) := by
  have hs : ((st.calls.reverse.map (fun x => (text x, pack (f x)))).find? (fun kv => kv.1 == text x)).isSome := by
    rw [List.find?_isSome]
    obtain ⟨y, hy, e⟩ := List.mem_map.1 hx
    exact ⟨(text y, pack (f y)), List.mem_map.2 ⟨y, by simpa using hy, rfl⟩, by simp [e]⟩
  obtain ⟨q, hq⟩ := Option.isSome_iff_exists.1 hs
  obtain ⟨y, hy, rfl⟩ := List.mem_map.1 (List.mem_of_find?_eq_some hq)
  have hk := List.find?_some hq
  refine ⟨y, by simpa using hy, by simpa using hk, ?_⟩
  rw [monitorEval, lookup_rep h, hq]; rfl

theorem monitorEval_miss {st : MState X P} (h : MRep text f pack st) (x : X) (hx : text x ∉ st.calls.map text) :
    ∃ t, monitorEval text f pack unpack x st = .ok (f x, ⟨t, st.calls ++ [x]⟩) ∧
      MRep text f pack ⟨t, st.calls ++ [x]⟩ := by
  have hx' : (text x, pack (f x)).1 ∉ (st.calls.reverse.map (fun x => (text x, pack (f x)))).map Prod.fst := by
    rw [mkeys]; simpa using hx
  have hf : (st.calls.reverse.map (fun x => (text x, pack (f x)))).find? (fun kv => kv.1 == text x) = none := by
    rw [List.find?_eq_none]; intro q hq hqk
    exact hx' (List.mem_map.2 ⟨q, hq, by simpa using hqk⟩)
  obtain ⟨t, ht, hr, _⟩ := add_rep_miss h (text x, pack (f x)) hx'
  refine ⟨t, ?_, ?_⟩
  · rw [monitorEval, lookup_rep h, hf]
    simp [ht]
  · simpa [MRep] using hr

/-- The points whose key was not seen before, in order. -/
def fresh (text : X → Key) : List X → List Key → List X
  | [], _ => []
  | x :: xs, seen => if text x ∈ seen then fresh text xs seen else x :: fresh text xs (seen ++ [text x])

theorem monitorRun_rep {st : MState X P} (h : MRep text f pack st) (xs : List X) :
    ∃ vs st', monitorRun text f pack unpack xs st = .ok (vs, st') ∧ MRep text f pack st' ∧
      st'.calls = st.calls ++ fresh text xs (st.calls.map text) ∧ vs.length = xs.length ∧
      ∀ i (hi : i < xs.length),
        (text xs[i] ∉ st.calls.map text → text xs[i] ∉ (xs.take i).map text → vs[i]? = some (f xs[i])) ∧
        (text xs[i] ∈ st.calls.map text ∨ text xs[i] ∈ (xs.take i).map text →
          ∃ y, y ∈ st'.calls ∧ text y = text xs[i] ∧ vs[i]? = some (unpack (pack (f y)))) := by
  induction xs generalizing st with
  | nil => exact ⟨[], st, rfl, h, by simp [fresh], rfl, by simp⟩
  | cons x xs ih =>
    by_cases hx : text x ∈ st.calls.map text
    · obtain ⟨y, hy, hye, hev⟩ := monitorEval_hit (unpack := unpack) h x hx
      obtain ⟨vs, st', hr, hrep, hc, hl, hv⟩ := ih h
      refine ⟨unpack (pack (f y)) :: vs, st', by simp [monitorRun, hev, hr], hrep, by simp only [fresh, if_pos hx, hc], by simp [hl], ?_⟩
      intro i hi
      rcases i with _ | i
      · refine ⟨fun h1 => absurd hx h1, fun _ => ⟨y, ?_, hye, by simp⟩⟩
        rw [hc]; exact List.mem_append_left _ hy
      · have hi' : i < xs.length := by simpa using hi
        obtain ⟨h1, h2⟩ := hv i hi'
        simp only [List.getElem_cons_succ, List.take_succ_cons, List.map_cons, List.mem_cons, not_or,
          List.getElem?_cons_succ]
        refine ⟨fun a b => h1 a b.2, fun a => h2 ?_⟩
        rcases a with a | a | a
        · exact .inl a
        · exact .inl (a ▸ hx)
        · exact .inr a
    · obtain ⟨t, hev, hrep1⟩ := monitorEval_miss (unpack := unpack) h x hx
      obtain ⟨vs, st', hr, hrep, hc, hl, hv⟩ := ih hrep1
      refine ⟨f x :: vs, st', by simp [monitorRun, hev, hr], hrep, ?_, by simp [hl], ?_⟩
      · simp only [fresh, if_neg hx, hc, List.map_append, List.map_cons, List.map_nil, List.append_assoc,
          List.cons_append, List.nil_append]
      intro i hi
      rcases i with _ | i
      · refine ⟨fun _ _ => by simp, fun a => ?_⟩
        rcases a with a | a
        · exact absurd a hx
        · simp at a
      · have hi' : i < xs.length := by simpa using hi
        obtain ⟨h1, h2⟩ := hv i hi'
        simp only [List.map_append, List.map_cons, List.map_nil, List.mem_append, List.mem_singleton, not_or] at h1 h2
        simp only [List.getElem_cons_succ, List.take_succ_cons, List.map_cons, List.mem_cons, not_or,
          List.getElem?_cons_succ]
        refine ⟨fun a b => h1 ⟨a, b.1⟩ b.2, fun a => h2 ?_⟩
        tauto

theorem mrep_init (size : Nat) (h : 1 ≤ size) :
    ∃ ht, (create size : Option (Table P)) = some ht ∧ MRep text f pack ⟨ht, []⟩ := by
  obtain ⟨ht, h1, h2, _⟩ := rep_create (P := P) size h
  exact ⟨ht, h1, by simpa [MRep] using h2⟩

theorem fresh_sublist (xs : List X) (seen : List Key) : (fresh text xs seen).Sublist xs := by
  induction xs generalizing seen with
  | nil => simp [fresh]
  | cons x xs ih =>
    simp only [fresh]; split
    · exact (ih _).trans (List.sublist_cons_self _ _)
    · exact (ih _).cons_cons _

theorem fresh_keys (xs : List X) (seen : List Key) :
    ((fresh text xs seen).map text).Nodup ∧
    (∀ k ∈ (fresh text xs seen).map text, k ∉ seen) ∧
    ∀ x ∈ xs, text x ∈ seen ∨ text x ∈ (fresh text xs seen).map text := by
  induction xs generalizing seen with
  | nil => simp [fresh]
  | cons x xs ih =>
    simp only [fresh]; split
    · rename_i hx
      obtain ⟨a, b, c⟩ := ih seen
      refine ⟨a, b, ?_⟩
      intro y hy
      rcases List.mem_cons.1 hy with rfl | hy
      · exact .inl hx
      · exact c y hy
    · rename_i hx
      obtain ⟨a, b, c⟩ := ih (seen ++ [text x])
      refine ⟨?_, ?_, ?_⟩
      · simp only [List.map_cons, List.nodup_cons]
        exact ⟨fun h => b _ h (by simp), a⟩
      · intro k hk
        rcases List.mem_cons.1 hk with rfl | hk
        · exact hx
        · exact fun h => b k hk (by simp [h])
      · intro y hy
        rcases List.mem_cons.1 hy with rfl | hy
        · exact .inr (by simp)
        · rcases c y hy with h | h
          · rcases List.mem_append.1 h with h | h
            · exact .inl h
            · exact .inr (by simp only [List.mem_singleton] at h; simp [h])
          · exact .inr (List.mem_cons_of_mem _ h)

end C3.Mon
