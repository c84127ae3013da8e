/- C43: the fiber cache is transparent and each fiber is evaluated at most once. C55: initial index sets. -/
import Verif.Cross.Model
import Verif.Core.FillV
import Verif.Tt.Lemmas

set_option linter.unusedSectionVars false

namespace C3.Cross
variable {K : Type}

/-! ### Lookup -/

theorem agree_ok : ∀ (xs key : List Nat) (jj : Nat), key.length = jj + xs.length →
    agree xs key jj = .ok (decide (xs = key.drop jj))
  | [], key, jj, h => by
    have : key.drop jj = [] := List.drop_of_length_le (by simp at h; omega)
    rw [agree, this]; rfl
  | x :: xs, key, jj, h => by
    have hj : jj < key.length := by simp at h; omega
    have hd := List.drop_eq_getElem_cons hj
    rw [agree, rd_ok hj, bind_ok]
    by_cases e : x = key[jj]
    · rw [if_neg (by simpa using e), agree_ok xs key (jj + 1) (by simp at h; omega)]
      congr 1
      rw [decide_eq_decide]
      exact ⟨fun h => by rw [hd, ← h, e], fun h => by rw [hd] at h; injection h⟩
    · rw [if_pos e, hd]
      have : ¬ (x :: xs = key[jj] :: key.drop (jj + 1)) := fun hh => e (by injection hh)
      rw [decide_eq_false this]

/-- All stored keys have the lengths of the core. -/
def Sized (dl dr : Nat) (h : List (Node K)) : Prop := ∀ nd ∈ h, nd.pre.length = dl ∧ nd.post.length = dr

theorem indexExists_ok {dl dr : Nat} {pre post : List Nat} (hp : pre.length = dl) (hq : post.length = dr) :
    ∀ (h : List (Node K)) (it : Nat), Sized dl dr h →
      ∃ o, indexExists h pre post it = .ok o ∧
        (o = none → ∀ nd ∈ h, ¬ (nd.pre = pre ∧ nd.post = post)) ∧
        (∀ k, o = some k → ∃ j nd, k = it + j ∧ h[j]? = some nd ∧ nd.pre = pre ∧ nd.post = post)
  | [], it, _ => ⟨none, rfl, by simp, by simp⟩
  | nd :: h, it, hs => by
    obtain ⟨h1, h2⟩ := hs nd (by simp)
    have ih := indexExists_ok hp hq h (it + 1) (fun x hx => hs x (by simp [hx]))
    obtain ⟨o, e, hn, hsm⟩ := ih
    have lift : ∀ k, o = some k → ∃ j nd', k = it + j ∧ (nd :: h)[j]? = some nd' ∧ nd'.pre = pre ∧ nd'.post = post := by
      intro k hk
      obtain ⟨j, nd', e1, e2, e3⟩ := hsm k hk
      exact ⟨j + 1, nd', by omega, by simpa using e2, e3⟩
    rw [indexExists, agree_ok _ _ _ (by omega), bind_ok, List.drop_zero]
    by_cases ep : nd.pre = pre
    · rw [if_pos (by simpa using ep), agree_ok _ _ _ (by omega), bind_ok, List.drop_zero]
      by_cases eq : nd.post = post
      · rw [if_pos (by simpa using eq)]
        exact ⟨some it, rfl, by simp, fun k hk => ⟨0, nd, by simp at hk; omega, rfl, ep, eq⟩⟩
      · rw [if_neg (by simpa using eq)]
        refine ⟨o, e, fun ho x hx => ?_, lift⟩
        rcases List.mem_cons.1 hx with rfl | hx
        · exact fun hh => eq hh.2
        · exact hn ho x hx
    · rw [if_neg (by simpa using ep)]
      refine ⟨o, e, fun ho x hx => ?_, lift⟩
      rcases List.mem_cons.1 hx with rfl | hx
      · exact fun hh => ep hh.1
      · exact hn ho x hx

theorem getFiber_ok : ∀ (h : List (Node K)) (j : Nat) (nd : Node K), h[j]? = some nd → getFiber h j = .ok nd.vals
  | [], j, nd, e => by simp at e
  | x :: h, 0, nd, e => by simp at e; subst e; rfl
  | x :: h, j + 1, nd, e => getFiber_ok h j nd (by simpa using e)

/-! ### Invariant -/

/-- The combined index: left part, a zero for the free coordinate, right part. -/
def key (l r : List Nat) : List Nat := l ++ 0 :: r

/-- Every stored fiber is the directly evaluated one, every evaluation ever made is stored under its key, and no key was
evaluated twice. -/
structure Inv (A : List Nat → List K) (dl dr : Nat) (c : Cache K) : Prop where
  sized : Sized dl dr c.head
  vals : ∀ nd ∈ c.head, nd.vals = A (key nd.pre nd.post)
  calls : c.calls = c.head.map (fun nd => key nd.pre nd.post)
  nodup : c.calls.Nodup

/-- A request whose index sets have the lengths of the core. -/
structure Req.WF (q : Req) (n dl dr : Nat) : Prop where
  hn : q.n = n
  hdl : q.dl = dl
  hdr : q.dr = dr
  left : q.left.length = q.r
  right : q.right.length = q.r'
  lsz : ∀ x ∈ q.left, x.length = dl
  rsz : ∀ x ∈ q.right, x.length = dr

theorem key_inj {dl : Nat} {l l' r r' : List Nat} (h : l.length = dl) (h' : l'.length = dl) (e : key l r = key l' r') :
    l = l' ∧ r = r' := by
  obtain ⟨h1, h2⟩ := List.append_inj e (by omega)
  exact ⟨h1, by simpa using h2⟩

theorem take_all {α : Type} {n : Nat} {l : List α} (h : l.length = n) : take n l = .ok l := by
  rw [take, if_pos (by omega), List.take_of_length_le (by omega)]

theorem takeOpt_all {α : Type} {n : Nat} {l : List α} (h : l.length = n) : takeOpt n l = .ok l := by
  rw [takeOpt]
  by_cases h0 : n = 0
  · rw [if_pos h0, List.length_eq_zero_iff.1 (show l.length = 0 by omega)]
  · rw [if_neg h0, take_all h]

theorem combine_ok {nn mm : Nat} {n m : List Nat} (hn : n.length = nn) (hm : m.length = mm) :
    combine nn n mm m = .ok (key n m) := by
  rw [combine, takeOpt_all hn, bind_ok, takeOpt_all hm, bind_ok]; rfl

theorem addFiber_ok {h : List (Node K)} {nn mm N : Nat} {n m : List Nat} {v : List K} (hn : n.length = nn)
    (hm : m.length = mm) (hv : v.length = N) : addFiber h nn mm n m v N = .ok (⟨n, m, v⟩ :: h) := by
  rw [addFiber, takeOpt_all hn, bind_ok, takeOpt_all hm, bind_ok, take_all hv, bind_ok]; rfl

/-- What one step does: the fiber for `(kk, ii)` is the directly evaluated one, and the cache stays valid. -/
theorem setupStep_ok {A : List Nat → List K} {n dl dr : Nat} {q : Req} (hq : q.WF n dl dr) (hA : ∀ k, (A k).length = n)
    {ii kk : Nat} {l rt : List Nat} (hl : q.left[kk]? = some l) (hr : q.right[ii]? = some rt) {Ak : List K} {c : Cache K}
    (hc : Inv A dl dr c) :
    ∃ c', Inv A dl dr c' ∧ (∀ x ∈ c'.calls, x ∈ c.calls ∨ x = key l rt) ∧ setupStep A q ii kk (Ak, c) =
      (do let a ← buildFiberMat q.r q.n q.r' ii kk (A (key l rt)) Ak q.lr
          pure (a, c')) := by
  have hll := hq.lsz l (List.mem_of_getElem? hl)
  have hrl := hq.rsz rt (List.mem_of_getElem? hr)
  obtain ⟨o, e, hn, hs⟩ := indexExists_ok hll hrl c.head 0 hc.sized
  rcases o with _ | k
  · refine ⟨⟨⟨l, rt, A (key l rt)⟩ :: c.head, key l rt :: c.calls⟩, ⟨?_, ?_, ?_, ?_⟩, fun x hx => (List.mem_cons.1 hx).symm, ?_⟩
    · intro nd hnd
      rcases List.mem_cons.1 hnd with rfl | hnd
      · exact ⟨hll, hrl⟩
      · exact hc.sized nd hnd
    · intro nd hnd
      rcases List.mem_cons.1 hnd with rfl | hnd
      · rfl
      · exact hc.vals nd hnd
    · simp [hc.calls]
    · refine List.nodup_cons.2 ⟨?_, hc.nodup⟩
      intro hmem
      rw [hc.calls, List.mem_map] at hmem
      obtain ⟨nd, hnd, hk⟩ := hmem
      exact hn rfl nd hnd (key_inj (hc.sized nd hnd).1 hll hk)
    · rw [setupStep, rd_of_getElem? hl, bind_ok, rd_of_getElem? hr, bind_ok, e, bind_ok]
      simp only [miss]
      rw [hq.hdl, hq.hdr, combine_ok hll hrl, bind_ok, addFiber_ok hll hrl (by rw [hA, hq.hn]), bind_ok]
  · obtain ⟨j, nd, e1, e2, e3, e4⟩ := hs k rfl
    refine ⟨c, hc, fun x hx => .inl hx, ?_⟩
    have hv := hc.vals nd (List.mem_of_getElem? e2)
    rw [e3, e4] at hv
    rw [setupStep, rd_of_getElem? hl, bind_ok, rd_of_getElem? hr, bind_ok, e, bind_ok]
    simp only [hit]
    rw [e1, Nat.zero_add, getFiber_ok _ _ _ e2, bind_ok, hv]

/-! ### The matrix -/

/-- Directly evaluated entry: value `e` of the fiber through left index `kk` and right index `ii`. -/
def direct (A : List Nat → List K) (q : Req) (d : K) (kk e ii : Nat) : K :=
  (A (key (q.left.getD kk []) (q.right.getD ii []))).getD e d

/-- Position of that entry in the matrix: `r x n x r'` column-major for left-to-right sweeps, `r' x n x r` otherwise. -/
def pos (q : Req) (kk e ii : Nat) : Nat :=
  if q.lr then kk + e * q.r + ii * q.r * q.n else ii + e * q.r' + kk * q.r' * q.n

/-- Entry stored at a position. -/
def entry (A : List Nat → List K) (q : Req) (d : K) (p : Nat) : K :=
  if q.lr then direct A q d (p % q.r) (p / q.r % q.n) (p / (q.r * q.n))
  else direct A q d (p / (q.r' * q.n)) (p / q.r' % q.n) (p % q.r')

theorem entry_pos (A : List Nat → List K) (q : Req) (d : K) {kk e ii : Nat} (hk : kk < q.r) (he : e < q.n)
    (hi : ii < q.r') : entry A q d (pos q kk e ii) = direct A q d kk e ii := by
  rw [entry, pos]
  by_cases h : q.lr
  · rw [if_pos h, if_pos h]
    obtain ⟨h1, h2, h3⟩ := Tt.idx3_inv (j := ii) hk he
    rw [h1, h2, h3]
  · rw [if_neg h, if_neg h]
    obtain ⟨h1, h2, h3⟩ := Tt.idx3_inv (j := kk) hi he
    rw [h1, h2, h3]

theorem pos_lt (q : Req) {kk e ii : Nat} (hk : kk < q.r) (he : e < q.n) (hi : ii < q.r') :
    pos q kk e ii < q.r * q.n * q.r' := by
  rw [pos]
  by_cases h : q.lr
  · rw [if_pos h]; exact Tt.idx3_lt hk he hi
  · rw [if_neg h]
    have := Tt.idx3_lt (r := q.r') (n := q.n) (s := q.r) hi he hk
    rwa [show q.r' * q.n * q.r = q.r * q.n * q.r' by ring] at this

theorem pos_cov (q : Req) {p : Nat} (hp : p < q.r * q.n * q.r') :
    ∃ ii < q.r', ∃ kk < q.r, ∃ e < q.n, p = pos q kk e ii := by
  by_cases h : q.lr
  · obtain ⟨h1, h2, h3, h4⟩ := Tt.idx3_cov hp
    exact ⟨_, h3, _, h1, _, h2, by rw [pos, if_pos h, h4]⟩
  · have hp' : p < q.r' * q.n * q.r := by rwa [show q.r' * q.n * q.r = q.r * q.n * q.r' by ring]
    obtain ⟨h1, h2, h3, h4⟩ := Tt.idx3_cov hp'
    exact ⟨_, h1, _, h3, _, h2, by rw [pos, if_neg h, h4]⟩

theorem buildFiberMat_fills {A : List Nat → List K} {n dl dr : Nat} {q : Req} (hq : q.WF n dl dr)
    (hA : ∀ k, (A k).length = n) (d : K) {ii kk : Nat} (hi : ii < q.r') (hk : kk < q.r) :
    FillsV (entry A q d) (q.r * q.n * q.r')
      (fun Ak => buildFiberMat q.r q.n q.r' ii kk (A (key (q.left.getD kk []) (q.right.getD ii []))) Ak q.lr)
      (fun p => ∃ e < q.n, p = pos q kk e ii) := by
  have hrd : ∀ e < q.n, rd (A (key (q.left.getD kk []) (q.right.getD ii []))) e = .ok (direct A q d kk e ii) := by
    intro e he
    have hl : e < (A (key (q.left.getD kk []) (q.right.getD ii []))).length := by rw [hA, ← hq.hn]; exact he
    exact rd_getD d hl
  by_cases h : q.lr
  · simp only [buildFiberMat, if_pos h]
    refine FillsV.forN fun e he => FillsV.bind (hrd e he) ?_
    have := pos_lt q hk he hi
    have e1 := entry_pos A q d hk he hi
    simp only [pos, if_pos h] at this e1 ⊢
    exact FillsV.wr this e1.symm
  · simp only [buildFiberMat, if_neg h]
    refine FillsV.forN fun e he => FillsV.bind (hrd e he) ?_
    have := pos_lt q hk he hi
    have e1 := entry_pos A q d hk he hi
    simp only [pos, if_neg h] at this e1 ⊢
    exact FillsV.wr this e1.symm

/-- One request: whatever valid cache it starts from, the matrix contains the directly evaluated fibers and the cache
stays valid. -/
theorem setup_value [Zero K] {A : List Nat → List K} {n dl dr : Nat} {q : Req} (hq : q.WF n dl dr)
    (hA : ∀ k, (A k).length = n) {c : Cache K} (hc : Inv A dl dr c) :
    ∃ Ak c', setup A q c = .ok (Ak, c') ∧ Inv A dl dr c' ∧
      (∀ x ∈ c'.calls, x ∈ c.calls ∨ ∃ l ∈ q.left, ∃ r ∈ q.right, x = key l r) ∧ Ak.length = q.r * q.n * q.r' ∧
      ∀ kk < q.r, ∀ e < q.n, ∀ ii < q.r', Ak[pos q kk e ii]? = some (direct A q 0 kk e ii) := by
  obtain ⟨c0, hc0⟩ : ∃ c0, c0 = c := ⟨_, rfl⟩
  rw [← hc0]
  obtain ⟨⟨Ak, c'⟩, h1, h2, h3, h4⟩ := forN_spec (n := q.r') (s := (List.replicate (q.r * q.n * q.r') 0, c))
    (body := fun ii => forN q.r (fun kk => setupStep A q ii kk))
    (I := fun i st => CovV (entry A q 0) (q.r * q.n * q.r')
      (fun p => ∃ ii < i, ∃ kk < q.r, ∃ e < q.n, p = pos q kk e ii) st.1 ∧ Inv A dl dr st.2 ∧
      (∀ x ∈ st.2.calls, x ∈ c0.calls ∨ ∃ l ∈ q.left, ∃ r ∈ q.right, x = key l r))
    ⟨⟨by simp, fun p _ hp => by obtain ⟨ii, h, _⟩ := hp; omega⟩, hc, fun x hx => .inl (by rw [hc0]; exact hx)⟩
    (by
      rintro i hi ⟨Ak, c⟩ ⟨hcov, hc, hcl⟩
      obtain ⟨⟨Ak', c'⟩, h1, h2, h3, h4⟩ := forN_spec (n := q.r) (s := (Ak, c)) (body := fun kk => setupStep A q i kk)
        (I := fun k st => CovV (entry A q 0) (q.r * q.n * q.r')
          (fun p => (∃ ii < i, ∃ kk < q.r, ∃ e < q.n, p = pos q kk e ii) ∨ ∃ kk < k, ∃ e < q.n, p = pos q kk e i) st.1 ∧
          Inv A dl dr st.2 ∧ (∀ x ∈ st.2.calls, x ∈ c0.calls ∨ ∃ l ∈ q.left, ∃ r ∈ q.right, x = key l r))
        ⟨⟨hcov.len, fun p hp hs => hcov.cov p hp (by
          rcases hs with hs | ⟨kk, h, _⟩
          · exact hs
          · omega)⟩, hc, hcl⟩
        (by
          rintro k hk ⟨Ak, c⟩ ⟨hcov, hc, hcl⟩
          have hl : q.left[k]? = some (q.left.getD k []) := by
            have : k < q.left.length := by rw [hq.left]; exact hk
            simp [List.getElem?_eq_getElem this]
          have hr : q.right[i]? = some (q.right.getD i []) := by
            have : i < q.right.length := by rw [hq.right]; exact hi
            simp [List.getElem?_eq_getElem this]
          obtain ⟨c', hc', hcl', he⟩ := setupStep_ok hq hA hl hr (Ak := Ak) hc
          obtain ⟨a, ha, hac⟩ := buildFiberMat_fills hq hA 0 hi hk _ _ hcov
          refine ⟨(a, c'), by rw [he]; exact (congrArg (· >>= fun a => pure (a, c')) ha).trans rfl, ⟨hac.len, fun p hp hs => hac.cov p hp ?_⟩, hc', fun x hx => ?_⟩
          rotate_left
          · rcases hcl' x hx with hx | hx
            · exact hcl x hx
            · exact .inr ⟨_, List.mem_of_getElem? hl, _, List.mem_of_getElem? hr, hx⟩
          rcases hs with hs | ⟨kk, h, e, he', hp'⟩
          · exact .inl (.inl hs)
          · by_cases hkk : kk = k
            · subst hkk; exact .inr ⟨e, he', hp'⟩
            · exact .inl (.inr ⟨kk, by omega, e, he', hp'⟩))
      refine ⟨(Ak', c'), h1, ⟨h2.len, fun p hp hs => h2.cov p hp ?_⟩, h3, h4⟩
      obtain ⟨ii, h, rest⟩ := hs
      by_cases hii : ii = i
      · subst hii; exact .inr rest
      · exact .inl ⟨ii, by omega, rest⟩)
  refine ⟨Ak, c', by rw [hc0]; exact h1, h3, h4, h2.len, fun kk hk e he ii hi => ?_⟩
  rw [h2.cov _ (pos_lt q hk he hi) ⟨ii, hi, kk, hk, e, he, rfl⟩, entry_pos A q 0 hk he hi]

/-- The empty cache. -/
def Cache.empty : Cache K := ⟨[], []⟩

theorem inv_empty (A : List Nat → List K) (dl dr : Nat) : Inv A dl dr (Cache.empty : Cache K) :=
  ⟨fun _ h => by simp [Cache.empty] at h, fun _ h => by simp [Cache.empty] at h, rfl, List.nodup_nil⟩

/-- A matrix of directly evaluated fibers for a request. -/
def Direct [Zero K] (A : List Nat → List K) (q : Req) (Ak : List K) : Prop :=
  Ak.length = q.r * q.n * q.r' ∧
    ∀ kk < q.r, ∀ e < q.n, ∀ ii < q.r', Ak[pos q kk e ii]? = some (direct A q 0 kk e ii)

theorem history_inv [Zero K] {A : List Nat → List K} {n dl dr : Nat} (hA : ∀ k, (A k).length = n) :
    ∀ (qs : List Req) (c : Cache K), (∀ q ∈ qs, q.WF n dl dr) → Inv A dl dr c →
      ∃ ms c', history A qs c = .ok (ms, c') ∧ Inv A dl dr c' ∧ List.Forall₂ (Direct A) qs ms ∧
        ∀ x ∈ c'.calls, x ∈ c.calls ∨ ∃ q ∈ qs, ∃ l ∈ q.left, ∃ r ∈ q.right, x = key l r
  | [], c, _, hc => ⟨[], c, rfl, hc, .nil, fun x hx => .inl hx⟩
  | q :: qs, c, hq, hc => by
    obtain ⟨Ak, c1, h1, h2, h3, h4, h5⟩ := setup_value (hq q (by simp)) hA hc
    obtain ⟨ms, c2, g1, g2, g3, g4⟩ := history_inv hA qs c1 (fun x hx => hq x (by simp [hx])) h2
    refine ⟨Ak :: ms, c2, ?_, g2, .cons ⟨h4, h5⟩ g3, fun x hx => ?_⟩
    · rw [history, h1, bind_ok, g1, bind_ok, pure_eq_ok]
    · rcases g4 x hx with hx | ⟨q', hq', rest⟩
      · rcases h3 x hx with hx | rest
        · exact .inl hx
        · exact .inr ⟨q, by simp, rest⟩
      · exact .inr ⟨q', by simp [hq'], rest⟩

/-- **C43** The cache is transparent: for every history of requests for one core, starting from the empty cache, with any
index sets (of the right lengths), ranks and sweep directions, every matrix returned consists of the directly evaluated
fibers; the function was called at most once for each index, and only for requested ones. -/
theorem cache_transparent [Zero K] {A : List Nat → List K} {n dl dr : Nat} (hA : ∀ k, (A k).length = n) (qs : List Req)
    (hq : ∀ q ∈ qs, q.WF n dl dr) :
    ∃ ms c, history A qs Cache.empty = .ok (ms, c) ∧ List.Forall₂ (Direct A) qs ms ∧ c.calls.Nodup ∧
      ∀ x ∈ c.calls, ∃ q ∈ qs, ∃ l ∈ q.left, ∃ r ∈ q.right, x = l ++ 0 :: r := by
  obtain ⟨ms, c, h1, h2, h3, h4⟩ := history_inv hA qs Cache.empty hq (inv_empty A dl dr)
  refine ⟨ms, c, h1, h3, h2.nodup, fun x hx => ?_⟩
  rcases h4 x hx with hx | hx
  · simp [Cache.empty] at hx
  · exact hx

/-- A concrete history: two requests sharing a fiber. -/
def exReq : Req := ⟨2, 2, 1, 1, [[0], [1]], 1, [[3]], true⟩
def exReq2 : Req := ⟨2, 2, 1, 1, [[1], [2]], 1, [[3]], false⟩

theorem exReq_wf : exReq.WF 2 1 1 := ⟨rfl, rfl, rfl, rfl, rfl, by decide, by decide⟩
theorem exReq2_wf : exReq2.WF 2 1 1 := ⟨rfl, rfl, rfl, rfl, rfl, by decide, by decide⟩

example := cache_transparent (K := Int) (A := fun ix => [ix.sum, 1]) (n := 2) (dl := 1) (dr := 1) (fun _ => rfl)
  [exReq, exReq2] (by
    intro q hq
    rcases List.mem_cons.1 hq with rfl | hq
    · exact exReq_wf
    · rw [List.mem_singleton.1 hq]; exact exReq2_wf)
example : (history (K := Int) (fun ix => [ix.sum, 1]) [exReq, exReq2] Cache.empty).map (fun p => (p.1, p.2.calls)) =
    .ok ([[3, 4, 1, 1], [4, 1, 5, 1]], [[2, 0, 3], [1, 0, 3], [0, 0, 3]]) := by decide

/-! ### Initial index sets -/

/-- **C55** When the number of entries does not exceed the first mode size the initial index set consists of the distinct
multi-indices `(ii,0,..,0)`. -/
theorem naive_value_partial {dim N : Nat} {nvals : List Nat} (hd : 0 < dim) (hn : 0 < nvals.length)
    (hN : N ≤ nvals.getD 0 0) :
    naive dim N nvals = .ok ((List.range N).map (fun ii => (List.replicate dim 0).set 0 ii)) := by
  obtain ⟨st, h1, h2, h3, h4, h5⟩ := forN_spec (n := N) (s := (0, List.replicate N (List.replicate dim 0)))
    (body := naiveStep dim nvals)
    (I := fun i st => st.1 = 0 ∧ st.2.length = N ∧ (∀ k < i, st.2[k]? = some ((List.replicate dim 0).set 0 k)) ∧
      ∀ k, i ≤ k → k < N → st.2[k]? = some (List.replicate dim 0))
    ⟨rfl, by simp, fun k hk => by omega, fun k _ hk => by simp [hk]⟩
    (by
      rintro i hi ⟨o, s⟩ ⟨rfl, hl, ha, hb⟩
      simp only at hl ha hb
      refine ⟨(0, s.set i ((List.replicate dim 0).set 0 i)), ?_, rfl, by simpa using hl, ?_, ?_⟩
      · rw [naiveStep, rd_getD 0 hn, bind_ok]
        simp only
        rw [if_neg (show ¬ nvals.getD 0 0 < i + 1 by omega), if_neg (by omega), rd_of_getElem? (hb i (by omega) hi), bind_ok,
          wr_ok _ (by simpa using hd), bind_ok, wr_ok _ (by omega), bind_ok, pure_eq_ok]
      · intro k hk
        simp only
        by_cases e : i = k
        · subst e; rw [List.getElem?_set_self (by omega)]
        · rw [List.getElem?_set_ne e]; exact ha k (by omega)
      · intro k hk1 hk2
        simp only
        rw [List.getElem?_set_ne (by omega)]; exact hb k (by omega) hk2)
  rw [naive, h1, bind_ok, pure_eq_ok]
  congr 1
  apply List.ext_getElem?
  intro k
  by_cases hk : k < N
  · rw [h4 k hk, List.getElem?_map, List.getElem?_range hk]; rfl
  · rw [List.getElem?_eq_none (by omega), List.getElem?_eq_none (by simp; omega)]

/-- **C55** Every multi-index of such a set is within the mode sizes. -/
theorem naive_in_range_partial {dim N : Nat} {nvals : List Nat} (hd : 0 < dim) (hl : dim ≤ nvals.length)
    (hN : N ≤ nvals.getD 0 0) (hpos : ∀ k < dim, 0 < nvals.getD k 0) :
    ∃ s, naive dim N nvals = .ok s ∧ s.length = N ∧ s.Nodup ∧
      ∀ ix ∈ s, ix.length = dim ∧ ∀ k < dim, ix.getD k 0 < nvals.getD k 0 := by
  refine ⟨_, naive_value_partial hd (by omega) hN, by simp, ?_, ?_⟩
  · refine List.Nodup.map_on ?_ List.nodup_range
    intro x _ y _ e
    have := congrArg (fun l : List Nat => l.getD 0 0) e
    simpa [List.getD_eq_getElem?_getD, List.getElem?_set_self, hd] using this
  · intro ix hix
    obtain ⟨ii, h1, rfl⟩ := List.mem_map.1 hix
    have h1 := List.mem_range.1 h1
    refine ⟨by simp, fun k hk => ?_⟩
    rw [List.getD_eq_getElem?_getD (l := List.set _ _ _)]
    by_cases e : 0 = k
    · subst e; rw [List.getElem?_set_self (by simpa using hd)]; simpa only [Option.getD_some] using (by omega : ii < nvals.getD 0 0)
    · rw [List.getElem?_set_ne e]; simp only [List.getElem?_replicate, if_pos hk, Option.getD_some]; exact hpos k hk

/-- **C55** With more entries than the first mode has values, the initial set contains indices outside the tensor. -/
theorem naive_counterexample : naive 2 3 [2, 2] = .ok [[0, 0], [1, 0], [0, 2]] := by decide

/-- **C55** The right index sets of a train with sizes 3,2,2 and the admissible ranks 1,3,2,1 are built with the size of the
wrong mode: the set right of the first core contains index 2 for the second mode, which has size 2. -/
theorem naive_right_counterexample : naiveSets 3 [1, 3, 2, 1] [3, 2, 2] 0 = .ok ([[0, 0], [1, 0], [2, 0]], [[]]) := by decide

example := naive_in_range_partial (dim := 2) (N := 2) (nvals := [2, 3]) (by decide) (by decide) (by decide) (by decide)

end C3.Cross
