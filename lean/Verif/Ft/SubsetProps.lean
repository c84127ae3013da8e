/-
C25: integrating a train over a strictly increasing list of coordinates. The specification is the iterated integral in
which the listed coordinates are integrated and every other coordinate is evaluated at the given point.
-/
import Verif.Ft.Subset
import Verif.Ft.InnerAlg

set_option linter.unusedSectionVars false

namespace C3.Ft
open Finset
variable {K U X : Type} [Field K]

/-- Integrate the coordinates in `c`, evaluate the others at `y`. -/
noncomputable def psub (I : Integ K X) (c : Nat → Prop) [DecidablePred c] (y : Nat → X) : Integ K X where
  V := fun k g => if c k then I.V k g else True
  J := fun k g => if c k then I.J k g else g (y k)

/-- The coordinates below `n` that are not listed. -/
def remDims (dims : List Nat) (n : Nat) : List Nat := (List.range n).filter (fun k => decide (k ∉ dims))

/-- The family of functions of the remaining coordinates. -/
def Fam.sub (F : Fam U X) (l : List Nat) : Fam U X := ⟨fun j => F.P (l.getD j 0), fun j => F.D (l.getD j 0)⟩

theorem psub_law {D : Nat → X → Prop} {I : Integ K X} {c : Nat → Prop} [DecidablePred c] {y : Nat → X} (hI : IntLaw D I)
    (hy : ∀ k, ¬ c k → D k (y k)) : IntLaw D (psub I c y) := by
  refine ⟨fun k => ?_, fun k g h => ?_, fun k a g => ?_, fun k g h => ?_⟩ <;> by_cases hc : c k <;>
    simp only [psub, hc, if_true, if_false]
  · exact hI.zero k
  · exact hI.add k g h
  · intro _ _; exact ⟨trivial, trivial⟩
  · exact hI.smul k a g
  · intro _; exact ⟨trivial, trivial⟩
  · exact hI.congr k g h
  · intro h1 _; exact ⟨trivial, h1 _ (hy k hc)⟩

theorem iint_ext {I I' : Integ K X} : ∀ {n k : Nat} {g : List X → K}, (∀ j, k ≤ j → j < k + n → I.J j = I'.J j) →
    iint I k n g = iint I' k n g
  | 0, _, _, _ => rfl
  | n + 1, k, g, h => by
    rw [iint, iint, h k (Nat.le_refl _) (by omega)]
    congr 1
    funext x
    exact iint_ext fun j h1 h2 => h j (by omega) (by omega)

/-! ### Chains with a terminal vector -/

/-- Row `r` of the product of a chain of matrices and a vector. -/
def chainW : List (Mat K) → (Nat → K) → Nat → K
  | [], w, r => w r
  | A :: rest, w, r => ∑ c ∈ range A.1, A.2 r c * chainW rest w c

theorem chainW_end (Ms : List (Mat K)) : ∀ r, chainW Ms (fun r => if r = 0 then 1 else 0) r = chain Ms r := by
  induction Ms with
  | nil => intro r; rfl
  | cons A rest ih => intro r; rw [chainW, chain]; exact sum_congr rfl fun c _ => by rw [ih]

theorem chainW_snoc (Ms : List (Mat K)) (M : Mat K) (w : Nat → K) : ∀ r,
    chainW (Ms ++ [M]) w r = chainW Ms (fun r => ∑ c ∈ range M.1, M.2 r c * w c) r := by
  induction Ms with
  | nil => intro r; rfl
  | cons A rest ih =>
    intro r
    show ∑ c ∈ range A.1, A.2 r c * chainW (rest ++ [M]) w c = _
    exact sum_congr rfl fun c _ => by rw [ih]

theorem chainW_congr {e : Ev K U X} {w w' : Nat → K} : ∀ {Qs : List (Qma U)} {ys : List X} {r s : Nat}, Fits r Qs s →
    Qs.length = ys.length → (∀ i < s, w i = w' i) → ∀ i < r, chainW (mats e Qs ys) w i = chainW (mats e Qs ys) w' i
  | [], _, _, _, .nil _, _, h, i, hi => h i hi
  | Q :: Qs, [], _, _, _, hl, _, _, _ => by simp at hl
  | Q :: Qs, y :: ys, _, _, .cons _ _ _ hf, hl, h, i, _ => by
    show ∑ c ∈ range Q.ncols, Q.val e y i c * chainW (mats e Qs ys) w c = ∑ c ∈ range Q.ncols, Q.val e y i c * chainW (mats e Qs ys) w' c
    exact sum_congr rfl fun c hc => by rw [chainW_congr hf (by simpa using hl) h c (mem_range.1 hc)]

theorem mats_snoc {e : Ev K U X} {Qs : List (Qma U)} {ys : List X} (h : Qs.length = ys.length) (Q : Qma U) (y : X) :
    mats e (Qs ++ [Q]) (ys ++ [y]) = mats e Qs ys ++ [(Q.ncols, Q.val e y)] := by
  rw [mats, List.zipWith_append h]; rfl

theorem Fits.snoc {Q : Qma U} (hQ : Q.WF) : ∀ {Qs : List (Qma U)} {r s : Nat}, Fits r Qs s → Q.nrows = s →
    Fits r (Qs ++ [Q]) Q.ncols
  | [], _, _, .nil _, h => by subst h; exact .cons Q [] hQ (.nil _)
  | P :: Qs, _, _, .cons _ _ hP hf, h => .cons P (Qs ++ [Q]) hP (hf.snoc hQ h)

theorem Fits.unsnoc {Q : Qma U} : ∀ {Qs : List (Qma U)} {r s : Nat}, Fits r (Qs ++ [Q]) s →
    Fits r Qs Q.nrows ∧ Q.WF ∧ Q.ncols = s := by
  intro Qs
  induction Qs with
  | nil =>
    intro r s h
    cases h with
    | cons _ _ hP hf =>
      refine ⟨.nil _, hP, ?_⟩
      generalize Q.ncols = c at hf
      cases hf; rfl
  | cons P Qs ih =>
    intro r s h
    cases h with
    | cons _ _ hP hf =>
      obtain ⟨h1, h2, h3⟩ := ih hf
      exact ⟨.cons P Qs hP h1, h2, h3⟩

theorem wr_mid {α : Type} (a b : List α) (x v : α) : wr (a ++ x :: b) a.length v = .ok (a ++ v :: b) := by
  rw [wr_ok v (by simp)]
  simp

/-! ### Dimensions -/

theorem remDims_succ {dims : List Nat} {n : Nat} :
    remDims dims (n + 1) = remDims dims n ++ (if n ∈ dims then [] else [n]) := by
  rw [remDims, List.range_succ, List.filter_append, ← remDims]
  by_cases h : n ∈ dims <;> simp [h]

theorem remDims_length {dims : List Nat} {n : Nat} (hs : dims.Pairwise (· < ·)) (hlt : ∀ d ∈ dims, d < n) :
    (remDims dims n).length = n - dims.length := by
  have h1 : ((List.range n).filter (fun k => decide (k ∈ dims))).Perm dims := by
    refine (List.perm_ext_iff_of_nodup (List.nodup_range.filter _) (hs.imp (fun h => Nat.ne_of_lt h))).2 fun a => ?_
    simp only [List.mem_filter, List.mem_range, decide_eq_true_eq]
    exact ⟨fun h => h.2, fun h => ⟨hlt a h, h⟩⟩
  have h2 := List.length_eq_length_filter_add (l := List.range n) (fun k => decide (k ∈ dims))
  rw [h1.length_eq, List.length_range] at h2
  have h3 : (remDims dims n).length = ((List.range n).filter (fun k => !decide (k ∈ dims))).length := by
    rw [remDims]; congr 1
    refine List.filter_congr fun x _ => ?_
    by_cases h : x ∈ dims <;> simp [h]
  omega

theorem remDims_mono {dims : List Nat} {n m : Nat} (h : n ≤ m) : (remDims dims n).length ≤ (remDims dims m).length := by
  induction h with
  | refl => exact Nat.le_refl _
  | step _ ih => rw [remDims_succ, List.length_append]; omega

theorem remDims_mem {dims : List Nat} {n d : Nat} : d ∈ remDims dims n ↔ d < n ∧ d ∉ dims := by
  simp [remDims]

/-- Where `on_contract` points while dimension `ii` is processed. -/
inductive OnInv (dims : List Nat) (ii : Nat) : Nat → Bool → Prop
  | go {on : Nat} (d : Nat) : dims[on]? = some d → ii ≤ d → (∀ j < on, ∀ d', dims[j]? = some d' → d' < ii) → OnInv dims ii on false
  | done {on : Nat} : on + 1 = dims.length → (∀ d ∈ dims, d < ii) → OnInv dims ii on true

theorem sorted_get {dims : List Nat} (hs : dims.Pairwise (· < ·)) {i j a b : Nat} (hij : i < j) (hi : dims[i]? = some a)
    (hj : dims[j]? = some b) : a < b := by
  obtain ⟨h1, rfl⟩ := List.getElem?_eq_some_iff.1 hi
  obtain ⟨h2, rfl⟩ := List.getElem?_eq_some_iff.1 hj
  exact List.pairwise_iff_getElem.1 hs i j h1 h2 hij

theorem OnInv.rd {dims : List Nat} {ii on : Nat} {b : Bool} (h : OnInv dims ii on b) (hs : dims.Pairwise (· < ·)) :
    ∃ d, C3.rd dims on = .ok d ∧ ((d = ii ∧ b = false) ↔ ii ∈ dims) := by
  cases h with
  | go d h1 h2 h3 =>
    refine ⟨d, rd_of_getElem? h1, ⟨?_, ?_⟩⟩
    · rintro ⟨rfl, -⟩; exact List.mem_of_getElem? h1
    · intro hm
      obtain ⟨j, hj⟩ := List.mem_iff_getElem?.1 hm
      refine ⟨?_, rfl⟩
      rcases Nat.lt_trichotomy j on with h | h | h
      · exact absurd (h3 j h _ hj) (Nat.lt_irrefl _)
      · subst h; rw [h1, Option.some.injEq] at hj; exact hj
      · have := sorted_get hs h h1 hj; omega
  | done h1 h2 =>
    have hlt : on < dims.length := by omega
    refine ⟨dims[on], rd_ok hlt, ⟨by rintro ⟨-, ⟨⟩⟩, fun hm => absurd (h2 _ hm) (Nat.lt_irrefl _)⟩⟩

theorem OnInv.skip {dims : List Nat} {ii on : Nat} {b : Bool} (h : OnInv dims ii on b) (hn : ii ∉ dims) :
    OnInv dims (ii + 1) on b := by
  cases h with
  | go d h1 h2 h3 =>
    have : d ≠ ii := by rintro rfl; exact hn (List.mem_of_getElem? h1)
    exact .go d h1 (by omega) fun j hj d' hd' => by have := h3 j hj d' hd'; omega
  | done h1 h2 => exact .done h1 fun d hd => by have := h2 d hd; omega

/-- Advancing past a contracted dimension. -/
theorem OnInv.next {dims : List Nat} (hs : dims.Pairwise (· < ·)) {ii on : Nat} (h1 : dims[on]? = some ii)
    (h3 : ∀ j < on, ∀ d', dims[j]? = some d' → d' < ii) :
    if on + 1 = dims.length then OnInv dims (ii + 1) on true else OnInv dims (ii + 1) (on + 1) false := by
  have hlt := (List.getElem?_eq_some_iff.1 h1).1
  split
  · rename_i h
    refine .done h fun d hd => ?_
    obtain ⟨j, hj⟩ := List.mem_iff_getElem?.1 hd
    have hj' := (List.getElem?_eq_some_iff.1 hj).1
    rcases Nat.lt_or_ge j on with h' | h'
    · have := h3 j h' d hj; omega
    · have : j = on := by omega
      subst this; rw [h1, Option.some.injEq] at hj; omega
  · rename_i h
    have hlt' : on + 1 < dims.length := by omega
    have h4 := List.getElem?_eq_getElem hlt'
    refine .go _ h4 (sorted_get hs (Nat.lt_succ_self on) h1 h4) fun j hj d' hd' => ?_
    rcases Nat.lt_or_ge j on with h' | h'
    · have := h3 j h' d' hd'; omega
    · have : j = on := by omega
      subst this; rw [h1, Option.some.injEq] at hd'; omega

/-! ### The algorithm -/

/-- Standing assumptions. -/
structure SubHyp (e : Ev K U X) (F : Fam U X) (I : Integ K X) (o : LOps K U) (int : U → C K) (ft : FT K U)
    (dims : List Nat) : Prop where
  law : IntLaw F.D I
  lin : LinLaw e o F
  mem : MemLaw e F I
  quad : QuadLaw e F I int
  ok : ft.Ok F
  sorted : dims.Pairwise (· < ·)
  lt : ∀ d ∈ dims, d < ft.dim
  pos : 0 < dims.length
  short : dims.length < ft.dim

variable {e : Ev K U X} {F : Fam U X} {I : Integ K X} {o : LOps K U} {int : U → C K} {ft : FT K U} {dims : List Nat}

/-- Remaining product of the specification from core `k` on. -/
noncomputable def tailS (e : Ev K U X) (I : Integ K X) (ft : FT K U) (dims : List Nat) (y : Nat → X) (k r : Nat) : K :=
  ichain e (psub I (fun k => k ∈ dims ∨ ft.dim ≤ k) y) k (ft.cores.drop k) r

theorem tail_in {y : Nat → X} {k : Nat} {Q : Qma U} (hQ : ft.cores[k]? = some Q) (hk : k ∈ dims) (r : Nat) :
    tailS e I ft dims y k r = ∑ c ∈ range Q.ncols, I.J k (fun x => Q.val e x r c) * tailS e I ft dims y (k + 1) c := by
  rw [tailS, drop_get hQ, ichain]
  refine sum_congr rfl fun c _ => ?_
  simp only [psub, hk, true_or, if_true]; rfl

theorem tail_out {y : Nat → X} {k : Nat} {Q : Qma U} (hQ : ft.cores[k]? = some Q) (hk : k ∉ dims) (hd : k < ft.dim) (r : Nat) :
    tailS e I ft dims y k r = ∑ c ∈ range Q.ncols, Q.val e (y k) r c * tailS e I ft dims y (k + 1) c := by
  rw [tailS, drop_get hQ, ichain]
  refine sum_congr rfl fun c _ => ?_
  simp only [psub, hk, false_or, Nat.not_le.2 hd, if_false]; rfl

/-- What the row vector of the leading contracted cores is. -/
def LeftInv (e : Ev K U X) (I : Integ K X) (ft : FT K U) (dims : List Nat) (ii : Nat) : Option (List K) → Prop
  | none => ii = 0
  | some l => l.length = ft.rk ii ∧ ∀ y : Nat → X,
      tailS e I ft dims y 0 0 = ∑ c ∈ range (ft.rk ii), l.getD c 0 * tailS e I ft dims y ii c

theorem subLeft_ok (h : SubHyp e F I o int ft dims) {ii : Nat} (hi : ii < ft.dim) (hd : ii ∈ dims) {Q : Qma U}
    (hQ : ft.cores[ii]? = some Q) (hn : Q.nrows = ft.rk ii) (hc : Q.ncols = ft.rk (ii + 1)) {left : Option (List K)}
    (hl : LeftInv e I ft dims ii left) : ∃ l, subLeft int Q left = .ok l ∧ LeftInv e I ft dims (ii + 1) (some l) := by
  rcases left with _ | l
  · have hl : ii = 0 := hl
    subst hl
    rw [h.ok.wf.rk_zero] at hn
    refine ⟨cm Q.nrows Q.ncols fun i j => I.J 0 (fun x => Q.val e x i j), ?_, by simp [hn, hc], fun y => ?_⟩
    · rw [subLeft, qmaInt_value h.quad (h.ok.qok hQ), bind_ok]
      exact copyK_ok (by simp [hn])
    · rw [tail_in hQ hd, ← hc]
      refine sum_congr rfl fun c hc => ?_
      rw [getD_cm0 _ (i := 0) (j := c) (by omega) (mem_range.1 hc) (by rw [hn]; omega)]
  · obtain ⟨h1, h2⟩ := hl
    refine ⟨(List.range Q.ncols).map (fun j => ∑ i ∈ range Q.nrows, (cm Q.nrows Q.ncols fun i j => I.J ii (fun x => Q.val e x i j)).getD (j * Q.nrows + i) 0 * l.getD i 0),
      ?_, ?_, fun y => ?_⟩
    · rw [subLeft, qmaInt_value h.quad (h.ok.qok hQ), bind_ok]
      show dgemvT Q.nrows Q.ncols _ Q.nrows l _ = _
      rw [dgemvT_ok (by simp) (by omega) (by simp)]
      simp
    · simp [hc]
    · rw [h2 y, ← hn, ← hc]
      simp only [tail_in hQ hd, mul_sum]
      rw [sum_comm]
      refine sum_congr rfl fun c hc => ?_
      have := getD_map_range (n := Q.ncols) (i := c) (fun j => ∑ i ∈ range Q.nrows, (cm Q.nrows Q.ncols fun i j => I.J ii (fun x => Q.val e x i j)).getD (j * Q.nrows + i) 0 * l.getD i 0) 0 [] (mem_range.1 hc)
      rw [List.append_nil] at this
      rw [this, sum_mul]
      refine sum_congr rfl fun i hi => ?_
      rw [getD_cm0 _ (mem_range.1 hi) (mem_range.1 hc) rfl]; ring

theorem subHead_ok (h : SubHyp e F I o int ft dims) : ∀ {fuel ii : Nat} {left : Option (List K)},
    dims.length < fuel + ii → (∀ j < ii, dims[j]? = some j) → ii < dims.length → LeftInv e I ft dims ii left →
    ∃ ii' left', subHead int ft dims fuel ii ii left = .ok (ii', ii', left') ∧ ii' ≤ dims.length ∧
      LeftInv e I ft dims ii' left' ∧ (∀ j < ii', dims[j]? = some j) ∧ dims[ii']? ≠ some ii'
  | 0, ii, left, hf, _, hi, _ => by omega
  | fuel + 1, ii, left, hf, hp, hi, hl => by
    have hget := List.getElem?_eq_getElem hi
    rw [subHead, rd_ok hi, bind_ok]
    by_cases hd : dims[ii] = ii
    · rw [if_pos hd]
      rw [hd] at hget
      have hm : ii ∈ dims := List.mem_of_getElem? hget
      obtain ⟨Q, hQ1, hQ2, -, hQn, hQc, -⟩ := h.ok.get (h.lt ii hm)
      obtain ⟨l, hl1, hl2⟩ := subLeft_ok h (h.lt ii hm) hm hQ2 hQn hQc hl
      rw [hQ1, bind_ok, hl1, bind_ok]
      have hp' : ∀ j < ii + 1, dims[j]? = some j := by
        intro j hj
        rcases Nat.lt_or_ge j ii with h' | h'
        · exact hp j h'
        · have : j = ii := by omega
          subst this; exact hget
      by_cases hend : ii + 1 = dims.length
      · rw [if_pos hend]
        exact ⟨ii + 1, some l, rfl, by omega, hl2, hp', by rw [List.getElem?_eq_none (by omega)]; exact nofun⟩
      · rw [if_neg hend]
        exact subHead_ok h (by omega) hp' (by omega) hl2
    · rw [if_neg hd]
      exact ⟨ii, left, rfl, by omega, hl, hp, by rw [hget]; simpa using hd⟩

/-- Invariant of the second loop. -/
structure SInv (e : Ev K U X) (F : Fam U X) (I : Integ K X) (ft : FT K U) (dims : List Nat) (ii : Nat) (s : SubSt K U)
    (Qs : List (Qma U)) : Prop where
  cores : s.cores = Qs.map some ++ List.replicate (ft.dim - dims.length - Qs.length) none
  new : s.onNew = Qs.length
  len : Qs.length = (remDims dims ii).length
  on : OnInv dims ii s.on s.done
  mem : ∀ (j d : Nat) Q, Qs[j]? = some Q → (remDims dims ii)[j]? = some d → ∀ f ∈ Q.funcs, F.P d f
  alt : (Qs = [] ∧ (ii < ft.dim → ii ∉ dims) ∧ LeftInv e I ft dims ii s.left) ∨
    (Qs ≠ [] ∧ s.left = none ∧ Fits 1 Qs (ft.rk ii) ∧ (∀ Q ∈ Qs, 0 < Q.nrows ∧ 0 < Q.ncols) ∧
      ∀ y : Nat → X, (∀ k ∈ remDims dims ft.dim, F.D k (y k)) →
        tailS e I ft dims y 0 0 = chainW (mats e Qs ((remDims dims ii).map y)) (tailS e I ft dims y ii) 0)

theorem get_snoc {α : Type} {l : List α} {x z : α} {j : Nat} (h : (l ++ [x])[j]? = some z) :
    l[j]? = some z ∨ (j = l.length ∧ z = x) := by
  rcases Nat.lt_trichotomy j l.length with h' | h' | h'
  · rw [List.getElem?_append_left h'] at h; exact .inl h
  · subst h'; simp at h; exact .inr ⟨rfl, h.symm⟩
  · rw [List.getElem?_eq_none (by simp; omega)] at h; cases h

theorem mem_rem_of_le {ii d : Nat} (hd : d ∈ remDims dims ii) (h : ii ≤ ft.dim) : d ∈ remDims dims ft.dim := by
  rw [remDims_mem] at hd ⊢; exact ⟨by omega, hd.2⟩

theorem subStep_ok (h : SubHyp e F I o int ft dims) {ii : Nat} (hi : ii < ft.dim) {s : SubSt K U} {Qs : List (Qma U)}
    (hs : SInv e F I ft dims ii s Qs) : ∃ s' Qs', subStep o int ft dims ii s = .ok s' ∧ SInv e F I ft dims (ii + 1) s' Qs' := by
  obtain ⟨d, hd1, hd2⟩ := hs.on.rd h.sorted
  obtain ⟨Q, hQ1, hQ2, hQw, hQn, hQc, hQm, hQp, hQp'⟩ := h.ok.get hi
  have hqok := h.ok.qok hQ2
  rw [subStep, hd1, bind_ok, hQ1, bind_ok]
  by_cases hin : ii ∈ dims
  · -- contracted
    rw [if_pos (hd2.2 hin)]
    rcases hs.alt with ⟨-, h2, -⟩ | ⟨hne, hleft, hfit, hpos, hval⟩
    · exact absurd hin (h2 hi)
    obtain ⟨Qs', P, rfl⟩ : ∃ Qs' P, Qs = Qs' ++ [P] := ⟨_, _, (List.dropLast_append_getLast hne).symm⟩
    obtain ⟨hf1, hPw, hPc⟩ := hfit.unsnoc
    have hrem : remDims dims (ii + 1) = remDims dims ii := by rw [remDims_succ, if_pos hin, List.append_nil]
    -- the dimension of the last new core
    have hlen := hs.len
    rw [List.length_append, List.length_singleton] at hlen
    have hdl : Qs'.length < (remDims dims ii).length := by omega
    have hrl := List.getElem?_eq_getElem hdl
    generalize hdP : (remDims dims ii)[Qs'.length] = dP at hrl
    have hPmem := hs.mem Qs'.length dP P (by simp) hrl
    have hPq : QOk F dP P := ⟨hPw, hPmem⟩
    have hPpos := hpos P (by simp)
    obtain ⟨N, hN1, hN2⟩ := qmam_value (e := e) h.lin hPq (R := cm Q.nrows Q.ncols fun i j => I.J ii (fun x => Q.val e x i j))
      (b := Q.ncols) hPpos.2 (by rw [cm_length, hPc, ← hQn])
    have hcs : s.cores = (Qs'.map some) ++ some P :: List.replicate (ft.dim - dims.length - (Qs'.length + 1)) none := by
      rw [hs.cores]; simp
    have hon : s.onNew = Qs'.length + 1 := by rw [hs.new]; simp
    have hwr : wr s.cores Qs'.length (some N) = .ok ((Qs' ++ [N]).map some ++ List.replicate (ft.dim - dims.length - (Qs' ++ [N]).length) none) := by
      have := wr_mid (Qs'.map some) (List.replicate (ft.dim - dims.length - (Qs'.length + 1)) none) (some P) (some N)
      rw [List.length_map] at this
      rw [hcs, this]; simp
    have hrd : rd s.cores Qs'.length = .ok (some P) := by
      rw [hcs]; exact rd_of_getElem? (by simp)
    have hrun : subContract o int dims.length Q s = .ok (if s.on + 1 = dims.length then
        { s with cores := (Qs' ++ [N]).map some ++ List.replicate (ft.dim - dims.length - (Qs' ++ [N]).length) none, done := true }
        else { s with cores := (Qs' ++ [N]).map some ++ List.replicate (ft.dim - dims.length - (Qs' ++ [N]).length) none, on := s.on + 1 }) := by
      rw [subContract, qmaInt_value h.quad hqok, bind_ok, if_neg (by omega), hon, Nat.add_sub_cancel, hrd, bind_ok]
      show (qmam o P _ Q.ncols >>= _) = _
      rw [hN1, bind_ok, hwr, bind_ok, pure_eq_ok]
    -- position of on_contract
    have hdi := (hd2.2 hin).1
    have hdone := (hd2.2 hin).2
    subst hdi
    have honinv : if s.on + 1 = dims.length then OnInv dims (d + 1) s.on true else OnInv dims (d + 1) (s.on + 1) false := by
      have := hs.on
      rw [hdone] at this
      cases this with
      | go d' g1 g2 g3 =>
        rw [rd_of_getElem? g1] at hd1
        cases hd1
        exact OnInv.next h.sorted g1 g3
    -- facts about the new list of cores
    have hfit' : Fits 1 (Qs' ++ [N]) (ft.rk (d + 1)) := by
      have := hf1.snoc hN2.wf hN2.nrows
      rwa [hN2.ncols, hQc] at this
    have hmem' : ∀ (j d' : Nat) Q', (Qs' ++ [N])[j]? = some Q' → (remDims dims (d + 1))[j]? = some d' →
        ∀ f ∈ Q'.funcs, F.P d' f := by
      intro j d' Q' hj hj'
      rw [hrem] at hj'
      rcases get_snoc hj with hj | ⟨rfl, rfl⟩
      · have hjl := (List.getElem?_eq_some_iff.1 hj).1
        exact hs.mem j d' Q' (by rw [List.getElem?_append_left hjl]; exact hj) hj'
      · rw [hrl, Option.some.injEq] at hj'
        subst hj'; exact hN2.mem
    have hpos' : ∀ Q' ∈ Qs' ++ [N], 0 < Q'.nrows ∧ 0 < Q'.ncols := by
      intro Q' hQ'
      rcases List.mem_append.1 hQ' with h' | h'
      · exact hpos Q' (by simp [h'])
      · rw [List.mem_singleton] at h'; subst h'
        rw [hN2.nrows, hN2.ncols]; exact ⟨hPpos.1, hQp'⟩
    have hval' : ∀ y : Nat → X, (∀ k ∈ remDims dims ft.dim, F.D k (y k)) →
        tailS e I ft dims y 0 0 = chainW (mats e (Qs' ++ [N]) ((remDims dims (d + 1)).map y)) (tailS e I ft dims y (d + 1)) 0 := by
      intro y hy
      rw [hval y hy, hrem]
      have hsplit : (remDims dims d).map y = ((remDims dims d).take Qs'.length).map y ++ [y dP] := by
        have : remDims dims d = (remDims dims d).take Qs'.length ++ [dP] := by
          rw [← hdP, ← List.take_succ_eq_append_getElem hdl, hlen, List.take_length]
        conv_lhs => rw [this]
        simp
      have hl' : Qs'.length = (((remDims dims d).take Qs'.length).map y).length := by simp; omega
      rw [hsplit, mats_snoc hl', mats_snoc hl', chainW_snoc, chainW_snoc]
      refine chainW_congr hf1 hl' (fun r hr => ?_) 0 (by decide)
      have hdom : F.D dP (y dP) := hy dP (mem_rem_of_le (List.mem_of_getElem? hrl) (by omega))
      show ∑ c ∈ range P.ncols, P.val e (y dP) r c * _ = ∑ c ∈ range N.ncols, N.val e (y dP) r c * _
      rw [hN2.ncols]
      have e1 : ∀ c ∈ range Q.ncols, N.val e (y dP) r c * tailS e I ft dims y (d + 1) c
          = ∑ t ∈ range P.ncols, P.val e (y dP) r t * (I.J d (fun x => Q.val e x t c) * tailS e I ft dims y (d + 1) c) := by
        intro c hc
        rw [hN2.val _ hdom r hr c (mem_range.1 hc), sum_mul]
        refine sum_congr rfl fun t ht => ?_
        have : ent P.ncols (cm Q.nrows Q.ncols fun i j => I.J d (fun x => Q.val e x i j)) t c = I.J d (fun x => Q.val e x t c) := by
          rw [ent, hPc, ← hQn]
          exact getD_cm0 _ (by rw [hQn, ← hPc]; exact mem_range.1 ht) (mem_range.1 hc) rfl
        rw [this, mul_assoc]
      rw [sum_congr rfl e1, sum_comm]
      refine sum_congr rfl fun t _ => ?_
      rw [tail_in hQ2 hin, mul_sum]
    refine ⟨_, Qs' ++ [N], hrun, ?_⟩
    by_cases hon2 : s.on + 1 = dims.length
    · rw [if_pos hon2] at honinv ⊢
      exact ⟨rfl, by show s.onNew = _; rw [hs.new]; simp, by rw [hrem]; simp; omega, honinv, hmem',
        .inr ⟨by simp, hleft, hfit', hpos', hval'⟩⟩
    · rw [if_neg hon2] at honinv ⊢
      exact ⟨rfl, by show s.onNew = _; rw [hs.new]; simp, by rw [hrem]; simp; omega,
        by show OnInv dims (d + 1) (s.on + 1) s.done; rw [hdone]; exact honinv, hmem',
        .inr ⟨by simp, hleft, hfit', hpos', hval'⟩⟩
  · -- kept
    rw [if_neg (fun hc => hin (hd2.1 hc))]
    have hrem : remDims dims (ii + 1) = remDims dims ii ++ [ii] := by rw [remDims_succ, if_neg hin]
    have hroom : Qs.length < ft.dim - dims.length := by
      have h1 := remDims_length h.sorted h.lt
      have h2 := remDims_mono (dims := dims) (show ii + 1 ≤ ft.dim from hi)
      rw [hrem, List.length_append, List.length_singleton, h1] at h2
      have := hs.len; omega
    -- the new core
    have hcore : ∃ N, subCore o s.left Q = .ok N ∧ N.WF ∧ N.ncols = ft.rk (ii + 1) ∧ (∀ f ∈ N.funcs, F.P ii f) ∧ 0 < N.nrows ∧
        0 < N.ncols ∧ Fits 1 (Qs ++ [N]) (ft.rk (ii + 1)) ∧ ∀ y : Nat → X, (∀ k ∈ remDims dims ft.dim, F.D k (y k)) →
        tailS e I ft dims y 0 0 = chainW (mats e (Qs ++ [N]) ((remDims dims (ii + 1)).map y)) (tailS e I ft dims y (ii + 1)) 0 := by
      rcases hs.alt with ⟨rfl, -, hleft⟩ | ⟨hne, hleft, hfit, hpos, hval⟩
      · have hr0 : remDims dims ii = [] := List.length_eq_zero_iff.1 (by rw [← hs.len]; rfl)
        have hrem' : remDims dims (ii + 1) = [ii] := by rw [hrem, hr0]; rfl
        generalize hsl : s.left = left at hleft
        rcases left with _ | l
        · have hleft : ii = 0 := hleft
          have hQ1r : Q.nrows = 1 := by rw [hQn, hleft]; exact h.ok.wf.rk_zero
          refine ⟨Q, rfl, hQw, hQc, hQm, hQp, hQp', ?_, fun y hy => ?_⟩
          · have := (Fits.nil Q.nrows).snoc hQw rfl
            rw [hQc, hQ1r] at this; exact this
          · have := tail_out (e := e) (I := I) (y := y) hQ2 hin hi 0
            rw [hrem']
            show _ = ∑ c ∈ range Q.ncols, Q.val e (y ii) 0 c * tailS e I ft dims y (ii + 1) c
            rw [← this, hleft]
        · obtain ⟨l1, l2⟩ := hleft
          obtain ⟨N, hN1, hN2⟩ := mqma_value (e := e) h.lin hqok (R := l) (b := 1) hQp (by rw [l1, hQn, Nat.one_mul])
          refine ⟨N, hN1, hN2.wf, hN2.ncols.trans hQc, hN2.mem, by rw [hN2.nrows]; decide, by rw [hN2.ncols]; exact hQp', ?_, fun y hy => ?_⟩
          · have := (Fits.nil N.nrows).snoc hN2.wf rfl
            rw [hN2.ncols, hQc, hN2.nrows] at this; exact this
          · rw [hrem']
            show _ = ∑ c ∈ range N.ncols, N.val e (y ii) 0 c * tailS e I ft dims y (ii + 1) c
            have hdom : F.D ii (y ii) := hy ii (remDims_mem.2 ⟨hi, hin⟩)
            rw [l2 y, ← hQn, hN2.ncols]
            simp only [tail_out (e := e) (I := I) (y := y) hQ2 hin hi, mul_sum]
            rw [sum_comm]
            refine sum_congr rfl fun c hc => ?_
            rw [hN2.val _ hdom 0 (by decide) c (mem_range.1 hc), sum_mul]
            refine sum_congr rfl fun t _ => ?_
            rw [ent, Nat.mul_one, mul_assoc]; rfl
      · refine ⟨Q, by rw [hleft]; rfl, hQw, hQc, hQm, hQp, hQp', ?_, fun y hy => ?_⟩
        · have := hfit.snoc hQw hQn
          rwa [hQc] at this
        · have hl' : Qs.length = ((remDims dims ii).map y).length := by simp [hs.len]
          rw [hval y hy, hrem, List.map_append, List.map_singleton, mats_snoc hl', chainW_snoc]
          refine chainW_congr hfit hl' (fun r hr => ?_) 0 (by decide)
          exact tail_out hQ2 hin hi r
    obtain ⟨N, c1, c2, c3, c4, c5, c6, c7, c8⟩ := hcore
    have hwr : wr s.cores s.onNew (some N) = .ok ((Qs ++ [N]).map some ++ List.replicate (ft.dim - dims.length - (Qs ++ [N]).length) none) := by
      have := wr_mid (Qs.map some) (List.replicate (ft.dim - dims.length - (Qs.length + 1)) none) none (some N)
      rw [List.length_map] at this
      rw [hs.cores, hs.new, show ft.dim - dims.length - Qs.length = (ft.dim - dims.length - (Qs.length + 1)) + 1 by omega,
        List.replicate_succ, this]
      simp
    rw [c1, bind_ok, hwr, bind_ok, pure_eq_ok]
    refine ⟨_, Qs ++ [N], rfl, rfl, by show s.onNew + 1 = _; rw [hs.new]; simp, by rw [hrem]; simp [hs.len], hs.on.skip hin, ?_,
      .inr ⟨by simp, rfl, c7, ?_, c8⟩⟩
    · intro j d' Q' hj hj'
      rw [hrem] at hj'
      rcases get_snoc hj with hj | ⟨rfl, rfl⟩
      · have hjl := (List.getElem?_eq_some_iff.1 hj).1
        rw [List.getElem?_append_left (by rw [← hs.len]; exact hjl)] at hj'
        exact hs.mem j d' Q' hj hj'
      · rw [hs.len] at hj'
        simp at hj'; subst hj'; exact c4
    · intro Q' hQ'
      rcases List.mem_append.1 hQ' with h' | h'
      · rcases hs.alt with ⟨rfl, -⟩ | ⟨-, -, -, hpos, -⟩
        · simp at h'
        · exact hpos Q' h'
      · rw [List.mem_singleton] at h'; subst h'; exact ⟨c5, c6⟩

theorem subRanks_ok : ∀ {Qs : List (Qma U)}, Qs ≠ [] → Fits 1 Qs 1 →
    subRanks Qs.length Qs = .ok (1 :: Qs.map (·.ncols)) := by
  intro Qs hne hf
  obtain ⟨r, h1, h2, h3⟩ := forN_spec
    (I := fun ii (r : List Nat) => r.length = Qs.length + 1 ∧
      ∀ j ≤ ii, r[j]? = (1 :: Qs.map (·.ncols))[j]?)
    (n := Qs.length) (s := 1 :: (List.replicate (Qs.length - 1) 0 ++ [1]))
    (body := fun ii r => do
      let Q ← rd Qs ii
      let r ← wr r ii Q.nrows
      wr r (ii + 1) Q.ncols)
    (by
      have : 0 < Qs.length := List.length_pos_iff.2 hne
      refine ⟨by simp; omega, fun j hj => ?_⟩
      have : j = 0 := by omega
      subst this; rfl)
    (by
      rintro ii hii r ⟨hl, hr⟩
      rw [rd_ok hii, bind_ok, wr_ok _ (by omega), bind_ok, wr_ok _ (by simp; omega)]
      refine ⟨_, rfl, by simp [hl], fun j hj => ?_⟩
      have hnr : Qs[ii].nrows = (1 :: Qs.map (·.ncols))[ii]'(by simp; omega) := by
        have := (hf.get hii).2
        rw [List.getElem?_eq_getElem (by simp; omega), Option.some.injEq] at this
        exact this.symm
      rcases Nat.lt_trichotomy j ii with h' | h' | h'
      · rw [List.getElem?_set_ne (by omega), List.getElem?_set_ne (by omega), hr j (by omega)]
      · subst h'
        rw [List.getElem?_set_ne (by omega), List.getElem?_set_self (by omega), hnr, List.getElem?_eq_getElem]
      · have : j = ii + 1 := by omega
        subst this
        rw [List.getElem?_set_self (by simp; omega)]
        simp [hii])
  rw [subRanks, h1]
  congr 1
  apply List.ext_getElem?
  intro j
  by_cases hj : j ≤ Qs.length
  · exact h3 j hj
  · rw [List.getElem?_eq_none (by omega), List.getElem?_eq_none (by simp; omega)]

theorem allSome_map (Qs : List (Qma U)) : allSome (Qs.map some) = .ok Qs := by
  induction Qs with
  | nil => rfl
  | cons Q Qs ih => rw [List.map_cons, allSome, ih]; rfl

/-- C25 (nonempty lists): contracting a nonempty, strictly increasing list of some of the coordinates gives a well-formed train in the
remaining coordinates whose value is the integral over the listed coordinates. -/
theorem intSubset_value_partial (h : SubHyp e F I o int ft dims) :
    ∃ g, ftIntSubset o int ft dims = .ok g ∧ g.Ok (F.sub (remDims dims ft.dim)) ∧ g.dim = ft.dim - dims.length ∧
      ∀ y : Nat → X, (∀ k ∈ remDims dims ft.dim, F.D k (y k)) →
        value e g.cores ((remDims dims ft.dim).map y) = iint (psub I (· ∈ dims) y) 0 ft.dim (value e ft.cores) := by
  obtain ⟨ii, left, h1, h2, h3, h4, h5⟩ := subHead_ok h (fuel := dims.length + 1) (ii := 0) (left := none) (by omega)
    (by omega) h.pos rfl
  have hsh := h.short
  have hstart : SInv e F I ft dims ii (subStart (ft.dim - dims.length) dims.length ii left) [] := by
    have hrem : remDims dims ii = [] := by
      rw [List.eq_nil_iff_forall_not_mem]
      intro d hd
      rw [remDims_mem] at hd
      exact hd.2 (List.mem_of_getElem? (h4 d hd.1))
    by_cases hend : ii = dims.length
    · rw [subStart, if_pos hend]
      have hall : ∀ d ∈ dims, d < ii := by
        intro d hd
        obtain ⟨j, hj⟩ := List.mem_iff_getElem?.1 hd
        have hjl := (List.getElem?_eq_some_iff.1 hj).1
        have := h4 j (by omega)
        rw [hj, Option.some.injEq] at this; omega
      refine ⟨by simp, rfl, by rw [hrem]; rfl, .done ?_ hall, by simp, .inl ⟨rfl, fun _ hm => ?_, h3⟩⟩
      · show ii - 1 + 1 = _
        have := h.pos; omega
      · exact absurd (hall ii hm) (Nat.lt_irrefl _)
    · rw [subStart, if_neg hend]
      have hlt : ii < dims.length := by omega
      have hg := List.getElem?_eq_getElem hlt
      have hge : ii ≤ dims[ii] := by
        rcases Nat.eq_zero_or_pos ii with h0 | h0
        · omega
        · have := sorted_get h.sorted (Nat.sub_lt h0 Nat.one_pos) (h4 (ii - 1) (by omega)) hg
          omega
      have honinv : OnInv dims ii ii false := .go _ hg hge fun j hj d' hd' => by
        rw [h4 j hj, Option.some.injEq] at hd'; omega
      refine ⟨by simp, rfl, by rw [hrem]; rfl, honinv, by simp, .inl ⟨rfl, fun _ hm => ?_, h3⟩⟩
      obtain ⟨d, g1, g2⟩ := honinv.rd h.sorted
      rw [rd_ok hlt] at g1
      cases g1
      have := (g2.2 hm).1
      rw [hg, this] at h5
      exact h5 rfl
  obtain ⟨s, g1, Qs, g2⟩ := forR_spec (I := fun ii s => ∃ Qs, SInv e F I ft dims ii s Qs) (a := ii) (b := ft.dim)
    (by omega) (body := subStep o int ft dims) ⟨[], hstart⟩
    (by
      rintro k hk1 hk2 s ⟨Qs, hs⟩
      obtain ⟨s', Qs', a1, a2⟩ := subStep_ok h hk2 hs
      exact ⟨s', a1, Qs', a2⟩)
  have hlen : Qs.length = ft.dim - dims.length := by rw [g2.len, remDims_length h.sorted h.lt]
  have hne : Qs ≠ [] := by rintro rfl; simp at hlen; omega
  rcases g2.alt with ⟨h', -⟩ | ⟨-, -, hfit, hpos, hval⟩
  · exact absurd h' hne
  rw [h.ok.wf.rk_last] at hfit
  have hcs : s.cores = Qs.map some := by rw [g2.cores, hlen]; simp
  refine ⟨⟨ft.dim - dims.length, 1 :: Qs.map (·.ncols), Qs, none, none, none⟩, ?_, ⟨⟨hlen.symm, hne, rfl, hfit⟩, ?_, ?_⟩, rfl, ?_⟩
  · rw [ftIntSubset, cassert_of (decide_eq_true h.short), bind_ok, h1, bind_ok]
    show (forR ii ft.dim (subStep o int ft dims) _ >>= _) = _
    rw [g1, bind_ok, hcs, allSome_map, bind_ok, ← hlen, subRanks_ok hne hfit, bind_ok, pure_eq_ok]
  · intro k r hr
    rcases k with _ | k
    · cases hr; decide
    · change (Qs.map (·.ncols))[k]? = some r at hr
      rw [List.getElem?_map, Option.map_eq_some_iff] at hr
      obtain ⟨Q, hQ, rfl⟩ := hr
      exact (hpos Q (List.mem_of_getElem? hQ)).2
  · intro k Q hQ f hf
    have hk := (List.getElem?_eq_some_iff.1 hQ).1
    have hk' : k < (remDims dims ft.dim).length := by rw [← g2.len]; exact hk
    have := g2.mem k _ Q hQ (List.getElem?_eq_getElem hk') f hf
    show F.P ((remDims dims ft.dim).getD k 0) f
    rwa [List.getD_eq_getElem?_getD, List.getElem?_eq_getElem hk']
  · intro y hy
    have hlaw : IntLaw F.D (psub I (fun k => k ∈ dims ∨ ft.dim ≤ k) y) := psub_law h.law fun k hk => by
      rw [not_or, Nat.not_le] at hk
      exact hy k (remDims_mem.2 ⟨hk.2, hk.1⟩)
    have hmem : MemLaw e F (psub I (fun k => k ∈ dims ∨ ft.dim ≤ k) y) := fun k f hf => by
      show if _ then _ else _
      split
      · exact h.mem k f hf
      · trivial
    have hspec := (iint_chain (F := F) (k := 0) (i := 0) hlaw hmem h.ok.wf.fits
      (fun j Q hQ => by rw [Nat.zero_add]; exact h.ok.mem j Q hQ) (by decide)).2
    have e1 : iint (psub I (· ∈ dims) y) 0 ft.dim (value e ft.cores) = tailS e I ft dims y 0 0 := by
      rw [tailS, List.drop_zero, ← hspec, ← h.ok.wf.dim]
      refine iint_ext fun j _ hj => ?_
      have : ¬ ft.dim ≤ j := by omega
      funext g
      simp only [psub, this, or_false]
    rw [e1, hval y hy, value, ← chainW_end]
    refine chainW_congr hfit (by simp [g2.len]) (fun i _ => ?_) 0 (by decide)
    rw [tailS, List.drop_of_length_le (by rw [h.ok.wf.dim]), ichain]

/-- Hypotheses are met: integrating `x + y` over `y ∈ [0,1]` leaves `x + 1/2`. -/
example : ∃ g, ftIntSubset rOps (rInt 0 1) rFt [1] = .ok g ∧ g.dim = 1 ∧ ∀ x : ℝ, value rEv g.cores [x] = x + 1 / 2 := by
  obtain ⟨g, h1, h2, h3, h4⟩ := intSubset_value_partial (e := rEv) (F := rFam) (I := rInteg (fun _ => 0) (fun _ => 1)) (o := rOps)
    (int := rInt 0 1) (ft := rFt) (dims := [1])
    ⟨r_intLaw _ _, r_lin, r_mem _ _, r_quad 0 1, rFt_ok, by simp, by simp [rFt], by simp, by simp [rFt]⟩
  refine ⟨g, h1, h3, fun x => ?_⟩
  have := h4 (fun _ => x) (fun _ _ => trivial)
  have hr : remDims [1] rFt.dim = [0] := rfl
  rw [hr] at this
  refine this.trans ?_
  show (∫ y in (0 : ℝ)..1, value rEv rFt.cores [x, y]) = x + 1 / 2
  simp only [rFt_value]
  rw [intervalIntegral.integral_add (f := fun _ => x) (g := fun y => y) (Continuous.intervalIntegrable (by fun_prop) _ _)
    (Continuous.intervalIntegrable (by fun_prop) _ _)]
  simp

/-- Contracting all (or more) coordinates is refused. -/
theorem intSubset_all_refused (hs : ft.dim ≤ dims.length) : ftIntSubset o int ft dims = .error .assertFail := by
  rw [ftIntSubset, decide_eq_false (by omega)]; rfl

/-- The code disagrees with C25 for an empty list of coordinates: it reads `dims_contract[0]`, which does not exist. -/
theorem intSubset_empty_counterexample (hd : 0 < ft.dim) : ftIntSubset o int ft [] = .error .oob := by
  rw [ftIntSubset, decide_eq_true (by simpa using hd)]; rfl

end C3.Ft
