/-
Backward sweep of the parameter gradient.
-/
import Verif.Sl.Fwd

namespace C3.Sl

variable {K U : Type} [CommRing K]
variable {F : FTP K U} {r np : Nat → Nat} {e : Nat → K} {gr : Nat → K} {gev : List K}

/-- State of the loops over one core starting at function `b`: `v` functions done, entry `l` of
function `w` is `cf w` applied to the univariate derivative. -/
structure GI (np : Nat → Nat) (gr : Nat → K) (b P : Nat) (i0 : Nat) (g0 : List K)
    (cf : Nat → K → K) (v : Nat) (s : Bw K) : Prop where
  indmem : s.indmem = i0
  onuni : s.onuni = b + v
  onparam : s.onparam = po np (b + v)
  len : s.grad.length = g0.length
  done : ∀ w, w < v → ∀ l, l < np (b + w) →
    s.grad[po np (b + w) + l]? = some (cf w (gr (po np (b + w) + l)))
  rest : ∀ p, P ≤ p → s.grad[p]? = g0[p]?

theorem gradUni_step (hL : Lay F r np) (hgev : ∀ p, p < po np (uo r F.dim) → gev[p]? = some (gr p))
    {b P i0 : Nat} {g0 : List K} {cf : Nat → K → K} {v : Nat} {s : Bw K} (f : K → K)
    (hf : f = cf v) (hv : b + v < uo r F.dim) (hP : po np (b + v + 1) ≤ P)
    (hlen : po np (uo r F.dim) ≤ g0.length)
    (h : GI np gr b P i0 g0 cf v s) :
    ∃ s', gradUni F gev f s = .ok s' ∧ GI np gr b P i0 g0 cf (v + 1) s' ∧ s'.mem = s.mem := by
  subst hf
  have h1 := po_mono np (show b + v + 1 ≤ uo r F.dim from hv)
  have hs := po_succ np (b + v)
  obtain ⟨s', hs', ⟨a1, a2, a3, a4, a5, a6, a7, a8⟩⟩ := forN_spec
    (I := fun n (t : Bw K) => t.indmem = i0 ∧ t.onuni = b + v ∧ t.onparam = po np (b + v) + n ∧
      t.grad.length = g0.length ∧
      (∀ w, w < v → ∀ l, l < np (b + w) →
        t.grad[po np (b + w) + l]? = some (cf w (gr (po np (b + w) + l)))) ∧
      (∀ l, l < n → t.grad[po np (b + v) + l]? = some (cf v (gr (po np (b + v) + l)))) ∧
      (∀ p, P ≤ p → t.grad[p]? = g0[p]?) ∧ t.mem = s.mem)
    (n := np (b + v)) (s := s)
    (body := fun _ (s : Bw K) => do
      let g ← rd gev s.onparam
      let grad ← wr s.grad s.onparam (cf v g)
      .ok { s with grad := grad, onparam := s.onparam + 1 })
    ⟨h.indmem, h.onuni, h.onparam, h.len, h.done, fun l hl => absurd hl (Nat.not_lt_zero l),
      h.rest, rfl⟩ (by
      intro n hn t ⟨b1, b2, b3, b4, b5, b6, b7, b8⟩
      refine ⟨{ t with
          grad := t.grad.set (po np (b + v) + n) (cf v (gr (po np (b + v) + n)))
          onparam := po np (b + v) + n + 1 }, by
        rw [b3, rd_of_getElem? (hgev _ (by omega)), bind_ok, wr_ok _ (by omega), bind_ok],
        b1, b2, rfl, by simp [b4], ?_, ?_, ?_, b8⟩
      · intro w hw l hl
        dsimp only
        have h2 := po_mono np (show b + w + 1 ≤ b + v by omega)
        rw [po_succ] at h2
        rw [List.getElem?_set_ne (by omega)]; exact b5 w hw l hl
      · intro l hl
        dsimp only
        by_cases hln : l = n
        · subst hln; rw [List.getElem?_set_self (by omega)]
        · rw [List.getElem?_set_ne (by omega)]; exact b6 l (by omega)
      · intro p hp
        dsimp only
        rw [List.getElem?_set_ne (by omega)]; exact b7 p hp)
  refine ⟨{ s' with onuni := s'.onuni + 1 }, by
    rw [gradUni, h.onuni, rd_of_getElem? (hL.npu _ hv), bind_ok, hs', bind_ok],
    ⟨a1, by dsimp only; omega, by dsimp only; rw [a3]; exact hs.symm, a4, ?_, a7⟩, a8⟩
  intro w hw l hl
  by_cases hwv : w = v
  · subst hwv; exact a6 l hl
  · exact a5 w (by omega) l hl

/-- The gradient entries of all cores from `k0` on are done. -/
def GradFrom (r np : Nat → Nat) (e gr : Nat → K) (d k0 : Nat) (grad : List K) : Prop :=
  ∀ k, k0 ≤ k → k < d → ∀ i, i < r k → ∀ j, j < r (k + 1) →
    ∀ l, l < np (uo r k + (i + j * r k)) →
      grad[po np (uo r k + (i + j * r k)) + l]?
        = some (lft r e k i * gr (po np (uo r k + (i + j * r k)) + l)
            * rgt r e d (d - (k + 1)) j)

theorem gradFrom_core {d b : Nat} {g0 g : List K} {cf : Nat → K → K} (hb : b < d)
    (hcf : ∀ i, i < r b → ∀ j, j < r (b + 1) → ∀ y,
      cf (i + j * r b) y = lft r e b i * y * rgt r e d (d - (b + 1)) j)
    (hdone : ∀ w, w < r b * r (b + 1) → ∀ l, l < np (uo r b + w) →
      g[po np (uo r b + w) + l]? = some (cf w (gr (po np (uo r b + w) + l))))
    (hrest : ∀ p, po np (uo r (b + 1)) ≤ p → g[p]? = g0[p]?)
    (h0 : GradFrom r np e gr d (b + 1) g0) : GradFrom r np e gr d b g := by
  intro k hk hkd i hi j hj l hl
  by_cases hkb : k = b
  · subst hkb
    rw [hdone _ (idx_lt hi hj) l hl, hcf i hi j hj]
  · have h1 : po np (uo r (b + 1)) ≤ po np (uo r k + (i + j * r k)) :=
      po_mono np (le_trans (uo_mono r (show b + 1 ≤ k by omega)) (by omega))
    rw [hrest _ (by omega)]
    exact h0 k (by omega) hkd i hi j hj l hl

/-- Invariant of the backward sweep after the cores from `b` on. -/
structure BI (r np : Nat → Nat) (e gr : Nat → K) (d Nm Ng : Nat) (b : Nat) (s : Bw K) :
    Prop where
  indmem : s.indmem = mo r (b - 1)
  onuni : s.onuni = uo r b
  onparam : s.onparam = po np (uo r b)
  glen : s.grad.length = Ng
  mlen : s.mem.length = Nm
  left : ∀ k, k + 1 < b → ∀ c, c < r (k + 1) → s.mem[mo r k + c]? = some (lft r e (k + 1) c)
  /-- the block of the workspace behind the remaining left products: a right product, except
  before the first step, when it still holds the left product of all cores -/
  right : ∀ c, c < r b → s.mem[mo r (b - 1) + c]? =
    some (if b = d then lft r e d c else rgt r e d (d - b) c)
  grad : GradFrom r np e gr d b s.grad

theorem bwLast_ok (hL : Lay F r np) (hgev : ∀ p, p < po np (uo r F.dim) → gev[p]? = some (gr p))
    {evals : List K} (hev : ∀ u, u < uo r F.dim → evals[u]? = some (e u))
    {Nm Ng : Nat} (hm : mo r F.dim ≤ Nm) (hg : po np (uo r F.dim) ≤ Ng)
    (b : Nat) (hb0 : 0 < b) (hb : b + 1 = F.dim) (s : Bw K)
    (hs : BI r np e gr F.dim Nm Ng (b + 1) s) :
    ∃ s', bwLast F evals gev (r b) (r (b + 1)) (po np (uo r (b + 1)) - po np (uo r b))
        { s with indmem := s.indmem - r b, onuni := s.onuni - r b * r (b + 1)
                 onparam := s.onparam - (po np (uo r (b + 1)) - po np (uo r b)) } = .ok s' ∧
      BI r np e gr F.dim Nm Ng b s' := by
  obtain ⟨k, rfl⟩ : ∃ k, b = k + 1 := ⟨b - 1, by omega⟩
  have hr2 : r (k + 1 + 1) = 1 := by rw [hb]; exact hL.last
  have hmo := mo_succ r k
  have huo := uo_succ r (k + 1)
  have hpo := po_mono np (uo_mono r (show k + 1 ≤ k + 1 + 1 by omega))
  have hi0 : s.indmem - r (k + 1) = mo r k := by
    rw [hs.indmem, Nat.add_sub_cancel, hmo]; omega
  have hu0 : s.onuni - r (k + 1) * r (k + 1 + 1) = uo r (k + 1) := by
    rw [hs.onuni, huo]; omega
  have hp0 : s.onparam - (po np (uo r (k + 1 + 1)) - po np (uo r (k + 1)))
      = po np (uo r (k + 1)) := by rw [hs.onparam]; omega
  rw [hi0, hu0, hp0]
  have hcf1 : ∀ i, i < r (k + 1) → ∀ j, j < r (k + 1 + 1) → ∀ y,
      (fun w y => lft r e (k + 1) w * y) (i + j * r (k + 1)) y
        = lft r e (k + 1) i * y * rgt r e F.dim (F.dim - (k + 1 + 1)) j := by
    intro i hi j hj y
    obtain rfl : j = 0 := by omega
    simp [hb, rgt]
  have hmlt : ∀ c, c < r (k + 1) → mo r k + c < mo r F.dim := fun c hc =>
    mo_idx_lt (by omega) hc
  obtain ⟨s', hs', hGI, hm1, hm2, hm3⟩ := forN_spec
    (I := fun v (t : Bw K) =>
      GI np gr (uo r (k + 1)) (po np (uo r (k + 1 + 1))) (mo r k) s.grad
        (fun w y => lft r e (k + 1) w * y) v t ∧
      t.mem.length = Nm ∧
      (∀ p, (∀ c, c < v → mo r k + c ≠ p) → t.mem[p]? = s.mem[p]?) ∧
      (∀ c, c < v → t.mem[mo r k + c]? = some (e (uo r (k + 1) + c))))
    (n := r (k + 1))
    (s := ({ mem := s.mem, grad := s.grad, onuni := uo r (k + 1)
             onparam := po np (uo r (k + 1)), indmem := mo r k } : Bw K))
    (body := fun kk (s : Bw K) => do
      let left ← rd s.mem (s.indmem + kk)
      let e ← rd evals s.onuni
      let s' ← gradUni F gev (fun g => left * g) s
      let mem ← wr s'.mem (s'.indmem + kk) e
      .ok { s' with mem := mem })
    ⟨⟨rfl, rfl, rfl, rfl, fun w hw => absurd hw (Nat.not_lt_zero w), fun _ _ => rfl⟩, hs.mlen,
      fun _ _ => rfl, fun c hc => absurd hc (Nat.not_lt_zero c)⟩ (by
      intro v hv t ⟨hGI, t1, t2, t3⟩
      have hrd : t.mem[mo r k + v]? = some (lft r e (k + 1) v) := by
        rw [t2 _ (fun c hc => by omega)]
        exact hs.left k (by omega) v hv
      have hvu : uo r (k + 1) + v < uo r F.dim :=
        uo_idx_lt (by omega) (by rw [hr2]; omega)
      obtain ⟨t', ht', hGI', hmem'⟩ := gradUni_step hL hgev (s := t)
        (fun g => lft r e (k + 1) v * g) rfl hvu
        (po_mono np (by rw [huo, hr2]; omega)) (by rw [hs.glen]; exact hg) hGI
      refine ⟨{ t' with mem := t'.mem.set (mo r k + v) (e (uo r (k + 1) + v)) }, by
        rw [hGI.indmem, rd_of_getElem? hrd, bind_ok, hGI.onuni, rd_of_getElem? (hev _ hvu),
          bind_ok, ht', bind_ok, hGI'.indmem, wr_ok _ (by rw [hmem']; have := hmlt v hv; omega), bind_ok],
        ⟨hGI'.indmem, hGI'.onuni, hGI'.onparam, hGI'.len, hGI'.done, hGI'.rest⟩,
        by simp [hmem', t1], ?_, ?_⟩
      · intro p hp
        dsimp only
        rw [hmem', List.getElem?_set_ne (hp v (by omega))]
        exact t2 p (fun c hc => hp c (by omega))
      · intro c hc
        dsimp only
        rw [hmem']
        by_cases hcv : c = v
        · subst hcv; rw [List.getElem?_set_self (by have := hmlt c hv; omega)]
        · rw [List.getElem?_set_ne (by omega)]; exact t3 c (by omega))
  have hend : uo r (k + 1) + r (k + 1) = uo r (k + 1 + 1) := by rw [huo, hr2]; omega
  refine ⟨{ s' with onuni := uo r (k + 1), onparam := po np (uo r (k + 1)) }, ?_,
    ⟨hGI.indmem, rfl, rfl, by rw [hGI.len, hs.glen], hm1, ?_, ?_, ?_⟩⟩
  · rw [bwLast, hs', bind_ok, hGI.onuni, hGI.onparam, hend, hr2]
    have e1 : uo r (k + 1 + 1) - r (k + 1) * 1 = uo r (k + 1) := by omega
    have e2 : po np (uo r (k + 1 + 1)) - (po np (uo r (k + 1 + 1)) - po np (uo r (k + 1)))
        = po np (uo r (k + 1)) := by omega
    rw [e1, e2]
  · intro k' hk' c hc
    dsimp only
    have h1 := mo_idx_lt (r := r) (show k' < k by omega) hc
    rw [hm2 _ (fun c' _ => by omega)]
    exact hs.left k' (by omega) c hc
  · intro c hc
    dsimp only
    rw [show k + 1 - 1 = k from rfl, hm3 c hc, if_neg (by omega)]
    have hd1 : F.dim - (k + 1) = 0 + 1 := by omega
    rw [hd1]
    simp only [rgt]
    rw [show F.dim - 0 = F.dim from rfl, hL.last, show F.dim - (0 + 1) = k + 1 by omega]
    simp
  · refine gradFrom_core (g0 := s.grad) (b := k + 1) (cf := fun w y => lft r e (k + 1) w * y)
      (by omega) hcf1 ?_ hGI.rest hs.grad
    intro w hw l hl
    exact hGI.done w (by rw [hr2] at hw; omega) l hl

theorem bwMidLoop_ok (hL : Lay F r np)
    (hgev : ∀ p, p < po np (uo r F.dim) → gev[p]? = some (gr p))
    (b : Nat) (hb : b < F.dim) (i0 : Nat) (mem grad : List K)
    (hg : po np (uo r F.dim) ≤ grad.length) (lf rt : Nat → K)
    (hl : ∀ c, c < r b → mem[i0 + c]? = some (lf c))
    (hr : ∀ c, c < r (b + 1) → mem[i0 + r b + c]? = some (rt c)) :
    ∃ s', bwMidLoop F gev (r b) (r (b + 1)) ⟨mem, grad, uo r b, po np (uo r b), i0⟩ = .ok s' ∧
      GI np gr (uo r b) (po np (uo r (b + 1))) i0 grad
        (fun w y => lf (w % r b) * y * rt (w / r b)) (r b * r (b + 1)) s' ∧ s'.mem = mem := by
  have huo := uo_succ r b
  obtain ⟨s', hs', h1, h2⟩ := forN_spec
    (I := fun ii (t : Bw K) => GI np gr (uo r b) (po np (uo r (b + 1))) i0 grad
        (fun w y => lf (w % r b) * y * rt (w / r b)) (ii * r b) t ∧ t.mem = mem)
    (n := r (b + 1)) (s := ({ mem := mem, grad := grad, onuni := uo r b
                              onparam := po np (uo r b), indmem := i0 } : Bw K))
    (body := fun ii s => do
      let right ← rd s.mem (s.indmem + r b + ii)
      forN (r b) (fun kk (s : Bw K) => do
        let left ← rd s.mem (s.indmem + kk)
        gradUni F gev (fun g => left * g * right) s) s)
    ⟨⟨rfl, by simp, by simp, rfl, fun w hw => by simp at hw, fun _ _ => rfl⟩, rfl⟩ (by
      intro ii hii t ⟨hGI, hmem⟩
      rw [hGI.indmem, hmem, rd_of_getElem? (hr ii hii), bind_ok]
      obtain ⟨t', ht', g1, g2⟩ := forN_spec
        (I := fun kk (t : Bw K) => GI np gr (uo r b) (po np (uo r (b + 1))) i0 grad
            (fun w y => lf (w % r b) * y * rt (w / r b)) (kk + ii * r b) t ∧ t.mem = mem)
        (n := r b) (s := t) (body := fun kk (s : Bw K) => do
          let left ← rd s.mem (s.indmem + kk)
          gradUni F gev (fun g => left * g * rt ii) s) ⟨by simpa using hGI, hmem⟩ (by
          intro kk hkk t ⟨hGI, hmem⟩
          have hlt := idx_lt hkk hii
          obtain ⟨t', ht', a1, a2⟩ := gradUni_step hL hgev (s := t)
            (fun g => lf kk * g * rt ii) (by
              have e1 : (kk + ii * r b) % r b = kk := by
                rw [Nat.add_mul_mod_self_right, Nat.mod_eq_of_lt hkk]
              have e2 : (kk + ii * r b) / r b = ii := by
                rw [Nat.add_mul_div_right _ _ (by omega), Nat.div_eq_of_lt hkk, Nat.zero_add]
              funext y; rw [e1, e2])
            (uo_idx_lt hb hlt) (po_mono np (by rw [huo]; omega)) hg hGI
          refine ⟨t', ?_, ?_, by rw [a2, hmem]⟩
          · rw [hGI.indmem, hmem, rd_of_getElem? (hl kk hkk), bind_ok, ht']
          · rw [show kk + 1 + ii * r b = kk + ii * r b + 1 by omega]; exact a1)
      refine ⟨t', ht', ?_, g2⟩
      rw [show (ii + 1) * r b = r b + ii * r b by ring]; exact g1)
  exact ⟨s', hs', by rw [Nat.mul_comm]; exact h1, h2⟩

theorem gemvBack_ok {evals mem : List K} {onuni r1 r2 i0 : Nat} (ev rt : Nat → K)
    (hev : ∀ i, i < r1 → ∀ j, j < r2 → evals[onuni + i + j * r1]? = some (ev (i + j * r1)))
    (hrt : ∀ c, c < r2 → mem[i0 + r1 + c]? = some (rt c)) (hlen : i0 + r1 ≤ mem.length) :
    ∃ m, gemvBack evals onuni r1 r2 i0 mem = .ok m ∧ m.length = mem.length ∧
      (∀ c, c < r1 → m[i0 + c]? = some (∑ j ∈ Finset.range r2, ev (c + j * r1) * rt j)) ∧
      (∀ p, (∀ c, c < r1 → i0 + c ≠ p) → m[p]? = mem[p]?) := by
  refine forN_spec (I := fun n (m : List K) => m.length = mem.length ∧
      (∀ c, c < n → m[i0 + c]? = some (∑ j ∈ Finset.range r2, ev (c + j * r1) * rt j)) ∧
      (∀ p, (∀ c, c < n → i0 + c ≠ p) → m[p]? = mem[p]?))
    ⟨rfl, fun c hc => absurd hc (Nat.not_lt_zero c), fun _ _ => rfl⟩ ?_
  intro i hi m ⟨h1, h2, h3⟩
  have hsum := forN_sum (n := r2) (s0 := (0 : K))
    (body := fun j acc => do
      let a ← rd evals (onuni + i + j * r1)
      let b ← rd mem (i0 + r1 + j)
      .ok (acc + a * b))
    (fun j => ev (i + j * r1) * rt j) (by
      intro j hj acc
      rw [rd_of_getElem? (hev i hi j hj), bind_ok, rd_of_getElem? (hrt j hj), bind_ok])
  rw [zero_add] at hsum
  refine ⟨_, by rw [hsum, bind_ok, wr_ok _ (by omega)], by simp [h1], ?_, ?_⟩
  · intro c hc
    by_cases hci : c = i
    · subst hci; rw [List.getElem?_set_self (by omega)]
    · rw [List.getElem?_set_ne (by omega)]; exact h2 c (by omega)
  · intro p hp
    rw [List.getElem?_set_ne (hp i (by omega))]
    exact h3 p (fun c hc => hp c (by omega))

theorem bwMid_ok (hL : Lay F r np) (hgev : ∀ p, p < po np (uo r F.dim) → gev[p]? = some (gr p))
    {evals : List K} (hev : ∀ u, u < uo r F.dim → evals[u]? = some (e u))
    {Nm Ng : Nat} (hm : mo r F.dim ≤ Nm) (hg : po np (uo r F.dim) ≤ Ng)
    (b : Nat) (hb0 : 0 < b) (hb : b + 1 < F.dim) (s : Bw K)
    (hs : BI r np e gr F.dim Nm Ng (b + 1) s) :
    ∃ s', bwMid F evals gev (r b) (r (b + 1)) (po np (uo r (b + 1)) - po np (uo r b))
        { s with indmem := s.indmem - r b, onuni := s.onuni - r b * r (b + 1)
                 onparam := s.onparam - (po np (uo r (b + 1)) - po np (uo r b)) } = .ok s' ∧
      BI r np e gr F.dim Nm Ng b s' := by
  obtain ⟨k, rfl⟩ : ∃ k, b = k + 1 := ⟨b - 1, by omega⟩
  have hmo := mo_succ r k
  have huo := uo_succ r (k + 1)
  have hpo := po_mono np (uo_mono r (show k + 1 ≤ k + 1 + 1 by omega))
  have hi0 : s.indmem - r (k + 1) = mo r k := by
    rw [hs.indmem, Nat.add_sub_cancel, hmo]; omega
  have hu0 : s.onuni - r (k + 1) * r (k + 1 + 1) = uo r (k + 1) := by
    rw [hs.onuni, huo]; omega
  have hp0 : s.onparam - (po np (uo r (k + 1 + 1)) - po np (uo r (k + 1)))
      = po np (uo r (k + 1)) := by rw [hs.onparam]; omega
  rw [hi0, hu0, hp0]
  have hrt : ∀ c, c < r (k + 1 + 1) →
      s.mem[mo r k + r (k + 1) + c]? = some (rgt r e F.dim (F.dim - (k + 1 + 1)) c) := by
    intro c hc
    have := hs.right c hc
    rw [if_neg (by omega), Nat.add_sub_cancel, hmo] at this
    exact this
  obtain ⟨s1, hs1, hGI, hmem⟩ := bwMidLoop_ok hL hgev (k + 1) (by omega) (mo r k) s.mem s.grad
    (by rw [hs.glen]; exact hg) (lft r e (k + 1)) (rgt r e F.dim (F.dim - (k + 1 + 1)))
    (fun c hc => hs.left k (by omega) c hc) hrt
  have hmlt : mo r k + r (k + 1) ≤ mo r F.dim := by
    rw [← hmo]; exact mo_mono r (by omega)
  obtain ⟨m, hm', ml, m1, m2⟩ := gemvBack_ok (evals := evals) (mem := s.mem)
    (onuni := uo r (k + 1)) (r1 := r (k + 1)) (r2 := r (k + 1 + 1)) (i0 := mo r k)
    (fun w => e (uo r (k + 1) + w)) (rgt r e F.dim (F.dim - (k + 1 + 1)))
    (fun i hi j hj => by
      have h1 := uo_idx_lt (r := r) (show k + 1 < F.dim by omega) (idx_lt hi hj)
      rw [Nat.add_assoc]; exact hev _ h1)
    hrt (by rw [hs.mlen]; omega)
  refine ⟨{ s1 with mem := m, onuni := uo r (k + 1), onparam := po np (uo r (k + 1)) }, ?_,
    ⟨hGI.indmem, rfl, rfl, by rw [hGI.len, hs.glen], by rw [ml, hs.mlen], ?_, ?_, ?_⟩⟩
  · have e1 : s1.onuni - r (k + 1) * r (k + 1 + 1) = uo r (k + 1) := by rw [hGI.onuni]; omega
    have e2 : s1.onparam - (po np (uo r (k + 1 + 1)) - po np (uo r (k + 1)))
        = po np (uo r (k + 1)) := by rw [hGI.onparam, ← huo]; omega
    rw [bwMid, hs1, bind_ok]
    dsimp only
    rw [e1, e2, hGI.indmem, hmem, hm', bind_ok]
  · intro k' hk' c hc
    dsimp only
    have h1 := mo_idx_lt (r := r) (show k' < k by omega) hc
    rw [m2 _ (fun c' _ => by omega)]
    exact hs.left k' (by omega) c hc
  · intro c hc
    dsimp only
    rw [show k + 1 - 1 = k from rfl, m1 c hc, if_neg (by omega)]
    have hd1 : F.dim - (k + 1) = (F.dim - (k + 1 + 1)) + 1 := by omega
    rw [hd1]
    simp only [rgt]
    rw [show F.dim - (F.dim - (k + 1 + 1)) = k + 1 + 1 by omega,
      show F.dim - (F.dim - (k + 1 + 1) + 1) = k + 1 by omega]
  · refine gradFrom_core (g0 := s.grad) (b := k + 1) (cf := fun w y =>
        lft r e (k + 1) (w % r (k + 1)) * y *
          rgt r e F.dim (F.dim - (k + 1 + 1)) (w / r (k + 1))) (by omega) ?_ hGI.done hGI.rest hs.grad
    intro i hi j hj y
    rw [Nat.add_mul_mod_self_right, Nat.mod_eq_of_lt hi,
      Nat.add_mul_div_right _ _ (by omega), Nat.div_eq_of_lt hi, Nat.zero_add]

theorem bwCore_ok (hL : Lay F r np) (hgev : ∀ p, p < po np (uo r F.dim) → gev[p]? = some (gr p))
    {evals : List K} (hev : ∀ u, u < uo r F.dim → evals[u]? = some (e u))
    {Nm Ng : Nat} (hm : mo r F.dim ≤ Nm) (hg : po np (uo r F.dim) ≤ Ng)
    (zz : Nat) (hz : zz < F.dim - 1) (s : Bw K)
    (hs : BI r np e gr F.dim Nm Ng (F.dim - zz) s) :
    ∃ s', bwCore F evals gev zz s = .ok s' ∧ BI r np e gr F.dim Nm Ng (F.dim - (zz + 1)) s' := by
  have hb1 : F.dim - zz = F.dim - 1 - zz + 1 := by omega
  have hb2 : F.dim - (zz + 1) = F.dim - 1 - zz := by omega
  rw [hb1] at hs
  rw [hb2, bwCore]
  dsimp only
  rw [rd_of_getElem? (hL.ranks _ (by omega)), bind_ok, rd_of_getElem? (hL.ranks _ (by omega)),
    bind_ok, rd_of_getElem? (hL.npc _ (by omega)), bind_ok]
  by_cases hlast : F.dim - 1 - zz < F.dim - 1
  · rw [if_pos hlast]
    exact bwMid_ok hL hgev hev hm hg _ (by omega) (by omega) s hs
  · rw [if_neg hlast]
    exact bwLast_ok hL hgev hev hm hg _ (by omega) (by omega) s hs

/-- The first core.  `rt` is what the workspace holds: the right product when there are at least
two cores. -/
theorem bwFirst_ok (hL : Lay F r np) (hgev : ∀ p, p < po np (uo r F.dim) → gev[p]? = some (gr p))
    (mem grad : List K) (hg : po np (uo r F.dim) ≤ grad.length) (rt : Nat → K)
    (hr : ∀ c, c < r 1 → mem[c]? = some (rt c)) :
    ∃ s', bwFirst F gev ⟨mem, grad, uo r 1, po np (uo r 1), 0⟩ = .ok s' ∧
      GI np gr 0 (po np (uo r 1)) 0 grad (fun w y => y * rt w) (r 1) s' ∧ s'.mem = mem := by
  have hu1 : uo r 1 = r 1 := by simp [uo, hL.first]
  have hd := hL.dim_pos
  have hpc : F.npc[0]? = some (po np (uo r 1)) := by
    have := hL.npc 0 hd
    simpa [uo, po] using this
  rw [bwFirst, rd_of_getElem? (hL.ranks 0 (by omega)), bind_ok,
    rd_of_getElem? (hL.ranks 1 (by omega)), bind_ok, rd_of_getElem? hpc, bind_ok]
  dsimp only
  rw [hL.first, Nat.one_mul, hu1, Nat.sub_self, Nat.sub_self]
  obtain ⟨s', hs', h1, h2⟩ := forN_spec
    (I := fun ii (t : Bw K) => GI np gr 0 (po np (r 1)) 0 grad
        (fun w y => y * rt w) ii t ∧ t.mem = mem)
    (n := r 1) (s := ({ mem := mem, grad := grad, onuni := 0, onparam := 0, indmem := 0 } : Bw K))
    (body := fun ii (s : Bw K) => do
      let right ← rd s.mem (s.indmem + ii)
      gradUni F gev (fun g => g * right) s)
    ⟨⟨rfl, rfl, rfl, rfl, fun w hw => absurd hw (Nat.not_lt_zero w), fun _ _ => rfl⟩, rfl⟩ (by
      intro ii hii t ⟨hGI, hmem⟩
      obtain ⟨t', ht', a1, a2⟩ := gradUni_step hL hgev (s := t) (fun g => g * rt ii) rfl
        (show 0 + ii < uo r F.dim by
          have := uo_mono r (show 1 ≤ F.dim from hd)
          rw [hu1] at this; omega)
        (po_mono np (by omega)) hg hGI
      refine ⟨t', ?_, a1, by rw [a2, hmem]⟩
      rw [hGI.indmem, hmem, Nat.zero_add, rd_of_getElem? (hr ii hii), bind_ok, ht'])
  exact ⟨s', hs', h1, h2⟩

/-- Both sweeps, for a train of at least two cores. -/
theorem backward_ok (hL : Lay F r np) (h2 : 2 ≤ F.dim)
    (hgev : ∀ p, p < po np (uo r F.dim) → gev[p]? = some (gr p))
    {evals : List K} (hev : ∀ u, u < uo r F.dim → evals[u]? = some (e u))
    {Nm Ng : Nat} (hm : mo r F.dim ≤ Nm) (hg : po np (uo r F.dim) ≤ Ng) (s : Bw K)
    (hs : BI r np e gr F.dim Nm Ng F.dim s) :
    ∃ s', backward F evals gev s = .ok s' ∧ GradFrom r np e gr F.dim 0 s'.grad ∧
      s'.grad.length = Ng ∧ s'.mem.length = Nm := by
  obtain ⟨s1, hs1, hBI⟩ := forN_spec
    (I := fun zz s => BI r np e gr F.dim Nm Ng (F.dim - zz) s)
    (n := F.dim - 1) (s := s) (body := bwCore F evals gev) hs
    (fun zz hz s hs => bwCore_ok hL hgev hev hm hg zz hz s hs)
  have hone : F.dim - (F.dim - 1) = 1 := by omega
  rw [hone] at hBI
  obtain ⟨m1, g1, u1, p1, i1⟩ := s1
  obtain ⟨b1, b2, b3, b4, b5, b6, b7, b8⟩ := hBI
  dsimp only at *
  subst b1 b2 b3
  have hu1 : uo r 1 = r 1 := by simp [uo, hL.first]
  obtain ⟨s', hs', hGI, hmem⟩ := bwFirst_ok hL hgev m1 g1 (by omega)
    (rgt r e F.dim (F.dim - 1)) (fun c hc => by
      have := b7 c hc
      rw [if_neg (by omega)] at this
      simpa [mo] using this)
  refine ⟨s', ?_, ?_, by rw [hGI.len, b4], by rw [hmem, b5]⟩
  · rw [backward, hs1, bind_ok]; exact hs'
  · refine gradFrom_core (g0 := g1) (b := 0) (cf := fun w y => y * rgt r e F.dim (F.dim - 1) w)
      (by omega) ?_ ?_ hGI.rest b8
    · intro i hi j hj y
      rw [hL.first] at hi ⊢
      obtain rfl : i = 0 := by omega
      simp [lft]
    · intro w hw l hl
      have h0 : uo r 0 = 0 := rfl
      rw [h0] at hl ⊢
      exact hGI.done w (by rw [hL.first] at hw; simpa using hw) l hl

end C3.Sl
