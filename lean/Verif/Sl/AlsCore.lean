/-
Running products and gradients with respect to one core.
-/
import Verif.Sl.AlsModel
import Verif.Sl.Props

namespace C3.Sl

variable {K U : Type} [CommRing K]
variable {F : FTP K U} {r np : Nat → Nat}

/-- Value of the univariate function `u` with linear parameterisation: basis values times
parameters. -/
def linE (np : Nat → Nat) (gev params : List K) (u : Nat) : K :=
  ∑ l ∈ Finset.range (np u), gev.getD (po np u + l) 0 * params.getD (po np u + l) 0

theorem dot_ok {gev params : List K} {n : Nat} (hg : po np n ≤ gev.length)
    (hp : po np n ≤ params.length) {u : Nat} (hu : u < n) :
    dotAt (np u) gev (po np u) params (po np u) = .ok (linE np gev params u) := by
  have h1 := po_mono np (show u + 1 ≤ n from hu)
  rw [po_succ] at h1
  exact dotAt_ok _ _ _ _ _ (by omega) (by omega)

theorem coreStart_ok (hL : Lay F r np) (core : Nat) (hc : core ≤ F.dim) :
    coreStart F core = .ok (po np (uo r core), uo r core) := by
  have := forN_traj (fun k => (po np (uo r k), uo r k)) (n := core)
    (body := fun ii (s : Nat × Nat) => do
      let n ← rd F.npc ii
      let a ← rd F.ranks ii
      let b ← rd F.ranks (ii + 1)
      .ok (s.1 + n, s.2 + a * b)) (by
      intro i hi
      have h1 := po_mono np (uo_mono r (show i ≤ i + 1 by omega))
      rw [rd_of_getElem? (hL.npc i (by omega)), bind_ok,
        rd_of_getElem? (hL.ranks i (by omega)), bind_ok,
        rd_of_getElem? (hL.ranks (i + 1) (by omega)), bind_ok, Nat.add_sub_cancel' h1, uo_succ])
  rw [coreStart]
  simpa [uo, po] using this

theorem coreStartUni_ok (hL : Lay F r np) (core : Nat) (hc : core ≤ F.dim) :
    coreStartUni F core = .ok (po np (uo r core), uo r core) := by
  have := forN_traj (fun k => (po np (uo r k), uo r k)) (n := core)
    (body := fun kk (s : Nat × Nat) => do
      let a ← rd F.ranks kk
      let b ← rd F.ranks (kk + 1)
      forN (a * b) (fun _ (s : Nat × Nat) => do
        let n ← rd F.npu s.2
        .ok (s.1 + n, s.2 + 1)) s) (by
      intro i hi
      rw [rd_of_getElem? (hL.ranks i (by omega)), bind_ok,
        rd_of_getElem? (hL.ranks (i + 1) (by omega)), bind_ok]
      have h2 := forN_traj (fun j => (po np (uo r i + j), uo r i + j)) (n := r i * r (i + 1))
        (body := fun _ (s : Nat × Nat) => do
          let n ← rd F.npu s.2
          .ok (s.1 + n, s.2 + 1)) (by
          intro j hj
          rw [rd_of_getElem? (hL.npu _ (uo_idx_lt (by omega) hj)), bind_ok]
          dsimp only
          rw [← po_succ, Nat.add_assoc])
      rw [← uo_succ] at h2
      simpa using h2)
  rw [coreStartUni]
  simpa [uo, po] using this

theorem dotCur_ok (hL : Lay F r np) {gev : List K} (hg : F.nparams ≤ gev.length)
    (hp : F.nparams ≤ F.params.length) {u : Nat} (hu : u < uo r F.dim) (b : List K) :
    dotCur F gev ⟨b, po np u, u⟩ = .ok (np u, linE np gev F.params u) := by
  rw [hL.nparams] at hg hp
  rw [dotCur, rd_of_getElem? (hL.npu u hu), bind_ok, dot_ok hg hp hu, bind_ok]

omit [CommRing K] in
theorem rdp_some {l : List K} {i : Nat} {v : K} (h : l[i]? = some v) :
    rdp (some l) i = .ok v := rd_of_getElem? h

/-- The loop that stores the values of consecutive functions. -/
theorem setCur_loop (hL : Lay F r np) {gev : List K} (hg : F.nparams ≤ gev.length)
    (hp : F.nparams ≤ F.params.length) (u0 n : Nat) (hu : u0 + n ≤ uo r F.dim) (up : List K)
    (hup : n ≤ up.length) :
    ∃ s, forN n (setCur F gev) ⟨up, po np u0, u0⟩ = .ok s ∧ s.buf.length = up.length ∧
      ∀ c, c < n → s.buf[c]? = some (linE np gev F.params (u0 + c)) := by
  obtain ⟨s, hs, h1, h2, h3, h4⟩ := forN_spec
    (I := fun ii (s : As K) => s.onparam = po np (u0 + ii) ∧ s.onuni = u0 + ii ∧
      s.buf.length = up.length ∧
      ∀ c, c < ii → s.buf[c]? = some (linE np gev F.params (u0 + c)))
    (n := n) (body := setCur F gev) (s := ⟨up, po np u0, u0⟩)
    ⟨rfl, rfl, rfl, fun c hc => absurd hc (Nat.not_lt_zero c)⟩ (by
      intro ii hii ⟨buf, op, ou⟩ ⟨h1, h2, h3, h4⟩
      dsimp only at h1 h2 h3 h4
      subst h1 h2
      refine ⟨⟨buf.set ii (linE np gev F.params (u0 + ii)), po np (u0 + ii) + np (u0 + ii),
        u0 + ii + 1⟩, by
        rw [setCur, dotCur_ok hL hg hp (by omega), bind_ok, wr_ok (a := buf) _ (show ii < buf.length by omega), bind_ok],
        (po_succ np (u0 + ii)).symm, rfl, by simp [h3], ?_⟩
      intro c hc
      dsimp only
      by_cases hci : c = ii
      · subst hci; rw [List.getElem?_set_self (by omega)]
      · rw [List.getElem?_set_ne (by omega)]; exact h4 c (by omega))
  exact ⟨s, hs, h3, h4⟩

/-- `process_sweep_left_right_lin`: from the left product before core `cur` to the one behind it. -/
theorem sweepLRLin_ok (hL : Lay F r np) {gev : List K} (hg : F.nparams ≤ gev.length)
    (hp : F.nparams ≤ F.params.length) (cur : Nat) (hc : cur < F.dim) (lr : Option (List K))
    (hlr : 0 < cur → ∃ l, lr = some l ∧
      ∀ c, c < r cur → l[c]? = some (lft r (linE np gev F.params) cur c))
    (up : List K) (hup : r (cur + 1) ≤ up.length) :
    ∃ v, sweepLRLin F cur gev lr up = .ok v ∧ v.length = up.length ∧
      ∀ c, c < r (cur + 1) → v[c]? = some (lft r (linE np gev F.params) (cur + 1) c) := by
  set e := linE np gev F.params with he
  rw [sweepLRLin, rd_of_getElem? (hL.ranks cur (by omega)), bind_ok,
    rd_of_getElem? (hL.ranks (cur + 1) (by omega)), bind_ok, coreStart_ok hL cur (by omega),
    bind_ok]
  by_cases h0 : 0 < cur
  · rw [if_pos h0]
    obtain ⟨l, rfl, hl⟩ := hlr h0
    dsimp only
    obtain ⟨s, hs, h1, h2, h3, h4⟩ := forN_spec
      (I := fun ii (s : As K) => s.onparam = po np (uo r cur + ii * r cur) ∧
        s.onuni = uo r cur + ii * r cur ∧ s.buf.length = up.length ∧
        ∀ c, c < ii → s.buf[c]? = some (lft r e (cur + 1) c))
      (n := r (cur + 1))
      (body := fun ii (s : As K) => do
        let b ← wr s.buf ii 0
        forN (r cur) (lrLinRow F gev (some l) ii) { s with buf := b })
      (s := ⟨up, po np (uo r cur), uo r cur⟩)
      ⟨by simp, by simp, rfl, fun c hc => absurd hc (Nat.not_lt_zero c)⟩ (by
        intro ii hii ⟨buf, op, ou⟩ ⟨h1, h2, h3, h4⟩
        dsimp only at h1 h2 h3 h4
        subst h1 h2
        rw [wr_ok (a := buf) _ (show ii < buf.length by omega), bind_ok]
        obtain ⟨t, ht, t1, t2, t3, t4, t5⟩ := forN_spec
          (I := fun jj (s : As K) => s.onparam = po np (uo r cur + (jj + ii * r cur)) ∧
            s.onuni = uo r cur + (jj + ii * r cur) ∧ s.buf.length = up.length ∧
            (∀ c, c < ii → s.buf[c]? = some (lft r e (cur + 1) c)) ∧
            s.buf[ii]? = some (∑ j ∈ Finset.range jj,
              lft r e cur j * e (uo r cur + (j + ii * r cur))))
          (n := r cur) (body := lrLinRow F gev (some l) ii)
          (s := ⟨buf.set ii 0, po np (uo r cur + ii * r cur), uo r cur + ii * r cur⟩)
          ⟨by simp, by simp, by simp [h3], by
            intro c hc'
            dsimp only
            rw [List.getElem?_set_ne (by omega)]; exact h4 c hc', by
            dsimp only
            rw [List.getElem?_set_self (by omega)]; simp⟩ (by
            intro jj hjj ⟨buf, op, ou⟩ ⟨g1, g2, g3, g4, g5⟩
            dsimp only at g1 g2 g3 g4 g5
            subst g1 g2
            have hu := uo_idx_lt (r := r) hc (idx_lt hjj hii)
            have hs : uo r cur + (jj + 1 + ii * r cur) = uo r cur + (jj + ii * r cur) + 1 := by
              omega
            refine ⟨⟨buf.set ii (∑ j ∈ Finset.range jj,
                lft r e cur j * e (uo r cur + (j + ii * r cur))
                  + e (uo r cur + (jj + ii * r cur)) * lft r e cur jj),
              po np (uo r cur + (jj + ii * r cur)) + np (uo r cur + (jj + ii * r cur)),
              uo r cur + (jj + ii * r cur) + 1⟩, by
              rw [lrLinRow, dotCur_ok hL hg hp hu, bind_ok, rd_of_getElem? g5, bind_ok,
                rdp_some (hl jj hjj), bind_ok, wr_ok (a := buf) _ (show ii < buf.length by omega), bind_ok],
              by rw [hs, po_succ], by rw [hs], by simp [g3], ?_, ?_⟩
            · intro c hc'
              dsimp only
              rw [List.getElem?_set_ne (by omega)]; exact g4 c hc'
            · dsimp only
              rw [List.getElem?_set_self (by omega), Finset.sum_range_succ, mul_comm (lft r e cur jj)])
        have hs : uo r cur + (r cur + ii * r cur) = uo r cur + (ii + 1) * r cur := by ring
        rw [hs] at t1 t2
        refine ⟨t, ht, t1, t2, t3, ?_⟩
        intro c hc'
        by_cases hci : c = ii
        · subst hci; rw [t5]; rfl
        · exact t4 c (by omega))
    exact ⟨s.buf, by rw [hs, bind_ok], h3, h4⟩
  · rw [if_neg h0]
    obtain rfl : cur = 0 := by omega
    have h01 : uo r 0 + r (0 + 1) ≤ uo r F.dim := by
      have := uo_mono r (show 1 ≤ F.dim from hc)
      have h2 : uo r 1 = r 1 := by simp [uo, hL.first]
      have h3 : uo r 0 = 0 := rfl
      rw [h3, Nat.zero_add]
      rw [h2] at this
      exact this
    obtain ⟨s, hs, h1, h2⟩ := setCur_loop hL hg hp (uo r 0) (r (0 + 1)) h01 up hup
    refine ⟨s.buf, by dsimp only; rw [hs, bind_ok], h1, ?_⟩
    intro c hc'
    rw [h2 c hc']
    congr 1
    simp [lft, hL.first, uo, he]

/-- `process_sweep_right_left_lin`: from the right product behind core `cur` to the one that
includes it. -/
theorem sweepRLLin_ok (hL : Lay F r np) {gev : List K} (hg : F.nparams ≤ gev.length)
    (hp : F.nparams ≤ F.params.length) (cur : Nat) (hc : cur < F.dim) (rl : Option (List K))
    (hrl : cur < F.dim - 1 → ∃ l, rl = some l ∧
      ∀ c, c < r (cur + 1) →
        l[c]? = some (rgt r (linE np gev F.params) F.dim (F.dim - (cur + 1)) c))
    (up : List K) (hup : r cur ≤ up.length) :
    ∃ v, sweepRLLin F cur gev rl up = .ok v ∧ v.length = up.length ∧
      ∀ c, c < r cur → v[c]? = some (rgt r (linE np gev F.params) F.dim (F.dim - cur) c) := by
  set e := linE np gev F.params with he
  rw [sweepRLLin, rd_of_getElem? (hL.ranks cur (by omega)), bind_ok,
    rd_of_getElem? (hL.ranks (cur + 1) (by omega)), bind_ok, coreStart_ok hL cur (by omega),
    bind_ok]
  have hn : F.dim - cur = (F.dim - (cur + 1)) + 1 := by omega
  have hrg : ∀ c, rgt r e F.dim (F.dim - cur) c = ∑ j ∈ Finset.range (r (cur + 1)),
      e (uo r cur + (c + j * r cur)) * rgt r e F.dim (F.dim - (cur + 1)) j := by
    intro c
    rw [hn]
    simp only [rgt]
    rw [show F.dim - (F.dim - (cur + 1)) = cur + 1 by omega,
      show F.dim - (F.dim - (cur + 1) + 1) = cur by omega]
  by_cases h0 : cur < F.dim - 1
  · rw [if_pos h0]
    obtain ⟨l, rfl, hl⟩ := hrl h0
    have hz : forN (r cur) (fun jj b => wr b jj 0) up
        = .ok (up.take 0 ++ (List.range (r cur)).map (fun _ => (0 : K)) ++ up.drop (0 + r cur)) :=
      forN_fill (off := 0) (fun _ => 0) (by omega) (fun i _ b _ => by rw [Nat.zero_add])
    rw [hz, bind_ok]
    set b0 := up.take 0 ++ (List.range (r cur)).map (fun _ => (0 : K)) ++ up.drop (0 + r cur)
      with hb0
    have hb0l : b0.length = up.length := by simp [hb0]; omega
    have hb0z : ∀ c, c < r cur → b0[c]? = some 0 := by
      intro c hc'
      rw [hb0]
      simp [List.getElem?_append_left, hc']
    dsimp only
    obtain ⟨s, hs, h1, h2, h3, h4⟩ := forN_spec
      (I := fun ii (s : As K) => s.onparam = po np (uo r cur + ii * r cur) ∧
        s.onuni = uo r cur + ii * r cur ∧ s.buf.length = up.length ∧
        ∀ c, c < r cur → s.buf[c]? = some (∑ j ∈ Finset.range ii,
          e (uo r cur + (c + j * r cur)) * rgt r e F.dim (F.dim - (cur + 1)) j))
      (n := r (cur + 1))
      (body := fun ii (s : As K) => forN (r cur) (rlLinRow F gev (some l) ii) s)
      (s := ⟨b0, po np (uo r cur), uo r cur⟩)
      ⟨by simp, by simp, hb0l, fun c hc => by simpa using hb0z c hc⟩ (by
        intro ii hii ⟨buf, op, ou⟩ ⟨h1, h2, h3, h4⟩
        dsimp only at h1 h2 h3 h4
        subst h1 h2
        obtain ⟨t, ht, t1, t2, t3, t4, t5⟩ := forN_spec
          (I := fun jj (s : As K) => s.onparam = po np (uo r cur + (jj + ii * r cur)) ∧
            s.onuni = uo r cur + (jj + ii * r cur) ∧ s.buf.length = up.length ∧
            (∀ c, c < jj → s.buf[c]? = some (∑ j ∈ Finset.range (ii + 1),
              e (uo r cur + (c + j * r cur)) * rgt r e F.dim (F.dim - (cur + 1)) j)) ∧
            (∀ c, jj ≤ c → c < r cur → s.buf[c]? = some (∑ j ∈ Finset.range ii,
              e (uo r cur + (c + j * r cur)) * rgt r e F.dim (F.dim - (cur + 1)) j)))
          (n := r cur) (body := rlLinRow F gev (some l) ii)
          (s := ⟨buf, po np (uo r cur + ii * r cur), uo r cur + ii * r cur⟩)
          ⟨by simp, by simp, h3, fun c hc => absurd hc (Nat.not_lt_zero c),
            fun c _ hc => h4 c hc⟩ (by
            intro jj hjj ⟨buf, op, ou⟩ ⟨g1, g2, g3, g4, g5⟩
            dsimp only at g1 g2 g3 g4 g5
            subst g1 g2
            have hu := uo_idx_lt (r := r) hc (idx_lt hjj hii)
            have hs : uo r cur + (jj + 1 + ii * r cur) = uo r cur + (jj + ii * r cur) + 1 := by
              omega
            refine ⟨⟨buf.set jj (∑ j ∈ Finset.range ii,
                e (uo r cur + (jj + j * r cur)) * rgt r e F.dim (F.dim - (cur + 1)) j
                  + e (uo r cur + (jj + ii * r cur)) * rgt r e F.dim (F.dim - (cur + 1)) ii),
              po np (uo r cur + (jj + ii * r cur)) + np (uo r cur + (jj + ii * r cur)),
              uo r cur + (jj + ii * r cur) + 1⟩, by
              rw [rlLinRow, dotCur_ok hL hg hp hu, bind_ok,
                rd_of_getElem? (g5 jj (Nat.le_refl jj) hjj), bind_ok,
                rdp_some (hl ii hii), bind_ok, wr_ok (a := buf) _ (show jj < buf.length by omega), bind_ok],
              by rw [hs, po_succ], by rw [hs], by simp [g3], ?_, ?_⟩
            · intro c hc'
              dsimp only
              by_cases hcj : c = jj
              · subst hcj; rw [List.getElem?_set_self (by omega), Finset.sum_range_succ]
              · rw [List.getElem?_set_ne (by omega)]; exact g4 c (by omega)
            · intro c hc1 hc2
              dsimp only
              rw [List.getElem?_set_ne (by omega)]; exact g5 c (by omega) hc2)
        have hs : uo r cur + (r cur + ii * r cur) = uo r cur + (ii + 1) * r cur := by ring
        rw [hs] at t1 t2
        exact ⟨t, ht, t1, t2, t3, t4⟩)
    refine ⟨s.buf, by rw [hs, bind_ok], h3, ?_⟩
    intro c hc'
    rw [h4 c hc', hrg]
  · rw [if_neg h0]
    have hcd : cur + 1 = F.dim := by omega
    have h01 : uo r cur + r cur ≤ uo r F.dim := by
      rw [← hcd, uo_succ, hcd, hL.last, Nat.mul_one]
    obtain ⟨s, hs, h1, h2⟩ := setCur_loop hL hg hp (uo r cur) (r cur) h01 up hup
    refine ⟨s.buf, by dsimp only; rw [hs, bind_ok], h1, ?_⟩
    intro c hc'
    rw [h2 c hc', hrg, hcd, hL.last, Nat.sub_self]
    simp [rgt, he]

/-! ### Gradient with respect to one core -/

/-- State of the loops of `ft_param_core_gradeval_lin`: `v` functions done with multipliers `m`. -/
structure CGI (np : Nat → Nat) (e : Nat → K) (gev : List K) (b : Nat) (N : Nat) (m : Nat → K)
    (v : Nat) (s : Ac K) : Prop where
  out : s.out = ∑ w ∈ Finset.range v, e (b + w) * m w
  onparam : s.onparam = po np (b + v)
  onuni : s.onuni = b + v
  ongrad : s.ongrad = po np (b + v) - po np b
  len : s.grad.length = N
  grad : ∀ w, w < v → ∀ l, l < np (b + w) →
    s.grad[po np (b + w) - po np b + l]? = some (m w * gev.getD (po np (b + w) + l) 0)

theorem cgUni_ok (hL : Lay F r np) {gev : List K} (hg : F.nparams ≤ gev.length)
    (hp : F.nparams ≤ F.params.length) {b N v : Nat} {m : Nat → K} (hv : b + v < uo r F.dim)
    (hN : po np (b + v + 1) - po np b ≤ N) (s : Ac K)
    (hs : CGI np (linE np gev F.params) gev b N m v s) (mv : K) (hmv : mv = m v) :
    ∃ s', cgUni F gev mv s = .ok s' ∧ CGI np (linE np gev F.params) gev b N m (v + 1) s' := by
  subst hmv
  have hg' := hg
  have hp' := hp
  rw [hL.nparams] at hg' hp'
  have h1 := po_mono np (show b + v + 1 ≤ uo r F.dim from hv)
  have h2 := po_succ np (b + v)
  have h3 := po_mono np (show b ≤ b + v by omega)
  obtain ⟨out, grad, op, ou, og⟩ := s
  obtain ⟨a1, a2, a3, a4, a5, a6⟩ := hs
  dsimp only at a1 a2 a3 a4 a5 a6
  subst a1 a2 a3 a4
  obtain ⟨t, ht, t1, t2, t3, t4, t5, t6, t7⟩ := forN_spec
    (I := fun n (t : Ac K) => t.out = ∑ w ∈ Finset.range v, linE np gev F.params (b + w) * m w
        + linE np gev F.params (b + v) * m v ∧ t.onparam = po np (b + v) + n ∧ t.onuni = b + v ∧
      t.ongrad = po np (b + v) - po np b + n ∧ t.grad.length = N ∧
      (∀ w, w < v → ∀ l, l < np (b + w) →
        t.grad[po np (b + w) - po np b + l]? = some (m w * gev.getD (po np (b + w) + l) 0)) ∧
      (∀ l, l < n → t.grad[po np (b + v) - po np b + l]?
        = some (m v * gev.getD (po np (b + v) + l) 0)))
    (n := np (b + v))
    (s := ⟨∑ w ∈ Finset.range v, linE np gev F.params (b + w) * m w
        + linE np gev F.params (b + v) * m v, grad, po np (b + v), b + v,
        po np (b + v) - po np b⟩)
    (body := fun _ (s : Ac K) => do
      let g ← rd gev s.onparam
      let grad ← wr s.grad s.ongrad (m v * g)
      .ok { s with grad := grad, onparam := s.onparam + 1, ongrad := s.ongrad + 1 })
    ⟨rfl, rfl, rfl, rfl, a5, a6, fun l hl => absurd hl (Nat.not_lt_zero l)⟩ (by
      intro n hn ⟨out, grad, op, ou, og⟩ ⟨b1, b2, b3, b4, b5, b6, b7⟩
      dsimp only at b1 b2 b3 b4 b5 b6 b7
      subst b1 b2 b3 b4
      refine ⟨⟨_, grad.set (po np (b + v) - po np b + n)
          (m v * gev.getD (po np (b + v) + n) 0), po np (b + v) + n + 1, b + v,
          po np (b + v) - po np b + n + 1⟩, by
        dsimp only
        rw [rd_getD 0 (by omega), bind_ok, wr_ok _ (by omega), bind_ok], rfl, rfl, rfl, rfl,
        by simp [b5], ?_, ?_⟩
      · intro w hw l hl
        dsimp only
        have h4 := po_mono np (show b + w + 1 ≤ b + v by omega)
        have h5 := po_mono np (show b ≤ b + w by omega)
        rw [po_succ] at h4
        rw [List.getElem?_set_ne (by omega)]; exact b6 w hw l hl
      · intro l hl
        dsimp only
        by_cases hln : l = n
        · subst hln; rw [List.getElem?_set_self (by omega)]
        · rw [List.getElem?_set_ne (by omega)]; exact b7 l (by omega))
  refine ⟨{ t with onuni := t.onuni + 1 }, ?_, ?_, ?_, ?_, ?_, t5, ?_⟩
  · rw [cgUni, rd_of_getElem? (hL.npu _ hv), bind_ok, dot_ok hg' hp' hv, bind_ok]
    dsimp only
    rw [ht, bind_ok]
  · rw [t1, Finset.sum_range_succ]
  · dsimp only; rw [t2]; exact h2.symm
  · dsimp only; omega
  · dsimp only; rw [t4, show b + (v + 1) = b + v + 1 by omega, h2]; omega
  · intro w hw l hl
    by_cases hwv : w = v
    · subst hwv; exact t7 l hl
    · exact t6 w (by omega) l hl

/-- `sum_w` over a core as a double sum. -/
theorem sum_core (r1 r2 : Nat) (f : Nat → Nat → K) :
    ∑ w ∈ Finset.range (r1 * r2), f (w % r1) (w / r1)
      = ∑ i ∈ Finset.range r1, ∑ j ∈ Finset.range r2, f i j := by
  induction r2 with
  | zero => simp
  | succ n ih =>
    rw [Nat.mul_succ, Finset.sum_range_add, ih]
    simp only [Finset.sum_range_succ, Finset.sum_add_distrib]
    congr 1
    refine Finset.sum_congr rfl (fun i hi => ?_)
    have hi' := Finset.mem_range.1 hi
    rw [Nat.mul_add_mod, Nat.mod_eq_of_lt hi', Nat.mul_add_div (by omega),
      Nat.div_eq_of_lt hi', Nat.add_zero]

/-- The running products of one data point are the left and right products around core `core` for
univariate values `e`. -/
def Around (r : Nat → Nat) (e : Nat → K) (d core : Nat) (lr rl : Option (List K)) : Prop :=
  (0 < core → ∃ l, lr = some l ∧ ∀ c, c < r core → l[c]? = some (lft r e core c)) ∧
  (core < d - 1 → ∃ l, rl = some l ∧
    ∀ c, c < r (core + 1) → l[c]? = some (rgt r e d (d - (core + 1)) c))

/-- Multiplier of the function at position `w` of a core. -/
def mult (r : Nat → Nat) (e : Nat → K) (d core w : Nat) : K :=
  lft r e core (w % r core) * rgt r e d (d - (core + 1)) (w / r core)

theorem value_mult (r : Nat → Nat) (e : Nat → K) (d core : Nat) (hd : r d = 1) (hc : core < d) :
    ∑ w ∈ Finset.range (r core * r (core + 1)), e (uo r core + w) * mult r e d core w
      = trainVal r e d := by
  rw [value_core r e d core hd hc, ← sum_core (r core) (r (core + 1)) (fun i j =>
    lft r e core i * e (uo r core + (i + j * r core)) * rgt r e d (d - (core + 1)) j)]
  refine Finset.sum_congr rfl (fun w _ => ?_)
  rw [mult, Nat.mod_add_div']
  ring

/-- `ft_param_core_gradeval_lin` with right running products, at least two dimensions: the return
value is the value of the train and the gradient entries are basis value times left times right
product. -/
theorem coreGradLin_ok (hL : Lay F r np) (h2 : 2 ≤ F.dim) {gev : List K}
    (hg : F.nparams ≤ gev.length) (hp : F.nparams ≤ F.params.length) (core : Nat)
    (hc : core < F.dim) (lr rl : Option (List K))
    (har : Around r (linE np gev F.params) F.dim core lr rl) (grad : List K)
    (hgr : po np (uo r (core + 1)) - po np (uo r core) ≤ grad.length) :
    ∃ g, coreGradLin F core grad lr rl gev = .ok (trainVal r (linE np gev F.params) F.dim, g) ∧
      g.length = grad.length ∧
      ∀ w, w < r core * r (core + 1) → ∀ l, l < np (uo r core + w) →
        g[po np (uo r core + w) - po np (uo r core) + l]?
          = some (mult r (linE np gev F.params) F.dim core w
              * gev.getD (po np (uo r core + w) + l) 0) := by
  set e := linE np gev F.params with he
  have h0 : CGI np e gev (uo r core) grad.length (mult r e F.dim core) 0
      ⟨0, grad, po np (uo r core), uo r core, 0⟩ :=
    ⟨by simp, by simp, by simp, by simp, rfl, fun w hw => absurd hw (Nat.not_lt_zero w)⟩
  have hstep : ∀ w, w < r core * r (core + 1) → ∀ s,
      CGI np e gev (uo r core) grad.length (mult r e F.dim core) w s → ∀ mv,
      mv = mult r e F.dim core w →
      ∃ s', cgUni F gev mv s = .ok s' ∧
        CGI np e gev (uo r core) grad.length (mult r e F.dim core) (w + 1) s' := by
    intro w hw s hs mv hmv
    refine cgUni_ok hL hg hp (uo_idx_lt hc hw) ?_ s hs mv hmv
    have := po_mono np (show uo r core + w + 1 ≤ uo r (core + 1) by rw [uo_succ]; omega)
    omega
  have hfin : ∀ s, CGI np e gev (uo r core) grad.length (mult r e F.dim core)
      (r core * r (core + 1)) s → s.out = trainVal r e F.dim := by
    intro s hs
    rw [hs.out]
    exact value_mult r e F.dim core hL.last hc
  rw [coreGradLin, coreStart_ok hL core (by omega), bind_ok]
  dsimp only
  rw [rd_of_getElem? (hL.ranks core (by omega)), bind_ok,
    rd_of_getElem? (hL.ranks (core + 1) (by omega)), bind_ok]
  by_cases hmid : 0 < core ∧ core < F.dim - 1
  · rw [if_pos hmid]
    obtain ⟨l, rfl, hl⟩ := har.1 hmid.1
    obtain ⟨l', rfl, hl'⟩ := har.2 hmid.2
    obtain ⟨s, hs, hI⟩ := forN_spec
      (I := fun col s => CGI np e gev (uo r core) grad.length (mult r e F.dim core)
        (col * r core) s) (n := r (core + 1))
      (body := fun col s => forN (r core) (fun row (s : Ac K) => do
        let a ← rdp (some l) row
        let b ← rdp (some l') col
        cgUni F gev (a * b) s) s)
      (s := ⟨0, grad, po np (uo r core), uo r core, 0⟩) (by simpa using h0) (by
        intro col hcol s hs
        obtain ⟨t, ht, hI⟩ := forN_spec
          (I := fun row s => CGI np e gev (uo r core) grad.length (mult r e F.dim core)
            (row + col * r core) s) (n := r core)
          (body := fun row (s : Ac K) => do
            let a ← rdp (some l) row
            let b ← rdp (some l') col
            cgUni F gev (a * b) s) (s := s) (by simpa using hs) (by
            intro row hrow s hs
            rw [rdp_some (hl row hrow), bind_ok, rdp_some (hl' col hcol), bind_ok,
              show row + 1 + col * r core = row + col * r core + 1 by omega]
            refine hstep _ (idx_lt hrow hcol) s hs _ ?_
            rw [mult, Nat.add_mul_mod_self_right, Nat.mod_eq_of_lt hrow,
              Nat.add_mul_div_right _ _ (by omega), Nat.div_eq_of_lt hrow, Nat.zero_add])
        refine ⟨t, ht, ?_⟩
        rw [show (col + 1) * r core = r core + col * r core by ring]; exact hI)
    rw [Nat.mul_comm] at hI
    exact ⟨s.grad, by rw [hs, bind_ok, hfin s hI], hI.len, hI.grad⟩
  · rw [if_neg hmid]
    by_cases hlast : core = F.dim - 1
    · rw [if_pos hlast]
      obtain ⟨l, rfl, hl⟩ := har.1 (by omega)
      have hr2 : r (core + 1) = 1 := by rw [show core + 1 = F.dim by omega]; exact hL.last
      rw [hr2, Nat.mul_one] at hstep hfin
      obtain ⟨s, hs, hI⟩ := forN_spec
        (I := fun row s => CGI np e gev (uo r core) grad.length (mult r e F.dim core) row s)
        (n := r core)
        (body := fun row (s : Ac K) => do
          let a ← rdp (some l) row
          cgUni F gev a s)
        (s := ⟨0, grad, po np (uo r core), uo r core, 0⟩) h0 (by
          intro row hrow s hs
          rw [rdp_some (hl row hrow), bind_ok]
          refine hstep row hrow s hs _ ?_
          rw [mult, Nat.mod_eq_of_lt hrow, Nat.div_eq_of_lt hrow,
            show F.dim - (core + 1) = 0 by omega]
          simp [rgt])
      refine ⟨s.grad, by rw [hs, bind_ok, hfin s hI], hI.len, ?_⟩
      rw [hr2, Nat.mul_one]
      exact hI.grad
    · rw [if_neg hlast]
      obtain ⟨l', rfl, hl'⟩ := har.2 (by omega)
      obtain rfl : core = 0 := by omega
      rw [hL.first, Nat.one_mul] at hstep hfin
      obtain ⟨s, hs, hI⟩ := forN_spec
        (I := fun col s => CGI np e gev (uo r 0) grad.length (mult r e F.dim 0) col s)
        (n := r (0 + 1))
        (body := fun col (s : Ac K) => do
          let b ← rdp (some l') col
          cgUni F gev b s)
        (s := ⟨0, grad, po np (uo r 0), uo r 0, 0⟩) h0 (by
          intro col hcol s hs
          rw [rdp_some (hl' col hcol), bind_ok]
          refine hstep col hcol s hs _ ?_
          rw [mult, hL.first, Nat.mod_one, Nat.div_one]
          simp [lft])
      refine ⟨s.grad, by rw [hs, bind_ok, hfin s hI], hI.len, ?_⟩
      rw [hL.first, Nat.one_mul]
      exact hI.grad

theorem ceUni_ok (hL : Lay F r np) {gev : List K} (hg : F.nparams ≤ gev.length)
    (hp : F.nparams ≤ F.params.length) {u : Nat} (hu : u < uo r F.dim) (m : K) (out : K)
    (grad : List K) (og : Nat) :
    ceUni F gev m ⟨out, grad, po np u, u, og⟩
      = .ok ⟨out + linE np gev F.params u * m, grad, po np (u + 1), u + 1, og⟩ := by
  rw [hL.nparams] at hg hp
  rw [ceUni, rd_of_getElem? (hL.npu u hu), bind_ok, dot_ok hg hp hu, bind_ok, po_succ]

/-- `ft_param_core_eval_lin` with right running products, at least two dimensions: the value of the
train. -/
theorem coreEvalLin_ok (hL : Lay F r np) (h2 : 2 ≤ F.dim) {gev : List K}
    (hg : F.nparams ≤ gev.length) (hp : F.nparams ≤ F.params.length) (core : Nat)
    (hc : core < F.dim) (lr rl : Option (List K))
    (har : Around r (linE np gev F.params) F.dim core lr rl) :
    coreEvalLin F core lr rl gev = .ok (trainVal r (linE np gev F.params) F.dim) := by
  set e := linE np gev F.params with he
  have hstep : ∀ w, w < r core * r (core + 1) → ∀ mv, mv = mult r e F.dim core w →
      ceUni F gev mv ⟨∑ w ∈ Finset.range w, e (uo r core + w) * mult r e F.dim core w, [],
          po np (uo r core + w), uo r core + w, 0⟩
        = .ok ⟨∑ w ∈ Finset.range (w + 1), e (uo r core + w) * mult r e F.dim core w, [],
          po np (uo r core + (w + 1)), uo r core + (w + 1), 0⟩ := by
    intro w hw mv hmv
    rw [ceUni_ok hL hg hp (uo_idx_lt hc hw), Finset.sum_range_succ, hmv, Nat.add_assoc]
  have hfin := value_mult r e F.dim core hL.last hc
  rw [coreEvalLin, coreStartUni_ok hL core (by omega), bind_ok]
  dsimp only
  rw [rd_of_getElem? (hL.ranks core (by omega)), bind_ok,
    rd_of_getElem? (hL.ranks (core + 1) (by omega)), bind_ok]
  by_cases hmid : 0 < core ∧ core < F.dim - 1
  · rw [if_pos hmid]
    obtain ⟨l, rfl, hl⟩ := har.1 hmid.1
    obtain ⟨l', rfl, hl'⟩ := har.2 hmid.2
    have := forN_traj (fun col : Nat => (⟨∑ w ∈ Finset.range (col * r core),
        e (uo r core + w) * mult r e F.dim core w, [], po np (uo r core + col * r core),
        uo r core + col * r core, 0⟩ : Ac K)) (n := r (core + 1))
      (body := fun col s => forN (r core) (fun row (s : Ac K) => do
        let a ← rdp (some l) row
        let b ← rdp (some l') col
        ceUni F gev (a * b) s) s) (by
        intro col hcol
        have h1 := forN_traj (fun row : Nat => (⟨∑ w ∈ Finset.range (row + col * r core),
            e (uo r core + w) * mult r e F.dim core w, [],
            po np (uo r core + (row + col * r core)), uo r core + (row + col * r core), 0⟩ : Ac K))
          (n := r core)
          (body := fun row (s : Ac K) => do
            let a ← rdp (some l) row
            let b ← rdp (some l') col
            ceUni F gev (a * b) s) (by
            intro row hrow
            rw [rdp_some (hl row hrow), bind_ok, rdp_some (hl' col hcol), bind_ok,
              show row + 1 + col * r core = row + col * r core + 1 by omega]
            refine hstep _ (idx_lt hrow hcol) _ ?_
            rw [mult, Nat.add_mul_mod_self_right, Nat.mod_eq_of_lt hrow,
              Nat.add_mul_div_right _ _ (by omega), Nat.div_eq_of_lt hrow, Nat.zero_add])
        rw [show (col + 1) * r core = r core + col * r core by ring]
        simpa using h1)
    simp only [Nat.zero_mul, Finset.range_zero, Finset.sum_empty, Nat.add_zero] at this
    rw [this, bind_ok, Nat.mul_comm, hfin]
  · rw [if_neg hmid]
    by_cases hlast : core = F.dim - 1
    · rw [if_pos hlast]
      obtain ⟨l, rfl, hl⟩ := har.1 (by omega)
      have hr2 : r (core + 1) = 1 := by rw [show core + 1 = F.dim by omega]; exact hL.last
      rw [hr2, Nat.mul_one] at hstep hfin
      have := forN_traj (fun row : Nat => (⟨∑ w ∈ Finset.range row,
          e (uo r core + w) * mult r e F.dim core w, [], po np (uo r core + row),
          uo r core + row, 0⟩ : Ac K)) (n := r core)
        (body := fun row (s : Ac K) => do
          let a ← rdp (some l) row
          ceUni F gev a s) (by
          intro row hrow
          rw [rdp_some (hl row hrow), bind_ok]
          refine hstep row hrow _ ?_
          rw [mult, Nat.mod_eq_of_lt hrow, Nat.div_eq_of_lt hrow,
            show F.dim - (core + 1) = 0 by omega]
          simp [rgt])
      simp only [Finset.range_zero, Finset.sum_empty, Nat.add_zero] at this
      rw [this, bind_ok, hfin]
    · rw [if_neg hlast]
      obtain ⟨l', rfl, hl'⟩ := har.2 (by omega)
      obtain rfl : core = 0 := by omega
      rw [hL.first, Nat.one_mul] at hstep hfin
      have := forN_traj (fun col : Nat => (⟨∑ w ∈ Finset.range col,
          e (uo r 0 + w) * mult r e F.dim 0 w, [], po np (uo r 0 + col),
          uo r 0 + col, 0⟩ : Ac K)) (n := r (0 + 1))
        (body := fun col (s : Ac K) => do
          let b ← rdp (some l') col
          ceUni F gev b s) (by
          intro col hcol
          rw [rdp_some (hl' col hcol), bind_ok]
          refine hstep col hcol _ ?_
          rw [mult, hL.first, Nat.mod_one, Nat.div_one]
          simp [lft])
      simp only [Finset.range_zero, Finset.sum_empty, Nat.add_zero] at this
      rw [this, bind_ok, hfin]

end C3.Sl
