/-
Parameterised trains built around an existing train (C143): lib_superlearn/parameterization.c `ft_param_alloc_with_ft` and the access
to single parameters, lib_clinalg/qmarray.c and lib_funcs padding of parameters.
-/
import Verif.Ft.Param
import Verif.Sl.Model

namespace C3.Sl
open C3.Ft

variable {K : Type} [Field K]

/-- polynomials.c:1674-1700 `orth_poly_expansion_pad_params`; FOURIER is not modelled. -/
def padPoly (num nalloc : Nat) (coeff : List K) (n : Nat) : C (PFun K) :=
  if nalloc < n then do
    let c ← forN num (fun ii c => do
      let v ← rd coeff ii
      wr c ii v) (List.replicate n 0)
    .ok (.poly n n c)
  else do
    let c ← forR num n (fun ii c => wr c ii 0) coeff
    .ok (.poly n nalloc c)

/-- functions.c:459-463 `generic_function_pad_params`: the other classes print a message and leave the function as it is
(linelm.c:502-510, constelm.c:446-454, kernels.c:972-980, piecewisepoly.c:2903-2911). -/
def padFun (f : PFun K) (n : Nat) : C (PFun K) :=
  match f with
  | .poly m a c => padPoly m a c n
  | g => .ok g

/-- The state of the loops over the functions of a core: functions, `nparams_per_uni`, `max_param_uni`, `onind`. -/
structure ASt (K : Type) where
  funcs : List (PFun K)
  npu : List Nat
  mx : Nat
  onind : Nat

/-- parameterization.c:205-207: too few parameters. -/
def alPad (should nrows row col : Nat) (f : PFun K) (fs : List (PFun K)) : C (List (PFun K)) :=
  if numParams f < should then do
    let g ← padFun f should
    wr fs (col * nrows + row) g
  else .ok fs

/-- parameterization.c:196-214: one function. -/
def alFun (should nrows row col : Nat) (s : ASt K) : C (ASt K) := do
  let f ← rd s.funcs (row + col * nrows)
  if should < numParams f then .error .exit
  else do
    let fs ← alPad should nrows row col f s.funcs
    let npu ← wr s.npu s.onind should
    let v ← rd npu s.onind
    .ok ⟨fs, npu, if s.mx < v then v else s.mx, s.onind + 1⟩

/-- parameterization.c:194-216: one core, columns outside. -/
def alCore (should nrows r0 r1 : Nat) (s : ASt K) : C (ASt K) :=
  forN r1 (fun col s => forN r0 (fun row s => alFun should nrows row col s) s) s

/-- The state of the loop over the cores. -/
structure ALp (K : Type) where
  cores : List (Qma (PFun K))
  npu : List Nat
  mx : Nat
  onind : Nat

/-- parameterization.c:191-217. -/
def alStep (sh ranks : List Nat) (jj : Nat) (s : ALp K) : C (ALp K) := do
  let n ← rd sh jj
  let r0 ← rd ranks jj
  let r1 ← rd ranks (jj + 1)
  let Q ← rd s.cores jj
  let t ← alCore n Q.nrows r0 r1 ⟨Q.funcs, s.npu, s.mx, s.onind⟩
  let cs ← wr s.cores jj { Q with funcs := t.funcs }
  .ok ⟨cs, t.npu, t.mx, t.onind⟩

/-- parameterization.c:179-187: `nparams_per_core`, `nparams`, `nuni`. -/
def alCount (dim : Nat) (sh ranks : List Nat) : C (List Nat × Nat × Nat) :=
  forN dim (fun jj s => do
    let n ← rd sh jj
    let r0 ← rd ranks jj
    let r1 ← rd ranks (jj + 1)
    let npc ← wr s.1 jj (r0 * r1 * n)
    let v ← rd npc jj
    .ok (npc, s.2.1 + v, s.2.2 + r0 * r1)) (List.replicate dim 0, 0, 0)

/-- What `ft_param_alloc_with_ft` returns: the structure, `max_param_uni` and the train (whose functions were changed). -/
structure APar (K : Type) where
  F : FTP K (PFun K)
  mx : Nat
  ft : FT K (PFun K)

/-- parameterization.c:154-230 `ft_param_alloc_with_ft`; `sh` are the numbers of parameters of the options. NULL arguments end the
program. -/
def allocWith (ft : Option (FT K (PFun K))) (sh : Option (List Nat)) : C (APar K) :=
  match ft, sh with
  | none, _ => .error .exit
  | _, none => .error .exit
  | some ft, some sh => do
    let c ← alCount ft.dim sh ft.ranks
    let s ← forN ft.dim (alStep sh ft.ranks) ⟨ft.cores, List.replicate c.2.2 0, 0, 0⟩
    let p ← ftGetParams { ft with cores := s.cores } (List.replicate c.2.1 0)
    if p.1 ≠ c.2.1 then .error .exit
    else .ok ⟨⟨ft.dim, ft.ranks, s.npu, c.1, c.2.1, p.2, s.cores.map (·.funcs)⟩, s.mx, { ft with cores := s.cores }⟩

variable {U : Type}

/-- parameterization.c:271-286 `ft_param_get_param`. -/
def getParam (F : FTP K U) (i : Nat) : C K :=
  if 0 < F.nparams then
    if i < F.nparams then rd F.params i else .error .exit
  else .error .exit

/-- parameterization.c:316-334 `ft_param_get_params`: number copied, array. -/
def getParamsN (F : FTP K U) (n : Nat) (out : List K) : C (Nat × List K) :=
  if F.nparams ≤ 0 then .error .exit
  else if n ≤ F.nparams then do
    let o ← forN n (fun i o => do
      let v ← rd F.params i
      wr o i v) out
    .ok (n, o)
  else do
    let o ← forN F.nparams (fun i o => do
      let v ← rd F.params i
      wr o i v) out
    .ok (F.nparams, o)

end C3.Sl
