/-
Model of the evaluation routines that reuse left and right products: gradient, coordinate perturbations, fibers
(lib_clinalg/ft.c). `e` evaluates a univariate function, `d` its derivative (`generic_function_deriv_eval`).
-/
import Verif.Ft.Model

namespace C3.Ft
variable {K U X : Type} [Field K]

/-- `size_t` subtraction; wrapping around is reported. -/
def subU (a b : Nat) : C Nat := if b ≤ a then .ok (a - b) else .error .ub

/-! ### Gradient, ft.c:4247-4325 -/

/-- Buffers of `function_train_gradient_eval`: `evals_lr`, `grads_lr`, `evals`, `grads` and the two counters. -/
structure GSt (K : Type) where
  lr : List K
  gr : List K
  ev : List K
  gd : List K
  onuni : Nat
  indmem : Nat

/-- ft.c:4275-4279. -/
def gradFirst (e : Ev K U X) (d : U → X → K) (Q : Qma U) (x : X) (col : Nat) (s : GSt K) : C (GSt K) := do
  let f ← rd Q.funcs col
  let lr ← wr s.lr col (e.ev f x)
  let gr ← wr s.gr col (d f x)
  pure { s with lr := lr, gr := gr, onuni := s.onuni + 1 }

/-- ft.c:4286-4290; `r` is `ranks[kk]`. -/
def gradRow (e : Ev K U X) (d : U → X → K) (Q : Qma U) (x : X) (r col row : Nat) (s : GSt K) : C (GSt K) := do
  let f ← rd Q.funcs (row + col * r)
  let ev ← wr s.ev s.onuni (e.ev f x)
  let gd ← wr s.gd s.onuni (d f x)
  let a ← rd ev s.onuni
  let b ← rd gd s.onuni
  let acc ← rd s.lr (s.indmem + r + col)
  let l ← rd s.lr (s.indmem + row)
  let lr ← wr s.lr (s.indmem + r + col) (acc + l * a)
  let acc' ← rd s.gr (s.indmem + r + col)
  let l' ← rd lr (s.indmem + row)
  let gr ← wr s.gr (s.indmem + r + col) (acc' + l' * b)
  pure { s with lr := lr, gr := gr, ev := ev, gd := gd, onuni := s.onuni + 1 }

/-- ft.c:4283-4292. -/
def gradCol (e : Ev K U X) (d : U → X → K) (Q : Qma U) (x : X) (r col : Nat) (s : GSt K) : C (GSt K) := do
  let lr ← wr s.lr (s.indmem + r + col) 0
  let gr ← wr s.gr (s.indmem + r + col) 0
  forN r (gradRow e d Q x r col) { s with lr := lr, gr := gr }

/-- ft.c:4281-4295, one core. -/
def gradCore (e : Ev K U X) (d : U → X → K) (ft : FT K U) (x : List X) (kk : Nat) (s : GSt K) : C (GSt K) := do
  let Q ← rd ft.cores kk
  let xk ← rd x kk
  let r ← rd ft.ranks kk
  let r1 ← rd ft.ranks (kk + 1)
  let s ← forN r1 (gradCol e d Q xk r) s
  pure { s with indmem := s.indmem + r }

/-- State of the backward sweep. -/
structure GBk (K : Type) where
  out : List K
  rl : List K
  indEval : Nat
  indRl : Nat
  indmem : Nat

/-- ft.c:4303-4322, one pass (`zz`). -/
def gradBack (ft : FT K U) (gr ev : List K) (zz : Nat) (s : GBk K) : C (GBk K) := do
  let b ← subU (ft.dim - 1) zz
  let r1 ← rd ft.ranks b
  let r2 ← rd ft.ranks (b + 1)
  let im ← subU s.indmem r2
  let v ← ddot r2 (gr.drop im) 1 (s.rl.drop s.indRl) 1
  let out ← wr s.out b v
  let ie ← subU s.indEval (r1 * r2)
  let y ← dgemvN r1 r2 (ev.drop ie) r1 (s.rl.drop s.indRl) (s.rl.drop (s.indRl + r2))
  pure ⟨out, s.rl.take (s.indRl + r2) ++ y, ie, s.indRl + r2, im⟩

/-- ft.c:4247-4332 `function_train_gradient_eval`; `out` is the caller's array of length `dim`. -/
def gradEval (e : Ev K U X) (d : U → X → K) (ft : FT K U) (x : List X) (out : List K) : C (List K) := do
  let mr ← maxrank ft
  let r1 ← rd ft.ranks 1
  let Q ← rd ft.cores 0
  let x0 ← rd x 0
  let s ← forN r1 (gradFirst e d Q x0) ⟨List.replicate (mr * ft.dim + mr) 0, List.replicate (mr * ft.dim + mr) 0,
    List.replicate (mr * mr * ft.dim) 0, List.replicate (mr * mr * ft.dim) 0, 0, 0⟩
  let s ← forR 1 ft.dim (gradCore e d ft x) s
  let g ← rd s.gr s.indmem
  let out ← wr out (ft.dim - 1) g
  let rl1 ← rd ft.ranks (ft.dim - 1)
  let ie ← subU s.onuni rl1
  let rl ← forN rl1 (fun i rl => do
    let v ← rd s.ev (ie + i)
    wr rl i v) (List.replicate (mr * ft.dim + mr) 0)
  let b ← forR 1 (ft.dim - 1) (gradBack ft s.gr s.ev) ⟨out, rl, ie, 0, s.indmem⟩
  let v ← ddot r1 s.gr 1 (b.rl.drop b.indRl) 1
  wr b.out 0 v

/-! ### Perturbations, ft.c:1240-1374 -/

/-- `memmove(dst, src, n * sizeof(double))` between different arrays. -/
def movK (n : Nat) (src dst : List K) : C (List K) :=
  forN n (fun i dst => do
    let v ← rd src i
    wr dst i v) dst

/-- The per-dimension buffers `evaldd1` (cores at the centre), `evaldd3` (right products), `evaldd4` (left products). -/
structure Dd (K : Type) where
  c : List (List K)
  b : List (List K)
  f : List (List K)

/-- ft.c:1285-1299, one core of the forward sweep. -/
def pertFwd (e : Ev K U X) (ft : FT K U) (x : List X) (ii : Nat) (s : Dd K) : C (Dd K) := do
  let Q ← rd ft.cores ii
  let xi ← rd x ii
  if ii = 0 then do
    let f0 ← rd s.f ii
    let f0 ← evalArr e (Q.nrows * Q.ncols) Q.funcs xi f0
    let r1 ← rd ft.ranks 1
    let c0 ← rd s.c ii
    let c0 ← movK r1 f0 c0
    let f ← wr s.f ii f0
    let c ← wr s.c ii c0
    pure { s with f := f, c := c }
  else do
    let ci ← rd s.c ii
    let ci ← evalArr e (Q.nrows * Q.ncols) Q.funcs xi ci
    let ra ← rd ft.ranks ii
    let rb ← rd ft.ranks (ii + 1)
    let fp ← rd s.f (ii - 1)
    let fi ← rd s.f ii
    let fi ← dgemvT ra rb ci ra fp fi
    let f ← wr s.f ii fi
    let c ← wr s.c ii ci
    pure { s with f := f, c := c }

/-- ft.c:1313-1327, one core of the backward sweep; `t` counts from the last core. -/
def pertBwd (e : Ev K U X) (ft : FT K U) (x : List X) (t : Nat) (s : Dd K) : C (Dd K) := do
  let ii := ft.dim - 1 - t
  if t = 0 then do
    let Q ← rd ft.cores ii
    let xi ← rd x ii
    let bi ← rd s.b ii
    let bi ← evalArr e (Q.nrows * Q.ncols) Q.funcs xi bi
    let b ← wr s.b ii bi
    pure { s with b := b }
  else do
    let ra ← rd ft.ranks ii
    let rb ← rd ft.ranks (ii + 1)
    let ci ← rd s.c ii
    let bn ← rd s.b (ii + 1)
    let bi ← rd s.b ii
    let bi ← dgemvN ra rb ci ra bn bi
    let b ← wr s.b ii bi
    pure { s with b := b }

/-- ft.c:1337-1363: one perturbed value for coordinate `ii` from the evaluated core `t`, returning also `t3`. -/
def pertVal (ft : FT K U) (s : Dd K) (ii : Nat) (t t3 : List K) : C (K × List K) :=
  if ii = 0 then do
    let r1 ← rd ft.ranks 1
    let b1 ← rd s.b 1
    let v ← ddot r1 t 1 b1 1
    pure (v, t3)
  else if ii = ft.dim - 1 then do
    let r ← rd ft.ranks ii
    let f ← rd s.f (ft.dim - 2)
    let v ← ddot r t 1 f 1
    pure (v, t3)
  else do
    let ra ← rd ft.ranks ii
    let rb ← rd ft.ranks (ii + 1)
    let b ← rd s.b (ii + 1)
    let t3 ← dgemvN ra rb t ra b t3
    let f ← rd s.f (ii - 1)
    let v ← ddot ra t3 1 f 1
    pure (v, t3)

/-- ft.c:1329-1366, one coordinate. The state is the scratch spaces and `vals`. -/
def pertStep (e : Ev K U X) (ft : FT K U) (pert : List X) (s : Dd K) (ii : Nat) (p : Scr K × List K) :
    C (Scr K × List K) := do
  let Q ← rd ft.cores ii
  let p1 ← rd pert (2 * ii)
  let t1 ← evalArr e (Q.nrows * Q.ncols) Q.funcs p1 p.1.t1
  let p2 ← rd pert (2 * ii + 1)
  let t2 ← evalArr e (Q.nrows * Q.ncols) Q.funcs p2 p.1.t2
  let v ← pertVal ft s ii t1 p.1.t3
  let vals ← wr p.2 (2 * ii) v.1
  let w ← pertVal ft s ii t2 v.2
  let vals ← wr vals (2 * ii + 1) w.1
  pure (⟨t1, t2, w.2, p.1.onsol⟩, vals)

/-- ft.c:1240-1374 `function_train_eval_co_perturb`, and with indices as points (`X = Nat`) 1396-1527
`function_train_eval_co_perturb_ind`. `dd` are the per-dimension buffers (freshly allocated or kept from an
earlier call), `vals` is the caller's array. Result: the value at `x` and `vals`. The buffers kept in the train are not
returned. -/
def coPerturb (e : Ev K U X) (ft : FT K U) (dd : Dd K) (x pert : List X) (vals : List K) : C (K × List K) := do
  let r0 ← rd ft.ranks 0
  cassert (decide (r0 = 1))
  let rd' ← rd ft.ranks ft.dim
  cassert (decide (rd' = 1))
  let sc ← preEval ft
  let s ← forN ft.dim (pertFwd e ft x) dd
  let s ← forN ft.dim (pertBwd e ft x) s
  let p ← forN ft.dim (pertStep e ft pert s) (sc, vals)
  let f ← rd s.f (ft.dim - 1)
  let out ← rd f 0
  pure (out, p.2)

/-! ### Fibers, ft.c:1074-1224 -/

/-- lib_funcs/functions.c:1619-1628 `generic_function_1darray_eval2_ind` into `out + off`. -/
def evalAt (e : Ev K U X) (n : Nat) (f : List U) (x : X) (off : Nat) (out : List K) : C (List K) :=
  forN n (fun ii out => do
    let g ← rd f ii
    wr out (off + ii) (e.ev g x)) out

/-- Transposed `dgemv` into `y + off`. -/
def dgemvTAt (m n : Nat) (A x : List K) (off : Nat) (y : List K) : C (List K) :=
  forN n (fun j y => do
    let s ← forN m (fun i s => do
      let a ← rd A (j * m + i)
      let b ← rd x i
      pure (s + a * b)) 0
    wr y (off + j) s) y

/-- ft.c:1108-1142, one fixed core left of the varying one. -/
def fibLeft (e : Ev K U X) (ft : FT K U) (fixed : List X) (ii : Nat) (s : Scr K) : C (Scr K) := do
  let Q ← rd ft.cores ii
  let xi ← rd fixed ii
  let t2 ← evalAt e (Q.nrows * Q.ncols) Q.funcs xi 0 s.t2
  if s.onsol = 1 then do
    let ra ← rd ft.ranks ii
    let rb ← rd ft.ranks (ii + 1)
    let t3 ← dgemvT ra rb t2 ra s.t1 s.t3
    pure ⟨s.t1, t2, t3, 2⟩
  else do
    let t1 ← dgemvT Q.nrows Q.ncols t2 Q.nrows s.t3 s.t1
    pure ⟨t1, t2, s.t3, 1⟩

/-- ft.c:1183-1204, one fixed core right of the varying one; `t` counts down from core `dim-2`. -/
def fibRight (e : Ev K U X) (ft : FT K U) (fixed : List X) (t : Nat) (s : Scr K) : C (Scr K) := do
  let Q ← rd ft.cores (ft.dim - 2 - t)
  let xi ← rd fixed (ft.dim - 2 - t)
  let t2 ← evalAt e (Q.nrows * Q.ncols) Q.funcs xi 0 s.t2
  if s.onsol = 1 then do
    let t3 ← dgemvN Q.nrows Q.ncols t2 Q.nrows s.t1 s.t3
    pure ⟨s.t1, t2, t3, 2⟩
  else do
    let t1 ← dgemvN Q.nrows Q.ncols t2 Q.nrows s.t3 s.t1
    pure ⟨t1, t2, s.t3, 1⟩

/-- ft.c:1100-1163: left part times the varying core, for all `N` locations, in `temp_mat`. -/
def fibMat (e : Ev K U X) (ft : FT K U) (fixed : List X) (N v : Nat) (Q : Qma U) (tensor : List K) (s : Scr K) :
    C (List K × Scr K) :=
  if v = 0 then do
    cassert (decide (Q.nrows = 1))
    let m ← movK (Q.ncols * N) tensor (List.replicate (Q.ncols * N) 0)
    pure (m, s)
  else do
    let Q0 ← rd ft.cores 0
    let x0 ← rd fixed 0
    let t1 ← evalAt e (Q0.nrows * Q0.ncols) Q0.funcs x0 0 s.t1
    let s ← forR 1 v (fibLeft e ft fixed) { s with t1 := t1, onsol := 1 }
    let m ← forN N (fun jj m => dgemvTAt Q.nrows Q.ncols (tensor.drop (jj * (Q.nrows * Q.ncols)))
      (if s.onsol = 1 then s.t1 else s.t3) (jj * Q.ncols) m) (List.replicate (Q.ncols * N) 0)
    pure (m, s)

/-- ft.c:1165-1219: multiply by the part right of the varying core. -/
def fibOut (e : Ev K U X) (ft : FT K U) (fixed : List X) (N v : Nat) (Q : Qma U) (m : List K) (s : Scr K)
    (out : List K) : C (List K) :=
  if v = ft.dim - 1 then movK N m out
  else do
    let Ql ← rd ft.cores (ft.dim - 1)
    let xl ← rd fixed (ft.dim - 1)
    let t1 ← evalAt e (Ql.nrows * Ql.ncols) Ql.funcs xl 0 s.t1
    let s ← forN (ft.dim - 2 - v) (fibRight e ft fixed) { s with t1 := t1, onsol := 1 }
    dgemvT Q.ncols N m Q.ncols (if s.onsol = 1 then s.t1 else s.t3) out

/-- ft.c:1074-1224 `function_train_eval_fiber_ind`: `X` is the type of node indices, `v` is `dim_vary`. -/
def fiberInd (e : Ev K U X) (ft : FT K U) (fixed : List X) (N : Nat) (ind : List X) (v : Nat) (out : List K) :
    C (List K) := do
  let r0 ← rd ft.ranks 0
  cassert (decide (r0 = 1))
  let rd' ← rd ft.ranks ft.dim
  cassert (decide (rd' = 1))
  let s ← preEval ft
  let Q ← rd ft.cores v
  let tensor ← forN N (fun jj t => do
    let xj ← rd ind jj
    evalAt e (Q.nrows * Q.ncols) Q.funcs xj (jj * (Q.nrows * Q.ncols)) t) (List.replicate (Q.nrows * Q.ncols * N) 0)
  let ms ← fibMat e ft fixed N v Q tensor s
  fibOut e ft fixed N v Q ms.1 ms.2 out

/-! ### Partial evaluation, ft.c:688-723 -/

/-- ft.c:688-723 `function_train_eval_up_to_core`: returns the row vector and its length. -/
def evalUpTo (e : Ev K U X) (ft : FT K U) (core : Nat) (x : List X) (out : List K) : C (List K × Nat) := do
  let r0 ← rd ft.ranks 0
  cassert (decide (r0 = 1))
  let rd' ← rd ft.ranks ft.dim
  cassert (decide (rd' = 1))
  let s ← preEval ft
  let Q ← rd ft.cores 0
  let x0 ← rd x 0
  let t1 ← evalArr e (Q.nrows * Q.ncols) Q.funcs x0 s.t1
  let s ← forR 1 core (evalStep e ft x) { s with t1 := t1 }
  let Qk ← rd ft.cores core
  let out ← movK Qk.ncols (if s.onsol = 2 then s.t3 else s.t1) out
  pure (out, Qk.ncols)

end C3.Ft
