/-
Piecewise polynomials as trees (c3/lib_funcs/piecewisepoly.c, piecewisepoly.h `struct PiecewisePoly`).
-/
import Verif.Poly.Approx
import Verif.Poly.Integ

namespace C3.Pw
open C3.Poly (Ope Opts Fam)
variable {K : Type} [Field K] [LinearOrder K]

/-- piecewisepoly.h `struct PiecewisePoly`: a leaf holds an expansion (`leaf == 1`, `ope`), any other node `nbranches` branches. -/
inductive Pw (K : Type)
  | leaf (f : Ope K)
  | node (bs : List (Pw K))

mutual
/-- The recursion common to copying, scaling, flipping signs and differentiating: the operation is applied to every leaf, branches from
left to right. piecewisepoly.c:403-440 (`piecewise_poly_copy`), 971-982 (`piecewise_poly_scale`), 992-1019 (`piecewise_poly_deriv`),
1313-1324 (`piecewise_poly_flip_sign`). -/
def Pw.mapC (op : Ope K → C (Ope K)) : Pw K → C (Pw K)
  | .leaf f => do
    let g ← op f
    pure (.leaf g)
  | .node bs => do
    let cs ← mapL op bs
    pure (.node cs)
/-- The loop over the branches. -/
def mapL (op : Ope K → C (Ope K)) : List (Pw K) → C (List (Pw K))
  | [] => .ok []
  | b :: bs => do
    let c ← Pw.mapC op b
    let cs ← mapL op bs
    pure (c :: cs)
end

/-- piecewisepoly.c:431-440 `piecewise_poly_copy`. -/
def Pw.copy (p : Pw K) : C (Pw K) := p.mapC C3.Poly.copy

/-- piecewisepoly.c:971-982 `piecewise_poly_scale`. -/
def Pw.scale (thr a : K) (p : Pw K) : C (Pw K) := p.mapC (C3.Poly.scale thr a)

/-- piecewisepoly.c:1313-1324 `piecewise_poly_flip_sign`. -/
def Pw.flipSign (p : Pw K) : C (Pw K) := p.mapC C3.Poly.flipSign

/-- piecewisepoly.c:992-1019 `piecewise_poly_deriv`. -/
def Pw.deriv (thr : K) (sq : K → K) (other : Ope K → Ope K → C (Ope K)) (p : Pw K) : C (Pw K) := p.mapC (C3.Poly.deriv thr sq other)

mutual
/-- piecewisepoly.c:772-780 `piecewise_poly_get_lb`. -/
def Pw.lb : Pw K → C K
  | .leaf f => .ok f.lb
  | .node bs => lbL bs
/-- `branches[0]`. -/
def lbL : List (Pw K) → C K
  | [] => .error .oob
  | b :: _ => Pw.lb b
end

mutual
/-- piecewisepoly.c:790-800 `piecewise_poly_get_ub`. -/
def Pw.ub : Pw K → C K
  | .leaf f => .ok f.ub
  | .node bs => ubL bs
/-- `branches[nbranches-1]`. -/
def ubL : List (Pw K) → C K
  | [] => .error .oob
  | [b] => Pw.ub b
  | _ :: b :: bs => ubL (b :: bs)
end

mutual
/-- piecewisepoly.c:900-915 `piecewise_poly_eval`, 925-941 `piecewise_poly_deriv_eval`; `ev` evaluates a leaf, `tol` is 1e-14, `dflt` the value
0.1234567890 returned when no branch qualifies. -/
def Pw.evalW (tol dflt : K) (ev : Ope K → K → C K) (x : K) : Pw K → C K
  | .leaf f => ev f x
  | .node bs => evalL tol dflt ev x bs
/-- The loop over the branches. -/
def evalL (tol dflt : K) (ev : Ope K → K → C K) (x : K) : List (Pw K) → C K
  | [] => .ok dflt
  | b :: bs => do
    let u ← Pw.ub b
    if x < u + tol then Pw.evalW tol dflt ev x b else evalL tol dflt ev x bs
end

/-- piecewisepoly.c:900-915 `piecewise_poly_eval`. -/
def Pw.eval (tol dflt : K) (sq : K → K) (p : Pw K) (x : K) : C K := p.evalW tol dflt (C3.Poly.eval sq) x

/-- piecewisepoly.c:925-941 `piecewise_poly_deriv_eval`. -/
def Pw.derivEval (tol dflt : K) (p : Pw K) (x : K) : C K := p.evalW tol dflt C3.Poly.derivEval x

/-- piecewisepoly.c:956-962 `piecewise_poly_evalN`. -/
def Pw.evalN (tol dflt : K) (sq : K → K) (p : Pw K) (N : Nat) (x : List K) (incx : Nat) (y : List K) (incy : Nat) : C (List K) :=
  forN N (fun ii y => do
    let v ← rd x (ii * incx)
    let r ← p.eval tol dflt sq v
    wr y (ii * incy) r) y

mutual
/-- piecewisepoly.c:1079-1092 `piecewise_poly_integrate`. -/
def Pw.integrate : Pw K → C K
  | .leaf f => C3.Poly.integrate f
  | .node bs => integL 0 bs
/-- The loop over the branches. -/
def integL (out : K) : List (Pw K) → C K
  | [] => .ok out
  | b :: bs => do
    let v ← Pw.integrate b
    integL (out + v) bs
end

mutual
/-- piecewisepoly.c:808-819 `piecewise_poly_nregions_base`. -/
def Pw.nregBase (n : Nat) : Pw K → Nat
  | .leaf _ => n + 1
  | .node bs => nregL n bs
/-- The loop over the branches. -/
def nregL (n : Nat) : List (Pw K) → Nat
  | [] => n
  | b :: bs => nregL (Pw.nregBase n b) bs
end

/-- piecewisepoly.c:826-831 `piecewise_poly_nregions`. -/
def Pw.nregions (p : Pw K) : Nat := p.nregBase 0

mutual
/-- piecewisepoly.c:877-887: the recursion of `piecewise_poly_boundaries` once `onNum > 0`. -/
def Pw.fillB (nodes : List K) (on : Nat) : Pw K → C (List K × Nat)
  | .leaf f => do
    let nodes ← wr nodes on f.ub
    pure (nodes, on + 1)
  | .node bs => fillBL nodes on bs
/-- The loop over the branches. -/
def fillBL (nodes : List K) (on : Nat) : List (Pw K) → C (List K × Nat)
  | [] => .ok (nodes, on)
  | b :: bs => do
    let s ← Pw.fillB nodes on b
    fillBL s.1 s.2 bs
end

/-- piecewisepoly.c:852-891 `piecewise_poly_boundaries`, called as documented; `ope` of an inner node is NULL. -/
def Pw.boundaries (p : Pw K) : C (List K) := do
  let N := p.nregions + 1
  let nodes := List.replicate N (0 : K)
  if N = 2 then
    match p with
    | .leaf f => do
      let nodes ← wr nodes 0 f.lb
      wr nodes 1 f.ub
    | .node _ => .error .null
  else do
    let l ← p.lb
    let nodes ← wr nodes 0 l
    let s ← p.fillB nodes 1
    pure s.1

/-- `branches[ii]->leaf != 1`. -/
def Pw.isLeaf : Pw K → Bool
  | .leaf _ => true
  | .node _ => false

/-- piecewisepoly.c:747-762 `piecewise_poly_isflat`. -/
def Pw.isFlat : Pw K → Bool
  | .leaf _ => true
  | .node bs => bs.all Pw.isLeaf

mutual
/-- piecewisepoly.c:1336-1351 `piecewise_poly_copy_leaves`; a NULL entry of `branches` is `none`. -/
def Pw.copyLeaves (br : List (Option (Pw K))) (on : Nat) : Pw K → C (List (Option (Pw K)) × Nat)
  | .leaf f => do
    let c ← (Pw.leaf f).copy
    let br ← wr br on (some c)
    pure (br, on + 1)
  | .node bs => copyLeavesL br on bs
/-- The loop over the branches. -/
def copyLeavesL (br : List (Option (Pw K))) (on : Nat) : List (Pw K) → C (List (Option (Pw K)) × Nat)
  | [] => .ok (br, on)
  | b :: bs => do
    let s ← Pw.copyLeaves br on b
    copyLeavesL s.1 s.2 bs
end

/-- A branch that must not be NULL. -/
def nonNull : List (Option (Pw K)) → C (List (Pw K))
  | [] => .ok []
  | some p :: l => do
    let r ← nonNull l
    pure (p :: r)
  | none :: _ => .error .null

/-- piecewisepoly.c:1389-1413 `piecewise_poly_flatten`. -/
def Pw.flatten (p : Pw K) : C (Pw K) :=
  if p.isFlat then .ok p
  else
    match p with
    | .leaf f => .ok (.leaf f)
    | .node bs => do
      let s ← copyLeavesL (List.replicate (Pw.node bs).nregions none) 0 bs
      let cs ← nonNull s.1
      pure (.node cs)

/-- piecewisepoly.c:1806-1812: the nodes of both agree up to `tol` (1e-15). -/
def sameNodes (tol : K) (Na Nb : Nat) (na nb : List K) : C Bool :=
  if Na = Nb then
    forN Na (fun ii same => do
      if same then do
        let u ← rd na ii
        let v ← rd nb ii
        pure (!decide (|u - v| > tol))
      else pure false) true
  else pure false

/-- piecewisepoly.c:1831-1838: first index at least 1 whose node is not below `lb`; `fuel` bounds the search. -/
def skipLow (lb : K) (nodes : List K) : Nat → Nat → C Nat
  | 0, _ => .error .diverge
  | fuel + 1, i => do
    let v ← rd nodes i
    if v < lb then skipLow lb nodes fuel (i + 1) else pure i

/-- piecewisepoly.c:1840-1860: the loop merging the nodes; `eps` is DBL_EPSILON. -/
def mergeLoop (eps ub : K) (na nb : List K) : Nat → Nat → Nat → Nat → List K → C (List K × Nat)
  | 0, _, _, _, _ => .error .diverge
  | fuel + 1, ia, ib, c, nodes => do
    let last ← rd nodes (c - 1)
    if last < ub then do
      let u ← rd na ia
      let v ← rd nb ib
      let nodes ← if u ≤ v then wr nodes c u else if v < u then wr nodes c v else pure nodes
      if |v - u| < eps then mergeLoop eps ub na nb fuel (ia + 1) (ib + 1) (c + 1) nodes
      else if v < u then mergeLoop eps ub na nb fuel ia (ib + 1) (c + 1) nodes
      else if u < v then mergeLoop eps ub na nb fuel (ia + 1) ib (c + 1) nodes
      else mergeLoop eps ub na nb fuel ia ib (c + 1) nodes
    else pure (nodes, c)

/-- piecewisepoly.c:1825-1870: the nodes of the common refinement. -/
def matchNodes (eps : K) (na nb : List K) : C (List K) := do
  let a0 ← rd na 0
  let b0 ← rd nb 0
  let a1 ← rd na (na.length - 1)
  let b1 ← rd nb (nb.length - 1)
  let lb := if a0 < b0 then a0 else b0
  let ub := if a1 > b1 then a1 else b1
  let nodes ← wr (List.replicate (na.length + nb.length) (0 : K)) 0 lb
  let ia ← skipLow lb na (na.length + 1) 1
  let ib ← skipLow lb nb (nb.length + 1) 1
  let s ← mergeLoop eps ub na nb (na.length + nb.length + 1) ia ib 1 nodes
  pure (s.1.take s.2)

/-- piecewisepoly.c:66-72 `pw_eval`; the return code is always zero. -/
def pwEvalVec (ev : K → C K) : List K → C (Option (List K))
  | [] => .ok (some [])
  | x :: xs => do
    let v ← ev x
    let r ← pwEvalVec ev xs
    pure (r.map (v :: ·))

/-- piecewisepoly.c:1448-1462: the adaptive approximation on one cell with the options set there; polynomials.c:844-882 `ope_opts_alloc`
for the others. `leg` is the Legendre family, `tol` is 1e-14. -/
def legAdapt (leg : Fam K) (thr tol : K) (Q : C3.Poly.PT → Nat → C3.Poly.Rule K) (cc : Nat → C3.Poly.Rule K) (fuel : Nat)
    (l u : K) (f : K → C K) : C (Ope K) :=
  C3.Poly.approxAdapt thr Q cc (pwEvalVec f) ⟨leg, 8, 100, 2, tol, l, u, 0, 1, true, false, false⟩ fuel

/-- piecewisepoly.c:1427-1467 `piecewise_poly_finer_grid`; `adapt lb ub f` stands for the adaptive approximation of `f` on `[lb, ub]`
(`orth_poly_expansion_approx_adapt` with the options set there). -/
def finerGrid (adapt : K → K → (K → C K) → C (Ope K)) (ev : Pw K → K → C K) (p : Pw K) (nodes : List K) : C (Pw K) :=
  if nodes.length = 2 then
    match p with
    | .leaf f => (Pw.leaf f).copy
    | .node _ => .error .assertFail
  else do
    let bs ← forN (nodes.length - 1) (fun ii bs => do
      let l ← rd nodes ii
      let u ← rd nodes (ii + 1)
      let f ← adapt l u (ev p)
      pure (bs ++ [Pw.leaf f])) []
    pure (.node bs)

/-- piecewisepoly.c:1798-1877 `piecewise_poly_match`. -/
def matchPw (tol eps : K) (adapt : K → K → (K → C K) → C (Ope K)) (ev : Pw K → K → C K) (a b : Pw K) : C (Pw K × Pw K) := do
  let na ← a.boundaries
  let nb ← b.boundaries
  let same ← sameNodes tol na.length nb.length na nb
  if same then do
    let aa ← a.copy
    let bb ← b.copy
    let aa ← aa.flatten
    let bb ← bb.flatten
    pure (aa, bb)
  else do
    let nodes ← matchNodes eps na nb
    let aa ← finerGrid adapt ev a nodes
    let bb ← finerGrid adapt ev b nodes
    pure (aa, bb)

mutual
/-- piecewisepoly.c:1509-1519 `piecewise_poly_matched_axpy`: the branches of `y` are read at the indices of those of `x`. -/
def matchedAxpy (thr eps a : K) : Pw K → Pw K → C (Pw K)
  | .leaf f, .leaf g => do
    let r ← C3.Poly.axpy thr eps a f g
    pure (.leaf r)
  | .leaf _, .node _ => .error .null
  | .node _, .leaf _ => .error .null
  | .node xs, .node ys => do
    let r ← matchedAxpyL thr eps a xs ys
    pure (.node r)
/-- The loop over the branches. -/
def matchedAxpyL (thr eps a : K) : List (Pw K) → List (Pw K) → C (List (Pw K))
  | [], ys => .ok ys
  | _ :: _, [] => .error .oob
  | x :: xs, y :: ys => do
    let r ← matchedAxpy thr eps a x y
    let rs ← matchedAxpyL thr eps a xs ys
    pure (r :: rs)
end

/-- piecewisepoly.c:1531-1551 `piecewise_poly_axpy`: the new `y`. -/
def axpy (tol eps thr aeps : K) (adapt : K → K → (K → C K) → C (Ope K)) (ev : Pw K → K → C K) (a : K) (x y : Pw K) : C (Pw K) :=
  match x, y with
  | .leaf f, .leaf g => do
    let r ← C3.Poly.axpy thr aeps a f g
    pure (.leaf r)
  | x, y => do
    let m ← matchPw tol eps adapt ev x y
    let r ← matchedAxpy thr aeps a m.1 m.2
    r.copy

mutual
/-- piecewisepoly.c:1653-1676 `piecewise_poly_matched_daxpby` for two functions. -/
def matchedDaxpby (thr eps a b : K) : Pw K → Pw K → C (Pw K)
  | .leaf f, .leaf g => do
    let r ← C3.Poly.daxpby thr eps a (some f) b (some g)
    pure (.leaf r)
  | .leaf _, .node _ => .error .assertFail
  | .node _, .leaf _ => .error .assertFail
  | .node xs, .node ys => do
    cassert (decide (xs.length = ys.length))
    let r ← matchedDaxpbyL thr eps a b xs ys
    pure (.node r)
/-- The loop over the branches. -/
def matchedDaxpbyL (thr eps a b : K) : List (Pw K) → List (Pw K) → C (List (Pw K))
  | [], _ => .ok []
  | _ :: _, [] => .error .oob
  | x :: xs, y :: ys => do
    let r ← matchedDaxpby thr eps a b x y
    let rs ← matchedDaxpbyL thr eps a b xs ys
    pure (r :: rs)
end

/-- piecewisepoly.c:1570-1595 `piecewise_poly_daxpby`; NULL arguments are `none`. -/
def daxpby (tol eps thr aeps : K) (adapt : K → K → (K → C K) → C (Ope K)) (ev : Pw K → K → C K) (a : K) (x : Option (Pw K)) (b : K)
    (y : Option (Pw K)) : C (Option (Pw K)) :=
  match x, y with
  | none, none => .ok none
  | none, some y => do
    let p ← y.copy
    let p ← p.scale thr b
    pure (some p)
  | some x, none => do
    let p ← x.copy
    let p ← p.scale thr a
    pure (some p)
  | some x, some y => do
    let m ← matchPw tol eps adapt ev x y
    let r ← matchedDaxpby thr aeps a b m.1 m.2
    pure (some r)

/-- piecewisepoly.c:1497-1500: the sum over the branches, all of which must be leaves. -/
def innerLoop (inner : Ope K → Ope K → C K) (out : K) : List (Pw K) → List (Pw K) → C K
  | [], _ => .ok out
  | _ :: _, [] => .error .oob
  | .leaf f :: xs, .leaf g :: ys => do
    let v ← inner f g
    innerLoop inner (out + v) xs ys
  | _ :: _, _ :: _ => .error .null

/-- piecewisepoly.c:1496-1500: a leaf has no branches. -/
def innerFlat (inner : Ope K → Ope K → C K) (aa bb : Pw K) : C K :=
  match aa, bb with
  | .node xs, .node ys => innerLoop inner 0 xs ys
  | .node (_ :: _), .leaf _ => .error .null
  | .node [], .leaf _ => pure 0
  | .leaf _, _ => pure 0

/-- piecewisepoly.c:1482-1505 `piecewise_poly_inner`; `inner` is the inner product of two expansions. -/
def innerPw (tol eps : K) (adapt : K → K → (K → C K) → C (Ope K)) (ev : Pw K → K → C K) (inner : Ope K → Ope K → C K) (a b : Pw K) : C K :=
  match a, b with
  | .leaf f, .leaf g => inner f g
  | a, b => do
    let m ← matchPw tol eps adapt ev a b
    let aa ← m.1.flatten
    let bb ← m.2.flatten
    innerFlat inner aa bb

/-- piecewisepoly.c:1301-1305 `piecewise_poly_norm`. -/
def normPw (tol eps : K) (adapt : K → K → (K → C K) → C (Ope K)) (ev : Pw K → K → C K) (inner : Ope K → Ope K → C K) (sq : K → K) (p : Pw K) : C K := do
  let out ← innerPw tol eps adapt ev inner p p
  pure (sq out)

end C3.Pw
