/- Piecewise polynomials: extrema, roots, second derivatives and products (c3/lib_funcs/piecewisepoly.c). -/
import Verif.Pw.Model
import Verif.Poly.Roots

namespace C3.Pw
open C3.Poly (Ope PT Rule Fam Tools)
variable {K : Type} [Field K] [LinearOrder K]

mutual
/-- The common text of piecewisepoly.c:1191-1211, 1224-1244, 1258-1290: the result of the first branch, replaced by that of every later branch that is strictly
better; pairs of value and location. A node without branches reads the first of them all the same. -/
def Pw.extr (leaf : Ope K → C (K × K)) (bt : K → K → Bool) : Pw K → C (K × K)
  | .leaf f => leaf f
  | .node [] => .error .null
  | .node (b :: bs) => do
    let v ← b.extr leaf bt
    extrL leaf bt v bs
/-- The loop over the branches from the second on. -/
def extrL (leaf : Ope K → C (K × K)) (bt : K → K → Bool) (v : K × K) : List (Pw K) → C (K × K)
  | [] => .ok v
  | b :: bs => do
    let w ← b.extr leaf bt
    extrL leaf bt (if bt w.1 v.1 then w else v) bs
end

/-- piecewisepoly.c:1191-1211 `piecewise_poly_max`. -/
def Pw.max (T : Tools K) (p : Pw K) : C (K × K) := p.extr (C3.Poly.opeMax T) (fun a b => decide (b < a))

/-- piecewisepoly.c:1224-1244 `piecewise_poly_min`. -/
def Pw.min (T : Tools K) (p : Pw K) : C (K × K) := p.extr (C3.Poly.opeMin T) (fun a b => decide (a < b))

/-- piecewisepoly.c:1258-1290 `piecewise_poly_absmax`; `nrm` is `orth_poly_expansion_norm`, `wt` the weight for the Hermite family. -/
def Pw.absmax (T : Tools K) (wt : K → K) (nrm : Ope K → C K) (oargs : Option (List K)) (p : Pw K) : C (K × K) :=
  p.extr (fun f => C3.Poly.opeAbsmax T wt (nrm f) f oargs) (fun a b => decide (b < a))

mutual
/-- piecewisepoly.c:1110-1132 `piecewise_poly_rr`: the roots of the branches one after the other. The length of the list is the count that is returned; the
array of a branch without roots is not freed, which is not modelled. -/
def Pw.rr (leaf : Ope K → C (List K)) : Pw K → C (List K)
  | .leaf f => leaf f
  | .node [] => .error .null
  | .node (b :: bs) => do
    let l ← b.rr leaf
    rrL leaf l bs
/-- The loop over the branches from the second on. -/
def rrL (leaf : Ope K → C (List K)) (l : List K) : List (Pw K) → C (List K)
  | [] => .ok l
  | b :: bs => do
    let m ← b.rr leaf
    rrL leaf (if m.length > 0 then l ++ m else l) bs
end

/-- piecewisepoly.c:1145-1177 `piecewise_poly_real_roots`. -/
def Pw.realRoots (T : Tools K) (p : Pw K) : C (List K) := p.rr (C3.Poly.realRoots T.thr T.eps T.ti T.td T.sq T.eig)

/-- piecewisepoly.c:1028-1056 `piecewise_poly_dderiv`. -/
def Pw.dderiv (thr : K) (sq : K → K) (Q : PT → Nat → Rule K) (p : Pw K) : C (Pw K) := p.mapC (C3.Poly.dderiv thr sq Q)

mutual
/-- piecewisepoly.c:1691-1716 `piecewise_poly_matched_prod`; `op` is `orth_poly_expansion_prod`. A leaf has no branches. -/
def matchedProd (op : Ope K → Ope K → C (Ope K)) : Pw K → Pw K → C (Pw K)
  | .leaf f, .leaf g => do
    let r ← op f g
    pure (.leaf r)
  | .leaf _, .node _ => .error .assertFail
  | .node xs, .leaf _ => do
    cassert (decide (xs.length = 0))
    pure (.node [])
  | .node xs, .node ys => do
    cassert (decide (xs.length = ys.length))
    let r ← matchedProdL op xs ys
    pure (.node r)
/-- The loop over the branches. -/
def matchedProdL (op : Ope K → Ope K → C (Ope K)) : List (Pw K) → List (Pw K) → C (List (Pw K))
  | [], _ => .ok []
  | _ :: _, [] => .error .oob
  | x :: xs, y :: ys => do
    let r ← matchedProd op x y
    let rs ← matchedProdL op xs ys
    pure (r :: rs)
end

/-- piecewisepoly.c:1729-1741 `piecewise_poly_prod`. -/
def prodPw (tol eps : K) (adapt : K → K → (K → C K) → C (Ope K)) (ev : Pw K → K → C K) (op : Ope K → Ope K → C (Ope K)) (a b : Pw K) : C (Pw K) := do
  let m ← matchPw tol eps adapt ev a b
  matchedProd op m.1 m.2

end C3.Pw
