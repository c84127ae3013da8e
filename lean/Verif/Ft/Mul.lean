/-
Products of arrays of functions (lib_clinalg/qmarray.c, lib_funcs/functions.c, lib_funcs/funcs_mixed.c), with matrices and
with each other, their integrated versions, and integration and inner products of trains (lib_clinalg/ft.c).
The `_weighted` variants in C are the same text with `generic_function_integrate_weighted` /
`generic_function_inner_weighted` in place of `generic_function_integrate` / `generic_function_inner`; here the univariate
integral is the argument `int` / `inner`. A subarray `p + off` in C is an array together with an offset.
-/
import Verif.Ft.Alg
import Verif.Core.Sum

namespace C3.Ft
variable {K U X : Type} [Field K]

/-- Further univariate operations: `daxpby a f b g` is `generic_function_daxpby(a,f,b,g)`, `poly` tells whether the function
class is POLYNOMIAL, `lcPoly` and `spPoly` are `orth_poly_expansion_lin_comb` and `orth_poly_expansion_sum_prod` on arrays
of polynomials. All may abort. -/
structure LOps (K U : Type) extends Ops K U where
  daxpby : K → U → K → U → C U
  poly : U → Bool
  lcPoly : List K → List U → C U
  spPoly : List U → List U → C U

/-- Read `n` entries. -/
def collect {α : Type} (n : Nat) (g : Nat → C α) : C (List α) :=
  forN n (fun i l => do
    let v ← g i
    pure (l ++ [v])) []

/-- functions.c:741-760, without the polynomial shortcut: running sum, starting with the first two terms. The C code keeps
the running sum in `temp1` or `temp2` alternately. -/
def lc2Chain (o : LOps K U) (n : Nat) (fs : List U) (cs : List K) : C U := do
  let f0 ← rd fs 0
  let c0 ← rd cs 0
  let f1 ← rd fs 1
  let c1 ← rd cs 1
  let t ← o.daxpby c0 f0 c1 f1
  forR 2 n (fun i t => do
    let f ← rd fs i
    let c ← rd cs i
    o.daxpby c f 1 t) t

/-- functions.c:714-775 `generic_function_lin_comb2`; `goff`, `coff` are the offsets of the arguments. `n = 0` dereferences
the first pointer of an empty range: undefined. All entries are read before the class test. -/
def lc2 (o : LOps K U) (n ldgf : Nat) (gfa : List U) (goff ldc : Nat) (c : List K) (coff : Nat) : C U :=
  if n = 0 then .error .ub
  else if n = 1 then do
    let c0 ← rd c coff
    let f0 ← rd gfa goff
    o.scale c0 f0
  else do
    let fs ← collect n (fun i => rd gfa (goff + i * ldgf))
    let cs ← collect n (fun i => rd c (coff + i * ldc))
    if fs.all o.poly then o.lcPoly cs fs else lc2Chain o n fs cs

/-- funcs_mixed.c:166-190: running sum of products (kept in `out` or `out2` alternately in C). -/
def spChain (o : LOps K U) (n : Nat) (fs gs : List U) : C U := do
  let f0 ← rd fs 0
  let g0 ← rd gs 0
  let t ← o.prod f0 g0
  forR 1 n (fun i t => do
    let f ← rd fs i
    let g ← rd gs i
    let p ← o.prod f g
    o.daxpby 1 t 1 p) t

/-- funcs_mixed.c:122-190 `generic_function_sum_prod`. `n = 0` is undefined. -/
def sumProd (o : LOps K U) (n lda : Nat) (a : List U) (aoff ldb : Nat) (b : List U) (boff : Nat) : C U :=
  if n = 0 then .error .ub
  else do
    let fs ← collect n (fun i => rd a (aoff + i * lda))
    let gs ← collect n (fun i => rd b (boff + i * ldb))
    if fs.all o.poly && gs.all o.poly then o.spPoly fs gs else spChain o n fs gs

/-- functions.c:1755-1765 `generic_function_inner_sum` (and 1779-1790 weighted). -/
def innerSum (inner : U → U → C K) (n lda : Nat) (a : List U) (aoff ldb : Nat) (b : List U) (boff : Nat) : C K :=
  forN n (fun i v => do
    let f ← rd a (aoff + i * lda)
    let g ← rd b (boff + i * ldb)
    let w ← inner f g
    pure (v + w)) 0

/-- qmarray.c:808-822 `qmam`: `Q R`. -/
def qmam (o : LOps K U) (Q : Qma U) (R : List K) (b : Nat) : C (Qma U) := do
  let c ← forN Q.nrows (fun jj => forN b (fun ii c => do
    let f ← lc2 o Q.ncols Q.nrows Q.funcs jj 1 R (ii * Q.ncols)
    wr c (ii * Q.nrows + jj) (some f))) (List.replicate (Q.nrows * b) none)
  let fs ← allSome c
  pure ⟨Q.nrows, b, fs⟩

/-- qmarray.c:833-848 `qmatm`: `Qᵀ R`. -/
def qmatm (o : LOps K U) (Q : Qma U) (R : List K) (b : Nat) : C (Qma U) := do
  let c ← forN Q.ncols (fun jj => forN b (fun ii c => do
    let f ← lc2 o Q.nrows 1 Q.funcs (jj * Q.nrows) 1 R (ii * Q.nrows)
    wr c (ii * Q.ncols + jj) (some f))) (List.replicate (Q.ncols * b) none)
  let fs ← allSome c
  pure ⟨Q.ncols, b, fs⟩

/-- qmarray.c:858-872 `mqma`: `R Q`. -/
def mqma (o : LOps K U) (R : List K) (Q : Qma U) (b : Nat) : C (Qma U) := do
  let c ← forN Q.ncols (fun jj => forN b (fun ii c => do
    let f ← lc2 o Q.nrows 1 Q.funcs (jj * Q.nrows) b R ii
    wr c (jj * b + ii) (some f))) (List.replicate (b * Q.ncols) none)
  let fs ← allSome c
  pure ⟨b, Q.ncols, fs⟩

/-- qmarray.c:881-897 `qmaqma`: `A B`. -/
def qmaqma (o : LOps K U) (a b : Qma U) : C (Qma U) := do
  let c ← forN b.ncols (fun jj => forN a.nrows (fun ii c => do
    let f ← sumProd o a.ncols a.nrows a.funcs ii 1 b.funcs (jj * b.nrows)
    wr c (jj * a.nrows + ii) (some f))) (List.replicate (a.nrows * b.ncols) none)
  let fs ← allSome c
  pure ⟨a.nrows, b.ncols, fs⟩

/-- qmarray.c:906-921 `qmatqma`: `Aᵀ B`. -/
def qmatqma (o : LOps K U) (a b : Qma U) : C (Qma U) := do
  let c ← forN b.ncols (fun jj => forN a.ncols (fun ii c => do
    let f ← sumProd o b.nrows 1 a.funcs (ii * a.nrows) 1 b.funcs (jj * b.nrows)
    wr c (jj * a.ncols + ii) (some f))) (List.replicate (a.ncols * b.ncols) none)
  let fs ← allSome c
  pure ⟨a.ncols, b.ncols, fs⟩

/-- qmarray.c:930-944 `qmaqmat`: `A Bᵀ`. -/
def qmaqmat (o : LOps K U) (a b : Qma U) : C (Qma U) := do
  let c ← forN b.nrows (fun jj => forN a.nrows (fun ii c => do
    let f ← sumProd o a.ncols a.nrows a.funcs ii b.nrows b.funcs jj
    wr c (jj * a.nrows + ii) (some f))) (List.replicate (a.nrows * b.nrows) none)
  let fs ← allSome c
  pure ⟨a.nrows, b.nrows, fs⟩

/-- qmarray.c:954-968 `qmatqmat`, documented as `Aᵀ Bᵀ`. The result has `a.ncols` rows, the entry for `(ii,jj)` is written
at `ii * c->nrows + jj`. -/
def qmatqmat (o : LOps K U) (a b : Qma U) : C (Qma U) := do
  let c ← forN b.nrows (fun jj => forN a.ncols (fun ii c => do
    let f ← sumProd o b.ncols 1 a.funcs (ii * a.nrows) b.nrows b.funcs jj
    wr c (ii * a.ncols + jj) (some f))) (List.replicate (a.ncols * b.nrows) none)
  let fs ← allSome c
  pure ⟨a.ncols, b.nrows, fs⟩

/-- qmarray.c:977-992 `qmatqma_integrate`. -/
def qmatqmaInt (inner : U → U → C K) (a b : Qma U) : C (List K) :=
  forN b.ncols (fun jj => forN a.ncols (fun ii c => do
    let v ← innerSum inner b.nrows 1 a.funcs (ii * a.nrows) 1 b.funcs (jj * b.nrows)
    wr c (jj * a.ncols + ii) v)) (List.replicate (a.ncols * b.ncols) 0)

/-- qmarray.c:1002-1019 `qmaqma_integrate`. -/
def qmaqmaInt (inner : U → U → C K) (a b : Qma U) : C (List K) :=
  forN b.ncols (fun jj => forN a.nrows (fun ii c => do
    let v ← innerSum inner a.ncols a.nrows a.funcs ii 1 b.funcs (jj * b.nrows)
    wr c (jj * a.nrows + ii) v)) (List.replicate (a.nrows * b.ncols) 0)

/-- qmarray.c:1029-1047 `qmaqmat_integrate`. -/
def qmaqmatInt (inner : U → U → C K) (a b : Qma U) : C (List K) :=
  forN b.nrows (fun jj => forN a.nrows (fun ii c => do
    let v ← innerSum inner a.ncols a.nrows a.funcs ii b.nrows b.funcs jj
    wr c (jj * a.nrows + ii) v)) (List.replicate (a.nrows * b.nrows) 0)

/-- qmarray.c:1057-1072 `qmatqmat_integrate` (and 1087-1104 weighted). -/
def qmatqmatInt (inner : U → U → C K) (a b : Qma U) : C (List K) :=
  forN b.nrows (fun jj => forN a.ncols (fun ii c => do
    let v ← innerSum inner b.ncols 1 a.funcs (ii * a.nrows) b.nrows b.funcs jj
    wr c (ii * b.nrows + jj) v)) (List.replicate (a.ncols * b.nrows) 0)

/-- qmarray.c:1144-1167 `qmarray_kron_integrate` (and 1182-1204 weighted). -/
def kronInt (inner : U → U → C K) (a b : Qma U) : C (List K) :=
  forN a.ncols (fun ii => forN a.nrows (fun jj => forN b.ncols (fun kk => forN b.nrows (fun ll c => do
    let f ← rd a.funcs (ii * a.nrows + jj)
    let g ← rd b.funcs (kk * b.nrows + ll)
    let v ← inner f g
    wr c ((ii * b.ncols + kk) * (a.nrows * b.nrows) + (jj * b.nrows + ll)) v))))
    (List.replicate (a.nrows * b.nrows * a.ncols * b.ncols) 0)

/-- qmarray.c:1215-1226 `qmarray_vec_kron`. -/
def vecKron (o : LOps K U) (a : List K) (b c : Qma U) : C (Qma U) := do
  let t ← qmatm o b a c.nrows
  qmatqmat o c t

/-- qmarray.c:1238-1250 `qmarray_vec_kron_integrate` (and 1266-1278 weighted). -/
def vecKronInt (o : LOps K U) (inner : U → U → C K) (a : List K) (b c : Qma U) : C (List K) := do
  let t ← qmatm o b a c.nrows
  qmatqmatInt inner c t

/-- functions.c:1265-1282 `generic_function_kronh`, `left = 1`. -/
def kronhL (o : LOps K U) (r m n l : Nat) (a : List K) (c : List U) (d : List (Option U)) : C (List (Option U)) :=
  forN l (fun kk => forN m (fun jj => forN r (fun ii d => do
    let f ← lc2 o n 1 c (n * kk) r a (ii + jj * n * r)
    wr d (kk * r * m + jj * r + ii) (some f)))) d

/-- functions.c:1283-1294 `generic_function_kronh`, `left = 0`. -/
def kronhR (o : LOps K U) (r m n l : Nat) (a : List K) (c : List U) (d : List (Option U)) : C (List (Option U)) :=
  forN r (fun ii => forN n (fun jj => forN m (fun kk d => do
    let f ← lc2 o l n c jj 1 a (kk * l + ii * l * m)
    wr d (jj + kk * n + ii * n * m) (some f)))) d

/-- functions.c:1297-1311 `generic_function_kronh2`, `left = 1`. -/
def kronh2L (o : LOps K U) (r m n l : Nat) (b t : List U) (d : List (Option U)) : C (List (Option U)) :=
  forN l (fun jj => forN m (fun kk => forN r (fun ii d => do
    let f ← sumProd o n 1 b (jj * n) r t (ii + kk * r * n)
    wr d (ii + kk * r + jj * r * m) (some f)))) d

/-- functions.c:1312-1325 `generic_function_kronh2`, `left = 0`. -/
def kronh2R (o : LOps K U) (r m n l : Nat) (b t : List U) (d : List (Option U)) : C (List (Option U)) :=
  forN r (fun ii => forN n (fun jj => forN m (fun kk d => do
    let f ← sumProd o l n b jj m t (kk + ii * l * m)
    wr d (kk + jj * m + ii * n * m) (some f)))) d

/-- qmarray.c:1293-1306 `qmarray_mat_kron`: `a (B ⊗ C)`. -/
def matKron (o : LOps K U) (r : Nat) (a : List K) (b c : Qma U) : C (Qma U) := do
  let t ← kronhL o r b.nrows c.nrows c.ncols a c.funcs (List.replicate (r * b.nrows * c.ncols) none)
  let t ← allSome t
  let d ← kronh2L o r c.ncols b.nrows b.ncols b.funcs t (List.replicate (r * (b.ncols * c.ncols)) none)
  let d ← allSome d
  pure ⟨r, b.ncols * c.ncols, d⟩

/-- qmarray.c:1323-1336 `qmarray_kron_mat`: `(B ⊗ C) a`. -/
def kronMat (o : LOps K U) (r : Nat) (a : List K) (b c : Qma U) : C (Qma U) := do
  let t ← kronhR o r b.ncols c.nrows c.ncols a c.funcs (List.replicate (c.nrows * (b.ncols * r)) none)
  let t ← allSome t
  let d ← kronh2R o r c.nrows b.nrows b.ncols b.funcs t (List.replicate (b.nrows * c.nrows * r) none)
  let d ← allSome d
  pure ⟨b.nrows * c.nrows, r, d⟩

/-- qmarray.c:1626-1640 `qmarray_integrate` (and 1656-1670 weighted). -/
def qmaInt (int : U → C K) (Q : Qma U) : C (List K) :=
  forN Q.ncols (fun ii => forN Q.nrows (fun jj c => do
    let f ← rd Q.funcs (ii * Q.nrows + jj)
    let v ← int f
    wr c (ii * Q.nrows + jj) v)) (List.replicate (Q.nrows * Q.ncols) 0)

/-- ft.c:2139-2180 `function_train_integrate` (and 2190-2235 weighted). The running row vector is in `t1` or `t3`
alternately in C. -/
def ftInt (int : U → C K) (ft : FT K U) : C K := do
  let Q ← rd ft.cores 0
  let t ← qmaInt int Q
  let t ← forR 1 ft.dim (fun ii t1 => do
    let Q ← rd ft.cores ii
    let t2 ← qmaInt int Q
    let r1 ← rd ft.ranks (ii + 1)
    let r0 ← rd ft.ranks ii
    dgemmNN 1 r1 r0 t1 1 t2 r0 (List.replicate r1 0) 1) t
  rd t 0

/-- `temp = calloc_double(n); memmove(temp, src, n * sizeof(double))`. -/
def copyK (n : Nat) (src : List K) : C (List K) :=
  if src.length < n then .error .oob else .ok (src.take n)

/-- ft.c:2356-2378 `function_train_inner` (and 2470-2494 weighted, without the assertion). -/
def ftInner (o : LOps K U) (inner : U → U → C K) (a b : FT K U) : C K := do
  cassert (decide (a.dim = b.dim))
  let B ← rd b.cores 0
  let A ← rd a.cores 0
  let t ← kronInt inner B A
  let t ← forR 1 a.dim (fun ii t => do
    let A ← rd a.cores ii
    let B ← rd b.cores ii
    let t2 ← vecKronInt o inner t A B
    copyK (A.ncols * B.ncols) t2) t
  rd t 0

/-- ft.c:2388-2416 `function_train_inner2`. -/
def ftInner2 (o : LOps K U) (inner : U → U → C K) (a b : FT K U) : C K := do
  cassert (decide (a.dim = b.dim))
  let A ← rd a.cores 0
  let B ← rd b.cores 0
  let t ← kronInt inner A B
  let t ← forR 1 a.dim (fun ii t => do
    let A ← rd a.cores ii
    let B ← rd b.cores ii
    let At ← qmatm o B t A.nrows
    let t2 ← qmaqmaInt inner At A
    copyK (A.ncols * B.ncols) t2) t
  rd t 0

/-- ft.c:2426-2457 `function_train_inner_rl`. `cores[d-1]` with `d = 0` reads before the array. -/
def ftInnerRl (o : LOps K U) (inner : U → U → C K) (a b : FT K U) : C K := do
  cassert (decide (a.dim = b.dim))
  cassert' a.dim
  let A ← rd a.cores (a.dim - 1)
  let B ← rd b.cores (a.dim - 1)
  let t ← kronInt inner A B
  let t ← forR 1 a.dim (fun ii t => do
    let A ← rd a.cores (a.dim - 1 - ii)
    let B ← rd b.cores (a.dim - 1 - ii)
    let A' ← qmam o B t A.ncols
    let t2 ← qmaqmatInt inner A' A
    copyK (A.nrows * B.nrows) t2) t
  rd t 0
where cassert' (d : Nat) : C Unit := if d = 0 then .error .oob else .ok ()

end C3.Ft
