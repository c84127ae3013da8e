/-
Binary serialization: primitives (lib_stringmanip/stringmanip.c), univariate function classes
(lib_funcs), quasimatrices, qmarrays and function trains (lib_clinalg).

Conventions (simplifications):
* a serializer writes consecutive bytes through a moving pointer; it is modelled by the list of bytes
  it writes, a deserializer by a function from the remaining bytes to the value and the bytes after it;
  reading past the end of the stream is `Err.oob`;
* the machine is little-endian with `sizeof(int)=4`, `sizeof(size_t)=sizeof(double)=8` (x86-64);
* a `double` is its 64-bit pattern.
-/
import Verif.Core.Mem

namespace C3.Serial

abbrev Bytes := List UInt8
/-- A `double` as a bit pattern. -/
abbrev W64 := BitVec 64
/-- A C `int`. -/
abbrev W32 := BitVec 32

/-- `k` bytes of `v`, least significant first: the effect of `memcpy(buffer,&value,k)`. -/
def encLE : Nat → Nat → Bytes
  | 0, _ => []
  | k + 1, v => UInt8.ofNat (v % 256) :: encLE k (v / 256)

/-- Value of little-endian bytes: the effect of `memcpy(&value,buffer,k)`. -/
def decLE : Bytes → Nat
  | [] => 0
  | b :: bs => b.toNat + 256 * decLE bs

/-- Take `k` bytes from the stream, `oob` when fewer remain. -/
def takeB (k : Nat) (buf : Bytes) : C (Bytes × Bytes) :=
  if k ≤ buf.length then .ok (buf.take k, buf.drop k) else .error .oob

/-- lib_stringmanip/stringmanip.c:249-254 `serialize_int`. -/
def serInt (v : W32) : Bytes := encLE 4 v.toNat
/-- lib_stringmanip/stringmanip.c:256-261 `deserialize_int`. -/
def deInt (buf : Bytes) : C (W32 × Bytes) := do
  let (b, rest) ← takeB 4 buf
  pure (BitVec.ofNat 32 (decLE b), rest)

/-- lib_stringmanip/stringmanip.c:263-268 `serialize_size_t`; values wrap modulo 2^64. -/
def serSize (v : Nat) : Bytes := encLE 8 (v % 2 ^ 64)
/-- lib_stringmanip/stringmanip.c:270-275 `deserialize_size_t`. -/
def deSize (buf : Bytes) : C (Nat × Bytes) := do
  let (b, rest) ← takeB 8 buf
  pure (decLE b, rest)

/-- lib_stringmanip/stringmanip.c:277-282 `serialize_double`. -/
def serDouble (v : W64) : Bytes := encLE 8 v.toNat
/-- lib_stringmanip/stringmanip.c:284-289 `deserialize_double`. -/
def deDouble (buf : Bytes) : C (W64 × Bytes) := do
  let (b, rest) ← takeB 8 buf
  pure (BitVec.ofNat 64 (decLE b), rest)

/-- Memory image of an array of doubles. -/
def image (v : List W64) : Bytes := (v.map serDouble).flatten

/-- Reinterpret the first `8*n` bytes as `n` doubles. -/
def unimage : Nat → Bytes → List W64
  | 0, _ => []
  | n + 1, b => BitVec.ofNat 64 (decLE (b.take 8)) :: unimage n (b.drop 8)

/-- lib_stringmanip/stringmanip.c:291-300 `serialize_doublep`: the length, then `N*sizeof(double)`
bytes (computed modulo 2^64) copied from `value`; `oob` when `value` is shorter than that. -/
def serDoublep (value : List W64) (N : Nat) : C Bytes :=
  let nBytes := N * 8 % 2 ^ 64
  if nBytes ≤ 8 * value.length then .ok (serSize N ++ (image value).take nBytes) else .error .oob

/-- lib_stringmanip/stringmanip.c:302-312 `deserialize_doublep`. The array is allocated with the
(wrapped) number of bytes; it has as many elements as fit in these bytes. -/
def deDoublep (buf : Bytes) : C ((List W64 × Nat) × Bytes) := do
  let (N, ptr) ← deSize buf
  let nBytes := N * 8 % 2 ^ 64
  let (b, rest) ← takeB nBytes ptr
  pure ((unimage (nBytes / 8) b, N), rest)

/-- Run a reader `n` times in a row: the deserialization loops `for (ii=0; ii<n; ii++) ptr = de(ptr,&x[ii])`. -/
def repeatDe {α : Type} (de : Bytes → C (α × Bytes)) : Nat → Bytes → C (List α × Bytes)
  | 0, buf => .ok ([], buf)
  | n + 1, buf => do
    let (x, buf1) ← de buf
    let (xs, buf2) ← repeatDe de n buf1
    pure (x :: xs, buf2)

/-- Run a writer over the first `n` elements: the loops `for (ii=0; ii<n; ii++) ptr = ser(ptr,x[ii],NULL)`;
`oob` when the array has fewer than `n` elements. -/
def repeatSer {α : Type} (ser : α → C Bytes) : Nat → List α → C Bytes
  | 0, _ => .ok []
  | _ + 1, [] => .error .oob
  | n + 1, x :: xs => do
    let b ← ser x
    let bs ← repeatSer ser n xs
    pure (b ++ bs)

/-- Announced sizes summed over the first `n` elements: the loops `totSize += size_temp`. -/
def repeatSize {α : Type} (size : α → C Nat) : Nat → List α → C Nat
  | 0, _ => .ok 0
  | _ + 1, [] => .error .oob
  | n + 1, x :: xs => do
    let s ← size x
    let t ← repeatSize size n xs
    pure (s + t)

/-! ### Orthogonal polynomial expansions (lib_funcs/polynomials.c) -/

/-- lib_funcs/polynomials.h:70 `enum poly_type`. -/
inductive PolyType where | legendre | chebyshev | hermite | standard | fourier
  deriving DecidableEq, Repr

/-- Integer value of `enum poly_type`. -/
def PolyType.code : PolyType → W32
  | .legendre => 0 | .chebyshev => 1 | .hermite => 2 | .standard => 3 | .fourier => 4

/-- lib_funcs/polynomials.c:71 `enum SPACE_MAP`. -/
inductive MapType where | linear | rosenblatt
  deriving DecidableEq, Repr

def MapType.code : MapType → W32 | .linear => 0 | .rosenblatt => 1

/-- lib_funcs/polynomials.c:73-81 `struct SpaceMapping`. -/
structure SpaceMapping where
  map : MapType
  set : W32
  linSlope : W64
  linOffset : W64
  invSlope : W64
  invOffset : W64
  deriving DecidableEq, Repr

/-- lib_funcs/polynomials.c:133-156 `serialize_space_mapping` (writing mode). -/
def serMapping (p : SpaceMapping) : Bytes :=
  serInt p.map.code ++ serInt p.set ++ serDouble p.linSlope ++ serDouble p.linOffset ++
    serDouble p.invSlope ++ serDouble p.invOffset

/-- lib_funcs/polynomials.c:139-147 (size mode). -/
def sizeMapping (_ : SpaceMapping) : Nat := 4 + 4 + 4 * 8

/-- lib_funcs/polynomials.c:161-180 `deserialize_space_mapping`; `space_mapping_create` (84-109) exits for
anything but the linear map. -/
def deMapping (buf : Bytes) : C (SpaceMapping × Bytes) := do
  let (code, ptr) ← deInt buf
  if code = MapType.linear.code then do
    let (set, ptr) ← deInt ptr
    let (a, ptr) ← deDouble ptr
    let (b, ptr) ← deDouble ptr
    let (c, ptr) ← deDouble ptr
    let (d, ptr) ← deDouble ptr
    pure (⟨.linear, set, a, b, c, d⟩, ptr)
  else .error .exit

/-- lib_funcs/polynomials.h `struct OrthPolyExpansion`. `numPoly` is the stored count, `coeff` the real and
`ccoeff` the complex (Fourier) coefficient array, as (real, imaginary) pairs. `nalloc` is not modelled. -/
structure OrthPolyExpansion where
  ptype : PolyType
  numPoly : Nat
  lb : W64
  ub : W64
  coeff : List W64
  ccoeff : List (W64 × W64)
  map : SpaceMapping
  kristoffel : W32
  deriving DecidableEq, Repr

/-- One complex coefficient, lib_funcs/polynomials.c:2552-2553. -/
def serComplex (z : W64 × W64) : C Bytes := .ok (serDouble z.1 ++ serDouble z.2)
/-- lib_funcs/polynomials.c:2598-2600. The C code recombines `cr + ci*I`; on the bit patterns this is the
identity for finite parts other than a negative-zero real part, which is the simplification made here. -/
def deComplex (buf : Bytes) : C ((W64 × W64) × Bytes) := do
  let (r, ptr) ← deDouble buf
  let (i, ptr) ← deDouble ptr
  pure ((r, i), ptr)

/-- lib_funcs/polynomials.c:2515-2559 `serialize_orth_poly_expansion` (writing mode). -/
def serOpe (p : OrthPolyExpansion) : C Bytes := do
  let body ←
    if p.ptype = .fourier then do
      let b ← repeatSer serComplex p.numPoly p.ccoeff
      pure (serSize p.numPoly ++ b)
    else serDoublep p.coeff p.numPoly
  pure (serInt p.ptype.code ++ serDouble p.lb ++ serDouble p.ub ++ body ++ serMapping p.map ++
    serInt p.kristoffel)

/-- lib_funcs/polynomials.c:2522-2542 (size mode). -/
def sizeOpe (p : OrthPolyExpansion) : Nat :=
  (if p.ptype = .fourier then 4 + 2 * 8 + 2 * p.numPoly * 8 + 8 else 4 + 2 * 8 + p.numPoly * 8 + 8) +
    sizeMapping p.map + 4

/-- lib_funcs/polynomials.c:1244-1267 `deserialize_orth_poly`: `none` is the NULL returned for an unknown
(or the STANDARD) type. -/
def polyOfCode (c : W32) : Option PolyType :=
  if c = PolyType.legendre.code then some .legendre
  else if c = PolyType.hermite.code then some .hermite
  else if c = PolyType.chebyshev.code then some .chebyshev
  else if c = PolyType.fourier.code then some .fourier
  else none

/-- lib_funcs/polynomials.c:2570-2624 `deserialize_orth_poly_expansion`; a NULL polynomial is dereferenced
at line 2591. -/
def deOpe (buf : Bytes) : C (OrthPolyExpansion × Bytes) := do
  let (code, ptr) ← deInt buf
  let (lb, ptr) ← deDouble ptr
  let (ub, ptr) ← deDouble ptr
  match polyOfCode code with
  | none => .error .null
  | some pt => do
    let ((coeff, ccoeff, n), ptr) ←
      if pt = .fourier then do
        let (n, ptr) ← deSize ptr
        let (cc, ptr) ← repeatDe deComplex n ptr
        pure (([], cc, n), ptr)
      else do
        let ((c, n), ptr) ← deDoublep ptr
        pure ((c, [], n), ptr)
    let (map, ptr) ← deMapping ptr
    let (k, ptr) ← deInt ptr
    pure (⟨pt, n, lb, ub, coeff, ccoeff, map, k⟩, ptr)

/-! ### Linear and constant element expansions (lib_funcs/linelm.c, lib_funcs/constelm.c) -/

/-- `struct LinElemExp` (lib_funcs/linelm.h) and `struct ConstElemExp` (lib_funcs/constelm.h): same layout. -/
structure ElemExp where
  numNodes : Nat
  nodes : List W64
  coeff : List W64
  deriving DecidableEq, Repr

/-- lib_funcs/linelm.c:592-611 `serialize_lin_elem_exp`; lib_funcs/constelm.c:537-556 is the same code. -/
def serElem (f : ElemExp) : C Bytes := do
  let a ← serDoublep f.nodes f.numNodes
  let b ← serDoublep f.coeff f.numNodes
  pure (serSize f.numNodes ++ a ++ b)

/-- lib_funcs/linelm.c:597, lib_funcs/constelm.c:542 (size mode). -/
def sizeElem (f : ElemExp) : Nat := 3 * 8 + 2 * f.numNodes * 8

/-- lib_funcs/linelm.c:621-633 `deserialize_lin_elem_exp`, lib_funcs/constelm.c:565-577: `num_nodes` is read
three times, the last one wins. -/
def deElem (buf : Bytes) : C (ElemExp × Bytes) := do
  let (_, ptr) ← deSize buf
  let ((nodes, _), ptr) ← deDoublep ptr
  let ((coeff, n), ptr) ← deDoublep ptr
  pure (⟨n, nodes, coeff⟩, ptr)

/-! ### Kernel expansions (lib_funcs/kernels.c) -/

/-- lib_funcs/kernels.c:143-148 `struct Kernel`; `type` is kept as its integer code. -/
structure Kernel where
  type : W32
  nparams : Nat
  params : List W64
  deriving DecidableEq, Repr

/-- lib_funcs/kernels.c:200-215 `serialize_kernel`. -/
def serKernel (k : Kernel) : C Bytes := do
  let p ← serDoublep k.params k.nparams
  pure (serInt k.type ++ serSize k.nparams ++ p)

/-- lib_funcs/kernels.c:204 (size mode). -/
def sizeKernel (k : Kernel) : C Nat := .ok (4 + 8 + k.nparams * 8 + 8)

/-- lib_funcs/kernels.c:225-243 `deserialize_kernel`. -/
def deKernel (buf : Bytes) : C (Kernel × Bytes) := do
  let (t, ptr) ← deInt buf
  let (_, ptr) ← deSize ptr
  let ((ps, n), ptr) ← deDoublep ptr
  pure (⟨t, n, ps⟩, ptr)

/-- lib_funcs/kernels.c `struct KernelExpansion`; `nalloc` not modelled. -/
structure KernelExpansion where
  nkernels : Nat
  coeff : List W64
  kernels : List Kernel
  lb : W64
  ub : W64
  includeKernelParam : Nat
  deriving DecidableEq, Repr

/-- lib_funcs/kernels.c:706-736 `serialize_kernel_expansion`, asserting at least one kernel. -/
def serKernExp (k : KernelExpansion) : C Bytes := do
  cassert (0 < k.nkernels)
  let c ← serDoublep k.coeff k.nkernels
  let ks ← repeatSer serKernel k.nkernels k.kernels
  pure (serSize k.nkernels ++ c ++ ks ++ serDouble k.lb ++ serDouble k.ub ++ serSize k.includeKernelParam)

/-- lib_funcs/kernels.c:711-724 (size mode). -/
def sizeKernExp (k : KernelExpansion) : C Nat := do
  cassert (0 < k.nkernels)
  let s ← repeatSize sizeKernel k.nkernels k.kernels
  pure (8 + k.nkernels * 8 + 8 + 2 * 8 + 8 + s)

/-- lib_funcs/kernels.c:746-775 `deserialize_kernel_expansion`. -/
def deKernExp (buf : Bytes) : C (KernelExpansion × Bytes) := do
  let (n, ptr) ← deSize buf
  let ((c, _), ptr) ← deDoublep ptr
  let (ks, ptr) ← repeatDe deKernel n ptr
  let (lb, ptr) ← deDouble ptr
  let (ub, ptr) ← deDouble ptr
  let (inc, ptr) ← deSize ptr
  pure (⟨n, c, ks, lb, ub, inc⟩, ptr)

/-! ### Piecewise polynomial trees (lib_funcs/piecewisepoly.c) -/

/-- lib_funcs/piecewisepoly.h `struct PiecewisePoly`: a leaf holds an expansion, an inner node its branches
(`nbranches` is the length of the branch array). -/
inductive PiecewisePoly where
  | leaf (ope : OrthPolyExpansion)
  | node (branches : List PiecewisePoly)

mutual
/-- lib_funcs/piecewisepoly.c:2611-2630 `serialize_piecewise_poly` (writing mode). -/
def serPw : PiecewisePoly → C Bytes
  | .leaf ope => do
    let b ← serOpe ope
    pure (serInt 1 ++ b)
  | .node bs => do
    let b ← serPws bs
    pure (serInt 0 ++ serSize bs.length ++ b)
/-- The loop over branches, lib_funcs/piecewisepoly.c:2625-2627. -/
def serPws : List PiecewisePoly → C Bytes
  | [] => .ok []
  | p :: ps => do
    let b ← serPw p
    let bs ← serPws ps
    pure (b ++ bs)
end

mutual
/-- lib_funcs/piecewisepoly.c:2594-2609 (size mode); `branches[0]` is read unconditionally. -/
def sizePw : PiecewisePoly → C Nat
  | .leaf ope => .ok (sizeOpe ope + 4)
  | .node [] => .error .oob
  | .node (p :: ps) => do
    let s ← sizePw p
    let t ← sizePws ps
    pure (s + t + 8 + 4)
/-- The loop over branches 1.., lib_funcs/piecewisepoly.c:2602-2606. -/
def sizePws : List PiecewisePoly → C Nat
  | [] => .ok 0
  | p :: ps => do
    let s ← sizePw p
    let t ← sizePws ps
    pure (s + t)
end

/-- lib_funcs/piecewisepoly.c:2641-2667 `deserialize_piecewise_poly`. The C recursion is unbounded; the
model carries fuel and every level consumes four bytes, so the stream length suffices (see `dePw`). -/
def dePwF : Nat → Bytes → C (PiecewisePoly × Bytes)
  | 0, _ => .error .diverge
  | fuel + 1, buf => do
    let (leaf, ptr) ← deInt buf
    if leaf = 1 then do
      let (ope, ptr) ← deOpe ptr
      pure (.leaf ope, ptr)
    else do
      let (n, ptr) ← deSize ptr
      let (bs, ptr) ← repeatDe (dePwF fuel) n ptr
      pure (.node bs, ptr)

/-- `deserialize_piecewise_poly` on a stream. -/
def dePw (buf : Bytes) : C (PiecewisePoly × Bytes) := dePwF (buf.length + 1) buf

/-! ### Generic functions -/

/-- The function pointed to by `gf->f`, tagged by `enum function_class`
(lib_funcs/functions.h:63 `{PIECEWISE, POLYNOMIAL, CONSTELM, LINELM, KERNEL}`). -/
inductive UniFun where
  | piecewise (p : PiecewisePoly)
  | polynomial (p : OrthPolyExpansion)
  | constelm (p : ElemExp)
  | linelm (p : ElemExp)
  | kernel (p : KernelExpansion)

/-- Integer code of the function class. -/
def UniFun.code : UniFun → W32
  | .piecewise _ => 0 | .polynomial _ => 1 | .constelm _ => 2 | .linelm _ => 3 | .kernel _ => 4

/-- lib_funcs/functions.h:86-92 `struct GenericFunction` (`fargs` is not serialized and not modelled). -/
structure GenericFunction where
  dim : Nat
  f : UniFun

/-- lib_funcs/functions.c:256-280 `serialize_generic_function` (writing mode). -/
def serGf (g : GenericFunction) : C Bytes := do
  let b ← match g.f with
    | .piecewise p => serPw p
    | .polynomial p => serOpe p
    | .constelm p => serElem p
    | .linelm p => serElem p
    | .kernel p => serKernExp p
  pure (serSize g.dim ++ serInt g.f.code ++ b)

/-- lib_funcs/functions.c:263-272 (size mode). -/
def sizeGf (g : GenericFunction) : C Nat := do
  let s ← match g.f with
    | .piecewise p => sizePw p
    | .polynomial p => .ok (sizeOpe p)
    | .constelm p => .ok (sizeElem p)
    | .linelm p => .ok (sizeElem p)
    | .kernel p => sizeKernExp p
  pure (4 + 8 + s)

/-- lib_funcs/funcs_not_standard.c:85-113 `deserialize_generic_function`; for an unknown class code no case
is taken and the function pointer stays unset, which is `Err.ub`. -/
def deGf (buf : Bytes) : C (GenericFunction × Bytes) := do
  let (dim, ptr) ← deSize buf
  let (fc, ptr) ← deInt ptr
  if fc = 0 then do let (p, ptr) ← dePw ptr; pure (⟨dim, .piecewise p⟩, ptr)
  else if fc = 1 then do let (p, ptr) ← deOpe ptr; pure (⟨dim, .polynomial p⟩, ptr)
  else if fc = 3 then do let (p, ptr) ← deElem ptr; pure (⟨dim, .linelm p⟩, ptr)
  else if fc = 2 then do let (p, ptr) ← deElem ptr; pure (⟨dim, .constelm p⟩, ptr)
  else if fc = 4 then do let (p, ptr) ← deKernExp ptr; pure (⟨dim, .kernel p⟩, ptr)
  else .error .ub

/-! ### Containers -/

/-- lib_clinalg/quasimatrix.c `struct Quasimatrix`. -/
structure Quasimatrix where
  n : Nat
  funcs : List GenericFunction

/-- lib_clinalg/quasimatrix.c:289-315 `quasimatrix_serialize` (writing mode). -/
def serQm (q : Quasimatrix) : C Bytes := do
  let b ← repeatSer serGf q.n q.funcs
  pure (serSize q.n ++ b)
/-- lib_clinalg/quasimatrix.c:295-306 (size mode). -/
def sizeQm (q : Quasimatrix) : C Nat := do
  let s ← repeatSize sizeGf q.n q.funcs
  pure (8 + s)
/-- lib_clinalg/quasimatrix.c:325-342 `quasimatrix_deserialize`. -/
def deQm (buf : Bytes) : C (Quasimatrix × Bytes) := do
  let (n, ptr) ← deSize buf
  let (fs, ptr) ← repeatDe deGf n ptr
  pure (⟨n, fs⟩, ptr)

/-- lib_clinalg/qmarray.h `struct Qmarray`. -/
structure Qmarray where
  nrows : Nat
  ncols : Nat
  funcs : List GenericFunction

/-- lib_clinalg/qmarray.c:203-232 `qmarray_serialize` (writing mode). -/
def serQma (q : Qmarray) : C Bytes := do
  let b ← repeatSer serGf (q.nrows * q.ncols) q.funcs
  pure (serSize q.nrows ++ serSize q.ncols ++ b)
/-- lib_clinalg/qmarray.c:208-219 (size mode). -/
def sizeQma (q : Qmarray) : C Nat := do
  let s ← repeatSize sizeGf (q.nrows * q.ncols) q.funcs
  pure (2 * 8 + s)
/-- lib_clinalg/qmarray.c:242-260 `qmarray_deserialize`; the loop bound `nrows*ncols` is a `size_t` product. -/
def deQma (buf : Bytes) : C (Qmarray × Bytes) := do
  let (r, ptr) ← deSize buf
  let (c, ptr) ← deSize ptr
  let (fs, ptr) ← repeatDe deGf (r * c % 2 ^ 64) ptr
  pure (⟨r, c, fs⟩, ptr)

/-- lib_clinalg/ft.h `struct FunctionTrain` (the evaluation work spaces are not serialized). -/
structure FunctionTrain where
  dim : Nat
  ranks : List Nat
  cores : List Qmarray

/-- lib_clinalg/ft.c:285-316 `function_train_serialize` (writing mode). -/
def serFt (f : FunctionTrain) : C Bytes := do
  let r ← repeatSer (fun r => .ok (serSize r)) (f.dim + 1) f.ranks
  let c ← repeatSer serQma f.dim f.cores
  pure (serSize f.dim ++ r ++ c)
/-- lib_clinalg/ft.c:292-303 (size mode). -/
def sizeFt (f : FunctionTrain) : C Nat := do
  let s ← repeatSize sizeQma f.dim f.cores
  pure (8 + (f.dim + 1) * 8 + s)
/-- lib_clinalg/ft.c:326-347 `function_train_deserialize`. -/
def deFt (buf : Bytes) : C (FunctionTrain × Bytes) := do
  let (d, ptr) ← deSize buf
  let (rs, ptr) ← repeatDe deSize (d + 1) ptr
  let (cs, ptr) ← repeatDe deQma d ptr
  pure (⟨d, rs, cs⟩, ptr)

/-- lib_clinalg/ft.h `struct FT1DArray`. -/
structure FT1DArray where
  size : Nat
  ft : List FunctionTrain

/-- lib_clinalg/ft.c:4047-4076 `ft1d_array_serialize` (writing mode). -/
def serFta (f : FT1DArray) : C Bytes := do
  let b ← repeatSer serFt f.size f.ft
  pure (serSize f.size ++ b)
/-- lib_clinalg/ft.c:4054-4063 (size mode). -/
def sizeFta (f : FT1DArray) : C Nat := do
  let s ← repeatSize sizeFt f.size f.ft
  pure (8 + s)
/-- lib_clinalg/ft.c:4086-4101 `ft1d_array_deserialize`. -/
def deFta (buf : Bytes) : C (FT1DArray × Bytes) := do
  let (n, ptr) ← deSize buf
  let (fs, ptr) ← repeatDe deFt n ptr
  pure (⟨n, fs⟩, ptr)

end C3.Serial
