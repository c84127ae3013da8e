/- Well-formedness of the objects that are serialized: what the constructors of the library guarantee. -/
import Verif.Serial.Model

namespace C3.Serial

/-- The coefficient array in use has `numPoly` elements and fits in memory, the other one is NULL,
the family is one that can be read back and the coordinate map is the (only implemented) linear one. -/
structure OrthPolyExpansion.WF (p : OrthPolyExpansion) : Prop where
  notStandard : p.ptype ≠ .standard
  linear : p.map.map = .linear
  real : p.ptype ≠ .fourier → p.coeff.length = p.numPoly ∧ p.ccoeff = []
  complex : p.ptype = .fourier → p.ccoeff.length = p.numPoly ∧ p.coeff = []
  fits : p.numPoly < 2 ^ 60

/-- Both arrays have `numNodes` elements and fit in memory. -/
structure ElemExp.WF (f : ElemExp) : Prop where
  nodes : f.nodes.length = f.numNodes
  coeff : f.coeff.length = f.numNodes
  fits : f.numNodes < 2 ^ 61

structure Kernel.WF (k : Kernel) : Prop where
  params : k.params.length = k.nparams
  fits : k.nparams < 2 ^ 61

structure KernelExpansion.WF (k : KernelExpansion) : Prop where
  pos : 0 < k.nkernels
  coeff : k.coeff.length = k.nkernels
  kernels : k.kernels.length = k.nkernels
  fits : k.nkernels < 2 ^ 61
  each : ∀ q ∈ k.kernels, q.WF
  inc : k.includeKernelParam < 2 ^ 64

/-- Every inner node has at least one branch; leaves are well formed. -/
inductive PiecewisePoly.WF : PiecewisePoly → Prop
  | leaf {ope : OrthPolyExpansion} : ope.WF → WF (.leaf ope)
  | node {bs : List PiecewisePoly} : bs ≠ [] → bs.length < 2 ^ 64 → (∀ b ∈ bs, WF b) → WF (.node bs)

def UniFun.WF : UniFun → Prop
  | .piecewise p => p.WF
  | .polynomial p => p.WF
  | .constelm p => p.WF
  | .linelm p => p.WF
  | .kernel p => p.WF

structure GenericFunction.WF (g : GenericFunction) : Prop where
  dim : g.dim < 2 ^ 64
  f : g.f.WF

structure Quasimatrix.WF (q : Quasimatrix) : Prop where
  len : q.funcs.length = q.n
  fits : q.n < 2 ^ 64
  each : ∀ g ∈ q.funcs, g.WF

structure Qmarray.WF (q : Qmarray) : Prop where
  len : q.funcs.length = q.nrows * q.ncols
  rows : q.nrows < 2 ^ 64
  cols : q.ncols < 2 ^ 64
  fits : q.nrows * q.ncols < 2 ^ 64
  each : ∀ g ∈ q.funcs, g.WF

structure FunctionTrain.WF (f : FunctionTrain) : Prop where
  dim : f.dim < 2 ^ 64
  nranks : f.ranks.length = f.dim + 1
  ranks : ∀ r ∈ f.ranks, r < 2 ^ 64
  ncores : f.cores.length = f.dim
  cores : ∀ q ∈ f.cores, q.WF

structure FT1DArray.WF (f : FT1DArray) : Prop where
  size : f.size < 2 ^ 64
  len : f.ft.length = f.size
  each : ∀ t ∈ f.ft, t.WF

end C3.Serial
