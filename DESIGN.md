# Formal model of C3 (Compressed Continuous Computation) in Lean 4

Source under study: the C library in `/repo/c3` (pinned commit). Nothing is built or run; the C text is
read and transcribed into Lean definitions, and theorems are proved about those definitions.

## 1. Modelling conventions

* **Outcomes.** C functions that can abort or hit undefined behaviour return `C α := Except Err α`
  (`Verif/Core/Mem.lean`), where `Err` separates out-of-bounds access, failed `assert`, `exit(1)`,
  NULL dereference, other undefined behaviour and non-termination. A theorem "the call returns `.ok r`"
  therefore also says that none of these happens on the stated inputs.
* **Arrays.** A C array is a `List`; reads and writes are bounds-checked (`rd`, `wr`), loops are
  `forN`/`forRange` iterating a state-passing body, exactly in the order of the C loop.
* **Numbers.** `double` is modelled as an element of an exact field (generic `K`, an ordered field where
  the code compares, `ℝ` where `sqrt`/integrals occur). Rounding error is not modelled: this is the main
  abstraction, and it is listed in the trusted base. In the byte-level model a `double` is an opaque
  64-bit pattern, so serialization theorems are about exact bits.
* **`size_t`/`int`.** Index arithmetic uses `Nat`/`Int` and assumes no 64-bit wrap-around, except in the
  serialization and hashing code where the fixed widths matter and are modelled (`BitVec`/bytes).
  Places where C subtracts below zero on `size_t` are modelled as `Err.ub`/`oob` outcomes.
* **Memory ownership** (malloc failure, leaks, double free) is not modelled, except where a routine
  hands a freed object back to its caller.
* **Specifications** live apart from the model: a property is stated with ordinary mathematical objects
  (sums over index ranges, `List` functions, Mathlib integrals/inner products), not with model helpers.
* **Non-vacuity.** Next to each main theorem an `example` instantiates its hypotheses on a concrete
  non-trivial input. Where the code does not satisfy the intended property, a theorem with suffix
  `_partial` states what does hold and a `_counterexample` theorem proves the negation for a concrete
  input; the disagreement is listed in section 4.

## 2. Trusted base

* The Lean 4.33.0 kernel. Theorems depend on at most `propext`, `Classical.choice`, `Quot.sound`
  (checked with `#print axioms`; the gate re-checks). No own axioms, no `sorry`, no `native_decide`,
  no `bv_decide`.
* The faithfulness of the transcription: every definition cites file and lines in `/repo`, and says where
  it simplifies.
* Exact arithmetic in place of IEEE-754. Exceptions, where rounding is modelled because the property is
  about it: `Core/Float.lean` (binary64 values as mantissa and exponent, `frexp`, any round-to-nearest
  function `rnd`), used for the packed encoding (C46), the index conversion that divides through `double`
  (C42) and the end points of grids (C47).
* Literal tolerances of the code (1e-15, `DBL_EPSILON`, `ZEROTHRESH`, ...) are arguments `tol`/`thr`/`eps`;
  theorems hold for every value of them unless a hypothesis says otherwise.
* Division by zero is undefined behaviour (`Err.ub`) rather than an infinity.
* BLAS calls (`cblas_ddot`, `dgemv`, `dgemm`, `daxpy`, `dscal`, `dcopy`; `Core/Sum.lean`, `Core/Blas.lean`)
  are modelled by their mathematical definition on the given column-major layout with bounds checks and the
  argument checks of the reference BLAS. LAPACK factorizations (`dgesdd`, `dstev`, ...) are not modelled:
  Gauss-Legendre and Gauss-Hermite rules appear as hypotheses (`IsGaussLeg`, `IsGaussHerm`: exact for all
  monomials of degree below 2n), the numerical selection of rows (maxvol) as an arbitrary input.
* `sin`/`cos`/`sqrt`/`exp` of the C library are the real functions of Mathlib, or an arbitrary function
  argument where only algebra matters.
* Function trains (`Ft/`) are modelled over an abstract family of univariate functions: a value type with
  an evaluation map and the laws the operation in question needs (`LinLaw`, `SpLaw`, `IntLaw`, `QuadLaw`,
  `InnerLaw`), stated as hypotheses. The univariate classes themselves are modelled in `Lin/`, `Poly/`, ...
* Not modelled at all: threads, OpenMP, file text I/O apart from what is cited, tracing in the optimizers, memory leaks,
  wrap-around of 64-bit counters.
* QR/LQ factorizations (`Qr/`) treat univariate functions as vectors of a real inner product space; the cross
  LU factorization takes functions `K → K` and an arbitrary pivot search `am`.

## 3. Plan per property

Statements are in `properties.jsonl`; status and exact theorem names in `MANIFEST.json`.
Modules are under `lean/Verif/`.

| Id | Modules | What is modelled, how it is proved |
|----|----|------|
| C01 | Serial | Little-endian byte writers/readers on lists of bytes; round trip by induction on array length. |
| C02 | Str | `parse_string` loop over bytes; splitting specification by induction on the string. |
| C03 | Str | `bite_string` search loop; reconstruction by induction. |
| C04 | Str | `bite_string2` matcher as automaton; soundness by loop invariant; completeness refuted by a witness, proved under a no-overlap condition. |
| C05 | Str | `itoa` digit loop on `Int` with C truncating division; digits evaluate to the value by strong induction. |
| C06 | Ind | Index-set lists; insertion histories by induction. |
| C07 | Ind | Nested creation loops (three orders) by loop invariants against list products. |
| C08 | Ind | Merge loops against list products; `cross_index_merge` refuted by witness. |
| C09 | Ind | Recursion over dimensions; each set is checked to extend its neighbour. |
| C10 | Mon | Buckets as lists of association lists, `hashsimple` on 64-bit words; refinement to a finite map by induction over histories. |
| C11 | Mon | Cache invariant over call histories; the text key is not injective on doubles, hence partial. |
| C12 | Fwrap | Fiber table and substitution loop, all wrapper kinds. |
| C13 | Serial | Byte-level encoders/decoders for every function class, composed from C01; mutual recursion for piecewise trees. |
| C14 | Serial | Containers over C13 by induction on lengths. |
| C15 | Ft/Props | Checked buffers; loop invariant relating the scratch vector to the chain-product specification. |
| C16 | Ft/AlgProps | Block cores; chain product of block matrices by induction. |
| C17 | Ft/AlgProps | Kronecker cores; chain product of Kronecker products by induction. |
| C18 | Ft/AlgProps | Scaling of one core; composition for axpy. |
| C19 | Ft/IntProps | Linear functional on each core; the iterated functional by induction on dimension. |
| C20 | Ft/MulProps, IntProps, InnerAlg | Three algorithms (sweeps in both directions, Kronecker form) shown equal to the same iterated sum. |
| C21 | Ft/GradProps | Prefix/suffix products; `HasDerivAt` of the chain product in each coordinate. |
| C22 | Ft/PertProps | Prefix/suffix products with reused buffers of arbitrary contents. |
| C23 | Ft/FiberProps | Prefix/suffix products around the varying coordinate. |
| C24 | Ft/Build* | Each constructor's cores written out; chain product computed by induction. |
| C25 | Ft/Subset* | Runs of contracted cores merged to matrices; induction over the list of coordinates. |
| C26 | Ft/Param* | Offset loops refined to list concatenation. |
| C27 | Ft/Mul* | Four-index loops with checked writes; equality with the Kronecker/matrix product specification. |
| C28 | Ft/Mul* | Strided products with checked reads; entry formulas; wrong cases refuted. |
| C29 | Qr | Householder sweep over a real inner product space; invariants of the sweep. |
| C30 | Qr | Modified Gram-Schmidt sweep over arrays of functions. |
| C31 | Qr/Lu* | Cross LU sweep; invariant A = L U + remainder; pivots give a unit lower triangular matrix and its determinant. |
| C32 | Lin/Props | Bisection search invariant; interpolation formula. |
| C33 | Lin/IntProps | Trapezoid loop; Mathlib interval integral of the interpolant. |
| C34 | Lin/AlgProps | Entrywise loops; evaluation of the result at every point. |
| C35 | Lin/AlgProps | Extremum of affine pieces. |
| C36 | Poly/EvalProps, ArrProps | Three-term recurrences over a field; running-sum invariants; Chebyshev by Clenshaw-type recurrences; batched and array forms. |
| C37 | Poly/StdProps | Coefficient arrays of the recurrence; evaluation of the monomial form. |
| C38 | Poly/AlgProps | Windows of coefficient blocks with capacity; value of the result at every point. |
| C39 | Pw/Model, Pw/Spec, Pw/Lemmas, Pw/Props, Pw/IntProps | Trees as an inductive type; the specification is the list of leaves and the piecewise function it describes. Mutual structural induction over trees and branch lists; integrals of adjacent pieces added with Mathlib's interval integral. |
| C40 | Tt | Column-major tensor layout; chain-product specification. |
| C41 | Tt/DotProps, TensorProps | Contraction loops against iterated sums. |
| C42 | Arr | Quotients through `double` under any round-to-nearest; mixed-radix digits. |
| C43 | Cross | Cache as history; refinement to the uncached function. |
| C44 | Reg/Props, Reg/PolyReg | Costs over an abstract model linear in its parameters (operations as a record), instantiated with polynomial expansions; gradients are derivatives in the sense of Mathlib. |
| C45 | Reg/Props | Decision table by case analysis over the option types (complete enumeration of a finite type). |
| C46 | Packed, Core/Float | Doubles as (mantissa, exponent) with frexp/ldexp semantics; any rounding function. |
| C47 | Arr | Loop closed forms. |
| C48 | Ft/AlgProps | Composition of the train algebra. |
| C49 | Str | Scans from both ends with bounds-checked bytes. |
| C50 | Str | Copy loops. |
| C51 | Ft/InnerAlg | Composition of inner product and sum. |
| C52 | Ft/FiberProps | Prefix products. |
| C53 | Fwrap/LifeProps | Life-cycle histories of the wrapper record. |
| C54 | Ft/ArrProps | Entry formulas by scatter-loop invariants. |
| C55 | Cross | Index-set construction loops. |
| C56 | Cross/SweepProps | Row number split into node and neighbour index. |
| C57 | Lin/IntProps | Weighted sum; comparison with the interval integral. |
| C58 | Lin/GradProps | Search plus hat-function values; derivative of evaluation in each coefficient. |
| C59 | Lin/GradProps | One-sided/central cases; `HasDerivAt` of the interpolant. |
| C60 | Lin/GradProps | Finite-difference formulas on non-uniform grids, exact on affine data. |
| C61 | Lin/MergeProps | Merge loop of two sorted grids with tolerance. |
| C62 | Lin/Approx* | Recursive refinement with fuel; interpolation at the final nodes. |
| C63 | Lin/ApproxProps | Node list construction and zero setting. |
| C64 | Lin/Orth* | Gram-Schmidt over coefficient arrays with the discrete inner product. |
| C65 | Poly/ArrProps | Basis values in parameter order; difference quotient of a linear map is exact. |
| C66 | Poly/ArrProps | Copy loops with reallocation. |
| C67 | Poly/DerivProps | Differentiated recurrences; `HasDerivAt` over the reals. |
| C68 | Poly/Approx*, GaussProps, Legendre, Hermite | Projection loop to closed form; bases orthonormal (Favard-type induction, integration by parts for Hermite); discrete orthogonality from exactness of the rule. |
| C69 | Quad | Weight loops to closed forms; exactness via trigonometric sums and Chebyshev polynomials of Mathlib. |
| C70 | Poly/MapProps | Field identities for the stored mapping and inverse. |
| C71 | Poly/Adapt*, Poly/CcProj | Growing loop with fuel and measure; stop condition as invariant. |
| C72 | Qr/HqrStep, HhStep, Props | Reflector steps over a real inner product space with the invariant that the unprocessed starting vectors stay orthonormal; chain of steps to the product. |
| C73 | Poly/IntProps, NormProps | Change of variables to the reference domain, then orthogonality to the constant (Legendre, Hermite) or `∫ T_n` (Chebyshev). |
| C74 | Poly/IntProps, NormProps | Coefficient loops to sums; orthogonality relations of the families proved in Legendre/Hermite/GaussProps. |
| C75 | Poly/NormProps | Accumulation loops to closed form; `HasDerivAt` in one coefficient of the quadratic form equal to the integral. |
| C76 | Poly/DerivExp | Double loop to closed form, reordering of the double sum, derivative of the Legendre polynomials as a sum of lower ones. |
| C77 | Pw/MatchNodes, Pw/FinerGrid, Pw/MatchProps, Pw/MatchEx | Merging loop of the two boundary lists by induction; re-expansion on each cell exact because the Gauss projection reproduces polynomials; then piecewise addition and integration. |
| C78 | Quad/GaussModel, Quad/Golub | Golub-Welsch: eigenvector components are the orthogonal polynomials at the eigenvalue, orthogonality of the transposed matrix gives discrete orthonormality, hence all moments below 2N. |
| C79 | Prob | Tree of interactions as a finite map from labels to records; visiting order makes every proper subset finished before it is needed (induction over the recursion). Conditional means through the contraction theorem of C25; nonnegativity by an inclusion-exclusion of chains of bilinear forms. |
| C80 | Opt/WolfeProps, Opt/BoxProps, Opt/StrongProps | Loops with fuel equal to the iteration limit; invariants on the trial step and the point last evaluated; the zoom halves its interval, so 68 passes are enough. |
| C81 | Opt/GradProps | Induction over the iterations with the run recorded as a relation (`Run`, `Moved`) that is stated without the model. |
| C82 | Opt/BruteProps | Loop invariant of the running minimum. |
| C83 | Opt/BfgsAlg, Opt/BfgsLemmas, Opt/BfgsProps, Opt/BfgsDescent | Upper triangle of the matrix as stored; BLAS calls refined to the rank-two formula; the run as a relation on pairs of point and matrix; positive definiteness from the quadratic form of the update and the slope condition of the search. |
| C84 | Opt/LbfgsList, Opt/LbfgsAlg | Heap of nodes with next/prev pointers; representation invariant (`Rep`) preserved by insertion in its four cases; the two loop recursion by downward induction over the stored pairs using the product formula of one BFGS update. |
| C85 | Opt/LbfgsProps | Induction over iterations, all outcomes enumerated (return, failed assertion, division by zero); run as a relation on pairs of point and stored pairs. |
| C86 | Opt/SgdProps | Random numbers as an arbitrary sequence; Fisher-Yates by loop invariant (permutation) and by construction of a sequence for any target order; epochs refined to a fold over the training set. |
| C87 | Prob/LtModel, Prob/LtProps, Prob/LtSerial | Unset fields as `none`; `dtrtri` as a contract that a reference inverse meets; matrix identities for the inverse and offset; byte records composed from the proved primitives. |
| C88 | Prob/LtModel, Prob/DensProps, Prob/DensMass, Prob/DensDeriv | Evaluation refined to the change of variables formula; Lebesgue integral under a linear map; moments of an affine image of uncorrelated variables; derivatives by the chain rule in Frechet form. |
| C89 | Fft/Model, Fft/Props, Fft/Cheb | Strided recursion on buffers refined to the defining sums by induction on the exponent; inversion from orthogonality of roots of unity; cosine sums for the Chebyshev coefficients. |
| C90 | Fft/FourierModel, Fft/FourierProps | Loops accumulating powers of exp(i t) refined to a trigonometric sum; derivative and integral through Mathlib's calculus. |
| C91 | Fft/FourierApprox | Aliasing: the discrete transform of a trigonometric polynomial of low degree recovers its coefficients; refusal table for other sizes. |
| C92 | Fft/FourierProd | Products of trigonometric polynomials; trapezoidal rule exact below the aliasing limit. |
| C93 | Fft/FourierAlg, Fft/FourierBasis | Coefficient loops with growth and trimming refined to pointwise operations; Gram-Schmidt on an already orthogonal start. |
| C94 | Kern/Model, Kern/Gauss, Kern/Props | Gaussian kernels as functions on the reals; the formulas with erf proved by substitution and completion of squares; sums by loop invariants. |
| C95 | Kern/BuildProps | Storage growth, copying and both parameter layouts refined to the sequence of coefficients, scales, widths and centres. |
| C96 | Kern/AlgProps | Coefficient loops refined to pointwise operations; gradients specified by HasDerivAt, also for the integral of the square. |
| C97 | Kern/Basis | Gram-Schmidt with an invariant (orthonormal, triangular); norms positive by linear independence of exponentials and the identity principle for analytic functions. |
| C98 | Sl/Spec, Sl/Model, Sl/Fwd, Sl/Bwd, Sl/Props | Forward and backward sweeps over flat buffers refined to matrix products of the cores; derivatives by HasDerivAt of the multilinear value. |
| C99 | Sl/AlsModel, Sl/AlsCore, Sl/AlsRun, Sl/AlsProps | Invariant of the sweeps: the stored products left and right of the active core are those of the current train; optimizer as an arbitrary function of the subproblem. |
| C100 | Sl/ObjModel, Sl/ObjProps, Sl/AioModel, Sl/AioProps | Linked list of objective functions with one shared gradient buffer; value and gradient specified independently as a mean of squares and by HasDerivAt. |
| C101 | Sl/RestrictModel, Sl/RestrictProps | Scatter loops with a counter refined to counting functions over the storage order; embedding of the small train in the large one as a relation of positions. |
| C102 | Sl/CvModel, Sl/CvProps | Fold boundaries as a partition of an interval; memmove copies as list segments; learner as an arbitrary state transformer. |
| C103 | Sl/GridModel, Sl/GridProps | Nested loops refined to the product of lists; search loop against the trace of errors of an arbitrary learner. |
| C104 | Sl/RankModel, Sl/RankProps | Loop with arbitrary learner as partial functions; invariants over all possible outcomes of a step. |
| C105 | Round/Model, Round/Gram, Round/Svd, Round/Orthor, Round/Step, Round/Props, Round/Inst, Round/Main, Round/Eps | Right-orthogonalisation and truncation sweep over contracts for QR, LQ and SVD; invariant: products of the remaining train with any continuation equal the full products, error accumulated so far is the sum of dropped squares. Contracts instantiated with l2 sequences. |
| C106 | Mv/Model, Mv/Lemmas, Mv/Props, Mv/Pinv, Mv/Law, Mv/Inst | Exchange loop with the invariant that the stored matrix is the inverse of the current submatrix and the largest entry of the product is known; one exchange multiplies the determinant by that entry. Contracts instantiated with l2 sequences. |
| C107 | Xapp/Model, Xapp/Prep, Xapp/Step, Xapp/Sweep, Xapp/Span, Xapp/Loop, Xapp/Props | Fiber array refined to the matrix of function values at left and right nodes; each sweep step makes a core that reproduces that matrix from its values at the new nodes (C106 pivots); unit-vector chains at the nodes give interpolation, spanning of sections is propagated by both sweeps. |
| C108 | Xapp/AdaptModel, Xapp/AdaptProps, Xapp/AdaptMain | Loop over cross approximation, rounding and raising of ranks; invariant: ranks and right index sets fit together, nodes only get repeated so spanning is kept; measure: total room below the maximal ranks. |
| C109 | Dif/Model, Dif/Chain, Dif/Props, Dif/Main | Values as products of factor matrices; replacing one factor by its derivative is the partial derivative; the block train [A 0; B A] represents the sum of products with one factor replaced (induction over the cores); Kronecker products give products, so the product rule closes the diffusion operator. |
| C110 | Pc/Model, Pc/Props, Pc/GradProps | Bisection with the invariant that the point lies between the two current nodes (or beyond an end); the final comparison picks the nearest node, ties go up; uniqueness of the specified value shown separately. |
| C111 | Pc/Model, Pc/Props, Pc/Orth, Pc/IntProps | Common grid: the index found depends on the nodes only, so algebra acts on values; integrals by splitting every interval at its midpoint (Mathlib interval integrals). Different grids: interpolation at the merged nodes, counterexamples elsewhere. |
| C112 | Pc/Model, Pc/GradProps, Pc/Orth, Pc/IntProps | Row-wise description of the gradient array, difference quotients with the overwritten last entry, orthonormal basis as scaled indicators, constructors and options. |
| C113 | Opt/StandModel, Opt/StandLs, Opt/StandProps, Opt/StandConv | Loop invariant over the trial points beta^k; moves collected in a relation, outcome of the optimizer as a case distinction by return code; convergence by a lower bound on the decrease per move (quadratic upper model, first accepted power of beta); the differentiable case by the limit of difference quotients. |
| C114 | Opt/StandModel, Opt/StandLs, Opt/StandProps, Opt/StandConv | The same with projected points; from a stationary point no move is accepted, which excludes return value 0. |
| C115 | Opt/StandModel, Opt/StandNewton | One pass as an equation; quadratic case by linearity of the matrix product; a two-cycle gives divergence by induction on the fuel; the damped method by the same outcome relation. |
| C116 | Opt/StandModel, Opt/StandBfgs | Moves on pairs (point, matrix) with the BFGS formula of C83; secant equation and positive definiteness from the algebra proved there; workspace as four buffers, the last one empty for the documented size. |
| C117 | Poly/Prod, Poly/ProdLemmas, Poly/ProdProps | Contraction loops with the table of triple products as a double sum over coefficients; the table by its defining property (existence for every family proved); projection of a polynomial of low degree is exact; sums by induction on the number of products. |
| C118 | Poly/Prod, Poly/DDerivProps | The derivative of the value is a polynomial in the mapped variable of one degree less, so the projection of the pointwise derivative is exact; second derivatives by applying this twice, Chebyshev by the pointwise second derivative. |
| C119 | Poly/Roots, Poly/RootsLemmas, Poly/RootsProps | The matrix in the buffer is a comrade matrix (entries by a loop invariant); its determinant vanishes iff the values of the polynomials form a left null vector, hence iff the expansion vanishes; selection, mapping and sorting by membership. |
| C120 | Poly/Roots, Poly/ExtProps | A maximum exists by compactness; inside it is a zero of the derivative, hence in the list of roots (C119) of the computed derivative (C118), otherwise it is an end; the loop keeps the best candidate. |
| C121 | Poly/Roots, Poly/StdRootsProps | The transposed matrix is the comrade matrix of the monomials; trimming by induction; linear case directly. |
| C122 | Pw/Approx, Pw/ApproxLemmas, Pw/ApproxProps | Tiling by induction over the branches; termination because a refined piece is shorter by the number of regions (measure: length against minsize times a power); pieces are copies of what the projection makes of their own cell. |
| C123 | Pw/Ext, Pw/ExtProps | Mutual induction over trees and branch lists: the state of the loops is the first best result for the leaves seen, or the concatenation of their roots; leaf results by C118-C120; products through the matching theorem of C77 and C117. |
| C124 | Poly/Make, Poly/MakeProps, Poly/BasisProps, Poly/ChebBasis | Values from the series; orthonormality from the inner product theorems (C70, C117); the Chebyshev basis by the Gram-Schmidt invariant, with a lower bound for the leading coefficients so that no division by zero occurs. |
| C125 | Pw/Split, Pw/SplitProps | A cell is the projection of a polynomial composed with an affine map, hence exact; tiling by induction over the list of points; the check by induction over the number of derivatives with the derivative theorem of C76/C118. |
| C126 | Sl/HessModel, Sl/HessSpec, Sl/HessProps | First and mixed second derivatives of a matrix product defined by recursion over the cores and connected to Mathlib derivatives; the helper computes the mixed second derivative for single-entry directions; the eight nested loops by invariants that count each separated pair once. |
| C127 | Ft/GradInner, Ft/GradInnerProps | Forward matrices characterised by completing the inner product of every train that agrees on the first cores, backward arrays as core times integrated tail; the inner product is affine in each parameter, the slope is the integral of the derivative times the assembled function; positions by writing one block after another. |
| C128 | Sl/Guess, Sl/GuessProps | Invariant over the running number of functions: parameters before it are final, those after untouched, the position in the template is the sum of the lengths copied so far; the row vectors of the train vanish outside the block, so the value is that of the template by induction over the cores. |
| C129 | Tt/SvdModel, Tt/SvdRect, Tt/SvdErr, Tt/SvdBuilt, Tt/FullProps | `full_to_tt` with `norm2`, `iprod_sz`, `diagv2m` and `truncated_svd`; the rectangular SVD is an argument with the LAPACK contract, shown satisfiable from the spectral theorem. The tensor left after `k` cores is followed through the loop; every step is a split with orthonormal columns (Parseval), and the errors of the steps add up exactly. Partial: the relative error bound and one-dimensional arrays are refuted. |
| C130 | Tt/SvdModel, Tt/RqLaw, Tt/RightOrth, Tt/RoundTtProps | `tt_round`, `right_left_orth`, `right_ortho_core`, `rq_with_rmult`, `tt_norm`. The triangular factor moved to the left neighbour leaves all tail products unchanged; orthonormal rows give orthonormal tails by downward induction; the forward sweep reuses the splits of C129. RQ exists for every matrix by Gram-Schmidt from the last row. Partial: one dimension and too large ranks are refuted. |
| C131 | Xapp/Session, Xapp/SessionProps | The interface of approximate.c as a state machine: session, options per dimension, cross arguments, starting points, argument calls, approximation, composed with the models of C09, C107 and C108. Induction over the call sequences; the nested index sets are shown to be columns of the starting points. Partial: different ranks without starting points are refuted. |
| C132 | Dmrg/Model, Dmrg/Lemmas, Dmrg/Left, Dmrg/Right, Dmrg/Props | `dmrg_approx`, both sweeps, the cached projections and the support routine of `dmrg_product`. Invariants of the sweeps over the position (orthonormal new cores left or right of it, projections of the exact cores); after the last split the whole train telescopes to the target. Stated for every target given by exact cores, then for products. Partial: exact arithmetic, decompositions by contract, nothing about positive tolerances beyond ranks. |
| C133 | Dmrg/DifModel, Dmrg/DifProps, Dmrg/PolyInst | `dmrg_diffusion` and its support routine with the four block products. The support routine is shown to multiply the block cores `[B A]`, `[A 0; B A]`, `[A; B]` of C109, so the iteration theorem of C132 applies; the value is the divergence by the chain lemma of C109. Polynomials with the L2 inner product (Gram-Schmidt starting functions) satisfy all contracts. Partial: as C132. |
| C134 | Opt/ObjModel, Opt/ObjProps, Opt/ObjMain, Opt/ObjTop | The whole `struct c3Opt` with NULL and uninitialised fields, constructors, setters, copy, trace recording and printing. Sessions by induction over the list of calls (invariant on buffer sizes, last writer wins); the copy by a field-by-field relation; the trace by induction over the iterates. Partial: copying batch gradient and SGD optimizers and printing are wrong in the code (proved). |
| C135 | Opt/Deriv | `c3opt_check_deriv(_each)` with the moved points as state; loop invariant (points restored, partial sums), then quadratic objectives and soundness. |
| C136 | Tt/Canon | `cdelem`, the three core builders and `cd2tt` over any commutative ring; element formula by induction over the train; dimension 1 refuted by a witness |
| C137 | Sl/KristModel, Sl/KristProps | `c3_regression_run(_aio)`, `ft_regress_run` and the Kristoffel switches over an arbitrary descending optimizer; division of labels and bases by the weights equals weighting of residuals (induction over the train); two wrong cases refuted by witnesses |
| C138 | Skel/Model, Skel/Lemmas, Skel/Props | `maxvol_rhs` on column-major buffers over an ordered field, LAPACK's pivots and inverse as arguments with contracts; loop invariant (permutation of the rows, inverse, coefficient matrix), determinant of an exchange; two deviations proved by witnesses |
| C139 | Skel/SkelModel, Skel/SkelLemmas, Skel/SkelProps | the common loop of the three skeleton functions over an abstract way of fetching fibers; invariant: starting columns span; exactness by linear algebra, list of stored fibers by an invariant; deviation for singular starts proved by a witness |
| C140 | Cross/TtModel, Cross/TtLemmas, Cross/TtSteps, Cross/TtProps | the sweeps of `tt_cross` step by step on the index sets, stored fibers and cores; invariant: slices through the left (right) sets span all slices; each step transports it by the factor and the inverse of its selected rows; exactness of the train by induction over the modes |
| C141 | Gf/Model, Gf/Props | generic functions as tag plus pointer with the real class of the object; using an object as another class is undefined behaviour; case analysis over the classes, induction over linear combinations; instance of the laws that the theorems on matrices and trains of functions assume; deviations (wrong tag of mixed products) proved for all such inputs |
| C142 | Gf/OneZero, Gf/OneZeroProps | the loop of `generic_function_onezero` on its node buffer, split at the position of the one (invariant: nodes written so far), then evaluation of the piecewise linear function at its nodes; the array version over contracts, with invariants for the number and the list of the pivots of each function |
| C143 | Sl/Alloc, Sl/AllocProps | `ft_param_alloc_with_ft` with its counting and padding loops; loops that either continue or end the program (one induction lemma); invariants over functions and cores; the final count check decides exactly whether everything could be padded; the tables are shown to be those used by the gradient theorems (`Lay`) |
| C144 | Pw/Jump, Pw/JumpLemmas, Pw/JumpProps | `eval_coeff`/`eval_jump` as the top coefficient of the interpolation polynomial (Lagrange), the normalisation on equispaced points as an alternating sum of binomials, `get_stencil` by a loop invariant, `minmod_eval` as a fold, `locate_jumps` by induction on the depth with an invariant over the subdomains; `DBL_EPSILON` and the threshold `10^floor(log10 h)` are arguments |
| C145 | Lin/MatUtil, Lin/MatUtilProps | the nested loops and `memmove`s on buffers stored by rows; cover lemmas for loops that fill an array (`FillsV`), for `block_diag` an invariant with the offsets of the blocks and zeros below |
| C146 | Gf/Quasi, Gf/QuasiProps | loops over the columns on the generic functions of C141; existence lemma for arrays collected from left to right, transposition as a filled buffer, invariant of the running maximum; deviations (widths not compared, no columns) proved for all such inputs |
| C147 | Cross/Adapt, Cross/AdaptProps, Cross/AdaptTt | `tt_cross_adapt` with concrete ranks and index sets over an arbitrary approximation and rounding; inversion lemmas for successful loops, invariant of the while loop (what the last stage did, number of calls), termination by the remaining passes; the sweeps of C140 keep the shapes of the index sets and so meet the contract; the two deviations proved for all exhausted runs and by a witness |
| C148 | Gf/Qma, Gf/QmaProps | row and column access as loops of reads and writes at column-major positions; one lemma for setting a sequence of different entries (injectivity of positions by division with remainder), instantiated for rows and columns; inversion of successful loops for the refusals; the deviations (column number, shapes) proved for all such inputs |
| C149 | Box/Model, Box/Props | `space.c` with two arrays of bounds; one invariant for the loop filling both arrays, specification as a predicate `IsBox` on positions; the deviations (dimension and order of the bounds not checked) proved |

## 4. Disagreements between code and intended property (findings)

Each row is a kernel-checked theorem about the model that shows the behaviour on a concrete input (or for a
whole class of inputs); the code lines are cited at the modelled definition.

| Theorem | Finding |
|----|------|
| `C3.Arr.bigToMulti_counterexample` | **C42** With a second mode of size `2^54` the conversion of index `2^53+1` does not return `(0, 2^53+1)`, whatever the direction in which ties are rounded. |
| `C3.Box.dim_range_counterexample` | **C149** finding: a dimension outside of the box is not refused but read and written beyond the end. |
| `C3.Box.order_counterexample` | **C149** finding: the order of the bounds is not checked, an empty box is accepted. |
| `C3.Adp.exhausted_counterexample` | **C147** finding: when the adaptation ends because of `maxiter` with a kept inner rank, the ranks have been increased without rebuilding the index sets: the options no longer fit, and a further cross approximation would read indices that are not there. |
| `C3.Adp.maxiter_counterexample` | **C147** finding: `maxiter` does not bound the number of passes: with `maxiter = 2` there are three passes after the first approximation, four calls in all; and the options then hold rank 5 with index sets for rank 4. |
| `C3.Cross.naive_counterexample` | **C55** With more entries than the first mode has values, the initial set contains indices outside the tensor. |
| `C3.Cross.naive_right_counterexample` | **C55** The right index sets of a train with sizes 3,2,2 and the admissible ranks 1,3,2,1 are built with the size of the wrong mode: the set right of the first core contains index 2 for the second mode, which has size 2. |
| `C3.Cross.updateRight_counterexample` | **C56** Core with left rank 1, right rank 2, two nodes: row 1 of the `(2·2) x 1` matrix is node 0 with right index number 1, but the code selects node 1 with right index number 0. |
| `C3.Cross.updateRight_oob_counterexample` | **C56** Core with left rank 2, right rank 1: row 1 (node 1 of the only right index) makes the code read right index number 1, which does not exist. |
| `C3.Dif.operate_actual` | C109: `function_train_operate` applies the operator to each univariate function, but the first rank of the result is zero, so evaluating the result fails its assertion for every train, operator and point. |
| `C3.Dif.laplace_one_actual` | C109: in dimension one the Laplace operator returns a core with two rows under ranks `1, 1`; its first row is the function itself, and evaluating it writes past the end of the scratch space. |
| `C3.Dmrg.dmrg_diffusion_nosweep_actual` | C133, disagreement: with no sweeps allowed the argument `f` itself is returned, not its image. |
| `C3.Dmrg.dmrg_nosweep_actual` | C132, disagreement: with `max_sweeps = 0` the routine returns the guess (the first factor when there is none), not an approximation of the product. |
| `C3.Dmrg.dmrg_dim1_actual` | C132, disagreement: trains of dimension 1 cannot be multiplied this way, the array of right multipliers is empty and its element `dim-2` is written. |
| `C3.Dmrg.superR_actual` | C132, disagreement: the routine that prepares the right multipliers from the guess uses only the orthogonal factor of the previous multiplier; its triangular factor, part of the function to be approximated, has no influence. |
| `C3.Fft.chebCoeff_actual` | C89: the returned numbers are the coefficients of the Chebyshev polynomial that interpolates the values at the points `cos(pi j/N)`, with the coefficient of the highest degree first. |
| `C3.Fft.chebCoeff_order_counterexample` | The order of the coefficients is the reverse of the usual one: for the values `1, -1` of `x` at `1, -1` the function returns `[1, 0]`, which read in the order used everywhere else in the library (`coeff[k]` belongs to degree `k`) is the constant one. |
| `C3.Fourier.approx_nodes_actual` | In general the expansion does not interpolate: at the evaluation points it differs from the function by the alternating mean of the function values, because the coefficient of the highest frequency is counted twice. |
| `C3.Fourier.approxAdapt_default_counterexample` | With the default number of coefficients, 8, there are 14 points; 14 is not a power of two, the code 1 is dropped by the caller and every function is approximated by zero. |
| `C3.Fourier.approx_top_counterexample` | The highest frequency is doubled: with three coefficients `cos(2 t)` is approximated by a function with the value 2 at 0. |
| `C3.Fourier.orthBasis_full_counterexample` | With as many functions as coefficients no coefficient is set: every function of the "basis" is zero. |
| `C3.Fourier.prod_const_counterexample` | The product of two constants given by one coefficient each is the zero function. |
| `C3.Fourier.prod_refused_counterexample` | When twice the degree of the first factor is not a power of two the product is the zero function (and so is every inner product). |
| `C3.Fourier.inner_top_counterexample` | The degrees must not add up to `2 (num_poly - 1)`: the inner product of `cos x` with itself over `[0, 2 pi]` comes out as `2 pi`; it is `pi`. |
| `C3.Fft.fftBase_three_counterexample` | C89: sizes that are not powers of two are refused by `fft` but not by `fft_base`, which then returns wrong numbers: with three equal numbers the last one is never read. |
| `C3.Ft.sum_dim1_counterexample` | The restriction to dimension ≥ 2 is needed: the sum of two one-dimensional trains has first rank 2 and its evaluation fails an assertion (ft.c:2863 overwrites `ranks[0]`). |
| `C3.Ft.vprodsum_zero_counterexample` | With `n = 0` terms the first product is added all the same. |
| `C3.Ft.vgemv_counterexample` | `c3vgemv` with at least one row fails an assertion: its running sums start as NULL pointers. |
| `C3.Ft.vgemvArr_actual` | What `c3vgemv_arr` computes: `beta` is applied twice. |
| `C3.Ft.vgemvArr_counterexample` | `c3vgemv_arr` with `beta = 2` and no terms returns `4 y` instead of `2 y`. |
| `C3.Ft.initsum_dim1_counterexample` | In one dimension the sum constructor writes outside the array of its only core (ft.c:1623-1632). |
| `C3.Ft.linear_dim1_counterexample` | In one dimension the linear constructor succeeds but leaves the last rank 0: every evaluation fails an assertion. |
| `C3.Ft.quadraticAligned_dim1_counterexample` | In one dimension the aligned quadratic cannot be evaluated (last rank 0). |
| `C3.Ft.quadraticAligned_counterexample` | The options of the last dimension are ignored by the aligned quadratic constructor (ft.c:2086: `o` is not advanced): with domains `[0,1]` and `[5,6]` the train for `x² + y²` is wrong at `(1,5)`. |
| `C3.Ft.evalUpTo_counterexample` | For `core = 1` the routine stops before core 1: it returns `3` for `x + y` at `(3, 4)`, where the product of cores 0 and 1 is `7`. |
| `C3.Ft.gradInner_dim1_counterexample` | **C127** One dimension: the array of the first core does not exist and the routine dereferences a null pointer. |
| `C3.Ft.gradEval_dim1_counterexample` | The dimension hypothesis is needed: on a one-dimensional train the routine always returns 0. |
| `C3.Ft.qmatqmat_square_actual` | C28, `Aᵀ Bᵀ`, square case: the result is the transpose of the documented product, i.e. `B A`. |
| `C3.Ft.qmatqmatInt_actual` | C28, `∫ Aᵀ Bᵀ`: what the routine returns is the array of `∫ B A`, i.e. the transpose of the documented matrix. |
| `C3.Ft.qmatqmat_counterexample` | `qmatqmat`, `Aᵀ Bᵀ` for the 2 × 2 array `fnQ` and the constant array `[[0,1],[0,0]]`: entry `(0,0)` of `Aᵀ Bᵀ` at `x = 3` is `A[0,0] B[0,0] + A[1,0] B[0,1] = 1`, the result holds it at `(0,0)`, but entry `(1,0)`, which should be `A[0,1] B[0,0] + A[1,1] B[0,1] = 9`, is 0. |
| `C3.Ft.qmatqmat_oob_counterexample` | `qmatqmat`, 1 × 2 times 1 × 1: the second entry is written outside the result. |
| `C3.Ft.coPerturb_dim1_counterexample` | With one dimension the routine reads `bprod[1]`, past the end of an array of one pointer. |
| `C3.Ft.eval_parr_counterexample` | The bound is needed: with a well-formed train whose first core holds 1001 polynomials the batched evaluation writes outside its local array (lib_funcs/functions.c:1531-1543). |
| `C3.Ft.intSubset_empty_counterexample` | The code disagrees with C25 for an empty list of coordinates: it reads `dims_contract[0]`, which does not exist. |
| `C3.Fw.which_eval_counterexample` | Selecting a slot beyond the array is not refused and reads outside it. |
| `C3.Fw.stale_fiber_counterexample` | The selected fiber survives a re-initialisation: slicing again with fewer fibers and evaluating without selecting a fiber reads outside the table of fibers. |
| `C3.Gf.hat_unsorted_counterexample` | **C142** Zeros in another order (`generic_function_onezero`): the nodes are not sorted, and the function is 1/2 at a requested zero. |
| `C3.Gf.prod_poly_pw_counterexample` | **C141** A polynomial times a piecewise polynomial (`generic_function_prod`): the product is computed but carries the tag of the first factor, POLYNOMIAL, while the object is a piecewise polynomial. Every evaluation of the result, every scaling and every sum with it uses the tree as an expansion: undefined. |
| `C3.Gf.prod_nodal_counterexample` | **C141** A nodal function or a kernel expansion times a function of another class (`generic_function_prod`): unlike the inner product and the sum, the product does not refuse, it uses the object as a piecewise polynomial. |
| `C3.Gf.arrayAxpy_zero_actual` | **C141** For no functions at all the same call reports an error: the code 1 is the start value (`generic_function_array_axpy`). |
| `C3.Gf.evalGen_actual` | **C141** Where numbers and indices have the same size (64 bit machines) a pivot that holds an index is evaluated as if its bits were a number: the nodal evaluation is never reached (`generic_function_1d_eval_gen`). |
| `C3.Gf.sumProd_mixed_counterexample` | **C141** `Σ_i a_i b_i` (an entry of a product of matrices of functions, `generic_function_sum_prod`) with at least two terms never returns a function if `a_0` is a polynomial and `b_0` a piecewise polynomial: the first product has the wrong tag. |
| `C3.Gf.extractCol_range_counterexample` | **C148** finding: a column number outside of the array is not refused but read beyond the end. |
| `C3.Gf.qmaNorm2diff_shape_counterexample` | **C148** finding: the shapes are not compared: the distance to an array does not depend on its numbers of rows and columns. |
| `C3.Gf.qmDaxpby_width_counterexample` | **C146** finding: the widths are not compared in a sum: a second quasimatrix with fewer columns is read beyond its end. |
| `C3.Gf.qmAbsmax_empty_counterexample` | **C146** finding: the largest absolute value of a quasimatrix without columns reads a column that is not there. |
| `C3.Ind.create_nested_zero_counterexample` | C07 fails for a requested size of zero with the product orders: all pairs are returned. |
| `C3.Ind.merge_pairs_counterexample` | `cross_index_merge` does not pair the i-th left node with the i-th right node. |
| `C3.Ind.array_initialize_dim1_counterexample` | C09 fails in one dimension: the forward initialisation writes past the array. |
| `C3.Kern.axpy_exit_counterexample` | C96: expansions whose kernels differ by more than the tolerance cannot be added: the program ends. |
| `C3.Kern.paramGrad_flag_counterexample` | C96: when the centres are declared adaptive with a number other than one, the number of parameters counts them, but the gradient leaves their entries as they are. |
| `C3.Kern.sqNormGrad_adapt_counterexample` | C96: with adaptive centres the gradient of the squared norm ends with a failed assertion. |
| `C3.Kern.orthBasis_equal_counterexample` | C97: with two equal centres the second function becomes zero and cannot be normalized. |
| `C3.Kern.setNparams_zero_counterexample` | C95: an odd number of parameters with adaptive centres ends the program, zero parameters are written out of bounds. |
| `C3.Kern.adapt_off_counterexample` | C95: switching adaptive centres on and off again leaves the doubled number of parameters in the options; no expansion can then be created. |
| `C3.Kern.updateParams_size_counterexample` | C95: with adaptive centres a parameter vector of the wrong size is not rejected: the assertion is an assignment, and the number of kernels of the expansion changes. Here three parameters for two kernels silently remove the second kernel. |
| `C3.Kern.updateParams_long_counterexample` | C95: a vector that is too long is written beyond the arrays. |
| `C3.Kern.gaussEval_zero_actual` | C94: a width of zero divides by zero. |
| `C3.Kern.absmax_empty_counterexample` | C94: without nodes the program ends, with an empty vector it reads beyond it. |
| `C3.Lin.max_counterexample` | **C35** When two nodes are closer than the tolerance, the value at the reported location may be another one: the search stops at the middle node. |
| `C3.Lin.adapt_zero_diverges` | **C62** A function that is zero everywhere is never accepted, so with minimal spacing 0 the adaptation does not end. |
| `C3.Lin.onezero_none_counterexample` | **C63** No zeros requested: both nodes are 0, whatever the bounds. |
| `C3.Lin.onezero_lower_counterexample` | **C63** Zeros at the lower bound and inside: the last zero is lost and the lower bound appears twice. |
| `C3.Lin.onezero_unsorted_counterexample` | **C63** Zeros not in increasing order: the upper bound is not recognised and appears twice. |
| `C3.Lin.paramGrad2_counterexample` | **C58** Outside the node range the routine extrapolates, although evaluation is zero there. |
| `C3.Lin.deriv_counterexample` | **C60** On this grid, which is strictly increasing, the fourth-order formula divides by zero. |
| `C3.Lin.inner_counterexample` | **C57** `x` times `x` on the unit interval: the inner product is 1/2, the integral of the product is 1/3. |
| `C3.Mu.v2m_flag_counterexample` | Finding: for any other flag the sizes of the matrix are never stored. |
| `C3.Mu.horizcat_rows_counterexample` | Finding: with fewer rows on the right the call reads behind the second matrix; only a message is printed. |
| `C3.Mu.horizcat_lost_counterexample` | Finding: with more rows on the right, rows are lost without an error. |
| `C3.Lin.axpy_ends_counterexample` | **C61** With different end points the sum is not pointwise: beyond the range of the first function, where it evaluates to zero, the result still ramps down. |
| `C3.Lin.orthBasis_counterexample` | **C64** More functions than nodes: the extra function is zero, so it is not normalised. |
| `C3.Lin.eval_counterexample` | **C32** With the tolerance of the code, the point `1e-16` of the unit interval gets the value at 0. |
| `C3.Mon.monitor_transparent_counterexample` | C11 counterexample: with the key text the code uses, evaluating a function first at the double 1 and then at the next double returns the cached value instead of the function's value, although the value encoding is lossless. |
| `C3.Mv.pinv_zero_cutoff_actual` | C106, disagreement: with a cutoff of zero, as in the call of lib_probability/probability.c:1200, a singular matrix makes the routine divide by zero. |
| `C3.Mv.rdup_diverges` | C106, disagreement: `remove_duplicates` does not end when two pivots coincide in a domain that is a single point. |
| `C3.Opt.bfgs_box_counterexample` | C83: on the boundary of the box the matrix does not stay positive definite, although the line search has succeeded: the update is skipped only if `\|s'y\|` is tiny, not if `s'y` is negative (the step is projected, and the slope condition is about the unprojected direction). From (0,0), on the upper bound of the second variable, one iteration gives the indefinite matrix [[3,2],[2,1]]. |
| `C3.Opt.bfgs_maxiter_actual` | C83: the iteration limit is exceeded by one: with `maxiter = 0` one iteration is done (and its result reported as `C3OPT_MAXITER_REACHED` even if a tolerance was met, here with gradient 0). |
| `C3.Opt.bfgs_infeasible_actual` | C83: an infeasible start ends the program (weak Wolfe search, the default). |
| `C3.Opt.bfgs_strong_counterexample` | C83: with the strong Wolfe search a direction that is not one of descent (here from the matrix -1 given by the caller of `c3_opt_damp_bfgs`) is reported as convergence of the function values at the start. |
| `C3.Opt.lsBox_tol_counterexample` | Success (`info = 0`) does not mean sufficient decrease: along a direction of ascent (from a wrong gradient or a kink) the search stops as soon as the step is shorter than `absxtol`, with a larger value of the objective than at the start. Here the objective is `\|x\|`, started at 0 with the slope -1 reported along the direction 1, the squared tolerance is 3/4, and the point returned is 81/100. |
| `C3.Opt.bruteForce_unset_counterexample` | C82: minimizing before `c3opt_set_brute_force_vals` was called is not diagnosed: the objective gets a null pointer. |
| `C3.Opt.bruteForce_empty_counterexample` | C82: an empty table (`nlocs = 0`) is read all the same. |
| `C3.Cd.check_deriv_cubic_counterexample` | **A small step is not needed for a wrong verdict**: for a cubic the correct gradient is reported as wrong with the error `eps^2`: `f(x) = x^3` at 0 with the gradient 0 and the step 1/2 gives 1/4. |
| `C3.Opt.optGradient_infeasible_counterexample` | C81: the return code of the line search is ignored. A start outside the box (search code -3) is reported as converged (`C3OPT_FTOL_REACHED`) at the infeasible start, without a single step. |
| `C3.Opt.optGradient_alpha_counterexample` | C81: the same with a line search parameter outside (0,1/2): converged at the start, where the gradient is -2. |
| `C3.Opt.optGradient_ascent_counterexample` | C81: a line search that runs out of iterations (code 1) is also accepted: with 2 search iterations one iteration of gradient descent on `f(x) = 3x² - 2x` moves uphill, from 0 (value 0) to 2 (value 8). |
| `C3.Opt.insert_one_counterexample` | C84: storing a single pair (`nvectors_store = 1`) is not supported: the second insertion dereferences NULL. |
| `C3.Opt.insert_zero_counterexample` | C84: neither is storing none: the first insertion dereferences NULL. |
| `C3.Opt.lbfgs_stationary_counterexample` | C85: a start with gradient zero divides zero by zero: the change of gradient and the step vanish (in C the direction becomes NaN). |
| `C3.Opt.lbfgs_infeasible_actual` | C85: an infeasible start stops the program by an assertion. |
| `C3.Opt.lbfgs_store_counterexample` | C85: a single stored pair (`c3opt_set_nvectors_store(opt,1)`) dereferences NULL in the second iteration, none in the first. |
| `C3.Oo.copy_batchgrad_actual` | **`c3opt_copy` of a batch gradient optimizer leaves its buffers.** Its workspace has `2*d` numbers, the copy moves `4*d` (optimization.c:548 with 405 and 491): for every such object with at least one variable the copy reads and writes behind the end. |
| `C3.Oo.copy_sgd_actual` | **The copy of an SGD optimizer has no objective.** `c3opt_copy` does not copy `fsgd` and `c3opt_alloc` does not initialise it: evaluating the stochastic objective of the original works, with the copy an indeterminate function pointer is called. |
| `C3.Oo.print_stride_counterexample` | **The printed coordinates are not those of the line.** `c3opt_print_stored_values` reads row `i` from position `i*niters` (optimization.c:847, 852), the optimizers store it at `i*d` (2065-2069): after three iterates of two variables the second printed line shows the second coordinate of the second iterate followed by the first coordinate of the third. |
| `C3.Oo.print_oob_actual` | **Printing a long trace reads behind the buffer.** With only the points stored, line `i` starts at position `i*niters`; as soon as this is not smaller than the `8*d*maxiter` numbers allocated, the line reads out of bounds. |
| `C3.Opt.shuffle_large_counterexample` | C86: for larger arrays not every order can come out: with `RAND_MAX = 2^31-1` the last four of 99999 elements never come first. |
| `C3.Opt.sgd_validation_actual` | C86: up to five samples no validation data are kept back, and the validation error that is printed is 0/0. |
| `C3.Opt.sgd_zero_actual` | C86: an iteration limit of zero is reported as success and leaves the function value unset (`maxiter-1` wraps around). |
| `C3.Opt.sgd_few_actual` | C86: fewer than two samples end the program. |
| `C3.Opt.DbMove.secant_actual` | C116, what the code does: when the new point is strictly inside the box, the updated matrix satisfies the secant equation not for the step that was made but for `alpha` times this step (the line search returns `t*alpha`). |
| `C3.Opt.boxDampBfgs_workspace_counterexample` | C116, the property fails: the documented workspace has `3*d` numbers, the code uses `4*d`. With the documented size (the fourth part is empty) every run that reaches the update of the matrix writes out of bounds. Here `f(x) = (x-1)^2` on `[-3,3]` from 0. |
| `C3.Opt.boxDampBfgs_secant_counterexample` | C116: the same run with `4*d` numbers. The first step has scaling 1/2 and reaches the minimum 1 exactly; the matrix left behind should be 1/2 (the inverse of the second derivative), it is 1/8 (factor `alpha = 1/4`). |
| `C3.Opt.boxPg_stationary_actual` | C114, what the code does: started at a constrained stationary point of the box (every projected gradient step leads back to it) where the gradient itself is longer than the tolerance, `box_pg_descent` returns 1 (failure of the line search) for every choice of the iteration limits. |
| `C3.Opt.boxPg_linear_counterexample` | C114, the property fails: minimizing `f(x) = x` over `[0,1]`, from 1/2 the method reaches the minimum 0 in one step and then reports code 1, whatever the limits (here 100 and 100). |
| `C3.Opt.gradientDescent_code_counterexample` | C113, the property fails: the codes `-20+?` of a failing gradient overlap with success; a gradient that fails with code 20 gives return value 0. |
| `C3.Opt.gradientDescent_maxiter_counterexample` | C113, the property fails: when the maximum number of iterations is reached, the gradient left behind belongs to the previous point, not to the final one. |
| `C3.Opt.gradientDescent_worse_counterexample` | C113, the property fails: when the line search gives up, the final point can be worse than the starting point (the last trial point is kept). |
| `C3.Opt.backtrack_beta_counterexample` | C113, the property fails: a `beta` outside (0,1) is not rejected (the test is written with `&&`): code -2 is never reported. |
| `C3.Opt.backtrackBc_scaling_counterexample` | C113, the property fails: the box version returns `alpha` times the scaling of the direction that it used: the first step (scaling 1) is accepted, 1/4 is returned. |
| `C3.Opt.newton_diverges` | C115, the property fails: the loop is not bounded. With gradient `x^3-2x+2` and its derivative, started at 0, Newton's method alternates between 0 and 1 for ever. |
| `C3.Opt.boxDampNewton_boundary_counterexample` | C115, the property fails: the documented result `hess` is the factorised matrix, and for a constrained minimum with a gradient pointing out of the box the line search cannot succeed: minimizing `(x-1)^2` on `[-3,0]` from the minimum 0 reports code 1. |
| `C3.Opt.lsStrong_abort_counterexample` | With the default options the strong Wolfe search aborts on a strictly convex parabola: for `f(x) = 9.9995 x² - x` started at 0 along the negative gradient the first trial step 0.1 decreases the objective, but not sufficiently, and the assertion `f_prev < *newf` (optimization.c:1561), which sits inside `if (f_prev > *newf)`, fails. |
| `C3.Opt.lsStrong_gaveup_counterexample` | When the zoom gives up (interval shorter than 1e-20) the search reports success although the objective has increased, and the returned step length does not belong to the returned point: `f(x) = 10^25 x² - x` from 0. |
| `C3.Opt.lsWolfe_zero_actual` | With the maximum number of line search iterations set to 0 nothing is tried, nothing is written, and yet `info = 0` (success) is reported. |
| `C3.Opt.badPar_beta_actual` | The documented `info = -2` ("beta not within correct bounds") is never returned, whatever `beta` is: the test is written with `&&`. |
| `C3.Pc.paramGrad_stale_counterexample` | **C112** In an array that is not zero beforehand the entry after the nearest node keeps its old contents. |
| `C3.Pc.paramGrad_outside_counterexample` | **C112** Outside of the range the value is zero whatever the coefficients, but the gradient is not. |
| `C3.Pc.paramGrad2_counterexample` | **C112** The variant that also returns the value returns the node instead. |
| `C3.Pc.paramGrad2_actual` | **C112** What the variant returns: the location of the nearest node. |
| `C3.Pc.deriv_last_counterexample` | **C112** Values `1, 4, 7` at `0, 1, 2` (slope 3 everywhere): at the last node the result is `(7 - 3) / 1 = 4`. |
| `C3.Pc.aoptsAlloc_counterexample` | **C112** Options for a fixed grid: the lower bound is recorded as the last node, and the upper bound is not set. |
| `C3.Pc.approx_adapt_actual` | **C110** Adaptive approximation fails an assertion. |
| `C3.Pc.onezero_none_counterexample` | **C112** Free nodes, no zeros requested: both nodes are 0, whatever the bounds, and the function is zero in between. |
| `C3.Pc.onezero_lower_counterexample` | **C112** Free nodes, zeros at the lower bound and at 9/10: the value at 9/10 is one. |
| `C3.Pc.inner_grids_counterexample` | **C111** On different grids the inner product is not the integral of the product: the same function (constant one) on two grids has two different inner products with `4·1[x ≥ 1/2]`, 3/2 and 2. |
| `C3.Pc.inner_disjoint_actual` | **C111** The inner product of functions with separate ranges reads out of bounds instead of returning zero. |
| `C3.Pc.orthBasis_extra_counterexample` | **C112** More functions than nodes: the third function on two nodes is (almost) zero, and not orthogonal to the first. |
| `C3.Pc.eval_close_counterexample` | **C110** Nodes closer together than the tolerance: the value at the first node is the coefficient of the second. |
| `C3.Pc.prod_grids_actual` | **C111** The product of functions on different grids fails an assertion. |
| `C3.Pc.axpy_grids_counterexample` | **C111** On different grids the sum is wrong between the nodes: the cells of the union of the grids are not the cells of the summands. |
| `C3.Poly.tooBig_counterexample` | More coefficients to check than polynomials at the start: an entry before the block is read. |
| `C3.Poly.approxAdapt_many_counterexample` | More than 199 polynomials at the start: the projection fails, its return code is ignored, and whatever the function is the result is the zero function. |
| `C3.Poly.approxVec_table_counterexample` | 199 Legendre polynomials: the rule with 200 points is accepted, but the table of rules has 199 entries and is read past its end. |
| `C3.Poly.adaptLoop_cc_counterexample` | Clenshaw-Curtis with one polynomial at the start: the number of polynomials never grows, the loop does not end as long as the coefficient stays above the tolerance. |
| `C3.Poly.sum3up_twice_counterexample` | With one, two and three polynomials and `c = 2` the second coefficient of `z` is multiplied by 4 instead of 2. |
| `C3.Poly.sum3up_free_counterexample` | When both others have more polynomials than `z` the released block is used. |
| `C3.Poly.sum3up_alloc_counterexample` | After `sum3up` shrank the block a following addition writes beyond it. |
| `C3.Poly.axpy_map_counterexample` | The check of `axpy` compares type and bounds only: Hermite expansions with different means are added coefficient by coefficient. Here `x = t - 1` and `y = t` on the real line; the sum is `2 t` at every point instead of `2 t - 1`. |
| `C3.Poly.paramGrad2_counterexample` | With Kristoffel weighting the gradient is that of the weighted value, but the value returned beside it is the unweighted one: for the weighted constant `2 * 3` (basis polynomial constant 2) evaluation gives 3, the combined routine 6. |
| `C3.Poly.genorder_herm_actual` | The Hermite functions are scaled by the square root of the inverse of the standard deviation `std` of the options, so that their norm in the inner product of the library (the normal density of the options as weight) is `1/√std` instead of 1. |
| `C3.Poly.dderiv_counterexample` | The Chebyshev polynomial of order two on [0,1] is 8 x^2 - 8 x + 1; its second derivative comes out as 4 instead of 16. |
| `C3.Poly.chebDDerivEval_counterexample` | On `[0, 1]` (slope 2) the second derivative of `T_2(2x-1) = 8x² - 8x + 1` is 16 and the code returns 4. |
| `C3.Poly.orthPolyEval_counterexample` | The order-three polynomial of a recurrence with varying coefficients is computed wrongly (here the unnormalised Hermite recurrence `p_n = x p_{n-1} - (n-1) p_{n-2}`). |
| `C3.Poly.absmax_no_nodes_counterexample` | Without candidate points the first is read all the same. |
| `C3.Poly.absmax_small_counterexample` | A nonzero function whose norm is below the threshold: the largest absolute value is reported to be zero. |
| `C3.Poly.leg_max_counterexample` | The maximum of a Legendre quadratic is missed: for coefficients `0, 1, -1` on `[-1, 1]` the maximum is attained at `1/sqrt(15)`, but the code tries the ends and `1/sqrt(5)` only (the root of the linear derivative is computed without the factor `sqrt(3)`), and the value returned is too small. |
| `C3.Poly.linearUpdate_counterexample` | A constant function (one polynomial): the update with slope 1 leaves a constant, for all families with `c0 = l1 = 1`, here Chebyshev on [-1,1]. |
| `C3.Poly.integrateWeighted_cheb_counterexample` | C73 fails for Chebyshev expansions: the weighted integral of 1 is 1, but the weighted inner product of 1 with itself is π, so that mean and second moment (as used for variances) belong to different weights: the "variance" of the constant is `π - 1`. |
| `C3.Poly.normW_counterexample` | C74 fails for the weighted norm, which takes the square root twice: the norm of the constant 4 on an interval of length 1 is returned as 2. |
| `C3.Poly.sqNormGrad_herm_counterexample` | C75 fails for Hermite expansions with standard deviation 2: the derivative with respect to the second coefficient is 4, the entry added is 2. |
| `C3.Poly.sqNormGrad_cheb_counterexample` | C75 fails for Chebyshev expansions: the coefficients do not enter the result, so that the gradient at the zero function, which minimises the norm, is returned as 8. |
| `C3.Poly.paramGradInner_leg_counterexample` | C75 fails for Legendre expansions: on `[-1, 1]` the inner product of the function `t` with 1 is `2 t`, but its derivative is returned as 1. |
| `C3.Poly.rkhs_leg_counterexample` | C75 fails for Legendre expansions with decaying weights: the norm carries a factor twice the slope of the mapping that the gradient lacks. On `[-1, 1]`, with all weights 1: norm `2 t²`, gradient `2 t` in place of `4 t`. |
| `C3.Poly.prod_map_counterexample` | Hermite expansions for the normal distribution with mean 1: the function x - 1 times the constant 1 is, by the table, the function x: the product loses the mapping of its factors. |
| `C3.Poly.prod_type_counterexample` | The type of the second factor is not compared with that of the first: the constant 1 as a Legendre expansion times the Chebyshev polynomial of order two is, at the right end of the domain, the square root of five instead of one. |
| `C3.Poly.prod_small_counterexample` | Whatever the positive threshold, there are two constant functions with product one (as Chebyshev expansions) whose computed product is the zero function. |
| `C3.Poly.leg_linear_counterexample` | The root of a linear Legendre expansion is wrong: the code returns `-c0/c1` in the reference variable, but the first polynomial is `sqrt(3) x`. Here the function is `1 + sqrt(3) x` with its root at `-1/sqrt(3)`; the list returned is `[-1]`. |
| `C3.Poly.cheb_right_end_counterexample` | A linear Chebyshev expansion with its root at the right end of the domain: `x - 1` on `[-1, 1]`; no root is returned (the code compares with `1 - threshold`). |
| `C3.Poly.roots_complex_counterexample` | A function without real roots: `x^2 + d^2` with small positive `d`; the list contains the point `0`. |
| `C3.Poly.roots_zero_counterexample` | The zero function with three coefficients: the leading coefficient is divided by. |
| `C3.Poly.exToStd_counterexample` | The Hermite expansion `t` with mapping identity and bounds `[0, 1]`: the conversion yields the coefficient of another mapping. |
| `C3.Poly.std_end_counterexample` | A linear polynomial with its root at an end of the domain: no root is returned. |
| `C3.Poly.std_small_counterexample` | A polynomial with a small leading coefficient: `-4 + t x^2` with `t` below the threshold is taken for a constant; its root `2/sqrt(t)` in the domain `[0, 3/t]` is lost. |
| `C3.Prob.stdNormal_counterexample` | C88: in any dimension but zero the standard normal density cannot be built: the options are allocated with NULL pointers, the options for the variables are never stored in them, and the first one is dereferenced. |
| `C3.Prob.mvn_counterexample` | C88: hence neither can a normal density with given mean and covariance. |
| `C3.Prob.sample_counterexample` | C88: sampling from a Gaussian density without a transform dereferences NULL. |
| `C3.Prob.copy_invert_counterexample` | C87: the type of the matrix is not copied (nor set by `linear_transform_alloc`), so that inverting the copy of a transform that was not inverted before reads an uninitialised field. |
| `C3.Prob.alloc_invert_counterexample` | C87: a transform made by `linear_transform_alloc` with a matrix cannot be inverted: the type of its matrix is never set. |
| `C3.Prob.lt_upper_counterexample` | C87: nothing checks that a matrix marked as lower triangular is one. With an entry above the diagonal the inverse does not undo the transform: `(1,1)` is sent to `(2,1)` and back to `(2,1)`. |
| `C3.Prob.copy_serialize_counterexample` | C87: a copy of a transform cannot be serialized: the type of its matrix was not copied. |
| `C3.Prob.sobol_one_counterexample` | The code disagrees with C79 in one variable: for the total sensitivity it integrates the train over all of its variables, which the routine refuses with an assertion, so that the program is aborted. |
| `C3.Prob.sobol_constant_counterexample` | The sensitivities of a constant function are not defined: the code divides by its variance, 0. |
| `C3.Prob.interaction_order_counterexample` | Variables of an interaction have to be given in increasing order: otherwise the code indexes outside of the array of leaves. |
| `C3.Pw.approxAdapt_many_counterexample` | C122 fails for 200 or more polynomials per piece (`maxorder` above 198): the projection refuses the number of points, its return code is ignored, and the result is the zero function on one piece, whatever the function is. |
| `C3.Pw.approxAdapt_pts_counterexample` | A list of points set by the user makes the adaptive approximation fail its assertion; `piecewise_poly_approx1` alone honours it. |
| `C3.Jmp.locate_tol_diverges` | Finding: with a resolution that is zero (or negative) the recursion never ends on a function that is affine up to one jump: no depth suffices. `tol` is not checked. |
| `C3.Jmp.locate_narrow_counterexample` | Finding: a domain that is narrower than the resolution gets an edge at its midpoint although the function is constant. |
| `C3.Jmp.locate_few_counterexample` | Finding: with four subdomains the jump function of order five needs more points than there are; the search aborts by assertion for a constant function (and for every function whose lower orders agree in sign). |
| `C3.Jmp.locate_wide_counterexample` | Finding: the normalisation scales with the spacing to the power of minus the order, but is compared with the machine precision; a spacing of ten thousand aborts by assertion for a constant function, though the points are perfectly distinct. |
| `C3.Pw.matchNodes_counterexample` | C77 fails when the two domains differ: the loop runs past the end of the nodes of the shorter domain. |
| `C3.Pw.matchNodes_close_counterexample` | C77: two distinct nodes closer than the margin: the larger one disappears from the refinement, although it is a boundary of the second function. |
| `C3.Pw.matchNodes_lower_counterexample` | C77: with different left ends the result starts at the smaller one, but the left end of the other function is skipped, so its first boundary disappears from the refinement. |
| `C3.Pw.eval_outside_actual` | What the code does beyond the upper bound of a tree that is not a single leaf: an arbitrary constant is returned. |
| `C3.Pw.boundaries_counterexample` | C39 fails for a tree whose only branch is a leaf (as `piecewise_poly_splitn` with two bounds creates it): the expansion of the root is dereferenced, which is NULL. |
| `C3.Pw.checkDisc_diverges` | Negative numbers of derivatives other than -1: for two pieces that do not jump in any derivative (for example two copies of a polynomial) the recursion never ends. |
| `C3.Qr.Lu.quasimatrix_lu1d_counterexample` | C31 fails between the two thresholds: the call reports full rank, but the column has a remainder the size of the pivot, because the column of `L` was replaced by the constant 1 (pivot 3/2, threshold 1). |
| `C3.Quad.fejer2_counterexample` | The rule called Fejer 2 keeps the inner Clenshaw-Curtis weights without change: with three or more points the weights do not sum up to the length 2 of the interval, so not even constants are integrated exactly. |
| `C3.Quad.simpsonW_two_counterexample` | Two points: the weights of Simpson's rule do not even sum up to the length of the interval. |
| `C3.Quad.trapW_zero_counterexample` | No point at all: the first weight is written outside the block. |
| `C3.Reg.rkhs_hermite_counterexample` | C44 fails for the penalty with decaying weights and Hermite expansions: the cost is `t² / 2`, the gradient returned `2 t`. |
| `C3.Reg.rlsd2_counterexample` | C44 fails for the penalty on the second derivative: for `a + p₂` the cost does not depend on `a`, but the gradient with respect to `a` is returned as `6 √5` (the gradient is taken with respect to the coefficients of the second derivative). |
| `C3.Reg.regress1d_init_counterexample` | C45 fails for missing initial parameters: the code reads from a null pointer instead of returning NULL. |
| `C3.Round.round_eps_counterexample` | C105, disagreement: `truncated_svd` compares the sum of the *squares* of the dropped singular values with the tolerance itself, so the relative error of rounding is not bounded by `epsilon`: for every `epsilon > 0` there is a non-zero train, `epsilon·(e₀⊗e₀ + e₁⊗e₁)`, that loses half of its squared norm when rounded to relative accuracy `epsilon`. |
| `C3.Round.orthor_dim1_actual` | C105, disagreement: right-orthogonalising a train of dimension 1 returns `A·L` where `A = L·Q` is its only core: the result represents `L·f` instead of `f`. |
| `C3.Round.round_dim1_actual` | C105, disagreement: a train of dimension 1 cannot be rounded, the core after the first is read although there is none. |
| `C3.Serial.ope_standard_counterexample` | A STANDARD-type expansion is written but cannot be read back: the reader dereferences NULL. |
| `C3.Serial.pw_empty_node_counterexample` | An inner node without branches: the size computation reads `branches[0]`. |
| `C3.Sk.maxvol_square_actual` | A square matrix is never accepted: the pivots of LAPACK count from 1, so the last one is `r`, and the code reads (and writes) entry `r` of an array of `r` row numbers. |
| `C3.Sk.maxvol_singular_counterexample` | The column (1, 0) has rank one, but the search starts from row 1 because the pivot 1 is taken for row 1: the submatrix is (0), LAPACK's inversion fails and leaves the 0, and the call reports success with this row and the inverse (0). Row 0 is never tried. |
| `C3.Sk.skeleton_singular_counterexample` | The matrix with rows (1, 0) and (0, 0) has rank one and its first column spans it, but started with this column `skeleton` ends with code 2 ("did not converge") and keeps the second row and the second column, which are zero. `qr` needs to act on two vectors only: LAPACK's factor of (1, 0) and of (0, 0) is (1, 0). |
| `C3.Sl.alsRun_dim_one_actual` | In one dimension the initialisation of alternating least squares runs out of its arrays: `zz = dim-2` wraps around. |
| `C3.Sl.cv_many_folds_actual` | With more folds than data all folds but the last are empty and the last consists of all data: the error is that of a train learnt from no data. |
| `C3.Sl.cv_zero_folds_actual` | Zero folds divide by zero. |
| `C3.Sl.cv_weights_actual` | Sample weights are not moved with the data: in a fold the training data after the fold get the weights of the data shifted by the size of the fold. |
| `C3.Sl.cv_weights_counterexample` | **Counterexample.** Two data with weights 1 and 0, two folds: in the first fold the only training datum is datum 1, which should be ignored, but its squared residual enters with weight 1. |
| `C3.Sl.setupCases_four_actual` | With no parameter or four (all that there are) there are no cases. |
| `C3.Sl.gridAdd_unknown_actual` | Adding a parameter that is not in the table reads the table of types at `-1`. |
| `C3.Sl.gridOpt_empty_actual` | Without cases (none or four parameters, or an empty list of values) the NULL pointer is dereferenced. |
| `C3.Sl.gridOpt_four_counterexample` | All four parameters there are: the search ends with a NULL pointer. |
| `C3.Sl.guessLin_rank1_counterexample` | One dimension, data `(0, 0)` and `(1, 2)`, least squares weights `2` and `0`: the initial guess for rank one is documented as the mean of the data, which is `1`; the parameters are those of the constant zero, the intercept of the fit. |
| `C3.Sl.guessLin_mixed_counterexample` | Ranks 1, 1, 2, 1, all slopes one, intercept one (templates: `1/3 + x` in every dimension, constant one): the second core has one row, so its second function is given the parameters of the function below the first one, `1/3`, instead of the zero of the template. The guess is `1 + (1/3) (1/3 + x₂)`, neither the linear nor the constant fit. |
| `C3.Sl.guessLin_short_counterexample` | Functions with one parameter each, template `[1 + 3 x₀, 1]`, `[1; 1 + 4 x₁]`: the parameters of the template beyond the first are not skipped, so the second function of the first core is given the slope 3 of the first function instead of the constant 1. |
| `C3.Sl.hessvec_value_counterexample` | The return value is documented as the value of the train, but it is always zero. |
| `C3.Sl.hessvec_nonlinear_counterexample` | The second derivatives of the univariate functions with respect to their own parameters are left out: for the train that consists of the single function `θ ^ 2` at `θ = 3` (value 9, derivative 6) the second derivative is 2, and the product of the Hessian with the vector 1 is computed as 0. |
| `C3.Sl.slpSolve_actual` | The failure code of the optimizer is dropped: a run whose optimizer reports any code ends like one with code 0. |
| `C3.Sl.kristoffel_two_counterexample` | With the option set to 2 (any value but 0 and 1) the weights are activated and never deactivated: the functions of the train returned, and of the parameterised train, keep the flag, so every later evaluation is divided by the weights. |
| `C3.Sl.kristoffel_mixed_counterexample` | The label of a point is divided by the weights of the first function of each core, the basis of each function by its own weight. If two functions of a core have different weights (different numbers of coefficients) the loss that is minimised is not the weighted loss: the train that fits the datum exactly (it is 2, the label is 2) has the loss 1/4, with equal weights 0. |
| `C3.Sl.lsObj_some_actual` | Value and gradient of the least squares function: what is in the gradient buffer is divided by the number of data together with the new contribution. |
| `C3.Sl.lsObj_no_data_actual` | Without data the division is by zero. |
| `C3.Sl.objEval_weight_counterexample` | The weight of an objective function multiplies its value but not its gradient: with weight 2 the returned gradient of `2 t^2` at `t = 1` is 2, the derivative is 4. |
| `C3.Sl.objEval_order_counterexample` | With the regulariser before the least squares function its gradient is divided by the number of data: for two data and regularisation weight 1 the returned gradient at `t = 1` is 1/2, the derivative is 1. |
| `C3.Sl.regObj_stale_counterexample` | The regulariser ignores the parameters handed to it and uses the state left by an earlier evaluation: before any least squares evaluation it reports the value of the old train. |
| `C3.Sl.gradeval_dim_one_actual` | What `ft_param_gradeval` does for a function of one variable: the value is right but every gradient entry is multiplied by the value, because the workspace read as "product of the cores to the right" still holds the product of all cores. (parameterization.c:1145-1165) |
| `C3.Sl.gradeval_dim_one_counterexample` | **Counterexample.** The claim "the gradient buffer holds the derivative of the returned value" fails in one dimension: for the train consisting of the single function `θ ↦ θ` (a constant) at `θ = 3`, the value is 3 and the gradient entry is 3 instead of 1. |
| `C3.Sl.raRun_above_actual` | Initial ranks that are all at or above the maximal rank are never lowered: the first fit is returned, also above the maximal rank. |
| `C3.Sl.kick_last_core_actual` | The rank adaptation never sets the start rank of the columns of the last core; it is zero from the allocation of the options. So every function of the last core counts as new: the parameters of the rounded train are not used there, all of them become `v` (1e-4), whatever the ranks. |
| `C3.Sl.kick_last_core_counterexample` | **Counterexample.** Two variables, all ranks one, one parameter per function: after one round of the rank adaptation (ranks survive rounding and are raised to 2) the train of ranks 1, 2, 1 should contain the rounded train with parameters 5 and 7 in its leading blocks; the start ranks are `[1, 0]` and the 7 is lost. |
| `C3.Str.bite_string2_complete_counterexample` | C04 fails as stated: in "aab" the token "ab" occurs after the non-empty prefix "a" and is missed. |
| `C3.Str.strip_blank_ends_overread_counterexample` | An exactly sized buffer with a leading blank: the copy reads one byte past the allocation. |
| `C3.Str.strip_blank_ends_blank_counterexample` | A blank (or empty) string: the backward scan reads before the start of the string. |
| `C3.Str.strip_ends_duplicate_counterexample` | `strip_ends` keeps a trailing character too many when the string does not end with `right`: "(ab" becomes "abb". |
| `C3.Str.strip_ends_diverge_counterexample` | `strip_ends` never terminates on a string consisting of the left character only. |
| `C3.Tt.cd2tt_dim1_counterexample` | **C136** In dimension 1 the result declares first rank 2 and its only core keeps the terms apart: it is not a train of the vector `Σ_r A[e, r]` (evaluated as a train it would give the first term only). |
| `C3.Tt.ttDot_counterexample` | **C41** The inner product of two well-formed trains of the same shape can write out of bounds: `vec_kron` stores its result with the column count of the first factor as row length. |
| `C3.Tt.ttDot_exit_counterexample` | **C41** With the arguments exchanged the linear-algebra library refuses the call. |
| `C3.Tt.fullToTt_dim1_actual` | **C129** Disagreement: a tensor with one dimension and more than one value makes `full_to_tt` read past the end of the matrix it has just reduced to one entry. |
| `C3.Tt.fullToTt_eps_counterexample` | **C129** Disagreement with the documented relative error: `truncated_svd` compares the sum of the squares of the dropped singular values with the tolerance itself. For every `eps > 0` there is a non-zero tensor, `eps` times the identity matrix, that loses half of its squared norm when it is compressed with relative error `eps`. |
| `C3.Tt.ttelem_counterexample` | **C40** Element lookup of a well-formed train with different mode sizes returns a wrong value: here 1101 instead of 201. |
| `C3.Tt.ttelem_dim1_counterexample` | **C40** Element lookup of a train of dimension 1 reads out of bounds. |
| `C3.Tt.ttadd_dim1_counterexample` | **C40** The sum of trains of dimension 1 has a first rank of 2 and a core that is not the sum. |
| `C3.Tt.ttX_counterexample` | **C40** The coordinate train: the stored cores of the constant factors have size 1 in the middle instead of last, so the result does not have the shape it declares, although it was built without error. |
| `C3.Tt.ttRound_rank_counterexample` | **C130** Disagreement: a rank above the number of values to the right of it (which sums of trains produce) makes the triangular factor start before its array, whatever the factorisation routines return. |
| `C3.Tt.ttRound_dim1_counterexample` | **C130** Disagreement: in one dimension the only core is multiplied by its own singular value, so that rounding with tolerance zero changes the tensor: the value 2 becomes 4 or -4. |
| `C3.Tt.copy3_counterexample` | **C40** The transposed copy of a `1 x 1 x 2` tensor declares sizes `1,1,2` instead of `2,1,1`. |
| `C3.Tt.ttX_integrate_counterexample` | **C41** Quadrature of the coordinate train built by the library (`x₀` on a `2 x 3` grid with unit weights): the sum `3·(5+7) = 36` comes out as 12. |
| `C3.Xa.crossAdapt_diverges` | C108, disagreement: with `kickrank = 0` rank adaptation may never end: the rank is confirmed, is below its maximum, is "raised" by nothing, and the same cross approximation starts again. |
| `C3.Xa.cross_diverges` | C107, disagreement: `maxiter = 0` is not a limit of zero passes but no limit at all, and then a tolerance that is not positive makes the loop run for ever. |
| `C3.Xa.cross_tolerance_actual` | C107, disagreement with what the name of the tolerance suggests: no tolerance makes cross approximation accurate. With rank 1 the function `e₀ ⊗ e₀ + e₁ ⊗ e₁` is approximated without any complaint, and the result differs from it. |
| `C3.Xa.initHet_grid_counterexample` | C131, disagreement: with different ranks and no starting points given, the grid of dimension `i` gets only rank `i` points, but rank `i+1` are read from it: `[1,2,3,1]` reads behind the end of the array. |
| `C3.Xa.initCross_dim1_actual` | C131, disagreement: functions of one variable cannot be approximated through the interface. |

## 5. Testing the theorems against wrong programs

`seeded/LOG.jsonl` lists every seeded change: in a scratch copy a definition of the model is edited like a
realistic bug, the project is rebuilt, and the theorems that fail are recorded. Edits that no theorem noticed
led to tightened theorems, named in the log.
