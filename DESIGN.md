# Formal model of ROPTLIB: design

Source: `/repo` (whuang08/ROPTLIB, pinned commit, C++). The code was read as text; it was never
built or run. Everything below is a Lean 4 model in `lean/Verif`, written function by function
with file/line citations in the comment of every definition.

## Trusted base

* Lean 4.33.0 kernel. No axioms are added. Every property theorem depends on at most
  `propext`, `Classical.choice`, `Quot.sound` (checked with `#print axioms`).
* Mathlib (pre-installed) for ordered fields, reals, inner product spaces and matrices.
* The reading of the C++ text: the only tie between model and code is the citations.
* **Arithmetic.** `realdp` (double/float) is modelled by exact arithmetic in an arbitrary linearly
  ordered field or in ℝ, complex numbers by ℂ or a star ring. Rounding and overflow are not
  modelled. NaN and infinities are not modelled as values that propagate; an operation that would
  produce one (division by zero, square root of a negative number) is a distinct outcome (`none`)
  where the code can reach it. `integer` is modelled by `Nat`/`Int` without overflow. A theorem in
  exact arithmetic says nothing about the size of rounding errors.
* **External routines.** BLAS calls are modelled by their exact meaning. LAPACK factorisations (QR,
  SVD, Cholesky, LU, symmetric eigendecomposition, Schur, `tgsyl`) are parameters with their
  mathematical specification as a hypothesis; which of several valid factorisations is returned is
  left open, so the theorems hold for all of them.
* **Undefined behaviour** (null or freed buffer access, out-of-bounds access, uninitialised read,
  mod by zero, arrays of different sizes combined) is a distinct outcome in the models where the
  code can reach it.
* **Tangent spaces in solver models.** The tangent spaces of all iterates are represented by one real
  inner product space, a vector transport by a linear map of it (isometry where stated). This is the
  situation of the intrinsic representation, in which the solvers work by default.
* Not modelled: I/O and printing, timing (`getTickCount` is an oracle), MATLAB/Julia bindings, GPU
  code, random numbers (arbitrary values), threads (the library has none), the test drivers.

## Conventions

* `Verif/<Area>/…` holds the model and helper lemmas, `Verif/Props/…` the specifications, the
  property theorems (`Cnn_…`), the counterexamples (`Cnn_fails_…` and similar) and, beside each theorem,
  `example`s meeting its hypotheses.
* A theorem that proves only a part of its property has the suffix `_partial` or the property is
  listed as partial in `MANIFEST.json` with what is missing.
* Array loops are lists of writes executed in order (`Elem/Array.lean`: `writeAll`, `forN`,
  `forRange`), so that overlapping or missing writes are visible.
* Run loops are transition systems driven by an oracle (cost function, gradient, retraction, timing),
  and the theorems quantify over all oracles and all numbers of steps.

## Properties

| id | property | modelled | how proved | theorems in | status |
|----|----|----|----|----|----|
| C01 | Element storage is neither freed early, freed twice, nor leaked | heap of buffers + reference counts, objects with shape and pointer; one step per SmartSpace operation; UB outcome for dead buffers | invariant by induction over operation lists | `Props/Storage.lean` | partial |
| C02 | Assignment has deep-copy value semantics | same heap; abstract spec = map object → entries | refinement, step by step, lifted to all histories | `Props/Storage.lean` | partial |
| C03 | Assignment transfers the shape | same heap with Reshape | negation witness + `_partial` for pairs not sharing a buffer | `Props/Storage.lean` | partial |
| C04 | A mutating method changes only its receiver | same heap with accessor-based mutators and the two in-place writers | refinement for accessor-based; negation witness for HaddRankone/Conj | `Props/Storage.lean` | partial |
| C05 | Assigning a submatrix leaves the other entries alone | same heap, block write after whole-overwrite accessor | negation witness when shared, `_partial` when unshared | `Props/Storage.lean` | partial |
| C06 | Attached cached fields never outlive the data they were computed from | object with entries + field map, ghost "attached at" value | invariant by induction; negation witnesses for the methods that bypass removal | `Props/Fields.lean` | partial |
| C07 | Assignment transfers the attached fields exactly | field map merge as in CopyTo/CopyFieldsTo | equality of maps for all maps | `Props/Fields.lean` | partial |
| C08 | Compound assignment updates its left operand | by-value operator | negation | `Props/Storage.lean` | partial |
| C09 | Product elements partition one contiguous buffer | offset computation as fold | induction on the type list | `Props/Product.lean` | proved |
| C10 | Transpose is an involution with the right entries | column-major index arithmetic on functions | index lemmas, all sizes | `Props/Layout.lean` | proved |
| C11 | Submatrix extraction and assignment are inverse | column-major index arithmetic on functions | index lemmas, all sizes | `Props/Layout.lean` | proved |
| C12 | Haar wavelet transform is inverted by the inverse transform | loops of GetHaarFWT / inverse as recursion on levels | induction on levels | `Props/Haar.lean` | proved |
| C13 | A smooth line-search run respects its iteration limits and never writes its history arrays out of bounds | run loop as a transition system driven by an oracle | invariant by induction on steps | `Props/Run.lean`, `Props/TRRun.lean` | partial |
| C14 | Armijo line search: success implies sufficient decrease against the reference value | backtracking line search as a fuelled loop over an arbitrary oracle | loop invariant | `Props/LineSearch.lean` | proved |
| C15 | Armijo backtracking terminates and the step stays positive within its bounds | same | measure, explicit bound; witness | `Props/LineSearch.lean` | partial |
| C16 | Monotone line-search runs never increase the objective while line searches succeed | run of line-search steps with reference window | induction on the run | `Props/Run.lean` | partial |
| C17 | Wolfe line searches: success implies the (strong) Wolfe conditions | Wolfe and strong Wolfe searches (bracketing + zoom) as fuelled loops | loop invariants; witnesses | `Props/LineSearch.lean` | partial |
| C18 | Search directions handed to the line search are descent directions | search directions of RSD, RNewton, RCG, RBFGS, LRBFGS in an inner product space | algebra, induction over runs | `Props/Direction.lean`, `Props/QuasiNewton.lean`, `Props/LBFGS.lean` | partial |
| C19 | Trust-region radius stays within (minimum_Delta, maximum_Delta] while the run continues | trust-region run as a transition system with oracle | invariant induction | `Props/TRRun.lean` | partial |
| C20 | Trust-region iterations accept only steps that decrease the objective | same | invariant induction; witness | `Props/TRRun.lean`, `Props/TrustRegion.lean` | partial |
| C21 | Truncated CG steps stay in the trust region and decrease the model | truncated CG loop in a real inner product space | conjugacy induction | `Props/TrustRegion.lean` | proved |
| C22 | Newton-CG directions are descent directions | truncated CG of the Newton line-search solver | conjugacy induction; witness | `Props/TrustRegion.lean` | partial |
| C23 | The BFGS update keeps the approximation symmetric positive definite and satisfies the secant equation | quasi-Newton operators with transports | algebra + induction over histories | `Props/QuasiNewton.lean` | partial |
| C24 | The L-BFGS circular buffer holds exactly the most recent pairs in order | circular buffer with explicit indices | refinement to a bounded queue | `Props/LBFGS.lean` | proved |
| C25 | The L-BFGS two-loop recursion equals the explicit BFGS operator | two-loop recursion | induction on the buffer | `Props/LBFGS.lean` | proved |
| C26 | Running a solver object twice behaves like running a fresh one | solver objects with all members as state (`Solver/Object.lean`, `Solver/ObjectTR.lean`), buffers of LRBFGS | negation witnesses; noninterference for the cases where it holds (C118, C119) | `Props/LBFGS.lean`, `Props/Object.lean`, `Props/ObjectTR.lean` | partial |
| C27 | SR1 updates are symmetric and satisfy the secant equation | SR1 operator with transports | algebra + induction; witness | `Props/QuasiNewton.lean` | partial |
| C28 | Stopping tests mean what the documentation says | stopping criteria | decision logic; negation where documentation and code differ | `Props/Control.lean` | partial |
| C29 | Parameters set by name are stored faithfully | parameter maps | decision logic; negation | `Props/Control.lean` | partial |
| C30 | Proximal-gradient runs make progress or stop | proximal-gradient solvers with oracle | measure / invariant; livelock witness | `Props/ProxGrad.lean` | partial |
| C31 | The accelerated proximal-gradient safeguard iterates do not increase the objective | accelerated solver with safeguard | invariant; witness | `Props/ProxGrad.lean` | partial |
| C32 | The epsilon-subgradient loop terminates | semi-smooth Newton and ε-subgradient loops with oracle | measure; livelock witnesses | `Props/Subgrad.lean` | partial |
| C33 | Sphere operations stay on the manifold | sphere operations in a real inner product space | algebra, derivatives | `Props/Sphere.lean`, `Props/FirstOrder.lean` | partial |
| C34 | Sphere parallel transport is an isometry with exact inverse | sphere transports in a real inner product space | algebra | `Props/Sphere.lean` | proved |
| C35 | Stiefel projection is the orthogonal projection onto the tangent space | Stiefel projections as matrix formulas | matrix algebra | `Props/Stiefel.lean`, `Props/SPD.lean` | proved |
| C36 | Stiefel and Grassmann retractions return orthonormal matrices | Stiefel retractions with specified factorisations | matrix algebra | `Props/Stiefel.lean`, `Props/StiefelDiff.lean` | proved |
| C37 | Intrinsic and extrinsic tangent representations are inverse isometries | intrinsic coordinates (Householder / Cholesky), buffer loops write by write | matrix algebra, index lemmas | `Props/Intrinsic.lean`, `Props/Q2FIntr.lean`, `Props/SymFRIntr.lean`, `Props/SymFRIntrQ.lean`, `Props/CFixedRankIntr.lean`, `Props/CQ2FIntr.lean` | proved |
| C38 | The SPD second-order retraction never leaves the positive definite cone | SPD retractions | matrix algebra | `Props/SPD.lean` | proved |
| C39 | The SPD affine-invariant distance is a distance | SPD distance | negation; algebra for the rest | `Props/SPD.lean` | partial |
| C40 | SPD parallel translation is an isometry | SPD parallel translation | negation; algebra | `Props/SPD.lean` | partial |
| C41 | The locking-condition vector transport is isometric and locks | Householder representation of transports | algebra | `Props/Sphere.lean` | proved |
| C42 | Vector arithmetic helpers tolerate output aliasing | vector combinations with aliasing of result and operands | algebra; witness | `Props/Sphere.lean` | partial |
| C43 | Product manifold operations act componentwise | product manifolds: every operation as a fold over components | componentwise induction; witnesses | `Props/Multi.lean` | partial |
| C44 | Fixed-rank retraction keeps the rank | fixed-rank retractions | rank arguments; witnesses | `Props/FixedRank.lean`, `Props/Q2F.lean`, `Props/SymFRRetr.lean` | partial |
| C45 | Fixed-rank metric equals the embedded Frobenius metric and projection is orthogonal | embedded fixed-rank projection and metric | matrix algebra | `Props/FixedRank.lean` | proved |
| C46 | Inverse vector transport inverts vector transport | isometric transports | matrix algebra; witnesses | `Props/Stiefel.lean`, `Props/SPD.lean`, `Props/Q2FIntr.lean`, `Props/SymFRIntr.lean`, `Props/SymFRIntrQ.lean`, `Props/CFixedRankIntr.lean`, `Props/CQ2FIntr.lean` | partial |
| C47 | Cubic splines interpolate and are smooth | spline coefficient routines and evaluation | induction over rows; witnesses | `Props/Spline.lean` | partial |
| C48 | The tridiagonal solver solves the system it is given | tridiagonal and periodic solvers on arrays, with aliasing | induction over rows; witnesses | `Props/Spline.lean` | partial |
| C49 | Sparse-matrix handles are unique and refer to their own matrix | handle table of the sparse library | refinement to a finite map; UB witnesses | `Props/Sparse.lean` | proved |
| C50 | Sparse-dense products equal dense products | sparse triplets, products row by row | induction | `Props/Sparse.lean` | proved |
| C51 | Minimum-norm convex-hull points stay in the convex hull | weights x_i² of the convex-hull problem | algebra | `Props/Problems.lean`, `Props/Feasible.lean` | proved |
| C52 | Problem gradients and Hessians are exact | exact expansions of the cost functions along lines | algebra | `Props/Problems.lean` | proved |
| C53 | Soft thresholding is the proximal map | proximal mapping of the weighted l1 norm | case analysis | `Props/TangentProx.lean` | proved |
| C54 | Armijo search of the proximal-gradient solvers yields sufficient decrease | line search of the proximal-gradient solvers | loop invariant; witness | `Props/ProxGrad.lean` | partial |
| C55 | Nonlinear conjugate-gradient directions restart to steepest descent when conjugacy is lost | RCG direction with restart test | case analysis | `Props/Direction.lean` | proved |
| C56 | After a successful line search point, value and gradient belong to the accepted step | line searches with the evaluated point, value, slope as state | loop invariants; witnesses | `Props/LineSearch.lean` | partial |
| C57 | The initial step handed to a line search is positive | initial step rules | case analysis; witness | `Props/Control.lean` | partial |
| C58 | The stop callback receives the recorded history | history recording in the run loop | negation | `Props/Run.lean` | partial |
| C59 | Stop requests are honoured at every iteration | stop callback in line-search and trust-region runs | invariant; witness | `Props/Run.lean`, `Props/TRRun.lean` | partial |
| C60 | The line search of the subgradient solvers reports what it did | line search of the subgradient solvers | loop invariants | `Props/Subgrad.lean` | proved |
| C61 | Products that share a buffer behave as independent values | heap with product elements sharing one buffer | refinement to independent values | `Props/Product.lean` | proved |
| C62 | The differentiated retraction is the derivative of the retraction | DiffRetraction of every manifold against the retraction along lines | derivatives of matrix curves (`Problem/Curve.lean`), uniqueness of implicit derivatives; witnesses | `Props/Sphere.lean`, `Props/StiefelDiff.lean`, `Props/SPD.lean`, `Props/FixedRank.lean`, `Props/Q2F.lean`, `Props/SymFR.lean`, `Props/SymFRRetr.lean` | partial |
| C63 | The cotangent vector is the adjoint of the differentiated retraction | coTangentVector | adjoint identities | `Props/Sphere.lean`, `Props/Stiefel.lean` | partial |
| C64 | The Riemannian Hessian action is self-adjoint | EucHvToHv of every manifold | matrix algebra; witness | `Props/Sphere.lean`, `Props/Stiefel.lean`, `Props/SPD.lean`, `Props/FixedRank.lean`, `Props/Q2F.lean`, `Props/SymFR.lean` | partial |
| C65 | Transporting an operator on a factor of a product touches exactly that factor | Householder operator on a block of a product | index lemmas; OOB witness | `Props/SphereBlock.lean` | partial |
| C66 | The Riemannian gradient represents the differential | EucGradToGrad of every manifold | matrix algebra; witness | `Props/Stiefel.lean`, `Props/SPD.lean`, `Props/FixedRank.lean`, `Props/Q2F.lean`, `Props/SymFR.lean` | partial |
| C68 | The inverse polar retraction inverts the polar retraction | inverse polar retraction, Schur + tgsyl as specified | matrix algebra | `Props/StiefelDiff.lean` | proved |
| C69 | Splines with end slopes are interpolating and twice continuously differentiable | spline routines with end slopes | polynomial identities | `Props/Spline.lean` | proved |
| C70 | Evaluation of a uniform spline picks the right piece | uniform evaluation | floor arithmetic | `Props/Spline.lean` | proved |
| C71 | The open tridiagonal solver solves its system | open tridiagonal elimination | induction over rows | `Props/Spline.lean` | proved |
| C72 | The tangent-space proximal mapping returns the exact proximal direction | semi-smooth Newton for the tangent-space proximal map | optimality conditions; witnesses | `Props/TangentProx.lean` | partial |
| C73 | The inner conjugate gradient method solves the Newton system | inner CG loop | conjugacy induction | `Props/TangentProx.lean` | proved |
| C74 | Numerical derivatives approximate the derivatives | difference quotients of the problem class | Taylor bounds; witness | `Props/Problems.lean` | partial |
| C75 | Iterates stay on the manifold | runs of all solver families with an arbitrary retraction into a set | invariant induction | `Props/Feasible.lean` | proved |
| C76 | Two-factor fixed-rank geometry is the quotient of the embedded one | two-factor fixed-rank geometry | quotient identities | `Props/Q2F.lean` | proved |
| C77 | Retractions of the matrix manifolds leave the point with the given velocity | retractions along lines | derivatives of matrix curves at 0 | `Props/FirstOrder.lean`, `Props/SymFRFirst.lean` | proved |
| C78 | The reported dimension is the dimension of the tangent spaces | dimension formulas of the constructors; tangent spaces as submodules | rank-nullity, explicit linear equivalences; witness | `Props/Dims.lean`, `Props/CStiefelIntr.lean`, `Props/CFixedRankIntr.lean`, `Props/CQ2FIntr.lean` | partial |
| C79 | The stored scaling makes the transported direction as long as the search direction | stored beta of DiffRetraction for products | algebra; witness | `Props/Multi.lean` | partial |
| C80 | Symmetric fixed-rank geometry is a quotient geometry | three metrics on symmetric fixed-rank matrices, real and complex | quotient identities | `Props/SymFR.lean` | proved |
| C81 | The retraction of symmetric fixed-rank matrices is the spectral truncation | eigenvalue truncation in the retraction | nearest-matrix argument; OOB witness | `Props/SymFRRetr.lean`, `Props/SymFRFirst.lean` | partial |
| C82 | Vector transport by projection does not depend on the vector representation | transport by projection, intrinsic and extrinsic | matrix algebra; negations | `Props/SymFRIntr.lean`, `Props/CFixedRankIntr.lean` | partial |
| C83 | The Haar wavelet transform is unitary and its inverse inverts it | Haar wavelet loops of Others/wavelet on complex arrays | induction on levels, matrices | `Props/Wavelet.lean` | proved |
| C84 | Limited-memory SR1 approximation is the SR1 recursion on the remembered pairs | LRTRSR1 memory with flat arrays shifted in place, compact product | invariant over event lists; induction on the number of pairs | `Props/LRTRSR1.lean` | proved |
| C85 | The trial step of LRTRSR1 solves the trust-region subproblem | LRTRSR1 subproblem solver branch by branch | optimality conditions, concavity of the secular equation; witnesses | `Props/LRTRSR1Sub.lean` | partial |
| C86 | Dense element algebra computes the matrix formulas | Element.cpp arithmetic on flat arrays, BLAS by definition, fresh memory arbitrary | loop lemmas (disjoint footprints), then each formula entry by entry | `Props/Dense.lean` | proved |
| C87 | Dense operations reject operands that do not fit, otherwise return the documented result | the same operations with their assertions (`none`) | which operands are refused; witnesses of accepted wrong operands | `Props/Dense.lean` | partial |
| C88 | Geometry of the complex Stiefel manifold | CStiefel.cpp function by function; loops on flat arrays of real and imaginary parts | matrix algebra over the complex numbers, uniqueness of QR and polar factors, derivatives of the defining equations; footprints of the loops | `Props/CStiefel.lean`, `Props/CStiefelIntr.lean` | proved |
| C89 | Normal vectors, canonical Hessian and inverse retraction of the complex Stiefel manifold | the loops of ObtainNorVerIntr/Extr on memory with arbitrary content; the two gemm calls with a real receiver | exact condition on the memory; witnesses for all sizes | `Props/CStiefelIntr.lean` | partial |
| C90 | The sphere formulation of the minimum-norm subproblem has no spurious second-order points | SphereConvexHull's cost, gradient and Hessian (C52) with the sphere's conversion formulas | first-order condition gives complementary slackness, second-order condition along unused coordinates the dual inequality; convexity | `Props/Hull.lean` | proved |
| C91 | Search directions of the subgradient solvers descend for all sampled gradients | `GetSearchDir` as a loop over sampled gradients, subproblem/objective/retraction/transport arbitrary; `RGS::GetSearchDir` | variational inequality of the shortest vector; induction over the passes | `Props/SubDir.lean` | proved |
| C92 | Operators of the subgradient quasi-Newton solvers stay positive definite | `UpdateData` and the two-loop recursion of RBFGSSub, LRBFGSSub | invariants over runs, reuse of C23, C24, C25 | `Props/SubDir.lean` | proved |
| C93 | Without sufficient decrease the sampled hull improves | `Increasing` as a loop with the trial point and the point of the stored gradient kept apart | explicit decrease along the segment to the new gradient, counting; witness by induction over the bisection | `Props/SubDir.lean` | partial |
| C94 | Linear solves return the solution | `operator%`, `operator/`, `TriangleLinSol`, `SYL` around LAPACK contracts | uniqueness of solutions; transformation to Schur coordinates; positive definite case by a trace argument | `Props/MatFun.lean` | proved |
| C95 | Matrix exponential and logarithm, whatever was called before | `EigenDecomSym`, `ExpSym`, `LogSym`, `LUdecom` on an element with its fields, sequences of calls | coherence invariant by induction over the calls; spectral decompositions with equal exponentials agree; witness for the defect | `Props/MatFun.lean` | partial |
| C96 | GetOrth returns the nearest orthonormal matrix | `GetOrth` on any thin singular value decomposition | polar factor maximises the real inner product; uniqueness through the square root of the Gram matrix | `Props/MatFun.lean` | proved |
| C97 | Entrywise absolute value and square root | `GetAbs`, `GetSqrt` on the stored numbers | entrywise; witness for complex entries | `Props/MatFun.lean` | partial |
| C98 | Karcher mean of positive definite matrices | `f`, `EucGrad`, `EucHessianEta` of SPDKarcherMean with the fields they leave | derivative of matrix functions by divided differences (continuity first, then difference quotients in mixed eigenbases); algebra of relative matrices | `Props/Karcher.lean` | proved |
| C99 | Armijo runs reach the requested gradient norm | the line-search loop with iterates, searches and stopping test put together (`lsRun`) | accepted steps have a lower bound; nonmonotone decrease bound over the window of previous values by induction over the run; counterexample run on `2x²` | `Props/Converge.lean` | proved |
| C100 | Strong Wolfe runs satisfy Zoutendijk's condition | the same run with the strong Wolfe search | steps stay positive through zoom and extension; curvature condition and Lipschitz slope give the gain; sum along the list of iterates by induction | `Props/Zoutendijk.lean` | proved |
| C101 | Trust-region runs reach the requested gradient norm | the trust-region loop with arbitrary candidates, and with truncated conjugate gradients | two kinds of passes (gain, shrink), counting invariant relating their numbers through the radius | `Props/TRConverge.lean` | proved |
| C102 | The exact line search | `LinesearchExact`: outer secant iteration, inner backtracking, giving up, classification | case analysis of one pass, induction over both loops; curvature bounds give acceptance; concrete ray for the defect | `Props/ExactLS.lean` | partial |
| C103 | Which configurations give transports that fit together | constructors, setters, `SetParams`, and the branches of `VectorTransport`, `InverseVectorTransport`, `TranHInvTran` of all classes | classification of configurations by the selected functions; two explicit geometries in the plane refute the others; induction over calls | `Props/Dispatch.lean` | proved |
| C104 | The scaling of the locking condition | `Beta` of all classes, the secant vector | inner product expanded with the locking condition; one-dimensional step for the failure | `Props/Dispatch.lean` | proved |
| C105 | Decompositions attached to an element | `HHRDecom`, `QRDecom`, `HHRMtp`, `SVDDecom` with LAPACK as parameters | invariant over sequences of calls; loops writing memory; products of reflectors | `Props/Decomp.lean` | proved |
| C106 | Distribution of the random numbers | `genrandreal`, `genrandnormal`, `RandUnform`, `RandGaussian` on a sequence of numbers | Box-Muller by two substitutions and polar coordinates; product measures of blocks of two numbers | `Props/Random.lean` | partial |
| C107 | Random points lie on the manifold | `RandominManifold` of all manifolds | zeros of a nonzero polynomial are null (induction over variables); Gram determinants | `Props/RandomPoint.lean` | proved |
| C108 | Blind deconvolution: cost, gradient and Hessian belong together | `f`, `EucGrad`, `EucHessianEta` of CFRankQ2FBlindDecon2D, `GetFFT2D` | the transforms as matrices (wavelet adjoint from C83, symmetry of the Fourier kernel), adjoint identities, derivative of the squared positive part | `Props/BlindDecon.lean` | proved |
| C109 | Normal vectors of the fixed-rank manifold and their coordinates | `ObtainNorVerIntr`, `ObtainNorVerExtr` of FixedRankE with the stored decompositions of the factors | loops writing memory; the first r rows of the rotated matrix vanish exactly for normal vectors (invertible triangular block) | `Props/FixedRankNor.lean` | proved |
| C110 | Extreme eigenvalues of the Hessian | `MinMaxEigValHess`, `SphereTxRQ`, gradient and Hessian of `SphereTx` | decomposition along the point and its complement; eigenbasis for the error bound | `Props/EigHess.lean` | proved |
| C111 | What CheckGradHessian tests | the loop of `CheckGradHessian` | limits of difference quotients along the halved steps | `Props/EigHess.lean` | proved |
| C112 | LRBFGS runs reach the requested gradient norm | LRBFGS runs: the memory replayed over the past of the run (`Solver/LRRun.lean`), two-loop recursion and circular buffer of C25, the searches and the loop of C99/C100, the default initial step | invariant over the run: the pairs of the memory have curvature bounded below (cautious test away from critical points) and bounded length; bounds of the BFGS operator by induction over the pairs; then C99/C100 relative to this invariant | `Props/LRConverge.lean` | proved |
| C113 | The initial steps of a run do not die out | `InitialStepSize` as a function of the past of a run (`Solver/InitRule.lean`), with the safeguards | invariant over the run: the last step is at least the bound and satisfies the Armijo condition; short steps decrease the objective by almost their first order prediction, so interpolation predicts a step at least as long | `Props/InitStep.lean` | proved |
| C114 | RBFGS, RWRBFGS and RBroydenFamily runs reach the requested gradient norm | runs of the three solvers: the operator replayed over the past of the run (`Solver/QNRun.lean`) with the updates of C23, the searches and the loop of C99/C100, the initial step rules of C113 | trace of the inverse operator plus logarithm of the determinant of the operator (`Props/TraceDet.lean`) grows by a constant minus a quantity that is large when the direction is poor; objective plus a small multiple of it does not increase, so the operators and their inverses stay bounded along the run; then C99/C100 relative to this invariant | `Props/QNConverge.lean` | proved |
| C115 | The Fourier transform of elements inverts up to the number of entries | `GetFFT2D`/`FFT2D` as a call of FFTW's documented transform with exchanged dimensions (`Others/FFT.lean`) | index arithmetic for column-major positions; orthogonality of the roots of unity by the geometric sum | `Props/FFT.lean` | proved |
| C116 | Nonlinear conjugate gradient runs with the strong Wolfe search reach the requested gradient norm | `RCG::GetSearchDir` and `UpdateData` replayed over the past of the run (`Solver/CGRun.lean`), strong Wolfe search and loop of C100 | Fletcher-Reeves: slope over squared gradient stays in an interval and the squared length grows at most linearly; Dai-Yuan: squared length over squared slope grows at most linearly; the Zoutendijk sum then has terms at least a constant over the iteration number, which diverges | `Props/CGConverge.lean` | proved |
| C117 | RSD and RCG with their default initial steps reach the requested gradient norm on convex problems | `bbStep` (LSSM_BBSTEP with the list of previous steps and the safeguard) and the directions of RSD and RCG over the past of a run (`Solver/CGRun.lean`) | sigma times the old length is bounded by the new gradient through the condition number, the safeguards give descent, so the directions are gradient related; curvature of every pair is positive, so every quotient is a number, and C113 for arbitrary rules applies | `Props/BBConverge.lean` | proved |
| C118 | After SetProbX a used line-search solver behaves like a new one | the solver object with all its members as state and `Run` as a state transformer over arbitrary arithmetic (`Solver/Object.lean`) | noninterference: two objects that differ only in members not yet read stay so through every hook; after the first pass only counters, list lengths and unused members can differ (`Props/Object.lean`) | `Props/Object.lean` | proved |
| C119 | After SetProbX a used trust-region solver behaves like a new one | the trust-region object with all its members as state, including the whole truncated conjugate gradient loop, over arbitrary arithmetic (`Solver/ObjectTR.lean`) | noninterference as in C118; the stale gradient is related by a second relation between UpdateData and Acceptence (`Props/ObjectTR.lean`) | `Props/ObjectTR.lean` | proved |
| C120 | Trust-region Newton runs converge superlinearly near a nondegenerate minimiser | the trust-region loop with the truncated conjugate gradient method (`Solver/TRRun.lean`, `Solver/TrustRegion.lean`) | energy inequality and finite termination by Krylov invariants; superlinear decrease per pass; induction over the loop with a measure that interleaves boundary and interior steps (`Props/TRLocal.lean`) | `Props/TRLocal.lean` | proved |
| C121 | RNewton runs converge, and superlinearly when the inner solver is made to take two passes | RNewton as an instance of the line-search run (`Solver/NewtonRun.lean`), with `tCG_LS` from `Solver/TrustRegion.lean` | Krylov invariants for slope, orthogonality and residual of the inner loop; instance of the theorem on runs with default initial steps; induction over runs whose first trials are accepted (`Props/NewtonConverge.lean`, `Props/FirstTrial.lean`) | `Props/NewtonConverge.lean` | proved |
| C122 | The Matlab interface passes elements faithfully in both directions | Elements as values (numbers, shape, fields), Matlab structures and numeric arrays with the documented behaviour of mxCreateNumericArray, mxGetM, mxGetN; reads past the end as undefined behaviour | Induction over the list of fields; the failing cases for all sizes | `Props/Mex.lean` | partial |
| C123 | Keeping intermediate results in fields does not change what Matlab functions return | Evaluation of a Matlab function at a point, and writes which drop the fields | Invariant: every attached field is the conversion of the quantity it is named after at the current numbers; induction over the operations | `Props/Mex.lean` | proved |
| C124 | The interfaces build the solver and the manifold the user names | The dispatch on names, the parsing loops, strtok and the positions | Case analysis on names; induction over the list of factors and over the characters | `Props/Driver.lean` | partial |
| C125 | The Julia interface passes parameters and results faithfully | The list of parameter names with positions on both sides, the assignments to the result array in order, and the index computations in Julia | Equality of the two orders; the pieces of the array are consecutive, by induction over the pieces | `Props/Driver.lean` | partial |
| C126 | RTRNewton from an arbitrary start: a fixed number of iterations far away, then superlinear convergence | the run of C101 and C120 (`Solver/TRRun.lean`, `Solver/TrustRegion.lean`) | the run with a coarser stopping test is simulated by the run itself until the gradient is small (`Props/TRGlobalLocal.lean`), then C120 applies from that state with the radius bound of C101 | `Props/TRGlobalLocal.lean` | proved |
| C127 | Linear rate of the line-search solvers when the gradient dominates the distance to the least value | the run of C99, C113, C112, C117, C121 (`Solver/LSRun.lean` and the direction models) | the rate is carried as part of the invariant over the past of the run (`Props/LinearRate.lean`); gain from the Armijo condition and the step floor of C113 | `Props/LinearRate.lean` | proved |
| C128 | The proximal-gradient solver reaches its direction tolerance when its weight is large enough | the run of C30/C31/C54 (`Solver/ProxGrad.lean`) with the subproblem as the exact minimizer of the proximal model | sufficient decrease of the first trial, invariant over the reachable states, counting the gain (`Props/ProxConverge.lean`); sparse PCA on the circle as instance; witness for the floor | `Props/ProxConverge.lean` | proved |
| C129 | A proximal-gradient solver object given a new problem behaves like a new object | all members of a ManPG object, `Run`, `SetProbX` and the constructor (`Solver/ObjectPG.lean`), over arbitrary numbers | simulation between two objects over the passes of the loop; invariant of the kept members; witnesses over the rationals (`Props/ObjectPG.lean`) | `Props/ObjectPG.lean` | partial |
| C130 | A run depends on the geometry only, not on how points and tangent vectors are represented | the whole line-search run with all members and counters (`Solver/Object.lean`); Stiefel and Grassmann with matrices or with coordinates in the stored Householder frame (`Solver/ObjectMat.lean`) | relational invariant through every phase of the loop (`Props/Natural.lean`); correspondence of the manifolds from uniqueness of the qf factor, isometry of the coordinates (C36, C37) and equivariance of the gradient (`Props/NaturalMat.lean`) | `Props/Natural.lean`, `Props/NaturalMat.lean` | partial |
| C131 | Steepest descent and trust-region Newton reach the gradient tolerance on Stiefel and Grassmann | the retraction, the frames and the coordinates of `Solver/ObjectMat.lean` as geometry of the run models (`Solver/StiefelRun.lean`); problem functions of `Problem/Problems.lean` | second-order bound of the qf factor (norm of the triangular factor minus the identity), Taylor bound of the objective along the retraction with constants uniform over the manifold (`Props/StiefelSmooth.lean`), then the convergence theorems C113 and C101 (`Props/StiefelConverge.lean`) | `Props/StiefelSmooth.lean`, `Props/StiefelConverge.lean` | proved |
| C132 | The number MinMaxEigValHess reports approximates an eigenvalue of the Hessian | `MinMaxEigValHessian` as a trust-region Newton problem on the unit sphere of the tangent space with the guarded retraction (`Problem/EigRun.lean`) | expansion of the Rayleigh quotient along the exponential map; the step of the truncated conjugate gradient method is never shorter than a third of the radius, so the guard is not met; C101 with radii bounded below; C110 for the distance to an eigenvalue (`Props/EigRun.lean`) | `Props/EigRun.lean` | proved |
| C133 | What the self-tests of a manifold test | the Check functions as functions of the drawn vectors over arbitrary member functions, both branches of IsIntrApproach; base-class fallbacks; Sphere (set 2) and SphereTx as instances (`Manifold/Check.lean`) | every tangent vector is a draw; scaling by the own length is onto; difference quotients; C33, C34, C62, C63 for the spheres (`Props/Check.lean`) | `Props/Check.lean` | proved |
| C134 | Trust-region runs depend only on the geometry | `trRun` and the classes RTRSD, RTRNewton, RTRSR1 (`Solver/ObjectTR.lean`) with the operations of Stiefel and Grassmann in both representations and the Riemannian Hessian (`Solver/ObjectTRMat.lean`) | simulation relation through tCG_TR and the outer loop, induction on the passes; equivariance of gradient and Hessian by differentiation (`Props/NaturalTR.lean`, `Props/NaturalTRMat.lean`) | `Props/NaturalTR.lean`, `Props/NaturalTRMat.lean` | proved |
| C135 | Every line search sees the same function and its derivative, in every representation | `SolversSMLS::h` and `SolversSMLS::dh` as functions of the step (`Solver/ObjectRay.lean`), the searches of `Solver/LineSearch.lean` and `Solver/ExactLS.lean`, the environments of `Solver/ObjectMat.lean` | the derivative from C62 and the symmetry of xᵀG for functions of the subspace (along Cayley curves); equality of slopes by isometry of the coordinates and by the change of basis of the triangular factors (`Props/NaturalRay.lean`) | `Props/NaturalRay.lean` | proved |
| C136 | Runs on the positive definite matrices are affine invariant | the solvers of `Solver/Object.lean` and `Solver/ObjectTR.lean` with the operations of `SPDManifold` in both representations (`Solver/ObjectSPD.lean`, `Manifold/SPD.lean`), the Karcher mean problem (`Problem/Karcher.lean`) | the operations commute with the congruence, the gradient and the Hessian by uniqueness of derivatives along curves; then C130, C134 and C135. Triangular A multiply the Cholesky factors, so the coordinates are equal. Karcher mean: relative logarithms are conjugate by an orthogonal matrix (`Props/NaturalSPD.lean`) | `Props/NaturalSPD.lean` | proved |
| C137 | Runs on Stiefel and Grassmann do not depend on the basis of the ambient space | the solvers of `Solver/Object.lean` and `Solver/ObjectTR.lean` with the operations of `Stiefel` and `Grassmann` in both representations (`Solver/ObjectMat.lean`, `Solver/ObjectTRMat.lean`) | the operations commute with U: the qf factor by uniqueness of the QR decomposition with positive diagonal, the gradient and Hessian by uniqueness of derivatives; correspondences of environments are inverted and composed with those of C130 and C134 for intrinsic vectors (`Props/NaturalRot.lean`) | `Props/NaturalRot.lean` | proved |
| C138 | Runs on a product of manifolds depend on its factors only | the solvers of `Solver/Object.lean` and `Solver/ObjectTR.lean` with the operations of `MultiManifolds` (`Manifold/Multi.lean`), and Stiefel and Grassmann as factors with either flag (`Solver/ObjectProd.lean`) | the loops over types and powers are read per component by C43, the metric is a sum over the components, so correspondences of factors give a correspondence of environments in the sense of C130, C134 and C135 (`Props/NaturalProd.lean`) | `Props/NaturalProd.lean` | proved |
| C139 | What a caller reads after a run belongs to the returned point | All line searches of SolversSMLS (Verif.Solver.ObjectSearch) and the run loops of SolversSMLS and SolversSMTR on the members of the object, numbers of any kind. | Each search keeps the members of the current iterate and leaves f2 = f(x2) on every way out (induction over its loop); which ways out leave the gradient and the step of x2 is recorded by status. Invariant of the run loop: list of visited points whose values, norms and steps are the recorded ones. Negations by evaluation of concrete runs in the kernel. | `Props/Report.lean` | partial |
| C140 | Trial steps of the strong Wolfe search | LinesearchStrongWolfe and Zoom of Verif.Solver.ObjectSearch with numbers in an ordered field (no rounding). | Closed form of the choice of the trial step by max and min; induction over the passes of Zoom for the position of the step and for the sequence of trials in the first bracket. | `Props/Zoom.lean` | partial |
| C141 | The counters of a solver bound what a run has consulted | The solver objects of Verif.Solver.Object, ObjectSearch and ObjectTR, with the problem and the retraction as a parameter (Verif.Solver.Reads). | Along each function of the model a list of questions is constructed, one for each increment of a counter, such that the value is the same for all problems with the same answers; combinators for sequencing, induction over the passes. | `Props/Counts.lean` | proved |
| C142 | Order in which a solver calls the problem | As for C141. | The lists of C141 are built in an order that satisfies an inductive predicate; splitting a list at a question gives the statement about what was asked before. | `Props/Counts.lean` | proved |
| C143 | When operands that are the target itself or one of its fields are safe | `inplace` (read pointers taken first, fields deleted, copy on write, BLAS call) on the heap model of C01; `assignFrom` (merge and prune loops of `CopyTo`) on a store of field objects with deletion | invariant of the heap (reference count = number of live objects), case analysis on who still refers to the operand's buffer; induction over the merge and prune loops with the source object tracked | `Props/Alias.lean` | proved |
| C144 | What the accelerated proximal solver asks of the problem and what it reports | AManPG::Run and LinesearchArmijo on the members of the solver (Verif.Solver.ObjectAPG), with a log of the calls; the proximal subproblem is a parameter; y2, z2 and the timing are not members of the model because nothing reads them later | invariant over the passes of the loop relating the counters, the log and the members; induction over the backtracking; agreement of two environments on the log carried backwards through the loop | `Props/ObjectAPG.lean` | proved |
| C145 | The relative-change criterion ends AManPG when the safeguard takes effect | as for C144, with the stopping criterion of SolversNSM::IsStopped | symbolic execution of the pass: the safeguard copies the candidate, its value is evaluated again at the same point, the difference is a - a | `Props/ObjectAPG.lean` | proved |
| C146 | Adding a constant to the cost does not change a line-search or proximal run | Env.plus / Obj.plus over Solver/Object.lean, ObjectSearch.lean, ObjectPG.lean, ObjectAPG.lean | translation lemma for every function of the run, induction over the loops | `Props/Offset.lean` | proved |
| C147 | No solver configuration depends on a constant added to the cost | TREnv.plus over Solver/ObjectTR.lean | translation lemmas and induction; concrete runs for the negations | `Props/Offset.lean` | partial |
| C148 | The guarantees of a line search hold for what the solver keeps and records | Object.lean, ObjectSearch.lean (searches and run on members), LineSearch.lean (searches as functions of the step), related in ObjectRefine.lean | simulation relation between object and search state, induction over the loops; loop invariant that pre_funs holds the most recent recorded values | `Props/Refine.lean` | proved |
| C149 | The trust-region guarantees hold for the members a solver object keeps and returns | ObjectTR.lean (members), TrustRegion.lean and TRRun.lean (algorithm on tangent spaces), related in ObjectTRRefine.lean by a map that stores tangent vectors | simulation relation between object and loop state, induction over inner and outer loop; then C13, C20, C21 and C101 | `Props/TRRefine.lean` | proved |
| C150 | Initial steps lie between the inverse curvatures of the cost | Object.lean (initialStepSize, bbPair, bbPush, bbChoose, candidate, safeguard, advance), ObjectSearch.lean (armijo, swSearch, runWith). | The bounds of both quotients from Cauchy-Schwarz; induction over the run with the invariant that the members describe the last step (x1 the retraction of eta2 at x2, both gradients) and that the remembered values are within the bounds; a search that refuses other initial steps gives the same run. | `Props/BB.lean` | proved |
| C151 | A ManPG object returns a point that belongs to its value, gradient and history, every run ends, and with a large enough weight it ends below the tolerance | `pgRun` (`ManPG::Run` with `LinesearchArmijo` and `IsStopped`) on whole objects, Solver/ObjectPG.lean. | Invariant of the passes with an inductive history `Trail`; termination by the measure iterations left plus refinements left; convergence by an invariant on the gained amount. One concrete run for the metric taken at the other point. | `Props/PGRun.lean` | proved |
| C152 | Subgradient solver objects: what a run of RGS, RBFGSSub or LRBFGSSub returns, records and leaves behind | SolversNSMSubLS::Run with everything it calls, on the members of the object (Solver/ObjectSub.lean); arithmetic, problem, manifold, MinPNormConHull, Hv, UpdateData are arbitrary functions. The arrays gfs and Xs also as a small heap. Not modelled: counters, clock, printing. | Frame lemmas for direction and search, loop invariant for the members; simulation of LinesearchWolfeLipschitz by the search of C60; simulation between objects that differ in members written before they are read; induction on the iterations for the stall; heap invariant for the arrays; concrete runs on the line for the negations. | `Props/ObjectSub.lean` | partial |
| C153 | Cost, gradient and Hessian given as Julia functions are called correctly | juliaProblem::f, EucGrad, EucHessianEta with the blocks of memory shared between variables (Iface/Julia.lean). Not modelled: Julia's garbage collector and the fact that the arrays are not rooted. | Invariant over the sequence of calls (tidy memory, Tmp is one of those the functions return at the point); case analysis on the reply for the failures. | `Props/Julia.lean` | partial |
| C154 | The projective retraction of the two-factor form is the metric projection | FixedRankQ2F::ProjRetraction, CFixedRankQ2F::ProjRetraction on extrinsic vectors (Manifold/Q2FProj.lean); LAPACK by its specification. | Theorem of Eckart and Young (with uniqueness) for the decomposition that the QR and SVD factors give; the bound along rays by comparing with the simple retraction. | `Props/Q2FProj.lean` | proved |
| C155 | CheckParams tells legal parameter values from illegal ones | Verif/Solver/CheckParams.lean: the lines printed by every CheckParams function of the solvers with their conditions, the arrays of names indexed by enumeration values (out of bounds = undefined behaviour), the class chains, the default values | case analysis over the lines of each class for arbitrary values; composition with the termination theorems of the searches (C15, C54), the radius invariant (C19) and the SetParams theorem (C29) | `Props/CheckParams.lean` | partial |
| C156 | Interpolated trial steps minimise the interpolating polynomial | the formulas in Verif/Solver/Object.lean (cubicStep, clampStep, armijo, interpLoop) and Verif/Solver/ObjectSearch.lean (wBack) | the computed coefficients are those of the interpolating polynomial; the step is the root of its derivative with non-negative second derivative; the difference of two values of a cubic factors | `Props/Interpolate.lean` | proved |
| C157 | ManPG solves sparse PCA on the Stiefel manifold | Verif/Problem/SparsePCA.lean: StieSPCA::PreConditioner and FRankESparseApprox's weights, the block size of TangentSpaceProximalMap; the run is pgRun of Verif/Solver/ObjectPG.lean | polar factors differ from x + v by at most half the squared norm (eigenvalues of 1 + v'v); trace term via the Gram identity; strong convexity gives the variational inequality; the gain per iteration feeds the descent theorem of C151; existence of polar factor and minimiser by the spectral theorem and compactness | `Props/SparsePCA.lean` | proved |
| C158 | The default adaptive weights of ManPG stay at or below the supplied ones, and can fall so low that the cost rises | pgRun, pgPass, pgAda, pgBacktrack of Verif/Solver/ObjectPG.lean with the default parameters | invariant of the loop for the range; for the increases a closed form of the state after k full steps, by induction on k, and an explicit overshooting step | `Props/PGAdaptive.lean` | proved |
| C159 | A preconditioner given as a Matlab function stays symmetric and positive definite when the solver works in coordinates, except that SPD matrices need symmetric values and matrix representations are not projected | `mexProblem::PreConditioner` in `Verif/Iface/Precon.lean` with the conversions of `Verif/Manifold/Intrinsic.lean` | `ObtainIntr` of Stiefel averages the two triangles and that of Grassmann drops the upper block, so both are adjoint to `ObtainExtr` on all matrices; symmetry and positivity carry over through the adjoint. On SPD only one triangle is read, so the adjoint identity needs symmetric values; an explicit 2 by 2 matrix gives the negation | `Props/Precon.lean` | proved |
| C160 | The recorded series, and the copies a callback takes of them during the run, are values | `openSeries`, `record`, `runSeries` in `Verif/Solver/History.lean` on the heap of `Verif/Mem/Heap.lean` | refinement: invariant that the pointer is the memory of the series and the entries still to be stored are blank, so that a raw store is invisible to every object that shares the memory; explicit run for the negation | `Props/History.lean` | proved |
| C161 | ManPG with its backtracking ratio passed by name makes full steps or none | `pgRun` in `Verif/Solver/ObjectPG.lean`, `setParams` in `Verif/Solver/Control.lean` | the search with the ratio 0 accepts the first trial, gives up, or accepts the trial at the step 0; induction on the loop; explicit runs on the line | `Props/PGByName.lean` | proved |
| C162 | The time limit never ends a run early and holds up to two iterations when no other solver runs meanwhile; rejected steps and inner runs void it | `Verif/Solver/Clock.lean`: the global start time, tick counter, `pass`, `loop`, `run`, `subPass`, `subLoop`, `subRun` | invariants of the loops: the start time is that of the run (no inner runs) or of some later moment (any runs); modular arithmetic of the counter | `Props/Clock.lean` | proved |
| C163 | Several solvers on one problem object: whose Hessian is right | the flag UseHess, the field EGrad, Element::Field on a missing name with and without NDEBUG, SetProbX of all 16 classes, runs as strategies of requests (Problem/HessFlag.lean) | refinement by induction over requests and over the events of a program | `Props/HessFlag.lean` | proved |
| C164 | The verbosity level changes what is recorded and nothing else; after quiet runs the history is that of an earlier run | run loops with the switch for the history (Solver/Run.lean, Solver/TRRun.lean, Solver/ProxGrad.lean) | simulation between the loops with and without recording, by induction over passes; induction over sequences of runs | `Props/Quiet.lean` | proved |
| C165 | On a quadratic function the conjugate gradient solver with exact steps is the linear conjugate gradient method | The pass of the line-search loop for RCG on a quadratic: rcgDir, exact step, rcgUpdate (the definitions of C18 and C55) | Refinement to a separate textbook recursion; its orthogonality and conjugacy by strong induction; linear independence of orthogonal vectors bounds the number of passes | `Props/QuadCG.lean` | proved |
| C166 | A preconditioned conjugate gradient run on a quadratic function is finite | As for C165 with any preconditioner | The first two passes computed symbolically; the conjugacy of the two directions is (t - 1) times a positive number | `Props/QuadCG.lean` | partial |
| C167 | The inner solver of the trust-region methods ends within as many passes as there are dimensions | The inner loop tcg of C21 | The space spanned by the directions grows by one dimension per pass while the residual is orthogonal to it; the lengths of the inner iterates increase to that of the Newton step | `Props/TRQuad.lean` | proved |
| C168 | On a quadratic function the trust-region Newton solver never rejects a step | The outer loop of C19 and C20 with the inner loop of C21 on a problem with a quadratic cost | Taylor expansion of a quadratic; invariant over the reachable states | `Props/TRQuad.lean` | proved |
| C169 | RBFGS and RBroydenFamily with exact steps solve a quadratic in at most n passes and learn its inverse Hessian | The loop with exact steps around the existing models rbfgs and rbroyden, on the Euclidean space with a quadratic cost. | Invariant: on vectors orthogonal to all steps and gradient changes the operator is a multiple of the identity, it maps the residual to a multiple of the textbook direction, and it satisfies all earlier secant equations; one BFGS correction carries the invariant on. | `Props/QuadQN.lean` | proved |
| C170 | Far from the solution the cautious test turns RBFGS and RBroydenFamily into steepest descent | As for C169. | Induction over the passes: the quotient of the test is at most the largest curvature; the witness is computed with a lemma on two steepest descent passes. | `Props/QuadQN.lean` | proved |
| C171 | On a quadratic the SR1 operator learns the Hessian direction by direction, and then the next update near the solution divides by zero | The sequence of UpdateData calls of a trust-region run with arbitrary trial steps on a quadratic, counting the passes that change the operator. | The correction vector is orthogonal to every vector on which operator and Hessian agree; the kernel of their difference grows strictly with each change; induction over the list of passes. | `Props/SR1Quad.lean` | proved |
| C172 | On a quadratic the memory of LRBFGS does not matter, as long as it holds one pair | The loop with exact steps around the models of the circular buffer, the two-loop recursion and UpdateDataLRBFGS. | Invariant: the buffer holds pairs of the textbook method, the latest last; vectors orthogonal to the older pairs are only scaled, and the latest pair turns the scaled residual into the textbook direction. | `Props/QuadLQN.lean` | proved |
| C173 | The option useRand changes no result, only the number of Hessian actions | The object-level model of SolversSMTR with the useRand branches, and the initialisation of RNewton::tCG_LS with the option. | The two runs are compared pass by pass: the relation 'same object, k more Hessian actions' is preserved by trial, ratio, radius and acceptance. | `Props/UseRand.lean` | proved |
| C174 | RTRSD steps along the negative gradient, never farther than the gradient itself, and a positive Min_Inner_Iter ends it | tCG_TR with the identity as Hessian and preconditioner, around it SolversSMTR::Run. | The first pass of the inner loop is computed in closed form; the second starts from a zero residual. Runs by induction over passes. | `Props/RTRSD.lean` | proved |
| C175 | A second run of an LRTRSR1 object, and a run with vectors shorter than LengthSY, read memory that was never written | Which entries of S, Y, SS and SY have been written, Currentlength and beginidx, over runs of one object; every read of tCG_TR, UpdateDataLRTRSR1 and Acceptence from them. | An invariant over passes for the first run; counting of stored pairs for short vectors; the first read of the second run for the reuse. | `Props/LRTRSR1Store.lean` | proved |
| C176 | Speed on quadratics: RCG and the quasi-Newton solvers gain the square root of the condition number over RSD | As for C165, C169, C172; the RSD iteration with exact steps. | The residual is orthogonal to the Krylov space, so the iterate is optimal among polynomials of the Hessian; spectral decomposition; Chebyshev polynomials; an explicit zigzag run. | `Props/QuadRate.lean` | proved |
| C177 | Hessian actions per iteration of the Newton solvers grow with the square root of the condition number, not with the dimension | As for C21, C22. | The inner loops follow the textbook conjugate gradient method until they end; its residual falls by the Chebyshev rate of C176. With a preconditioner, in the coordinates of its square root. | `Props/InnerRate.lean` | proved |
| C178 | Number of iterations of RTRNewton on convex quadratics | As for C21 and C168. | A truncated step that ends on the boundary lowers the model by half its curvature at least (C120); C168 makes the model exact and the radius bounded below; a potential function adds up both kinds of iterations. | `Props/TRQuadRate.lean` | proved |
| C179 | Transposes and block assignments of arrays with several slices concern the first slice only | The loops of C10 and C11 on buffers that continue after the first slice. | Index arithmetic on the writes; a changed entry of the second slice as witness. | `Props/Slices.lean` | proved |
| C180 | The pivots of an LU decomposition fit in the memory reserved for them, except in a single precision mex file | LUdecom byte by byte: the reserved memory and the bytes getrf writes. | Index arithmetic; the last byte of the last pivot as witness. | `Props/Pivots.lean` | proved |
| C181 | The Cayley vector transports move along the step last retracted from the point, whatever step they are given | The four functions as operations on the fields attached to the point object, and sequences of calls. | Induction over the calls after the last retraction; the circle as counterexample for another step. | `Props/CayleyCache.lean` | proved |
| C182 | The convex hull subproblem accepts real vectors with one column and nothing else | f and EucGrad on elements with their stored dimensions, with the assertions of the element operators. | Induction over the vectors; arithmetic of lengths. | `Props/HullShape.lean` | proved |
| C183 | In line-search runs every Cayley transport is the one along the step between its two points | The two point objects with their fields, the direction and the step through the loop of Run. | Invariant: at the transports the fields of the first point are those of the retraction that gave the second. | `Props/CayleySearch.lean` | proved |
| C184 | The line printed at the end of a line-search run agrees with the getters unless the run met a non-finite value | The members printed by PrintFinalInfo on the object-level model of the line-search run. | Induction over the loop: at its head the two pairs of members agree, and a search changes neither gradient norm. | `Props/FinalLine.lean` | proved |
| C185 | Limited-memory SR1 runs with the Cayley transport keep their pairs tangent and their inner products valid | The two point objects with their fields and the list of stored pairs through the loop of Run with the overrides of LRTRSR1. | The retraction of a pass comes right before its transports (C181); the Cayley transport is orthogonal (C46); induction over the run. | `Props/CayleyTR.lean` | proved |
| C186 | The slope in the Wolfe line searches is the derivative along the retraction for every representation of vectors | The intrinsic branch of DiffCayleyRetraction with the Householder coordinates of C37. | The differentiated retraction is tangent at the retracted point, where the coordinates are an isometry; a rational point on the circle for the negation. | `Props/CayleyIntr.lean` | partial |

## Disagreements between code and properties

Each item is proved in Lean (a theorem about the model with a concrete witness or for all inputs);
the note of the property in `MANIFEST.json` names the theorems. The property is then `partial`: the
theorems listed under it are the negation and what remains true.

* **C01** — Proved for every history; the one exception (copying or reshaping an object after Delete()) is exhibited as undefined behaviour. Product elements are covered separately (C09).
* **C02** — Refinement to deep-copy values for every history without HaddRankone/Conj; false with them (witness).
* **C03** — False in general (witness), proved when the objects do not already share a buffer.
* **C04** — False for the in-place methods (witnesses), proved for all others.
* **C05** — False for shared receivers (witness), proved for unshared ones.
* **C06** — Proved for all histories of mutators built on the write accessors; false for Conj, HaddRankone, ScaledIdOPE, for writes through components and for assignment over component fields (proved).
* **C07** — Exact for all nested field maps; fields of components of the target survive (proved).
* **C08** — The property is false: proved that the left operand is never changed.
* **C13** — Proved for every environment when Min_Iteration <= Max_Iteration and OutputGap is nonzero; each missing precondition leads to undefined behaviour (witnesses).
* **C15** — Termination with an explicit bound; the lower bound on accepted steps is false as stated (witness) and proved with the slack the code leaves.
* **C16** — Proved for runs whose searches succeed; the last iterate of a failed search is not covered (witness).
* **C17** — Strong Wolfe proved; weak Wolfe false (two witnesses) with the part that holds.
* **C18** — Proved for RSD, for RCG with numeric candidates, for every RBFGS and LRBFGS run with nu > 0. A NaN candidate of RCG is not caught (proved that it occurs).
* **C19** — Proved when the initial radius is within the bounds; false otherwise (proved). Consecutive rejections are bounded.
* **C20** — Whole-solver theorem for the Newton trust-region solver; false in the accuracy branch (witness).
* **C22** — Descent proved for all symmetric Hessians. The second half (first step kept) is false: a step that converges in the first pass is replaced by the steepest-descent direction (proved).
* **C23** — Proved for nu > 0 and isometric transports, all dimensions and histories; with nu = 0 the update can divide by zero (witness).
* **C26** — The property is false: the second run of LRBFGS reads empty slots, former Barzilai-Borwein steps and the operators of RBFGS and RTRSR1 are kept, and a user's stopping function first gets the previous iterate (all proved). It is true for the other cases of the modelled solvers (C118, C119).
* **C27** — Symmetry always; secant equation except in the pass with iter == 1 (witness); division by zero near convergence (proved).
* **C28** — Two criteria differ from the documentation (proved).
* **C29** — False for the proximal-gradient solvers (proved for all values in [0,1)); proved for the others.
* **C30** — Proved for ManPG; the accelerated solver can loop for ever in single precision (proved).
* **C31** — Decrease between safeguard checks proved where the safeguard compares; short runs return the start (proved).
* **C32** — False in general: three livelocks and an uninitialised read (proved). Termination with an explicit bound otherwise.
* **C33** — Everything except the zero tangent vector, for which the exponential retraction of Sphere gives NaN (proved); SphereTx guards it (proved).
* **C39** — False in the code (the logarithm is missing): Dist(x,x) = sqrt(n) and not symmetric (proved). What remains (congruence invariance; the Euclidean distance is a metric) is proved.
* **C40** — False in the code: the result is always zero (proved). The factor computed by the code would give an isometry (proved).
* **C42** — True unless the result object is the first vector operand, in which case the wrong combination is returned (proved).
* **C43** — Componentwise for every operation, any number of components. False in three places (proved): an extrinsic product does not project intrinsic components, its retraction switches components to intrinsic, TranHInvTran with a separate result ignores its operand (the solvers never call it so).
* **C44** — False: at every point a tangent vector is retracted to the zero matrix (proved for all three geometries). Proved: the rank of the result is the rank of the new core.
* **C46** — Stiefel Cayley transport, SPD parallelisation; false for SPD parallel translation and for the extrinsic two-factor fixed-rank transport (both proved).
* **C47** — Proved for the routines with end slopes and for the uniform evaluation. False in the code for the periodic routines (overlapping work arrays, C47_periodic_fails; correct with separate arrays) and for the non-uniform evaluation when the first break is not 0 (C47_eval_shifted_fails).
* **C48** — Open system proved. Periodic system: proved for non-overlapping arrays and outcomes without NaN; the callers pass overlapping arrays and a zero pivot is reported as success.
* **C54** — Success, failure and termination proved; the accuracy slack lets the objective increase by a small amount (witness).
* **C56** — The Armijo and strong Wolfe success theorems include that point, value and slope belong to the accepted step; false for weak Wolfe and for failures.
* **C57** — Proved for finite results; a NaN candidate passes the safeguard (proved).
* **C58** — The property is false: proved that the callback always gets the stale length.
* **C59** — True for line-search runs, false for trust-region runs while candidates are rejected.
* **C62** — Sphere exponential map (any direction), Stiefel qf (any direction), polar and Cayley (same-direction case, the only one implemented), SPD second-order, two-factor fixed rank (any direction), embedded fixed rank (same direction, both outer components nonzero; NaN otherwise, proved), symmetric fixed rank with extrinsic vectors (any direction). With intrinsic vectors the symmetric fixed-rank code differentiates a different retraction (proved).
* **C63** — Sphere exponential map, Stiefel qf, Grassmann. Polar and Cayley cotangent vectors are not implemented by the code.
* **C64** — All fixed-rank geometries (symmetric ones with the three metrics), SPD, Sphere, Stiefel (Euclidean metric), Grassmann proved. For the canonical metric the code returns a non-tangent vector (proved).
* **C65** — Left factor proved; right factor of the sphere is out of bounds for every proper factor (proved).
* **C66** — Stiefel (both metrics), Grassmann, both fixed-rank geometries for every Euclidean gradient, symmetric fixed rank for gradients of functions of the represented matrix; SPD only when the Euclidean gradient is symmetric (failure proved otherwise).
* **C72** — Exact minimiser proved at a zero residual, for any adjoint pair and for the Stiefel manifold; loop bounds proved. After an early stop the direction and the warm start do not belong together (proved). Convergence of the Newton iteration is not proved.
* **C74** — Exact arithmetic. The Hessian bound holds when both gradients are numerical; with the mixed call of NumGradHess on a problem that overrides EucGrad it is wrong (proved).
* **C78** — False for real two-factor fixed-rank manifolds (negation proved: too large by the square of the rank; the complex one is right).
* **C79** — Proved for the formula of the single manifolds. False for products (proved): the length at the new point is measured with the metric of the old point.
* **C81** — Factorisations by their specification. False when the matrix has fewer than 2p rows: the code reads outside the eigenvalue array (proved).
* **C82** — False in the code (negation proved for two metrics); proved when the vector is tangent at both points.
* **C85** — False in the code: the hard case uses I + P P^T instead of I - P P^T (uphill step, or step outside the region), combines arrays of different sizes with two or more pairs, and gradients shorter than 1e-5 are treated as zero when the length of the step is tested. Proved: global optimality of interior and boundary steps when nothing is dropped as small, monotone convergence of the scalar iteration from the left, the correct hard cases.
* **C87** — False in the code: sums and inner products compare only the number of stored values (a 2x3 plus a 3x2 matrix, a real plus a complex element); alpha A B + beta C compares only the number of entries of the receiver; rank-one updates with a real factor compute something else for complex elements, with a complex factor they do not conjugate; the real and imaginary parts of a complex element are packed into half of an uninitialised array; a multiple of the identity leaves complex square matrices unchanged; products ignore all slices but the first. What is checked is proved.
* **C89** — False in the code: ObtainNorVerExtr leaves the imaginary parts of the diagonal uninitialised, so the result depends on the memory and is normal only if it contained zeros (proved for every point and coordinates); the canonical Hessian and InvPolarRetraction write a complex p x p product into a real p x p array (proved for all sizes). Proved: coordinates are recovered whatever the memory contained, and the isometry.
* **C93** — Proved whenever the inner search succeeds, and that it succeeds for functions convex along rays. False in general: the comparison value uses the full step Eps/|eta1| instead of the trial step, so the bisection can leave the interval of increase (proved for a Lipschitz function on the line, any number of samples); after ten passes the stored gradient belongs to the last but one trial point but is transported from the last.
* **C95** — Proved for symmetric matrices and for sequences that use one triangle. False otherwise: the cached decomposition is reused for the other triangle argument (proved). LogSym of a matrix that is not positive definite returns the matrix itself (proved).
* **C97** — Proved for real elements. For complex elements the functions act on real and imaginary parts separately (negation proved), so they are right only for nonnegative real entries.
* **C102** — False in the code: when an inner search gives up, the value is compared with f1 + LS_alpha*step*|gf1| (an increase) instead of the slope, so a step can be reported as success although the objective grew (proved). True when no inner search gives up, in particular along strongly convex rays with bounded curvature.
* **C106** — False in the code for RandGaussian: it computes (z + mean) * variance, i.e. mean*variance and variance squared. The documented distribution holds exactly for variance one, or variance and mean zero (C106_documented_iff, both directions). The numbers of rand() are modelled as a sequence of reals, the constant as 2 pi.
* **C122** — Proved for fields that are matrices with names below 30 bytes other than "main". False for attached fields with a third dimension of two or more: mxGetN already contains the third dimension and it is multiplied in again, so the copy reads past the end (C122_tensor_fields_overrun). A real array returned for a complex element is also read past its end (C122_real_result_overruns).
* **C124** — False in three respects, each proved: "FixedRankQ2F" gives FixedRankE; in Julia the default parameter set (-1) takes over the set of the previous factor; unknown manifolds are called through the null pointer before the test (both interfaces). Everything else is proved.
* **C125** — Proved when the user passes a start. With an empty start (the C++ side then chooses a random one) the Julia side takes the array apart with length zero and returns garbage: C125_no_start_garbled. The complex branch of the Julia function is not modelled (it uses a type that no longer exists).
* **C129** — The title is false in the code (negations proved); proved for the regular variant, successful searches and equal sizes. The subproblem solver is a parameter; that it reads as many entries of the dual vector as the normal dimension (Stiefel::ObtainNorVerExtr) is a hypothesis.
* **C130** — The title is false in the code for the solvers that transport vectors on Grassmann with extrinsic vectors (C130_grassmann_transport: the projection transport distinguishes bases of one subspace). Armijo search only; the Barzilai-Borwein initial step needs the transport. The manifold instances use exact real arithmetic and take the Householder factorisation as given; f is a function of the subspace and G its gradient.
* **C139** — False in three places, each with a concrete run on the line and default parameters: a strong Wolfe search that gives up leaves the gradient of an earlier point, or the empty vector set by SetProbX (10^12 x^2 from 1); a weak Wolfe search that doubles its step back to the initial length reports success with the gradient of half the step (4x^4-3x^2-x from 0); trust-region runs record rejected candidates.
* **C140** — Proved: trials are strictly inside the bracket, brackets shrink by max(LS_ratio2, 1 - LS_ratio1), the step left by Zoom is strictly inside its first bracket, and on ascending brackets the trial is the safeguarded minimizer. False: on a descending bracket the trial is always lo + LS_ratio2 (hi - lo) and in the first bracket (value at 0 taken as the greatest number) always LS_ratio1 times the step, whatever the values; hence a search fails after ten evaluations if the steps LS_ratio1^k t, k <= 9, do not decrease enough, although acceptable steps exist (every parabola c/2 x^2 with c > 2*10^9 from 1, initial step 1).
* **C147** — False in the code: the trust-region acceptance test |f1-f2|/(|f1|+1) < sqrt(eps) accepts steps with a poor ratio once the constant is large, and SM_FUN_REL divides by |f|; both negations are proved with runs. The trust-region solvers are invariant as long as that rounding test gives the same answers.
* **C152** — Members, bounds, search, slope, descent and the equality of runs after SetProbX (with Eps, Del, the operator and ndir1 restored) are proved for all problems. False in the code: GetSearchDir returns without computing ndir1 when the shortest vector is at most Del, so the stopping test and the reduction of Eps and Del use an old or uninitialised value and a run at a stationary point makes Max_Iteration zero steps (C152_stalls, C152_uninitialised_length); Eps and Del keep the reduced values (C152_radii_matter); a second Run of LRBFGSSub with stored pairs reads pairs never written (C152_lrbfgssub_second_run); SetProbX after Run loses the arrays (C152_arrays counts them); dimension + NumExtraGF = 1 computes no direction; the last entry of dirSeries is never written.
* **C153** — Values and Tmp are proved for all functions and all sequences. False in the code: the result of the call is not examined, so a cost that throws or returns another type gives undefined behaviour (C153_cost_fails, an equivalence); the length of the Hessian's result is compared with the argument but the copy reads as many entries as the result has (C153_hessian_overread); the data are handed over without a copy, so a function that writes to its argument changes every variable that shares the memory (C153_in_place).
* **C155** — partial: the code violates the statement for enumeration parameters (C155_defined, C155_never_no), useRand of RNewton (C155_newton_useRand), the initial radius (C155_radius_gap), the constants of the subgradient line search (C155_sub_gap) and parameters of the proximal-gradient solvers set by a map (C155_prox_set); the rest is proved. NaN values are not modelled.
* **C166** — False in the code: RCG.cpp:142-146 combines -gf2 instead of -Pgf2 with the old direction. Proved: the negation for all multiples of the identity, with a witness on the plane, the defect of conjugacy, and the case of the inverse Hessian.
* **C186** — Proved: with matrices the value is the derivative (C62), and the coordinates at the new point would give it; the negation with the coordinates the code takes. The default parameter set of the Cayley retraction uses matrices.

Further defects that are proved beside `proved` properties: copying a `SparseMatrix` leads to a double
destruction (C49); inserting a diagonal entry of a Hermitian sparse
matrix is undefined (C50); the Hessian of the sparsest-vector problem returns its argument (C52);
Householder reflectors and Lie scalings of zero vectors give NaN (C41); constructing a second solver on a problem
between construction and `Run` of a Newton solver spoils its Hessians (C163); the cautious test of the quasi-Newton solvers stops updates on quadratics (C170); the SR1
update divides by zero (C171); a positive `Min_Inner_Iter` ends RTRSD with a division of zero by zero (C174); `LRTRSR1` keeps
`Currentlength` between runs while its buffers are renewed, and fails with more stored pairs than coordinates (C175).

Read but not proved (no theorem): `AlphaABaddBetaThis` tests `A` twice for complexness; `GetTranspose`
keeps only the first slice of a 3-D array; 
`x = x.Field("a")` can free the operand during the assignment; `Stiefel::DiffCayleyRetraction` builds intrinsic
coordinates at the wrong point.

## What is modelled of the code

| source | modelled | not modelled |
|----|----|----|
| Manifolds/SmartSpace, Element (storage, fields, layout) | allocation, sharing, copy-on-write, fields, shapes, sub-blocks, concatenation, transposes, arithmetic, Haar transform | printing, random fills, most LAPACK wrappers (specified), sparse conversion |
| Manifolds/ProductElement, MultiManifolds | layout, sharing, every geometric operation, dimensions | normal coordinates of products |
| Manifolds/Sphere, SphereTx, Euclidean | all geometry used by the solvers, random points | rounding of random numbers |
| Manifolds/Stiefel, Grassmann, CStiefel | projections, metrics, retractions (real: four, complex: two), transports, intrinsic and (complex) normal coordinates, gradients, Hessians | CStiefel canonical Hessian beyond its memory defect |
| Manifolds/SPDManifold | both metrics, retractions, transports, intrinsic coordinates, gradients, Hessians, distance | cotangent vectors (not implemented by the code) |
| Manifolds/FixedRankE, FixedRankQ2F, CFixedRankQ2F, SymFixedRankQ, CSymFixedRankQ | metrics, projections, lifts, retractions, transports, intrinsic coordinates (symmetric and two-factor, real and complex), gradients, Hessians | normal coordinates of FixedRankE |
| Solvers/SolversSM, SolversSMLS, SolversSMTR, SolversNSMPGLS, SolversNSM | run loops, line searches, initial steps, stopping, radius update | printing, debug checks |
| Solvers/RSD, RNewton, RCG, RBFGS, RBroyden, RWRBFGS, LRBFGS, RTRSD, RTRNewton, RTRSR1, LRTRSR1 | directions, operators, memory, subproblem solvers | — (the option `useRand` is modelled and shown to be without effect, C173) |
| Solvers/ManPG, AManPG, IRPG, IARPG, RBFGSSub, LRBFGSSub, RGS | loops, safeguards, step rules, line search, search directions, operators of the subgradient solvers | convergence of the inner trust-region solver of the minimum-norm subproblem |
| Problems/* | costs, gradients, Hessians, numerical derivatives, proximal maps, Karcher mean, blind deconvolution | dead code (SFRQLyapunov::LinearCG) |
| Others/Spline, SparseBLAS wrapper, wavelet, MinPNormConHull, randgen | splines, tables and products, Haar wavelets, convex-hull weights, normal random numbers | ForDebug, Timer, random numbers, FFTW wrappers |

## Mutation testing

`seeded/LOG.jsonl` has one line per wrong program tried: the definition edited in a scratch copy, the
edit, the claim it breaks, the theorems that failed and the theorems tightened as a result. A mutant
that survived was either harmless for the claim (the `claim` field says so) or led to a stronger theorem, in
which case a later line repeats the edit and names the tightened theorem.
