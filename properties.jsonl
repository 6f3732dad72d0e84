{"id": "C01", "title": "Element storage is neither freed early, freed twice, nor leaked", "statement": "For every finite history of creating, copying, assigning, reading, writing and destroying array objects, every access hits a live buffer, every buffer's reference count equals the number of objects that currently refer to it, no buffer is released twice, and once all objects have been destroyed no buffer remains allocated.", "quantifier": "all finite sequences of create/assign/read/write-access/zero/destroy operations over any number of objects of any shapes", "why_tests_cant": "A test runs one history; the sharing graph and reference counts depend on the whole history of aliasing assignments.", "anchors": ["Manifolds/SmartSpace.cpp: NewMemoryOnWrite, CopyOnWrite, CopyTo, ~SmartSpace", "Manifolds/SmartSpace.cpp: Delete"]}
{"id": "C02", "title": "Assignment has deep-copy value semantics", "statement": "Although assignment shares storage, the observable contents of every object after any history of assignments and writes through the public write accessors are exactly what they would be if every assignment made an eager deep copy.", "quantifier": "all histories of assign / partial-write / whole-overwrite / read operations, all lengths, all values", "why_tests_cant": "Lazy copying only shows a wrong value for particular interleavings of copies and writes; tests sample a few.", "anchors": ["Manifolds/SmartSpace.cpp: CopyTo, CopyOnWrite, NewMemoryOnWrite, ObtainWritePartialData, ObtainWriteEntireData", "Manifolds/Element.h: operator="]}
{"id": "C03", "title": "Assignment transfers the shape", "statement": "After y := x the shape (dimensions) of y equals the shape of x, for every pair of objects in any reachable state.", "quantifier": "all reachable pairs of objects, including pairs already sharing a buffer", "why_tests_cant": "The failing case needs two objects that share a buffer but have been reshaped differently, which ordinary tests never set up.", "anchors": ["Manifolds/SmartSpace.cpp: CopyTo (line 88 early return)", "Manifolds/Element.cpp: Reshape, CopyTo"]}
{"id": "C04", "title": "A mutating method changes only its receiver", "statement": "Calling a mutating array method on one object never changes the entries of a different object, whatever copies were made before.", "quantifier": "all reachable states, all pairs of distinct objects, all mutating methods", "why_tests_cant": "Depends on hidden sharing produced by earlier copies; a fresh object in a test never shares.", "anchors": ["Manifolds/Element.cpp: HaddRankone, Conj, AlphaXaddThis, ScalarTimesThis, SubmatrixAssignment", "Manifolds/Manifold.cpp: HaddScaledRank1OPE"]}
{"id": "C05", "title": "Assigning a submatrix leaves the other entries alone", "statement": "After X.SubmatrixAssignment(r0,r1,c0,c1,M) the block equals M and every entry outside the block keeps its previous value.", "quantifier": "all matrices, all blocks, all sharing states of X", "why_tests_cant": "Only fails when X shares storage with another object; unit tests use unshared matrices.", "anchors": ["Manifolds/Element.cpp: SubmatrixAssignment, GetSubmatrix"]}
{"id": "C06", "title": "Attached cached fields never outlive the data they were computed from", "statement": "After any mutation of an object's entries, a cached field attached before the mutation is no longer visible; hence a visible field was attached to exactly the current entries.", "quantifier": "all histories of field attachment and mutation", "why_tests_cant": "A stale cache yields a plausible but wrong number only for particular call orders.", "anchors": ["Manifolds/Element.cpp: AddToFields, Field, RemoveAllFromFields, ObtainWriteEntireData, ObtainWritePartialData, CopyOnWrite, Conj, HaddRankone, ScaledIdOPE, Reshape"]}
{"id": "C07", "title": "Assignment transfers the attached fields exactly", "statement": "After y := x, y has exactly the attached fields of x (same names, same contents), and fields of x are unchanged.", "quantifier": "all field maps on both sides", "why_tests_cant": "The merge walks two maps; a test covers one combination of names.", "anchors": ["Manifolds/Element.cpp: CopyTo, CopyFieldsTo"]}
{"id": "C08", "title": "Compound assignment updates its left operand", "statement": "After x += y (x -= y), x holds the entrywise sum (difference) of the old x and y.", "quantifier": "all arrays and values", "why_tests_cant": "Universal statement about an operator's side effect; the library itself never uses the broken form so no test notices.", "anchors": ["Manifolds/Element.cpp: operator+=, operator-="]}
{"id": "C09", "title": "Product elements partition one contiguous buffer", "statement": "The components of a product element occupy consecutive, pairwise disjoint slices covering the whole buffer, so writing one component changes exactly that slice and reading all components in order returns the whole buffer.", "quantifier": "all numbers of types, all power intervals, all component lengths", "why_tests_cant": "Needs all type/power layouts, not one fixture.", "anchors": ["Manifolds/Element.cpp: ResetMultiElementsParams, GetElement"]}
{"id": "C10", "title": "Transpose is an involution with the right entries", "statement": "GetTranspose returns a matrix whose (j,i) entry is the (i,j) entry of the argument (conjugated for complex data), and transposing twice gives back the argument.", "quantifier": "all shapes and all entries", "why_tests_cant": "Index arithmetic must be right for every shape including non-square and empty.", "anchors": ["Manifolds/Element.cpp: GetTranspose"]}
{"id": "C11", "title": "Submatrix extraction and assignment are inverse", "statement": "GetSubmatrix reads exactly the requested block, and assigning a block and reading it back returns the block.", "quantifier": "all shapes and all in-range blocks", "why_tests_cant": "Column-major index arithmetic over all shapes.", "anchors": ["Manifolds/Element.cpp: GetSubmatrix, SubmatrixAssignment"]}
{"id": "C12", "title": "Haar wavelet transform is inverted by the inverse transform", "statement": "For every two-dimensional array GetInvHaarFWT(GetHaarFWT(x)) = x, GetHaarFWT(GetInvHaarFWT(x)) = x, and the transform preserves the Euclidean norm (dimensions need not be powers of two).", "quantifier": "all sizes and all entries", "why_tests_cant": "All depths of recursion and all inputs.", "anchors": ["Manifolds/Element.cpp: GetHaarFWT, GetInvHaarFWT"]}
{"id": "C13", "title": "A smooth line-search run respects its iteration limits and never writes its history arrays out of bounds", "statement": "With Min_Iteration <= Max_Iteration a run performs at most Max_Iteration iterations, records exactly iterations+1 history entries and every write is inside the allocated arrays; without that hypothesis it can write out of bounds.", "quantifier": "all problems, all stopping decisions, all line-search outcomes, all parameter values", "why_tests_cant": "Depends on the adversarial sequence of stopping/line-search decisions.", "anchors": ["Solvers/Solvers.cpp: Run", "Solvers/SolversSMLS.cpp: Run"]}
{"id": "C14", "title": "Armijo line search: success implies sufficient decrease against the reference value", "statement": "If the Armijo search reports success, the accepted step t satisfies f(new) <= ref + c1 * t * slope where ref is the maximum of the last recorded values; with a positive slope hypothesis it never accepts an increase over ref.", "quantifier": "all objective functions, directions, initial steps and parameters", "why_tests_cant": "The loop's exit branch and the stored trial value must correspond for every objective.", "anchors": ["Solvers/SolversSMLS.cpp: LinesearchArmijo"]}
{"id": "C15", "title": "Armijo backtracking terminates and the step stays positive within its bounds", "statement": "With reduction ratios 0<r1<=r2<1 and minimum step m>0, the Armijo loop performs a finite number of trials bounded by the ratio of the initial step to m, and every accepted step is at least m or the search reports the minimum-step status.", "quantifier": "all objective functions, all initial steps, all ratios", "why_tests_cant": "Termination for every oracle cannot be tested.", "anchors": ["Solvers/SolversSMLS.cpp: LinesearchArmijo"]}
{"id": "C16", "title": "Monotone line-search runs never increase the objective while line searches succeed", "statement": "With one stored reference value and descent directions, the recorded objective values along a run whose line searches all succeed are non-increasing; with m stored values every value is bounded by the initial value and the windowed maximum is non-increasing.", "quantifier": "all objectives, all run lengths, all window sizes", "why_tests_cant": "A property of the whole history.", "anchors": ["Solvers/SolversSMLS.cpp: Run (pre_funs), LinesearchArmijo"]}
{"id": "C17", "title": "Wolfe line searches: success implies the (strong) Wolfe conditions", "statement": "If the strong Wolfe search (with its zoom phase) reports success then the accepted step satisfies sufficient decrease and |h'(t)| <= -c2*slope; for the weak Wolfe variant success implies sufficient decrease, but the curvature condition can be violated when the doubling loop hits its cap.", "quantifier": "all one-dimensional functions h and derivatives", "why_tests_cant": "Many exit branches; an adversarial h reaches each.", "anchors": ["Solvers/SolversSMLS.cpp: LinesearchStrongWolfe, Zoom, LinesearchWolfe"]}
{"id": "C18", "title": "Search directions handed to the line search are descent directions", "statement": "After the safeguard in GetSearchDir, the direction has inner product with the gradient at most -sqrt(eps)*|g|^2 or equals -g, hence is a descent direction whenever the gradient is nonzero (RSD, RCG and quasi-Newton variants).", "quantifier": "all gradients and all candidate directions in any inner product space", "why_tests_cant": "Universal over directions produced by any update formula.", "anchors": ["Solvers/RSD.cpp: GetSearchDir", "Solvers/RCG.cpp: GetSearchDir", "Solvers/SolversSMLS.cpp"]}
{"id": "C19", "title": "Trust-region radius stays within (minimum_Delta, maximum_Delta] while the run continues", "statement": "Through any sequence of acceptance ratios the radius never exceeds maximum_Delta and the run stops once it would fall below minimum_Delta.", "quantifier": "all sequences of ratios and tCG statuses", "why_tests_cant": "History dependent.", "anchors": ["Solvers/SolversSMTR.cpp: Run"]}
{"id": "C20", "title": "Trust-region iterations accept only steps that decrease the objective", "statement": "Outside the accuracy branch, an accepted step strictly decreases the objective when the model decrease is positive, rejected steps leave the iterate unchanged, so objective values at iterates are non-increasing over the run; the recorded history does however contain rejected trial values.", "quantifier": "all runs", "why_tests_cant": "History dependent; objective and model arbitrary.", "anchors": ["Solvers/SolversSMTR.cpp: Run"]}
{"id": "C21", "title": "Truncated CG steps stay in the trust region and decrease the model", "statement": "For every symmetric Hessian operator, preconditioner identity and radius, the tCG direction has norm at most the radius and its quadratic model value is at most zero, strictly less after one step with a nonzero gradient.", "quantifier": "all inner-product spaces, symmetric operators, radii, iteration caps", "why_tests_cant": "Inductive CG conjugacy argument over unbounded iterations.", "anchors": ["Solvers/SolversSMTR.cpp: tCG_TR"]}
{"id": "C22", "title": "Newton-CG directions are descent directions", "statement": "The inner CG loop of the Newton solver returns a direction with negative inner product with a nonzero gradient for every symmetric Hessian; in exact arithmetic its first step equals the CG step unless the first curvature test fails.", "quantifier": "all symmetric operators and iteration caps", "why_tests_cant": "Inductive.", "anchors": ["Solvers/RNewton.cpp: tCG_LS"]}
{"id": "C23", "title": "The BFGS update keeps the approximation symmetric positive definite and satisfies the secant equation", "statement": "For any symmetric positive definite H and pair (s,y) with <s,y> > 0 the updated inverse approximation is symmetric positive definite and maps y to s; skipped updates leave it unchanged, so by induction it is SPD after every run.", "quantifier": "all dimensions, all histories of pairs", "why_tests_cant": "Universal over dimension, data and history.", "anchors": ["Solvers/RBFGS.cpp: UpdateDataRBFGS", "Solvers/RBroydenFamily.cpp", "Solvers/RWRBFGS.cpp"]}
{"id": "C24", "title": "The L-BFGS circular buffer holds exactly the most recent pairs in order", "statement": "After any sequence of stored pairs the limited-memory buffer represents exactly the last min(k, LengthSY) pairs, oldest to newest, for every capacity including 0 and 1.", "quantifier": "all capacities, all histories of accepted/rejected pairs", "why_tests_cant": "Wrap-around index arithmetic over all histories.", "anchors": ["Solvers/LRBFGS.cpp: UpdateDataLRBFGS", "Solvers/LRBFGSSub.cpp"]}
{"id": "C25", "title": "The L-BFGS two-loop recursion equals the explicit BFGS operator", "statement": "Applying the two-loop recursion over the buffer equals applying the operator obtained from the initial scaled identity by successive BFGS updates with the stored pairs; consequently the direction is a descent direction when all stored curvatures are positive.", "quantifier": "all dimensions, buffer contents, vectors", "why_tests_cant": "Algebraic identity over all lengths.", "anchors": ["Solvers/LRBFGS.cpp: HvLRBFGS"]}
{"id": "C26", "title": "Running a solver object twice behaves like running a fresh one", "statement": "The result of Run depends only on the problem, initial iterate and parameters, not on earlier Run calls on the same object.", "quantifier": "all pairs of consecutive runs", "why_tests_cant": "Needs reuse of solver objects, which drivers never do.", "anchors": ["Solvers/LRBFGS.cpp: Run", "Solvers/LRTRSR1.cpp: Run"]}
{"id": "C27", "title": "SR1 updates are symmetric and satisfy the secant equation", "statement": "Whenever the SR1 update is applied the new operator is symmetric and maps s to y.", "quantifier": "all symmetric operators and pairs, every iteration number", "why_tests_cant": "The first-iteration rescaling path differs from later ones.", "anchors": ["Solvers/RTRSR1.cpp: UpdateData"]}
{"id": "C28", "title": "Stopping tests mean what the documentation says", "statement": "Each stopping criterion stops exactly when its documented inequality (or the time limit or user callback) holds.", "quantifier": "all function values, gradient norms, tolerances, iteration numbers", "why_tests_cant": "Decision logic over all reals.", "anchors": ["Solvers/SolversSM.cpp: IsStopped", "Solvers/SolversNSM.cpp: IsStopped"]}
{"id": "C29", "title": "Parameters set by name are stored faithfully", "statement": "SetParams stores for each recognised name the supplied value in the corresponding parameter and leaves others unchanged.", "quantifier": "all parameter maps", "why_tests_cant": "Needs fractional values for every name.", "anchors": ["Solvers/Solvers.cpp: SetParams", "Solvers/SolversNSMPGLS.cpp: SetParams", "Solvers/SolversSMLS.cpp: SetParams"]}
{"id": "C30", "title": "Proximal-gradient runs make progress or stop", "statement": "The refinement of the subproblem accuracy after failed line searches can be triggered only finitely often, so the proximal-gradient loop terminates for every problem.", "quantifier": "all sequences of line-search outcomes", "why_tests_cant": "Termination under adversarial outcomes.", "anchors": ["Solvers/ManPG.cpp: Run", "Solvers/AManPG.cpp: Run"]}
{"id": "C31", "title": "The accelerated proximal-gradient safeguard iterates do not increase the objective", "statement": "The sequence of objective values at the safeguard iterates is non-increasing.", "quantifier": "all problems and proximal maps", "why_tests_cant": "History dependent.", "anchors": ["Solvers/AManPG.cpp: Run"]}
{"id": "C32", "title": "The epsilon-subgradient loop terminates", "statement": "The subgradient solver's main loop makes progress in every pass and ends after at most Max_Iteration iterations.", "quantifier": "all problems and outcomes", "why_tests_cant": "A livelock needs a particular adversarial outcome.", "anchors": ["Solvers/SolversNSMSubLS.cpp: Run, GetSearchDir"]}
{"id": "C33", "title": "Sphere operations stay on the manifold", "statement": "For unit x and tangent eta the exponential retraction returns a unit vector, projection returns tangent vectors, is idempotent and self-adjoint; the zero tangent vector returns x.", "quantifier": "all dimensions, points and tangent vectors, including the zero vector", "why_tests_cant": "Universal over reals; the zero vector is the exceptional case.", "anchors": ["Manifolds/Sphere.cpp: ExpRetraction", "Manifolds/Stiefel.cpp: ExtrProjection"]}
{"id": "C34", "title": "Sphere parallel transport is an isometry with exact inverse", "statement": "The vector transport maps tangent vectors at x to tangent vectors at y, preserves inner products, and the inverse transport undoes it.", "quantifier": "all unit x, y with x != -y and all tangent vectors", "why_tests_cant": "Universal over reals.", "anchors": ["Manifolds/Sphere.cpp: ExpVectorTransport, ExpInverseVectorTransport, ExpHInvTran, ExpTranH, ExpTranHInvTran"]}
{"id": "C35", "title": "Stiefel projection is the orthogonal projection onto the tangent space", "statement": "For X with orthonormal columns the projected matrix satisfies the tangent condition, projection is idempotent, self-adjoint and fixes tangent matrices.", "quantifier": "all n, p, X, and ambient matrices", "why_tests_cant": "Universal matrix identity.", "anchors": ["Manifolds/Stiefel.cpp: ExtrProjection", "Manifolds/Grassmann.cpp: ExtrProjection"]}
{"id": "C36", "title": "Stiefel and Grassmann retractions return orthonormal matrices", "statement": "The qf, polar and Cayley retractions return matrices with orthonormal columns and map the zero tangent vector to x, given that the factorisations called satisfy their specifications.", "quantifier": "all n, p, points and tangent vectors", "why_tests_cant": "Universal.", "anchors": ["Manifolds/Stiefel.cpp: qfRetraction, PolarRetraction, CayleyRetraction", "Manifolds/Grassmann.cpp: qfRetraction"]}
{"id": "C37", "title": "Intrinsic and extrinsic tangent representations are inverse isometries", "statement": "Converting a tangent vector to intrinsic coordinates and back is the identity and preserves the metric; converting back and forth from coordinates is the identity (Stiefel, Grassmann, SPD, normal spaces).", "quantifier": "all sizes, points and vectors", "why_tests_cant": "Packed-index arithmetic with sqrt(2) weights over all sizes.", "anchors": ["Manifolds/Stiefel.cpp: ObtainIntrHHR, ObtainExtrHHR, ObtainNorVerIntr, ObtainNorVerExtr", "Manifolds/Grassmann.cpp: ObtainIntr, ObtainExtr", "Manifolds/SPDManifold.cpp: ObtainIntrAF, ObtainExtrAF"]}
{"id": "C38", "title": "The SPD second-order retraction never leaves the positive definite cone", "statement": "For every SPD x and every symmetric eta (of any size) the result is symmetric positive definite and equals x when eta = 0.", "quantifier": "all dimensions, SPD matrices, symmetric tangent matrices", "why_tests_cant": "Universal; a test cannot try arbitrarily large eta.", "anchors": ["Manifolds/SPDManifold.cpp: SecOrdRetraction"]}
{"id": "C39", "title": "The SPD affine-invariant distance is a distance", "statement": "Dist(x,x)=0 for every SPD x and Dist is symmetric.", "quantifier": "all SPD matrices", "why_tests_cant": "Universal; the existing code is only exercised for Karcher means without checking the number.", "anchors": ["Manifolds/SPDManifold.cpp: DistAF"]}
{"id": "C40", "title": "SPD parallel translation is an isometry", "statement": "Parallel translation preserves the affine-invariant inner product.", "quantifier": "all points and tangent vectors", "why_tests_cant": "Universal.", "anchors": ["Manifolds/SPDManifold.cpp: ParallelTranslation"]}
{"id": "C41", "title": "The locking-condition vector transport is isometric and locks", "statement": "The two-reflection transport preserves norms, maps the search direction to beta times the transported direction, and its inverse undoes it.", "quantifier": "all inner-product spaces and vectors with nonzero reflectors", "why_tests_cant": "Universal.", "anchors": ["Manifolds/Manifold.cpp: Obtainnu1nu2forLC, LCVectorTransport, LCInverseVectorTransport, LCHInvTran, LCTranH, LCTranHInvTran"]}
{"id": "C42", "title": "Vector arithmetic helpers tolerate output aliasing", "statement": "ScalarVectorAddVector and VectorLinearCombination compute the mathematically specified combination even when the result object is one of the inputs.", "quantifier": "all vectors and scalars, all aliasing patterns", "why_tests_cant": "Requires each aliasing pattern.", "anchors": ["Manifolds/Manifold.cpp: ScalarTimesVector, ScalarVectorAddVector, VectorLinearCombination"]}
{"id": "C43", "title": "Product manifold operations act componentwise", "statement": "On a product of manifolds the metric is the sum of component metrics, dimensions add, and linear operations, projection, retraction and transport act on each component with that component's operation.", "quantifier": "all numbers of components and powers", "why_tests_cant": "Unbounded number of components.", "anchors": ["Manifolds/MultiManifolds.cpp: Metric, LinearOPEEta, Projection, Retraction, VectorTransport, Dist, TranHInvTran"]}
{"id": "C44", "title": "Fixed-rank retraction keeps the rank", "statement": "The retraction on fixed-rank matrices returns a matrix of the same rank.", "quantifier": "all points and tangent vectors", "why_tests_cant": "Needs a tangent vector cancelling the core factor.", "anchors": ["Manifolds/FixedRankE.cpp: Retraction"]}
{"id": "C45", "title": "Fixed-rank metric equals the embedded Frobenius metric and projection is orthogonal", "statement": "For horizontal tangent triples the metric equals the Frobenius inner product of the represented matrices; the projection is idempotent and orthogonal.", "quantifier": "all sizes, ranks, points and tangent vectors", "why_tests_cant": "Universal.", "anchors": ["Manifolds/FixedRankE.cpp: Metric, ExtrProjection, ObtainExtr"]}
{"id": "C46", "title": "Inverse vector transport inverts vector transport", "statement": "For every manifold offering isometric transport by parallelisation, InverseVectorTransport undoes VectorTransport.", "quantifier": "all points and vectors", "why_tests_cant": "Universal.", "anchors": ["Manifolds/FixedRankQ2F.cpp: VectorTransport, InverseVectorTransport", "Manifolds/SPDManifold.cpp: VectorTransportParallelization"]}
{"id": "C47", "title": "Cubic splines interpolate and are smooth", "statement": "The piecewise cubic built from data passes through every data point, is continuous with continuous first and second derivatives for every solution of the linear system, and evaluation at a parameter uses the right interval.", "quantifier": "all numbers of breakpoints, all data, all evaluation points", "why_tests_cant": "All sizes and data.", "anchors": ["Others/Spline.cpp: SplineSlopes, SplineUniformSlopes, SplinePeriodic, SplineUniformPeriodic, ValSpline, ValFirstDeri, ValSecondDeri"]}
{"id": "C48", "title": "The tridiagonal solver solves the system it is given", "statement": "If the tridiagonal elimination reports success its output satisfies every equation of the original system.", "quantifier": "all sizes and coefficients", "why_tests_cant": "All sizes.", "anchors": ["Others/Spline.cpp: SolveTridiagonalSystem, SolvePeriodicSystem"]}
{"id": "C49", "title": "Sparse-matrix handles are unique and refer to their own matrix", "statement": "Every live handle refers to the matrix created with it; creating or destroying other matrices never redirects it.", "quantifier": "all histories of create/destroy", "why_tests_cant": "History dependent.", "anchors": ["SparseBLAS/nist_spblas.cpp: Table_insert, Table_remove, BLAS_usds"]}
{"id": "C50", "title": "Sparse-dense products equal dense products", "statement": "Multiplying by a sparse matrix built from triplets gives the dense product with the matrix whose entries are the sums of the inserted triplets.", "quantifier": "all shapes, triplet lists, dense operands", "why_tests_cant": "All inputs.", "anchors": ["SparseBLAS/nist_spblas.h: TSp_mat", "Manifolds/Element.cpp: operator*(SparseMatrix)"]}
{"id": "C51", "title": "Minimum-norm convex-hull points stay in the convex hull", "statement": "The vector returned by the minimum-norm routine is a convex combination of the supplied gradients for every iterate of its inner solver.", "quantifier": "all families of vectors and iterates", "why_tests_cant": "Universal.", "anchors": ["Others/MinPNormConHull.cpp", "Problems/SphereConvexHull.cpp"]}
{"id": "C52", "title": "Problem gradients and Hessians are exact", "statement": "The coded Euclidean gradient and Hessian action of the quadratic-type example problems are the exact first and second derivatives of the coded cost.", "quantifier": "all points, directions and problem data", "why_tests_cant": "A finite-difference test checks sampled points with tolerance.", "anchors": ["Problems/StieBrockett.cpp", "Problems/EucQuadratic.cpp", "Problems/GrassRQ.cpp", "Problems/SFRQLyapunov.cpp", "Problems/StieSPCA.cpp"]}
{"id": "C53", "title": "Soft thresholding is the proximal map", "statement": "The coded soft-thresholding is the unique minimiser of lambda|y| + w/2 (y-x)^2 for every x, and is 1-Lipschitz.", "quantifier": "all reals and weights", "why_tests_cant": "Universal over reals.", "anchors": ["Problems/StieSPCA.cpp: ProxW", "Problems/FRankESparseApprox.cpp: ProxW"]}
{"id": "C54", "title": "Armijo search of the proximal-gradient solvers yields sufficient decrease", "statement": "When the proximal line search reports success the new objective is at most the old one minus c*t*|eta|^2; the number of trials is bounded.", "quantifier": "all objectives and directions", "why_tests_cant": "Universal.", "anchors": ["Solvers/SolversNSMPGLS.cpp: LinesearchArmijo"]}
{"id": "C55", "title": "Nonlinear conjugate-gradient directions restart to steepest descent when conjugacy is lost", "statement": "If consecutive gradients are far from orthogonal the next direction is exactly minus the gradient; otherwise it is minus the gradient plus sigma times the transported direction with the documented sigma formula.", "quantifier": "all gradients, directions, variants", "why_tests_cant": "Decision logic over all inputs.", "anchors": ["Solvers/RCG.cpp: UpdateData"]}
{"id": "C56", "title": "After a successful line search point, value and gradient belong to the accepted step", "statement": "When a line search reports success, the stored step size, trial point, function value and (where computed) gradient all belong to the same step, so the next iteration continues from a consistent state.", "quantifier": "all objectives, parameters and interpolation outcomes", "why_tests_cant": "Depends on the path through the bracketing and interpolation loops.", "anchors": ["Solvers/SolversSMLS.cpp: LinesearchArmijo, LinesearchWolfe, LinesearchStrongWolfe"]}
{"id": "C57", "title": "The initial step handed to a line search is positive", "statement": "For every initial-step rule and every iteration history the trial step handed to the line search is positive.", "quantifier": "all rules, histories, floating point outcomes including NaN and infinities", "why_tests_cant": "Barzilai-Borwein and quadratic rules produce arbitrary values for arbitrary histories.", "anchors": ["Solvers/SolversSMLS.cpp: InitialStepSize"]}
{"id": "C58", "title": "The stop callback receives the recorded history", "statement": "A user-supplied stopping function receives the function-value series together with the number of entries recorded so far.", "quantifier": "all runs and callbacks", "why_tests_cant": "Depends on the order of updates over whole runs.", "anchors": ["Solvers/SolversSM.cpp: IsStopped", "Solvers/SolversSMLS.cpp: Run"]}
{"id": "C59", "title": "Stop requests are honoured at every iteration", "statement": "Once Min_Iteration iterations are made, a run does not continue past an iteration at which its stopping test (tolerance, time limit or user callback) holds. True for the smooth line-search solvers; the trust-region solvers evaluate the test only after accepted steps, so a run of rejections ignores it up to Max_Iteration.", "quantifier": "all runs, stopping tests and callbacks", "why_tests_cant": "A time limit or callback can fire at any point of any run.", "anchors": ["Solvers/SolversSMLS.cpp: Run", "Solvers/SolversSMTR.cpp: Run"]}
{"id": "C60", "title": "The line search of the subgradient solvers reports what it did", "statement": "When the Wolfe line search of the nonsmooth subgradient solvers reports success, the trial it stored belongs to the step it recorded and satisfies sufficient decrease and the curvature condition, and the step lies strictly between Minstepsize and Maxstepsize. The search need not end: its bisection phase runs for ever when all points right of its left end violate sufficient decrease; at Maxstepsize the recorded step is not the one evaluated; after a failure the rejected trial becomes the final iterate.", "quantifier": "all objectives along the direction (with any one-sided slopes), parameters and starting slopes", "why_tests_cant": "Concerns every path of a bracketing and bisection loop over an arbitrary nonsmooth function.", "anchors": ["Solvers/SolversNSMSubLS.cpp: LinesearchWolfeLipschitz, ZoomLP, Run"]}
{"id": "C61", "title": "Products that share a buffer behave as independent values", "statement": "Copying a product object and then modifying one of the two objects (as a whole, or through a component after CopyOnWrite on the product) never changes the other. Writing through GetElement without CopyOnWrite on the product changes every object that shares the buffer.", "quantifier": "all histories of copies, writes to products and writes to components, any number of objects", "why_tests_cant": "Depends on which objects happen to share a buffer when a component is written.", "anchors": ["Manifolds/Element.cpp: GetElement, ResetMultiElementsParams", "Manifolds/SmartSpace.cpp: CopyOnWrite, NewMemoryOnWrite", "Manifolds/MultiManifolds.cpp"]}
{"id": "C62", "title": "The differentiated retraction is the derivative of the retraction", "statement": "For tangent eta and xi the vector returned by DiffRetraction(x, eta, y, xi) is the velocity at t = 0 of the curve t -> Retraction(x, eta + t xi).", "quantifier": "all dimensions, points, directions eta (nonzero for the exponential map) and xi", "why_tests_cant": "A derivative is a limit over infinitely many points; finite differences in a test have limited accuracy and only sample.", "anchors": ["Manifolds/Sphere.cpp: ExpDiffRetraction, ExpRetraction", "Manifolds/Stiefel.cpp: DiffqfRetraction"]}
{"id": "C63", "title": "The cotangent vector is the adjoint of the differentiated retraction", "statement": "coTangentVector(x, eta, y, xi_y) returns the tangent vector c at x with <c, xi>_x = <xi_y, DR[xi]>_y for every tangent xi at x.", "quantifier": "all dimensions, points, tangent vectors", "why_tests_cant": "Universal identity over real vectors.", "anchors": ["Manifolds/Sphere.cpp: ExpcoTangentVector", "Manifolds/Stiefel.cpp: qfcoTangentVector"]}
{"id": "C64", "title": "The Riemannian Hessian action is self-adjoint", "statement": "For every symmetric Euclidean Hessian the Riemannian Hessian action returned for tangent vectors is tangent and self-adjoint in the Riemannian metric (needed by truncated CG).", "quantifier": "all dimensions, points, tangent vectors, symmetric operators", "why_tests_cant": "Universal identity over real vectors and operators.", "anchors": ["Manifolds/Stiefel.cpp: EucHvToHv", "Manifolds/Sphere.cpp", "Manifolds/Grassmann.cpp: EucHvToHv"]}
{"id": "C65", "title": "Transporting an operator on a factor of a product touches exactly that factor", "statement": "On a product manifold, transporting a dense operator factor by factor replaces, for a factor occupying positions start .. start+length-1, exactly those rows (left factor) and columns (right factor), and every access stays inside the buffers.", "quantifier": "all operator sizes, factor positions and sizes, contents", "why_tests_cant": "Index arithmetic for every position and size; an out-of-bounds access often goes unnoticed.", "anchors": ["Manifolds/Sphere.cpp: ExpHInvTran, ExpTranH", "Manifolds/MultiManifolds.cpp: TranHInvTran"]}
{"id": "C66", "title": "The Riemannian gradient represents the differential", "statement": "EucGradToGrad returns a tangent vector whose metric product with every tangent vector equals the Euclidean inner product of the Euclidean gradient with that vector (so line searches and stopping tests see the true slope).", "quantifier": "all dimensions, points, Euclidean gradients, tangent vectors", "why_tests_cant": "Universal identity over real matrices; tests compare a few directions within a tolerance.", "anchors": ["Manifolds/Stiefel.cpp: EucGradToGrad", "Manifolds/Grassmann.cpp: EucGradToGrad", "Manifolds/SPDManifold.cpp: EucGradToGrad"]}
{"id": "C68", "title": "The inverse polar retraction inverts the polar retraction", "statement": "InvRetraction(x, Retraction(x, eta)) = eta for the polar retraction on the Stiefel manifold, whatever solution the Sylvester solver returns, and Retraction(x, InvRetraction(x, y)) = y whenever the Sylvester equation has a symmetric positive definite solution.", "quantifier": "all n, p, points, tangent vectors, factorisations", "why_tests_cant": "Universal; uniqueness of the solution of a matrix equation.", "anchors": ["Manifolds/Stiefel.cpp: InvPolarRetraction, PolarRetraction", "Manifolds/Element.cpp: SYL"]}
{"id": "C69", "title": "Splines with end slopes are interpolating and twice continuously differentiable", "statement": "For increasing breaks the spline routines with end slopes succeed whenever the end intervals are not tiny, and then the pieces interpolate every data point, have matching first and second derivatives at every interior break, and start and end with the chord slopes.", "quantifier": "all numbers of breakpoints, all breaks and data, all contents of the uninitialised work memory", "why_tests_cant": "All sizes and data; the work memory is uninitialised.", "anchors": ["Others/Spline.cpp: SplineSlopes, SplineUniformSlopes"]}
{"id": "C70", "title": "Evaluation of a uniform spline picks the right piece", "statement": "For every parameter the uniform evaluation terminates, uses the piece containing the parameter (up to rounding tolerance, clamped at the ends), and returns the data value at every break; the derivative routines use the same piece.", "quantifier": "all parameters, steps, numbers of breakpoints", "why_tests_cant": "Boundary parameters and all sizes.", "anchors": ["Others/Spline.cpp: ValSplineUniform, ValFirstDeriUniform, ValSecondDeriUniform"]}
{"id": "C71", "title": "The open tridiagonal solver solves its system", "statement": "If the (non-periodic) tridiagonal elimination reports success, its output satisfies every equation of the system as it was before the call, and the spline routines call it with non-overlapping arrays.", "quantifier": "all sizes and coefficients", "why_tests_cant": "All sizes.", "anchors": ["Others/Spline.cpp: SolveTridiagonalSystem"]}
{"id": "C72", "title": "The tangent-space proximal mapping returns the exact proximal direction", "statement": "At a zero of the residual of the semismooth Newton loop the returned direction is tangent and is the unique minimiser of the proximal subproblem over the tangent space; the loop makes at most 100 passes, on a regular exit the direction belongs to the returned dual vector (used as warm start) and either the residual is within the tolerance or all passes were used.", "quantifier": "all sizes, points, gradients, weights, block partitions, starting values", "why_tests_cant": "Optimality among all tangent vectors; all loop histories.", "anchors": ["Manifolds/Manifold.cpp: TangentSpaceProximalMap, ComputeBLambda, EW", "Manifolds/Stiefel.cpp: ObtainNorVerIntr, ObtainNorVerExtr"]}
{"id": "C73", "title": "The inner conjugate gradient method solves the Newton system", "statement": "The operator of the Newton system is linear, symmetric and positive definite; the inner conjugate gradient method reports the true residual, stops after at most the iteration limit, and with a limit at least the dimension always meets its residual test.", "quantifier": "all sizes, right-hand sides, starting values, tolerances", "why_tests_cant": "Finite termination in exact arithmetic for every operator.", "anchors": ["Manifolds/Manifold.cpp: myCG, GLdW"]}
{"id": "C74", "title": "Numerical derivatives approximate the derivatives", "statement": "The default finite-difference gradient is within the step size times a bound on the second derivatives of the true gradient in every coordinate, and the default finite-difference Hessian action is exact on quadratics and within a first-order error otherwise.", "quantifier": "all smooth functions, points, directions, step sizes", "why_tests_cant": "An error bound for all functions.", "anchors": ["Problems/Problem.cpp: EucGrad, EucHessianEta"]}
{"id": "C75", "title": "Iterates stay on the manifold", "statement": "Every iterate and the returned point of a trust-region, proximal-gradient or accelerated proximal-gradient run lie on the manifold when the initial point does, whatever the subproblem solvers return; in particular they keep orthonormal columns with the QR retraction.", "quantifier": "all runs, problems, parameters, subproblem solutions; all sizes", "why_tests_cant": "A run checks one trajectory.", "anchors": ["Solvers/SolversSMTR.cpp: Run", "Solvers/ManPG.cpp: Run", "Solvers/AManPG.cpp: Run", "Manifolds/Stiefel.cpp: qfRetraction"]}
{"id": "C76", "title": "Two-factor fixed-rank geometry is the quotient of the embedded one", "statement": "On fixed-rank matrices in two-factor form (real and complex) the metric of two directions is the inner product of the changes of the represented matrix; a direction changes nothing exactly when it comes from a change of factors; the projection is horizontal, changes the represented matrix in the same way, and fixes horizontal directions; horizontal directions represent the tangent space one to one.", "quantifier": "all sizes, ranks, points and directions, real and complex", "why_tests_cant": "Universal; equivalence classes cannot be enumerated.", "anchors": ["Manifolds/FixedRankQ2F.cpp: Metric, ExtrProjection", "Manifolds/CFixedRankQ2F.cpp: Metric, ExtrProjection"]}
{"id": "C77", "title": "Retractions of the matrix manifolds leave the point with the given velocity", "statement": "On the Stiefel (QR, polar, Cayley), Grassmann, positive definite (second order, exponential), embedded, two-factor and symmetric fixed-rank manifolds the retraction returns the point at the zero vector, and the curve of retracted multiples of a tangent vector has this vector as its velocity there; for the quotient manifolds this holds for the represented matrix. This is what makes the slope used by every line search the derivative of the cost.", "quantifier": "all sizes, points, tangent vectors, and whatever factorisations with the right specification the linear-algebra library returns", "why_tests_cant": "Needs a limit; a difference quotient is a sample with a tolerance.", "anchors": ["Manifolds/Stiefel.cpp: qfRetraction, PolarRetraction, CayleyRetraction", "Manifolds/Grassmann.cpp: Retraction", "Manifolds/SPDManifold.cpp: Retraction", "Manifolds/FixedRankE.cpp: Retraction", "Manifolds/FixedRankQ2F.cpp: Retraction", "Manifolds/SymFixedRankQ.cpp: Retraction"]}
{"id": "C78", "title": "The reported dimension is the dimension of the tangent spaces", "statement": "The dimension a manifold reports, which is also used to choose the number of sampled gradients of the nonsmooth solvers, is the dimension of its tangent (horizontal) space at every point, and the length of the intrinsic vectors it allocates; for products it is the sum over all components.", "quantifier": "all sizes, ranks, points, products with any number of types and powers", "why_tests_cant": "Dimension of a space at every point for every size.", "anchors": ["Manifolds/Stiefel.cpp: Stiefel", "Manifolds/Grassmann.cpp: Grassmann", "Manifolds/SPDManifold.cpp: SPDManifold", "Manifolds/FixedRankE.cpp: FixedRankE", "Manifolds/FixedRankQ2F.cpp: FixedRankQ2F", "Manifolds/SymFixedRankQ.cpp: SymFixedRankQ", "Manifolds/Euclidean.cpp: Euclidean", "Manifolds/MultiManifolds.cpp: MultiManifolds"]}
{"id": "C79", "title": "The stored scaling makes the transported direction as long as the search direction", "statement": "When the derivative of the retraction along the search direction is computed with reflections enabled, the factor stored with the direction makes the scaled transported direction have, in the metric of the new point, the length of the search direction in the metric of the old point; this is what the locking condition of the quasi-Newton methods needs.", "quantifier": "all manifolds and products, all points, directions and components", "why_tests_cant": "Needs a metric that depends on the point, and the length at two points.", "anchors": ["Manifolds/MultiManifolds.cpp: DiffRetraction, Beta", "Manifolds/Stiefel.cpp: DiffRetraction", "Manifolds/SPDManifold.cpp: DiffRetraction"]}
{"id": "C80", "title": "Symmetric fixed-rank geometry is a quotient geometry", "statement": "On symmetric (Hermitian) positive semidefinite matrices of fixed rank, stored as a factor, the embedded metric of two directions is the inner product of the changes of the represented matrix; a direction changes nothing exactly when it comes from a rotation of the factor; for each of the metrics the projection is horizontal, changes the represented matrix in the same way, is idempotent and self-adjoint and fixes horizontal directions; the metrics are positive definite on horizontal directions and do not depend on the factor chosen.", "quantifier": "all sizes, ranks, points, directions, rotations; real and complex; the three metrics", "why_tests_cant": "Universal; equivalence classes cannot be enumerated.", "anchors": ["Manifolds/SymFixedRankQ.cpp: MetricEUC, MetricHGZ, MetricQEUC, ExtrProjection*", "Manifolds/CSymFixedRankQ.cpp: Metric*, ExtrProjection*"]}
{"id": "C81", "title": "The retraction of symmetric fixed-rank matrices is the spectral truncation", "statement": "With intrinsic vectors the retraction of a point represents the truncation, to the p largest eigenvalues, of the represented matrix plus its change along the direction; among the factors of that matrix the returned one is closest to the old factor; at the zero vector it returns the point; it is defined for every point and every direction in which the changed matrix has p non-negative leading eigenvalues.", "quantifier": "all sizes, ranks, points and directions; real and complex", "why_tests_cant": "Optimality over all rotations.", "anchors": ["Manifolds/SymFixedRankQ.cpp: Retraction", "Manifolds/CSymFixedRankQ.cpp: Retraction"]}
{"id": "C82", "title": "Vector transport by projection does not depend on the vector representation", "statement": "On symmetric fixed-rank manifolds, the transport by projection of a tangent vector given by intrinsic coordinates is the coordinates of the transport by projection of the same vector given as a matrix.", "quantifier": "every pair of full-rank points, every horizontal vector at the first one, the metrics with explicit coordinates", "why_tests_cant": "A test along a short step sees a small discrepancy that a tolerance hides; the identity has to hold for every pair of points.", "anchors": ["Manifolds/SymFixedRankQ.cpp: VectorTransportProj, ObtainIntr, ObtainExtr"]}
{"id": "C83", "title": "The Haar wavelet transform is unitary and its inverse inverts it", "statement": "For every matrix size (powers of two or not) the forward transform computes the Haar coefficients of the columns and then of the rows; the inverse transform undoes it, in both orders; inner products are preserved, so the inverse is the adjoint; nothing outside the array is read into the result or written.", "quantifier": "all numbers of rows and columns, all complex entries, any content of the work space", "why_tests_cant": "Universal in the size; in-place levels with a shared work array.", "anchors": ["Manifolds/Element.cpp: GetHaarFWT, GetInvHaarFWT", "Others/wavelet/wavelet.cpp: haarFWT_1d, haarFWT_1d_inverse, haarFWT_2d, haarFWT_2d_inverse"]}
{"id": "C84", "title": "Limited-memory SR1 approximation is the SR1 recursion on the remembered pairs", "statement": "In the limited-memory SR1 trust-region solver, after any sequence of iterations (steps proposed, pairs accepted or rejected, iterates accepted with a transport of the stored vectors), the product of the Hessian approximation with a tangent vector equals what one gets from gamma times the identity by the SR1 updates with the remembered pairs, oldest first; the remembered pairs are the last LengthSY accepted ones (all older ones are forgotten at once with LMrestart), transported along. The approximation is self-adjoint and maps the newest step to its difference of gradients. A pair is remembered exactly if the curvature condition holds, and a rejected pair changes nothing.", "quantifier": "all inner product spaces, memory lengths (including 0 and 1), restart flags, sequences of iterations of any length, steps, gradient differences, isometric transports, solutions returned by the linear solver", "why_tests_cant": "The circular buffer, the shifting of two arrays in place and the compact formula interact differently for every history of accepted and rejected pairs; tests see a few histories and only the final iterates.", "anchors": ["Solvers/LRTRSR1.cpp: LRTRSR1::UpdateDataLRTRSR1, LRTRSR1::HvLRTRSR1, LRTRSR1::Acceptence, LRTRSR1::tCG_TR"]}
{"id": "C85", "title": "The trial step of LRTRSR1 solves the trust-region subproblem", "statement": "In the limited-memory SR1 trust-region solver, the trial step lies in the trust region and no vector in the region has a lower value of the quadratic model.", "quantifier": "all dimensions, numbers of stored pairs, factorisations meeting their specification, gradients, radii, values of gamma, indefinite and singular approximations", "why_tests_cant": "Hard cases of the subproblem need special positions of the gradient and the eigenvalues that do not occur in random tests; global optimality over the region cannot be sampled.", "anchors": ["Solvers/LRTRSR1.cpp: LRTRSR1::tCG_TR, LRTRSR1::ComputeSBySMW, LRTRSR1::PhiBar_fg, LRTRSR1::LocalNewton"]}
{"id": "C86", "title": "Dense element algebra computes the matrix formulas", "statement": "For real and complex elements alike: sums, differences, multiples and quotients by numbers, matrix products, alpha op(A) op(B) + beta C with op the identity, the transpose or the conjugate transpose, products with diagonal matrices on either side, rank-one updates with a factor of the same kind, inner products (the real part of the sum of conj(x) y), Frobenius norms, squared column norms, column inner products, entrywise products, quotients, maxima, minima, absolute values, square roots and comparisons, conjugation, embedding of real into complex elements, identity matrices, the triangular parts used by the Cholesky and QR factorisations and the in-place conversion of real eigenvalues to complex numbers have in every entry the value given by the mathematical formula, whatever the memory of the result contained; a matrix product is defined exactly for operands of the same kind whose inner dimensions agree.", "quantifier": "all sizes, all stored numbers, all factors, any previous content of newly allocated memory; exact real arithmetic", "why_tests_cant": "The loops use strides, packed pairs and in-place updates whose indices depend on the sizes; a test fixes the sizes, and reads of uninitialised memory often see zeros.", "anchors": ["Manifolds/Element.cpp: operator+, operator-, operator*, operator/, comparison operators, AlphaABaddBetaThis, AlphaXaddThis, ScalarTimesThis, GetDiagTimesM, GetHaddRankone, DotProduct, Fnorm, GetHadamardProduct, GetHadamardDivision, GetMax, GetMin, GetAbs, GetSqrt, GetConj, GetColNormsSquare, GetColDotProducts, GetRealToComplex, SetToIdentity, ScaledIdOPE, CholDecom, QRDecom, EigenDecomSym"]}
{"id": "C87", "title": "Dense operations reject operands that do not fit, otherwise return the documented result", "statement": "An arithmetic operation on elements either refuses its operands (failed assertion) or returns what the header documents, for real and complex operands and any number of slices.", "quantifier": "all pairs of operands, including operands of different kinds and shapes and arrays with several slices", "why_tests_cant": "Which combinations of kinds and shapes are refused is a question about all combinations; wrong combinations are not what tests try.", "anchors": ["Manifolds/Element.cpp: operator+, operator-, operator*, DotProduct, AlphaABaddBetaThis, GetHaddRankone, HaddRankone, GetRealInComplex, GetImagInComplex, ScaledIdOPE"]}
{"id": "C88", "title": "Geometry of the complex Stiefel manifold", "statement": "On complex matrices with orthonormal columns: the projection returns the nearest tangent vector; the Riemannian gradients of both metrics represent the differential of the cost; the Hessian with the Euclidean metric is self-adjoint and is the projected derivative of the gradient field; the QR and the polar retraction return orthonormal columns, do not depend on the factorisation the linear-algebra library returns, fix the point at zero, and their differentiated versions are the derivative of the retraction; intrinsic coordinates are a length-preserving bijection onto vectors of the reported length.", "quantifier": "all sizes, points, tangent vectors and coordinate vectors; all QR factorisations with real diagonal, all singular value decompositions, all contents of the memory obtained", "why_tests_cant": "Universal over points and factorisations; derivatives need a limit.", "anchors": ["Manifolds/CStiefel.cpp: ExtrProjection, EucGradToGrad, EucHvToHv, qfRetraction, DiffqfRetraction, PolarRetraction, DiffPolarRetraction, ObtainIntrHHR, ObtainExtrHHR"]}
{"id": "C89", "title": "Normal vectors, canonical Hessian and inverse retraction of the complex Stiefel manifold", "statement": "Coordinates of normal vectors of the complex Stiefel manifold are a length-preserving bijection and the vector built from coordinates depends only on the point and the coordinates; the Hessian with the canonical metric and the inverse of the polar retraction write only in memory they own.", "quantifier": "all sizes, points, coordinates, contents of the memory obtained", "why_tests_cant": "Uninitialised and out-of-bounds memory usually looks harmless in a test.", "anchors": ["Manifolds/CStiefel.cpp: ObtainNorVerIntr, ObtainNorVerExtr, EucHvToHv, InvPolarRetraction"]}
{"id": "C90", "title": "The sphere formulation of the minimum-norm subproblem has no spurious second-order points", "statement": "The subproblem of the subgradient solvers (shortest vector in the convex hull of given vectors, in the inner product of the solver's operator) is solved over the unit sphere. At every point of the sphere where the Riemannian gradient vanishes and the Riemannian Hessian is positive semidefinite the vector returned is the shortest of the hull. The vanishing of the gradient alone, which is the stopping test used, does not imply it: every coordinate vector passes the test and returns one of the given vectors unchanged.", "quantifier": "any number of vectors in any inner product space, all symmetric positive definite operators, all points of the sphere", "why_tests_cant": "Absence of spurious minimisers is a statement about all configurations; a random start never hits the bad points exactly.", "anchors": ["Others/MinPNormConHull.cpp: MinPNormConHullRMethod", "Problems/SphereConvexHull.cpp: f, EucGrad, EucHessianEta"]}
{"id": "C91", "title": "Search directions of the subgradient solvers descend for all sampled gradients", "statement": "RBFGSSub, LRBFGSSub and RGS: with the subproblem solved exactly the direction has a negative product with the gradient at the iterate and with every gradient sampled before the last subproblem, at most minus the squared length of the shortest vector; the slope handed to the line search is negative and at most that number, also when the vector it is computed from was replaced by the shortest vector in the plain inner product; no division by zero happens; a call that reports a short vector holds a convex combination of sampled gradients of length at most Del; a call that reports decrease has it at distance Eps. RGS: all samples at distance Eps, the direction has length one and slope minus the reported length.", "quantifier": "all operators, objectives, retractions, transports, numbers of samples and parameters", "why_tests_cant": "Depends on every combination of sampled gradients and operators.", "anchors": ["Solvers/SolversNSMSubLS.cpp: GetSearchDir", "Solvers/RGS.cpp: GetSearchDir"]}
{"id": "C92", "title": "Operators of the subgradient quasi-Newton solvers stay positive definite", "statement": "RBFGSSub and LRBFGSSub: the step used in the update is corrected so that its product with the gradient difference is at least the squared length of the difference divided by lambdaUpper, and is left alone when that holds already; after every sequence of steps the operator is symmetric positive definite; RBFGSSub's operator maps the difference to the corrected step after an accepted pair and is the identity after a rejected one; LRBFGSSub never divides by zero nor leaves its arrays within a run.", "quantifier": "all sequences of steps, gradients, isometric transports; all memory lengths; lambdaLower >= 0 (> 0 for the limited-memory solver)", "why_tests_cant": "Invariant over unbounded runs.", "anchors": ["Solvers/RBFGSSub.cpp: UpdateDataRBFGSSub", "Solvers/LRBFGSSub.cpp: UpdateDataLRBFGSSub, HvLRBFGSSub"]}
{"id": "C93", "title": "Without sufficient decrease the sampled hull improves", "statement": "When there is no sufficient decrease at distance Eps, the inner search of the subgradient solvers finds a point where the function increases along the direction, and the gradient of that point is added: it lies outside the hull of the previous ones and the shortest vector becomes shorter by an explicit amount, so with enough room a call ends with a short vector or with decrease.", "quantifier": "all Lipschitz objectives, retractions and transports with the locking condition", "why_tests_cant": "The inner search is a bisection whose outcome depends on the whole function along the ray.", "anchors": ["Solvers/SolversNSMSubLS.cpp: Increasing, GetSearchDir"]}
{"id": "C94", "title": "Linear solves return the solution", "statement": "A % B is the only X with A X = B and A / B the only X with X B = A, for nonsingular real and complex divisors; TriangleLinSol reads the lower triangle only and returns the only solution of the (transposed) triangular system, and the untouched right-hand side if the diagonal has a zero; two such solves with a Cholesky factor solve the original system; SYL returns the only X with A X + X B = C whenever that equation has only one solution, in particular for positive definite A and B.", "quantifier": "all sizes, all real and complex matrices", "why_tests_cant": "Equality of matrices over all inputs; transposition conventions differ between real and complex branches.", "anchors": ["Manifolds/Element.cpp: operator%, operator/, TriangleLinSol, SchurForm, SYL"]}
{"id": "C95", "title": "Matrix exponential and logarithm, whatever was called before", "statement": "After every sequence of decompositions, exponentials, logarithms and writes on an element, ExpSym returns the exponential of the symmetric (Hermitian) matrix meant by the triangle argument, LogSym the only symmetric matrix with that exponential if the matrix is positive definite, the two are inverse to each other, and the stored LU factors belong to the current matrix.", "quantifier": "all sizes, all real and complex matrices, all finite sequences of calls", "why_tests_cant": "Depends on caches left by arbitrary earlier calls.", "anchors": ["Manifolds/Element.cpp: EigenDecomSym, ExpSym, LogSym, LUdecom"]}
{"id": "C96", "title": "GetOrth returns the nearest orthonormal matrix", "statement": "For a tall matrix the result has orthonormal columns, is the orthonormal factor of a polar decomposition, no matrix with orthonormal columns is nearer to the input, and for full rank it does not depend on the singular vectors chosen; the same with rows for wide matrices.", "quantifier": "all sizes, all real and complex matrices, all thin singular value decompositions", "why_tests_cant": "Optimality over all orthonormal matrices.", "anchors": ["Manifolds/Element.cpp: GetOrth"]}
{"id": "C97", "title": "Entrywise absolute value and square root", "statement": "GetAbs returns the absolute value and GetSqrt the square root of every entry.", "quantifier": "all elements", "why_tests_cant": "Ranges over all values; complex entries are stored as pairs.", "anchors": ["Manifolds/Element.cpp: GetAbs, GetSqrt"]}
{"id": "C98", "title": "Karcher mean of positive definite matrices", "statement": "The cost is the mean of the squared lengths of the logarithms of the point relative to the data matrices, halved; it is zero exactly when the point equals every data matrix. EucGrad is its gradient along every differentiable curve of positive definite matrices and is symmetric, EucHessianEta is the derivative of the gradient, also where eigenvalues coincide.", "quantifier": "all sizes, all numbers of data matrices, all positive definite points, all differentiable curves", "why_tests_cant": "Derivative of a matrix function through an eigendecomposition that need not depend continuously on the matrix.", "anchors": ["Problems/SPDKarcherMean.cpp: f, EucGrad, EucHessianEta"]}
{"id": "C99", "title": "Armijo runs reach the requested gradient norm", "statement": "A line-search run with the Armijo rule (monotone or with a history of Num_pre_funs values) on an objective that is bounded below and lies below its linear model plus a quadratic term along the search directions, with gradient related directions and initial steps bounded away from zero, ends by its gradient test (or the time limit), with every search successful, and the number of iterations is at most max(1, Num_pre_funs) times the total decrease divided by an explicit constant. The claim needs Accuracy so small that the unchecked final steps are not used before the test holds; with the default Accuracy = Tolerance = 1e-6 an Armijo run can accept a step that increases the objective.", "quantifier": "all point and direction types, objectives, retractions, directions, initial steps, interpolation formulas, tolerances, history lengths and iteration limits above the bound", "why_tests_cant": "A test sees finitely many objectives and starting points; the bound is about every run of every objective with the stated constants, and its absence near the default accuracy needs an objective chosen to hit a window of relative width 1e-6.", "anchors": ["Solvers/SolversSMLS.cpp: SolversSMLS::Run, LinesearchArmijo", "Solvers/SolversSM.cpp: SolversSM::IsStopped"]}
{"id": "C100", "title": "Strong Wolfe runs satisfy Zoutendijk's condition", "statement": "A run with the strong Wolfe search on an objective that is bounded below with Lipschitz slopes along the search directions, whose directions keep an angle with the negative gradient, never hangs and ends within a bounded number of iterations by its gradient test, by the time limit or because a search reports failure. While the searches succeed, the sum over the iterates of the squared gradient norm times the squared cosine of the angle is at most L/(alpha(1-beta)) times the total decrease.", "quantifier": "all point and direction types, objectives, retractions, directions of any length, initial steps, interpolation formulas and iteration limits above the bound", "why_tests_cant": "The bound concerns the sum over all iterates of arbitrary runs; a test can only add up a few of them.", "anchors": ["Solvers/SolversSMLS.cpp: SolversSMLS::Run, LinesearchStrongWolfe, Zoom"]}
{"id": "C101", "title": "Trust-region runs reach the requested gradient norm", "statement": "A trust-region run whose candidates have a fraction of the Cauchy decrease and whose model is accurate to second order in the radius, on an objective that is bounded below, ends by its stopping test within an explicit number of iterations: it is never left because the radius became too small or because a value was not finite. In particular the trust-region Newton solver with truncated conjugate gradients reaches a gradient norm below any positive threshold for every problem with a bounded symmetric Hessian operator and a second order expansion along the retraction.", "quantifier": "all point types, tangent spaces, objectives, Hessian operators, retractions, radius parameters with acceptance threshold below 1/4, thresholds and iteration limits above the bound", "why_tests_cant": "Tests run single problems; the claim includes the accounting of magnifications and shrinkings of the radius over every run, including steps accepted through the relative-decrease exception.", "anchors": ["Solvers/SolversSMTR.cpp: SolversSMTR::Run, tCG_TR", "Solvers/RTRNewton.cpp"]}
{"id": "C102", "title": "The exact line search", "statement": "The exact line search ends for every objective and its results describe one trial point: step, point, value, gradient and slope belong together. When no inner search gives up, the accepted value never exceeds the starting value, and along a ray that is strongly convex with bounded curvature no inner search gives up: the value strictly decreases at a positive step and the status is success unless a step bound is violated. On a convex quadratic the search stops at the exact minimiser, or earlier at a point whose slope is below the tolerance relative to the first slope. A step reported as success never has a larger value than the starting point.", "quantifier": "all ordered fields, all functions along the ray with their slopes, all parameters with 0 < LS_alpha, 0 < LS_ratio1 < 1 and positive Minstepsize", "why_tests_cant": "Tests search along a few curves; the claim ranges over every curve, including those where the inner backtracking gives up.", "anchors": ["Solvers/SolversSMLS.cpp: SolversSMLS::LinesearchExact"]}
{"id": "C103", "title": "Which configurations give transports that fit together", "statement": "For every manifold class and every configuration (retraction, vector transport, intrinsic or extrinsic vectors, locking reflections) it is decided whether InverseVectorTransport undoes VectorTransport and whether TranHInvTran is the conjugation by the transport. After any sequence of setter calls followed by ChooseParamsSet the answer depends, for Stiefel, CStiefel and Sphere, on the set alone; for SPDManifold and the fixed-rank quotients also on the last values given to HasHHR and IsIntrApproach. SetParams with both HasHHR and ParamSet loses HasHHR on Stiefel, CStiefel and Sphere; sets 3 and 4 of Sphere are identical; a new FixedRankE reads an uninitialised flag in every transport.", "quantifier": "all twelve manifold classes, all configurations, all sequences of setter calls, all steps (inner product spaces, tangent spaces and valid transport maps), all vectors and operators", "why_tests_cant": "The conditions range over all sequences of calls and over every geometry; a test fixes one manifold, one sequence and one point.", "anchors": ["Manifolds/Manifold.cpp: VectorTransport, InverseVectorTransport, TranHInvTran, SetParams", "Manifolds/Stiefel.cpp: ChooseParamsSet1, SetParams", "Manifolds/Sphere.cpp", "Manifolds/SPDManifold.cpp", "Manifolds/SymFixedRankQ.cpp", "Manifolds/FixedRankE.cpp: FixedRankE"]}
{"id": "C104", "title": "The scaling of the locking condition", "statement": "Dividing the new gradient by Beta makes the inner product of the two secant vectors positive for every step that satisfies the Wolfe curvature condition, provided Beta returns the number stored by DiffRetraction. With locking reflections this is so for Stiefel, CStiefel, Sphere, Grassmann and SPDManifold; for all other classes, and for every product of manifolds, Beta returns one and there are steps satisfying the Wolfe condition with a negative inner product.", "quantifier": "all manifold classes and products, all isometric transports satisfying the locking condition, all gradients, all steps", "why_tests_cant": "The failure needs a retraction whose differential shrinks the direction by more than the Wolfe constant; the positive part ranges over all steps.", "anchors": ["Manifolds/Manifold.cpp: Beta", "Manifolds/MultiManifolds.h: Beta", "Solvers/LRBFGS.cpp: UpdateDataLRBFGS", "Solvers/RBFGS.cpp: UpdateDataRBFGS"]}
{"id": "C105", "title": "Decompositions attached to an element", "statement": "After any sequence of HHRDecom, QRDecom, SVDDecom and writes on an element, the fields _Q and _R, if present, have orthonormal columns, are upper trapezoidal and multiply to the data the element holds now; the fields _U, _S and _Vt are a thin singular value decomposition of these data with nonnegative values, also for complex elements. HHRMtp multiplies by the full unitary factor or its adjoint on either side, so that both orders undo each other, inner products are kept and the decomposed matrix is reduced to its upper trapezoid; with the character for the other number type nothing is multiplied and no error is reported.", "quantifier": "all sizes, all real and complex data, all finite sequences of calls, all contents of new memory", "why_tests_cant": "Depends on the history of the element and on rearranging memory of every shape.", "anchors": ["Manifolds/Element.cpp: HHRDecom, QRDecom, HHRMtp, SVDDecom"]}
{"id": "C106", "title": "Distribution of the random numbers", "statement": "Given independent numbers that are uniform on [0, 1], genrandnormal returns standard normal numbers, RandUnform(a, b) fills an element with independent numbers that are uniform on [a, b], and RandGaussian(mean, variance) fills it with independent normal numbers with that mean and variance. The functions return unless every remaining number is one, and never evaluate a logarithm or root outside its domain.", "quantifier": "all sequences of numbers, all lengths, all means and variances", "why_tests_cant": "A distribution is a statement about all outcomes; a sample only gives evidence.", "anchors": ["Others/randgen.cpp: genrandreal, genrandnormal", "Manifolds/SmartSpace.cpp: RandUnform, RandGaussian"]}
{"id": "C107", "title": "Random points lie on the manifold", "statement": "RandominManifold returns a point of the manifold: with orthonormal columns for Stiefel, complex Stiefel and Grassmann manifolds and with orthonormal factors for the fixed-rank manifold for every outcome; with probability one positive definite for SPDManifold, of full column rank for the quotient manifolds of full-rank factors, of rank exactly r for the fixed-rank manifold, of length one for the unit sphere of a tangent space that is not trivial, and componentwise for products.", "quantifier": "all sizes, all sequences of random numbers, all products of finitely many components", "why_tests_cant": "The exceptional set has probability zero, so sampling can neither find it nor exclude it.", "anchors": ["Manifolds/Stiefel.cpp: RandominManifold", "Manifolds/CStiefel.cpp: RandominManifold", "Manifolds/Grassmann.cpp: RandominManifold", "Manifolds/SPDManifold.cpp: RandominManifold", "Manifolds/FixedRankE.cpp: RandominManifold", "Manifolds/SymFixedRankQ.cpp: RandominManifold", "Manifolds/FixedRankQ2F.cpp: RandominManifold", "Manifolds/SphereTx.cpp: RandominManifold", "Manifolds/MultiManifolds.cpp: RandominManifold"]}
{"id": "C108", "title": "Blind deconvolution: cost, gradient and Hessian belong together", "statement": "For CFRankQ2FBlindDecon2D with one column per factor, with the penalty switched off or with as many entries in the second factor as there are measurements: the cost is non-negative and zero exactly when the factors reproduce every measurement (and respect the incoherence bound when the penalty is on); EucGrad is the gradient of f, including the penalty, along every differentiable curve of factors; EucHessianEta is symmetric, and is the derivative of EucGrad when the penalty is off. With the penalty on and a shorter second factor, f reads past the end of that factor.", "quantifier": "all image sizes, all measurements, all matrices B and C, all penalty parameters, all differentiable curves of factors, all contents of uninitialised memory", "why_tests_cant": "The gradient is assembled from adjoints of a Fourier transform, a wavelet transform and two matrices; a finite-difference test sees a handful of points, never the kink of the penalty, and needs a tolerance.", "anchors": ["Problems/CFRankQ2FBlindDecon2D.cpp: f, EucGrad, EucHessianEta", "Manifolds/Element.cpp: GetFFT2D, GetHaarFWT, GetInvHaarFWT, GetTranspose"]}
{"id": "C109", "title": "Normal vectors of the fixed-rank manifold and their coordinates", "statement": "FixedRankE::ObtainNorVerExtr returns a matrix orthogonal to every tangent vector at the point, whatever its memory contained before, preserves inner products of coordinates, and changes nothing but the stored decompositions of the factors; ObtainNorVerIntr called afterwards returns the given coordinates, and together they recover every normal vector. ObtainNorVerIntr called at a point whose factors have not been decomposed fails on a missing field instead of computing it.", "quantifier": "all sizes with r at most m and n, all points with orthonormal factors, all coordinate vectors and normal vectors, all contents of new memory", "why_tests_cant": "The dependence on which of the two calls came first is a property of call sequences, and uninitialised memory is usually zero in a test.", "anchors": ["Manifolds/FixedRankE.cpp: ObtainNorVerIntr, ObtainNorVerExtr", "Manifolds/Element.cpp: HHRDecom, HHRMtp, Field"]}
{"id": "C110", "title": "Extreme eigenvalues of the Hessian", "statement": "MinMaxEigValHess minimises the Rayleigh quotient of a symmetric Hessian over the unit sphere of the tangent space. Its gradient vanishes exactly at eigenvectors, and the reported number is then their eigenvalue; the points that also satisfy the second-order condition are exactly the global minimisers, so the cost has no other local minima; for every unit vector the reported number is within half the norm of the gradient of some eigenvalue. The warning it prints tests the gradient only: an eigenvector of another eigenvalue is reported as the smallest without a warning.", "quantifier": "all finite-dimensional tangent spaces (the first two parts: all inner product spaces), all symmetric Hessians, all unit vectors, both the smallest and the largest eigenvalue", "why_tests_cant": "Tests see the eigenvalues of a few Hessians from random starts; absence of spurious minima and the error bound are statements about all of them.", "anchors": ["Problems/Problem.cpp: MinMaxEigValHess", "Problems/SphereTxRQ.cpp: MinMaxEigValHessian, f, EucGrad, EucHessianEta", "Manifolds/SphereTx.cpp: ExtrProjection, EucGradToGrad, EucHvToHv"]}
{"id": "C111", "title": "What CheckGradHessian tests", "statement": "The ratios printed by CheckGradHessian tend to one for a correct gradient at a point that is not critical (and, with a second-order retraction or expansion, for a correct Hessian). They tend to one exactly if the error of the returned gradient is orthogonal to it, and the quadratic forms of the true and the returned Hessian agree at the gradient. So wrong gradients (for example any orthogonal projection of the true one) and wrong Hessians pass.", "quantifier": "all costs with directional derivatives after the retraction, all returned vectors and operators", "why_tests_cant": "The check is itself the test users rely on; what it can miss is a statement about all costs.", "anchors": ["Problems/Problem.cpp: CheckGradHessian"]}
{"id": "C112", "title": "LRBFGS runs reach the requested gradient norm", "statement": "A run of LRBFGS on a problem that is bounded below, whose cost along the retraction lies below its linear model plus a quadratic term and whose gradient is Lipschitz (with respect to the retraction and the isometric transport), with a bounded positive preconditioner, ends by the gradient test (or the time limit) when Max_Iteration exceeds an explicit bound: with the Armijo search and initial steps bounded below, with the Armijo search and the default initial steps, and with the strong Wolfe search unless a search fails. The collected pairs never lead to undefined behaviour and every direction is a descent direction.", "quantifier": "all manifolds, problems and starting points meeting the hypotheses, all memory sizes, all initial contents of uninitialised memory, all parameter values with the usual order relations, all lengths of the run", "why_tests_cant": "Convergence is about all iterates of unboundedly long runs and about the interplay of memory, cautious update and line search; a test sees single problems and single runs.", "anchors": ["Solvers/LRBFGS.cpp: LRBFGS::GetSearchDir, LRBFGS::UpdateData", "Solvers/SolversSMLS.cpp: SolversSMLS::Run, InitialStepSize, LinesearchArmijo, LinesearchStrongWolfe"]}
{"id": "C113", "title": "The initial steps of a run do not die out", "statement": "In an Armijo run with Num_pre_funs at most one and gradient related directions, the default rule for the initial step (LSSM_QUADINTMOD) keeps every accepted step above a bound that depends only on the constants of the problem, not on the tolerance, the machine precision or the number of iterations; so the run ends by its gradient test. With any other rule that produces numbers the run also ends by its gradient test, because steps below the machine precision are replaced.", "quantifier": "all problems bounded below with a quadratic upper model and bounded gradients on the initial sublevel set, all gradient related directions, all rules for the initial step, all lengths of the run", "why_tests_cant": "Whether the steps shrink to zero shows only in the limit of a run; no finite test distinguishes slow shrinking from stabilisation.", "anchors": ["Solvers/SolversSMLS.cpp: SolversSMLS::InitialStepSize, SolversSMLS::Run, LinesearchArmijo"]}
{"id": "C114", "title": "RBFGS, RWRBFGS and RBroydenFamily runs reach the requested gradient norm", "statement": "A run of RBFGS, RWRBFGS or RBroydenFamily (with the library's Phi) on a problem that is bounded below, whose cost along the retraction lies below its linear model plus a quadratic term and whose gradient is Lipschitz (with respect to the retraction and the isometric transport), from any starting point and any symmetric positive definite initial operator, ends by the gradient test (or the time limit) when Max_Iteration exceeds an explicit bound: with the Armijo search and initial steps bounded below, with the Armijo search and any rule for initial steps that produces numbers (in particular the default one), and with the strong Wolfe search unless a search fails. No update divides by zero. The problem need not be convex unless the user declares it convex with isconvex.", "quantifier": "all manifolds, problems and starting points meeting the hypotheses, all initial operators, all three solvers, all parameter values with the usual order relations, all lengths of the run", "why_tests_cant": "The operator accumulates all earlier steps of the run, so its condition number is a property of whole executions of unbounded length; tests see single problems and single runs.", "anchors": ["Solvers/RBFGS.cpp: RBFGS::GetSearchDir, RBFGS::UpdateData, SolversSMLS::UpdateDataRBFGS", "Solvers/RWRBFGS.cpp: RWRBFGS::UpdateData", "Solvers/RBroydenFamily.cpp: RBroydenFamily::UpdateData", "Solvers/SolversSMLS.cpp: SolversSMLS::Run, InitialStepSize, LinesearchArmijo, LinesearchStrongWolfe"]}
{"id": "C115", "title": "The Fourier transform of elements inverts up to the number of entries", "statement": "GetFFT2D (and FFT2D into another element) of an n1 x n2 complex element is the two-dimensional discrete Fourier transform of the matrix the element holds in column-major order: the product F_{n1} X F_{n2}^T. A forward followed by a backward transform, or conversely, returns the element times n1*n2; the backward transform is the adjoint of the forward one; the norm is preserved up to the factor sqrt(n1*n2). The transform in the blind deconvolution problem is this one.", "quantifier": "all sizes n1, n2 (square or not), all complex entries, both directions", "why_tests_cant": "Exchanged dimensions give correct results on square inputs and on symmetric ones, so tests on such inputs pass; the round trip alone also holds for the wrong order; the statement ranges over all sizes.", "anchors": ["Manifolds/Element.cpp: Element::GetFFT2D, Element::FFT2D", "Problems/CFRankQ2FBlindDecon2D.cpp: CFRankQ2FBlindDecon2D::f"]}
{"id": "C116", "title": "Nonlinear conjugate gradient runs with the strong Wolfe search reach the requested gradient norm", "statement": "A run of RCG without preconditioner and with the strong Wolfe search, on a problem that is bounded below and whose slope along retraction rays is Lipschitz, with an isometric vector transport that does not make directions steeper than the differentiated retraction, ends when Max_Iteration exceeds an explicit bound; unless a search fails it ends by the gradient test or the time limit. This holds for the method of Fletcher and Reeves and for the one that clips Polak and Ribiere by it when 0 <= LS_beta < 1/2, and for the method of Dai and Yuan when LS_beta < 1. No direction contains a NaN. The problem need not be convex.", "quantifier": "all manifolds, problems and starting points meeting the hypotheses, all positive initial steps, all interpolation choices of the search, all parameter values with the usual order relations, all lengths of the run", "why_tests_cant": "The directions accumulate all earlier gradients; the bound on their growth is an invariant over executions of unbounded length, with restarts at unpredictable iterations.", "anchors": ["Solvers/RCG.cpp: RCG::GetSearchDir, RCG::UpdateData", "Solvers/SolversSMLS.cpp: SolversSMLS::Run, LinesearchStrongWolfe, Zoom"]}
{"id": "C117", "title": "RSD and RCG with their default initial steps reach the requested gradient norm on convex problems", "statement": "A run of RSD, or of RCG with its default method (Hestenes and Stiefel) or the one of Hager and Zhang, with the monotone Armijo search and the default initial steps (Barzilai and Borwein, any BBratio and Num_pre_BB), with any bounded preconditioner, on a problem that is bounded below, has a quadratic upper model and whose gradient changes at least and at most linearly along steps, ends by the gradient test or the time limit after a bounded number of iterations, with every search successful; the first trial step is a number in every iteration, and where the curvature of the pairs is known it lies between the reciprocals of the corresponding constants. With other initial steps that are bounded below, the nonmonotone search is covered as well.", "quantifier": "all manifolds, problems and starting points meeting the hypotheses, all preconditioners (not necessarily positive), all values of BBratio and Num_pre_BB, all parameter values with the usual order relations, all lengths of the run", "why_tests_cant": "Barzilai-Borwein steps and conjugate directions depend on quotients whose denominators can vanish; that they do not along a run, and that the directions stay comparable to the gradient, concerns all executions.", "anchors": ["Solvers/RSD.cpp: RSD::GetSearchDir, RSD::SetDefaultParams", "Solvers/RCG.cpp: RCG::GetSearchDir, RCG::UpdateData", "Solvers/SolversSMLS.cpp: SolversSMLS::Run, InitialStepSize, LinesearchArmijo"]}
{"id": "C118", "title": "After SetProbX a used line-search solver behaves like a new one", "statement": "For RSD, for RCG with each of its six methods and for RBFGS: SetProbX followed by Run on an object that has run before, in whatever way and on whatever problem, gives the same final iterate, function value, gradient norms, number of iterations, status and recorded series as on a new object with the same parameters, and adds the same numbers of evaluations to the counters, provided former Barzilai-Borwein steps are not in use (they are off by default) and a stopping function of the user ignores the length argument. For RCG, and RSD likewise, Run without a new SetProbX and with a built-in stopping test is the run of a new object that starts at the current iterate. Neither needs any law of arithmetic, so both hold for floating-point numbers with rounding, infinities and NaN.", "quantifier": "all problems, manifolds and preconditioners, all contents of the members of both objects, all parameter values, all line searches, all numbers of passes including runs that never end, all interpretations of the arithmetic", "why_tests_cant": "It compares all pairs of histories of an object; a test compares two, and the differences that matter depend on members left over from arbitrary earlier runs.", "anchors": ["Solvers/SolversSMLS.cpp: SolversSMLS::Run, LinesearchArmijo, InitialStepSize, h, dh", "Solvers/Solvers.cpp: Solvers::SetProbX", "Solvers/RSD.cpp: RSD::GetSearchDir", "Solvers/RCG.cpp: RCG::GetSearchDir, RCG::UpdateData", "Solvers/RBFGS.cpp: RBFGS::SetProbX, RBFGS::UpdateDataRBFGS"]}
{"id": "C119", "title": "After SetProbX a used trust-region solver behaves like a new one", "statement": "For RTRNewton, RTRSD and RTRSR1: SetProbX followed by Run on an object that has run before gives the same final iterate, values, gradient norms, radius, iterations and recorded series as on a new object with the same parameters, and adds the same numbers of evaluations, provided a stopping function of the user ignores the length argument; candidates left over from a rejected last step have no influence. For RTRNewton and RTRSD, Run without a new SetProbX and with a built-in stopping test is the run of a new object that starts at the current iterate, with the initial radius. Both hold for floating-point numbers. In exact arithmetic the radius after a run is positive and at most the maximum radius, if the initial radius is.", "quantifier": "all problems, manifolds and preconditioners, all contents of the members of both objects, all parameter values, all numbers of passes, all interpretations of the arithmetic", "why_tests_cant": "As C118; in addition the gradient at the candidate is stale through any number of rejected steps.", "anchors": ["Solvers/SolversSMTR.cpp: SolversSMTR::Run, tCG_TR, SetProbX", "Solvers/RTRSR1.cpp: RTRSR1::UpdateDataRTRSR1, RTRSR1::Acceptence, RTRSR1::SetProbX", "Solvers/RTRNewton.cpp: RTRNewton::HessianEta", "Solvers/RTRSD.cpp: RTRSD::HessianEta"]}
{"id": "C120", "title": "Trust-region Newton runs converge superlinearly near a nondegenerate minimiser", "statement": "When the iterate of RTRNewton is near a minimiser at which the Hessian is positive definite, every further candidate is accepted and decreases the objective, and the run ends by its gradient test. Iterations whose step is inside the region satisfy |g_new| <= |g|^(1+theta) + c |g|^2 (and <= kappa |g| + c |g|^2), so with theta = 1 convergence is quadratic; iterations whose step ends on the boundary magnify the radius, and there are at most as many of them as magnifications needed to exceed a fixed radius, per cycle. The number of remaining iterations is at most J(k+1)+k, where J is the number of those magnifications and k the least number with (A rho)^((1+theta)^k) < A tol. The truncated conjugate gradient method is never left because of its iteration cap when the cap is at least the dimension.", "quantifier": "all problems whose objective and gradient satisfy second order bounds in a neighbourhood, all inner product spaces of finite dimension as tangent spaces, all preconditioners, all theta in (0,1], kappa, radii and acceptance thresholds up to 3/4, all states of the run in the neighbourhood", "why_tests_cant": "A rate of convergence is a statement about all iterations of all runs in a neighbourhood; tests see finitely many iterations with rounding errors and cannot separate a superlinear from a fast linear rate.", "anchors": ["Solvers/SolversSMTR.cpp: SolversSMTR::Run, tCG_TR", "Solvers/RTRNewton.cpp: RTRNewton"]}
{"id": "C121", "title": "RNewton runs converge, and superlinearly when the inner solver is made to take two passes", "statement": "For every symmetric Hessian, positive definite preconditioner and nonzero gradient RNewton obtains a direction: the preconditioned steepest descent direction or an inexact Newton step. A run with the default line search on an objective that is bounded below with a quadratic upper model, and whose Hessian is bounded and uniformly positive definite on the level set of the start, ends by its gradient test (or the time limit) within an explicit number of iterations. With Min_Inner_Iter at least one and a cap of at least the dimension, a run started near a nondegenerate minimiser makes only unit steps, each with |g_new| <= |g|^(1+theta) + c |g|^2 and <= kappa |g| + c |g|^2, and ends within k iterations where (A rho)^((1+theta)^k) < A tol.", "quantifier": "all points, tangent spaces of finite dimension, Hessians and preconditioners within the stated bounds, all theta in (0,1], kappa, tolerances, machine precisions and starting points", "why_tests_cant": "Global convergence and rates range over all runs; tests run few problems for finitely many iterations.", "anchors": ["Solvers/RNewton.cpp: RNewton::GetSearchDir, RNewton::tCG_LS", "Solvers/SolversSMLS.cpp: SolversSMLS::Run, InitialStepSize, LinesearchArmijo"]}
{"id": "C122", "title": "The Matlab interface passes elements faithfully in both directions", "statement": "An element passed to Matlab and read back has the same numbers and the same attached fields with the same shapes and complexity, whatever was attached to the receiving element; evaluating a Matlab function never changes the numbers or existing fields of the point, and attaches exactly the further fields the function returned.", "quantifier": "all elements of any size, real or complex, with any number of attached fields; all Matlab functions; all receiving elements of the same length", "why_tests_cant": "Tests pass particular matrices; fields with a third dimension and complex points whose gradient happens to be real are not among them, and reading past the end of an array usually goes unnoticed.", "anchors": ["Problems/mexProblem.cpp: ObtainMxArrayFromElement, ObtainElementFromMxArray, AddToElementFromMxArray, f, EucGrad, EucHessianEta, PreConditioner", "Manifolds/Element.cpp: AddToFields, FieldsExist, ObtainWriteEntireData"]}
{"id": "C123", "title": "Keeping intermediate results in fields does not change what Matlab functions return", "statement": "If the Matlab functions only attach matrices that are functions of the point, then in every sequence of evaluations of cost function, gradient, Hessian action and preconditioner, interleaved with new points being written into the variable, every evaluation returns the value of the mathematical function at the current point.", "quantifier": "all sequences of evaluations and writes of any length, all Matlab functions of this kind, all initial collections of correct fields", "why_tests_cant": "Whether a stale field is picked up depends on the order of evaluations and writes during a run; tests exercise a few orders.", "anchors": ["Problems/mexProblem.cpp: f, EucGrad, EucHessianEta, PreConditioner, AddToElementFromMxArray", "Manifolds/Element.cpp: ObtainWriteEntireData, AddToFields"]}
{"id": "C124", "title": "The interfaces build the solver and the manifold the user names", "statement": "The solver is the class named by the user (LRBFGS for unknown names); the domain is the product of the manifolds named, in order, with the given sizes, multiplicities and parameter sets, the default parameter set where none is requested; an unknown manifold is reported.", "quantifier": "all strings, all sizes, all lists of manifolds of any length", "why_tests_cant": "The space of names, sizes and lists is unbounded; mistakes sit in single branches.", "anchors": ["test/DriverMexProb.h: GetAManifold, ParseManiParams, ParseSolverParamsAndOptimizing", "test/DriverJuliaProb.cpp: GetAManifold, ParseManiParams, DriverJuliaProb, ParseSolverParamsAndOptimizing"]}
{"id": "C125", "title": "The Julia interface passes parameters and results faithfully", "statement": "Every solver parameter set in Julia arrives under its own name, -1 leaving the default; the result array is completely written within its bounds, and the Julia function recovers from it the final iterate, all numbers, the recorded series and the eigenvalues.", "quantifier": "all parameter values, all lengths of iterate and series", "why_tests_cant": "The two sides address one array by positions computed separately in C++ and Julia; a shift shows only for certain lengths.", "anchors": ["test/DriverJuliaProb.cpp: DriverJuliaProb, ParseSolverParamsAndOptimizing", "test/DriverJuliaProb.h: SolverParams", "Julia/BeginROPTLIB.jl: DriverJuliaOPT"]}
{"id": "C126", "title": "RTRNewton from an arbitrary start: a fixed number of iterations far away, then superlinear convergence", "statement": "For every problem with bounded Hessian operators and a second order expansion along the retraction with quadratic error, whose points with small gradient and no higher objective lie in basins of nondegenerate minimisers, RTRNewton without preconditioner ends by its gradient test from every start. The number of iterations is at most a number that depends on the size of the basin but not on the requested accuracy thr, plus J(k+1)+k with a fixed J and the least k for which (A rho)^((1+theta)^k) < A thr; all numbers exist for every thr > 0.", "quantifier": "all points, finite-dimensional tangent spaces, Hessians and retractions within the stated bounds, all radii, factors, theta in (0,1], tolerances and starting points", "why_tests_cant": "An iteration bound that is uniform in the start and almost independent of the accuracy ranges over all runs; tests see single runs with one tolerance.", "anchors": ["Solvers/SolversSMTR.cpp: SolversSMTR::Run, SolversSMTR::tCG_TR", "Solvers/RTRNewton.cpp: RTRNewton::HessianEta"]}
{"id": "C127", "title": "Linear rate of the line-search solvers when the gradient dominates the distance to the least value", "statement": "For every objective bounded below with a quadratic upper model along the retraction, for which half the squared gradient norm is at least kap times the distance to the least value on the level set of the start (strongly convex functions, for example), RSD, RCG, LRBFGS and RNewton with the Armijo search, comparison with the last value and their default initial steps reduce the distance to the least value in every iteration by a fixed factor q < 1, and end by the gradient test (or the time limit) after at most K iterations, where K is any number with q^K (f(x0) - fmin) < gain. K grows with the logarithm of the accuracy.", "quantifier": "all objectives, manifolds (retraction, isometric transport), starting points, line-search parameters and tolerances within the stated bounds", "why_tests_cant": "A rate is a statement about all iterations of all runs; tests observe finitely many iterations of single runs.", "anchors": ["Solvers/SolversSMLS.cpp: SolversSMLS::Run, SolversSMLS::LinesearchArmijo, SolversSMLS::InitialStepSize", "Solvers/RSD.cpp", "Solvers/RCG.cpp", "Solvers/LRBFGS.cpp", "Solvers/RNewton.cpp"]}
{"id": "C128", "title": "The proximal-gradient solver reaches its direction tolerance when its weight is large enough", "statement": "For every composite objective (smooth plus nonsmooth part) bounded below whose change along the retraction is at most that of the proximal model with weight w, ManPG (regular variant, subproblems solved exactly) ends by its direction test, with a direction shorter than the tolerance, after a number of iterations bounded by the initial gap divided by w/2 times the squared tolerance, and the objective never increases, provided the tolerance is at least 2 * alpha * (bound of the gradient) / w. Below that floor the claim is false: with the default parameters there is a problem and a non-stationary starting point at which the solver makes no iteration at all, because its line search compares the decrease of the whole objective with the slope of the smooth part only.", "quantifier": "all problems, manifolds, starting points, line-search parameters and tolerances within the stated bounds, and all numbers of passes", "why_tests_cant": "Termination and a bound on the number of iterations concern all runs; the floor shows only at points and parameters a test is unlikely to choose.", "anchors": ["Solvers/ManPG.cpp: ManPG::Run", "Solvers/SolversNSMPGLS.cpp: SolversNSMPGLS::LinesearchArmijo", "Solvers/SolversNSM.cpp: SolversNSM::IsStopped", "Manifolds/Manifold.cpp: Manifold::TangentSpaceProximalMap"]}
{"id": "C129", "title": "A proximal-gradient solver object given a new problem behaves like a new object", "statement": "What a run of ManPG returns depends only on the two points stored by SetProbX, the adaptive weight, the two accuracies of the subproblem and the dual vector the subproblem starts with, and on no other member. Hence, with the regular variant, after a run in which no line search failed, SetProbX to a second problem of the same normal dimension gives the results and the amount of work of a new object, if the subproblem solver is insensitive to its starting vector. In general the property is false: the adaptive weight (default variant) and the refined accuracies are carried over to the next problem, and after SetProbX to a problem with a larger normal dimension the next run reads outside the dual vector of the previous problem.", "quantifier": "all problems, objects with arbitrary members, parameters, numbers of passes and arithmetics (including rounding, infinities and NaN)", "why_tests_cant": "Tests construct a solver, run it once and discard it; the leak needs a sequence of runs, and all values of the stale members.", "anchors": ["Solvers/ManPG.cpp: ManPG::Run", "Solvers/SolversNSMPGLS.cpp: SolversNSMPGLS::SetProbX, SolversNSMPGLS::SetDefaultParams, SolversNSMPGLS::LinesearchArmijo", "Solvers/SolversNSM.cpp: SolversNSM::IsStopped", "Manifolds/Manifold.cpp: Manifold::TangentSpaceProximalMap"]}
{"id": "C130", "title": "A run depends on the geometry only, not on how points and tangent vectors are represented", "statement": "If two representations of the points and tangent vectors of a manifold agree on the objective, gradient, metric and retraction (and, for the conjugate gradient and quasi-Newton solvers, on the vector transport and the operators), then the line-search solvers with the Armijo search return, from corresponding initial points, corresponding final points and identical function values, gradient norms, iteration counts, statuses, series and evaluation counts. In particular steepest descent on Stiefel and Grassmann gives the same results with intrinsic and with extrinsic vectors, whatever the Householder frames are; and on Grassmann it depends only on the subspace the initial matrix spans. For the conjugate gradient and quasi-Newton solvers on Grassmann the latter is not available: the vector transport depends on the basis.", "quantifier": "all problems, pairs of corresponding representations, parameters, objects and numbers of iterations; the general theorems over all arithmetics (including rounding), the manifolds for all sizes over the reals", "why_tests_cant": "A test can compare two representations on a few runs; that no member, branch or counter of any run depends on the representation is a statement about all executions.", "anchors": ["Solvers/SolversSMLS.cpp: SolversSMLS::Run, SolversSMLS::LinesearchArmijo, SolversSMLS::InitialStepSize", "Solvers/RSD.cpp: RSD::GetSearchDir", "Solvers/RCG.cpp: RCG::UpdateData", "Solvers/RBFGS.cpp: RBFGS::UpdateData", "Manifolds/Grassmann.cpp: Grassmann::Retraction, Grassmann::ObtainIntr, Grassmann::ObtainExtr", "Manifolds/Stiefel.cpp: Stiefel::qfRetraction, Stiefel::ObtainIntrHHR, Stiefel::ObtainExtrHHR", "Manifolds/Manifold.cpp: Manifold::VectorTransport", "Problems/Problem.cpp: Problem::Grad"]}
{"id": "C131", "title": "Steepest descent and trust-region Newton reach the gradient tolerance on Stiefel and Grassmann", "statement": "On the Stiefel and Grassmann manifolds (qf retraction, intrinsic vectors), for every objective whose Euclidean gradient is Lipschitz, from every starting point and for every tolerance: steepest descent with the monotone Armijo search ends successfully with a Riemannian gradient below the tolerance if the smallest step is small enough and the iteration limit large enough, the number of iterations being bounded by an explicit constant of the sizes, the Lipschitz constant and the gradient at the start; the same holds for trust-region Newton runs with truncated conjugate gradients (Stiefel). The Brockett and the Rayleigh quotient problems satisfy the hypotheses for all data.", "quantifier": "all sizes p <= n, objectives with Lipschitz Euclidean gradient, starting points, tolerances, Householder factorisations, accepted steps of the line search; all symmetric B and all D for the Brockett cost", "why_tests_cant": "A test observes convergence of one run on one problem; that every run on every objective of the class ends at the tolerance, with an a-priori number of iterations, is a theorem about the retraction and the loop together.", "anchors": ["Manifolds/Stiefel.cpp: Stiefel::qfRetraction, Stiefel::ObtainIntrHHR, Stiefel::ObtainExtrHHR, Stiefel::EucGradToGrad, Stiefel::EucHvToHv", "Manifolds/Grassmann.cpp: Grassmann::Retraction, Grassmann::EucGradToGrad", "Problems/Problem.cpp: Problem::Grad, Problem::HessianEta", "Problems/StieBrockett.cpp: StieBrockett::f, StieBrockett::EucGrad, StieBrockett::EucHessianEta", "Problems/GrassRQ.cpp: GrassRQ::f, GrassRQ::EucGrad", "Solvers/SolversSMLS.cpp: SolversSMLS::Run, SolversSMLS::LinesearchArmijo, SolversSMLS::InitialStepSize", "Solvers/RSD.cpp: RSD::GetSearchDir", "Solvers/SolversSMTR.cpp: SolversSMTR::Run, SolversSMTR::tCG_TR", "Solvers/RTRNewton.cpp: RTRNewton::HessianEta"]}
{"id": "C132", "title": "The number MinMaxEigValHess reports approximates an eigenvalue of the Hessian", "statement": "For every symmetric Hessian and every unit start vector that is not an eigenvector, the trust-region Newton run inside MinMaxEigValHess, with its default parameters except for the iteration limit, ends by its gradient test after a number of iterations bounded explicitly in the norm of the Hessian, the tolerance and the gradient at the start; no warning is printed, the reported number is within half the (relative) tolerance of an eigenvalue and not worse than the Rayleigh quotient of the start. If the Rayleigh quotient of the start separates the smallest (largest) eigenvalue from all others, the reported number approximates that eigenvalue. The retraction of the sphere does not move along vectors shorter than the machine epsilon; this does no harm as long as epsilon is small against the relative gradient at the start.", "quantifier": "all finite-dimensional tangent spaces, symmetric Hessians, starts, tolerances at most one, inner iteration limits, machine epsilons below an explicit bound; smallest and largest eigenvalue", "why_tests_cant": "A test compares with a dense eigenvalue solver on a few Hessians; that the composed program (cost, sphere, inner solver, outer loop, stopping test) returns an eigenvalue for every Hessian and start is a theorem about all executions.", "anchors": ["Problems/SphereTxRQ.cpp: MinMaxEigValHessian, SphereTxRQ::f, SphereTxRQ::EucGrad, SphereTxRQ::EucHessianEta", "Problems/Problem.cpp: Problem::MinMaxEigValHess", "Manifolds/SphereTx.cpp: SphereTx::Retraction, SphereTx::ExtrProjection, SphereTx::EucGradToGrad, SphereTx::EucHvToHv", "Solvers/SolversSMTR.cpp: SolversSMTR::Run, SolversSMTR::tCG_TR, SolversSMTR::SetDefaultParams", "Solvers/RTRNewton.cpp: RTRNewton::HessianEta", "Solvers/SolversSM.cpp: SolversSM::IsStopped"]}
{"id": "C133", "title": "What the self-tests of a manifold test", "statement": "The Check functions of a manifold draw random vectors and print quantities the user is told to compare. They agree for all draws exactly if the corresponding law holds for all tangent vectors: coordinates preserve lengths and are undone by the way back; the vector transport preserves lengths (and then inner products); the inverse transport preserves lengths and undoes the transport; coTangentVector is adjoint to DiffRetraction; the transport of the direction is the scaled image of the differentiated retraction. The difference quotients of CheckRetraction and CheckDiffRetraction differ from the true velocities by an error that vanishes with the step. The unit sphere with exponential map passes. CheckIntrExtr leaves the manifold's settings alone.", "quantifier": "all manifolds (any member functions), points, drawn vectors, both representations of tangent vectors, all difference steps", "why_tests_cant": "The self-tests are the tests; whether agreement for the drawn vectors means anything, and what a faulty manifold can hide from them, is a statement about all manifolds and all draws.", "anchors": ["Manifolds/Manifold.cpp: Manifold::CheckIntrExtr, Manifold::CheckRetraction, Manifold::CheckDiffRetraction, Manifold::CheckLockingCondition, Manifold::CheckcoTangentVector, Manifold::CheckIsometryofVectorTransport, Manifold::CheckIsometryofInvVectorTransport, Manifold::CheckVecTranComposeInverseVecTran, Manifold::Retraction, Manifold::InvRetraction, Manifold::coTangentVector, Manifold::DiffRetraction", "Manifolds/SphereTx.cpp: SphereTx::DiffRetraction, SphereTx::coTangentVector"]}
{"id": "C134", "title": "Trust-region runs depend only on the geometry", "statement": "Two descriptions of one geometry (same objective, metric, retraction and Hessian, other representatives of points and other coordinates of tangent vectors) give the same trust-region run: the iterates represent the same points, and function values, gradient norms, radii, ratios, statuses and lengths of the inner iterations and all counters agree. In particular RTRNewton and RTRSD on Stiefel and Grassmann give the same result with intrinsic and with extrinsic tangent vectors, and RTRNewton on a function of the subspace does not depend on the basis chosen for the initial subspace. RTRSR1 does so if the operators, their updates and the inverse transport correspond.", "quantifier": "all arithmetics, pairs of environments, parameters, stopping rules, numbers of iterations; all sizes of Stiefel and Grassmann matrices, objectives, frames, results of HHRDecom", "why_tests_cant": "Tests compare runs for a few points and one frame; the equality holds for every objective, frame and length of run.", "anchors": ["Solvers/SolversSMTR.cpp: SolversSMTR::Run, SolversSMTR::tCG_TR", "Solvers/RTRNewton.cpp: RTRNewton::HessianEta", "Solvers/RTRSD.cpp: RTRSD::HessianEta", "Solvers/RTRSR1.cpp: RTRSR1::UpdateData, RTRSR1::Acceptence, RTRSR1::HessianEta", "Manifolds/Grassmann.cpp: Grassmann::EucHvToHv, Grassmann::ObtainIntr, Grassmann::ObtainExtr", "Manifolds/Stiefel.cpp: Stiefel::EucHvToHv, Stiefel::ObtainIntr, Stiefel::ObtainExtr", "Problems/Problem.cpp: Problem::HessianEta, Problem::RieHessianEta"]}
{"id": "C135", "title": "Every line search sees the same function and its derivative, in every representation", "statement": "The line searches that use slopes read the objective only along the ray of the search direction. On Stiefel and Grassmann with the qf retraction the slope they read at a step is the derivative of the objective along the retraction at that step. The objective along the ray and the slopes are the same functions of the step with intrinsic and extrinsic tangent vectors, and for a function of the subspace with every basis of the subspace; so the Wolfe, strong Wolfe and exact searches return the same step, value and status. The differentiated retraction of Grassmann with extrinsic vectors is not horizontal, although its intrinsic version is.", "quantifier": "all sizes, objectives with their gradients, points, tangent directions, steps, results of HHRDecom, parameters of the searches and interpolation oracles", "why_tests_cant": "Tests evaluate a few slopes by finite differences in one representation; the derivative and the equality hold at every step for every objective.", "anchors": ["Solvers/SolversSMLS.cpp: SolversSMLS::h, SolversSMLS::dh, SolversSMLS::LinesearchStrongWolfe, SolversSMLS::LinesearchWolfe, SolversSMLS::LinesearchExact", "Manifolds/Stiefel.cpp: Stiefel::DiffqfRetraction, Stiefel::qfRetraction", "Manifolds/Grassmann.cpp: Grassmann::DiffRetraction, Grassmann::Retraction"]}
{"id": "C136", "title": "Runs on the positive definite matrices are affine invariant", "statement": "On the manifold of symmetric positive definite matrices with the affine invariant metric and the second-order retraction, let f'(A x A^T) = f(x) for an invertible matrix A. Then a run of steepest descent or of the trust-region Newton method for f' from A x0 A^T passes through the congruents A x A^T of the iterates x of the run for f from x0, with the same function values, gradient norms, step sizes, radii and counts, and every line search reads the same function of the step and the same slopes, which are its derivatives. The computed Karcher mean of the matrices A S_i A^T is therefore the congruent of the computed mean of the S_i. Conjugate gradients, BFGS and the rank-one trust-region method have this property for lower triangular A with positive diagonal; the default vector transport is not invariant under other A. Intrinsic and extrinsic tangent vectors give the same run.", "quantifier": "all sizes, invertible (respectively lower triangular) matrices A, objectives with their gradients and Hessians, starting points, parameters, numbers of iterations, data sets of the Karcher mean and LAPACK results meeting their specification", "why_tests_cant": "A test compares a run for one matrix A and one objective; the equality holds for all of them, and the failure of the transport for non-triangular A appears only with conjugate gradients or quasi-Newton updates.", "anchors": ["Manifolds/SPDManifold.cpp: SPDManifold::SecOrdRetraction, SPDManifold::DiffSecOrdRetraction, SPDManifold::Metric, SPDManifold::EucGradToGradAF, SPDManifold::EucHvToHvAF, SPDManifold::VectorTransportParallelization, SPDManifold::ObtainIntrAF, SPDManifold::ObtainExtrAF", "Problems/SPDKarcherMean.cpp: SPDKarcherMean::f, SPDKarcherMean::EucGrad, SPDKarcherMean::EucHessianEta", "Solvers/RSD.cpp: RSD::GetSearchDir", "Solvers/RCG.cpp: RCG::GetSearchDir", "Solvers/RBFGS.cpp: RBFGS::UpdateData", "Solvers/SolversSMTR.cpp: SolversSMTR::Run, SolversSMTR::tCG_TR"]}
{"id": "C137", "title": "Runs on Stiefel and Grassmann do not depend on the basis of the ambient space", "statement": "Let U be an orthogonal n x n matrix and f'(U x) = f(x) for all x. With the Euclidean metric, the qf retraction and the projection transport, a run of steepest descent (any rule for the initial step), conjugate gradients or the trust-region Newton method for f' from U x0, on Stiefel or on Grassmann, passes through the points U x where the run for f from x0 passes through x, and reports the same function values, gradient norms, step sizes, radii, ratios and counts; every line search reads the same function of the step and the same slopes. For steepest descent and trust-region Newton this also holds with intrinsic tangent vectors, although the stored Householder factors and hence the coordinates of corresponding vectors differ. In particular the outcome for the Brockett cost and the Rayleigh quotient depends only on the position of the start relative to the eigenvectors of the matrix.", "quantifier": "all sizes n >= p, orthogonal matrices U, objectives with their gradients and Hessians, starting points, parameters, numbers of iterations and results of the Householder decomposition meeting its specification", "why_tests_cant": "A test compares two runs for one rotation and one objective; the signs chosen by the Householder decomposition of rotated matrices are unrelated, and only a proof shows that they never reach the iterates.", "anchors": ["Manifolds/Stiefel.cpp: Stiefel::qfRetraction, Stiefel::DiffqfRetraction, Stiefel::ExtrProjection, Stiefel::EucGradToGrad, Stiefel::EucHvToHv, Stiefel::ObtainIntrHHR, Stiefel::ObtainExtrHHR", "Manifolds/Grassmann.cpp: Grassmann::Retraction, Grassmann::EucGradToGrad, Grassmann::EucHvToHv", "Problems/StieBrockett.cpp: StieBrockett::f", "Problems/GrassRQ.cpp: GrassRQ::f", "Solvers/RSD.cpp: RSD::GetSearchDir", "Solvers/RCG.cpp: RCG::GetSearchDir", "Solvers/SolversSMTR.cpp: SolversSMTR::Run, SolversSMTR::tCG_TR"]}
{"id": "C138", "title": "Runs on a product of manifolds depend on its factors only", "statement": "Let two products of manifolds have factors that correspond one to one, in any order: corresponding points, vectors, metrics, retractions and conversions of Euclidean derivatives. Runs of steepest descent, conjugate gradients (with corresponding transports) and the trust-region Newton method on the two products, for objectives that agree, then pass through corresponding points and report the same function values, gradient norms, step sizes, radii and counts, and every line search reads the same function of the step with the same slopes. So (a) it does not matter how equal factors are grouped into powers, in which order the factors are given, and what fresh memory contains; (b) a product with one factor behaves as the factor itself; (c) on products of Stiefel and Grassmann manifolds, every choice of intrinsic or extrinsic tangent vectors for the single factors gives the same runs of steepest descent and trust-region Newton and the same line searches.", "quantifier": "all numbers of factors, groupings, permutations, manifolds as factors, flags, objectives with gradients and Hessians, starting points, parameters and numbers of iterations", "why_tests_cant": "A test fixes the number of factors, their grouping and their flags, and compares a few runs; the claim covers every product and every run.", "anchors": ["Manifolds/MultiManifolds.cpp: MultiManifolds::MultiManifolds, MultiManifolds::Metric, MultiManifolds::Retraction, MultiManifolds::DiffRetraction, MultiManifolds::VectorTransport, MultiManifolds::Projection, MultiManifolds::EucGradToGrad, MultiManifolds::EucHvToHv, MultiManifolds::ObtainIntr, MultiManifolds::ObtainExtr", "Manifolds/Manifold.cpp: Manifold::ScalarTimesVector, Manifold::VectorLinearCombination, Manifold::ScalarVectorAddVector", "Problems/Problem.cpp: Problem::Grad, Problem::HessianEta", "Solvers/RSD.cpp: RSD::GetSearchDir", "Solvers/RCG.cpp: RCG::GetSearchDir", "Solvers/SolversSMTR.cpp: SolversSMTR::Run, SolversSMTR::tCG_TR"]}
{"id": "C139", "title": "What a caller reads after a run belongs to the returned point", "statement": "After a run the reported function value and gradient norm are those of the reported point, the reference norm is that of the starting point, the number of iterations respects the limits, and the recorded histories (one entry more than iterations) are the function values, gradient norms and accepted steps of the points the run went through, each reached from the previous one by a step of the recorded length. Holds however the run ended for the Armijo search, the exact search and searches given by the user (the last recorded step only if the last search did not fail); for the strong Wolfe search if its last search did not give up; values and steps, but not gradient norms, for the weak Wolfe search; final value and norm, but not the history, for the trust-region solvers.", "quantifier": "all problems, manifolds, directions (solvers given by their hooks), parameters, starting points, numbers of iterations, and arithmetics (rounding, infinities and NaN included)", "why_tests_cant": "Which members a search leaves behind depends on the way it is left; a test sees the few ways its functions lead to.", "anchors": ["Solvers/SolversSMLS.cpp: Run, h, dh, LinesearchArmijo, LinesearchExact, LinesearchStrongWolfe, Zoom, LinesearchWolfe", "Solvers/SolversSMTR.cpp: Run", "Solvers/Solvers.h: GetXopt, Getfinalfun, GetIter, GetfunSeries, GetlengthSeries", "Solvers/SolversSM.h: Getnormgf, Getnormgfgf0, GetgradSeries"]}
{"id": "C140", "title": "Trial steps of the strong Wolfe search", "statement": "Inside a bracket the strong Wolfe search tries the minimizer of the parabola through the known values and slope, moved between the fractions LS_ratio1 and LS_ratio2 of the bracket; every trial lies strictly inside the bracket, brackets shrink by a fixed factor, and a step satisfying the conditions is found if there is one.", "quantifier": "all functions along the ray, values, slopes, brackets, parameters 0 < LS_ratio1 <= LS_ratio2 < 1 and ordered fields of numbers", "why_tests_cant": "Whether the interpolation takes effect depends on the orientation of the bracket and on the sequence of trials; the search converges on the usual test functions without it, so tests do not see it.", "anchors": ["Solvers/SolversSMLS.cpp: LinesearchStrongWolfe, Zoom"]}
{"id": "C141", "title": "The counters of a solver bound what a run has consulted", "statement": "When a run of a smooth solver ends, the outcome is determined by as many values of the cost function, gradients, retractions and Hessian actions as the counters returned by Getnf, Getng, GetnR and GetnH have advanced; the retraction is used once for each function value but the first. With the Armijo searches one gradient is computed per iteration; a trust-region run with k iterations evaluates the function k+1 or k+2 times and the Hessian at most (k+1)(Max_Inner_Iter+1) times. The counters are totals over all runs since construction.", "quantifier": "all problems, manifolds, retractions, initial objects (also after other runs), parameters, the six line searches and the trust-region solvers RTRSD, RTRNewton, RTRSR1, without a bound on the number of passes", "why_tests_cant": "A test reads the counters on some runs but cannot see that no further value of the cost function influenced the result; an evaluation without an increment on one exit of one search goes unnoticed.", "anchors": ["Solvers/SolversSMLS.cpp: Run, h, dh, LinesearchArmijo, LinesearchWolfe, LinesearchStrongWolfe, Zoom, LinesearchExact, LinesearchInput", "Solvers/SolversSMTR.cpp: Run, tCG_TR, Acceptence", "Solvers/RTRSR1.cpp: UpdateData", "Solvers/Solvers.cpp: SetDefaultParams, SetProbX"]}
{"id": "C142", "title": "Order in which a solver calls the problem", "statement": "A solver asks for the gradient only at the point at which it has evaluated the cost function immediately before, and for the Hessian only at a point at which it has asked for the gradient; what f and EucGrad store in their argument is therefore there when EucGrad and EucHessianEta read it.", "quantifier": "all problems, manifolds, retractions, initial objects, parameters, the six line searches, RTRSD, RTRNewton, RTRSR1, without a bound on the number of passes", "why_tests_cant": "All problems of the library read in EucGrad and EucHessianEta the temporary data stored by f and EucGrad; an order of calls which violates the assumption occurs only on rare exits of a search.", "anchors": ["Solvers/SolversSMLS.cpp: Run, h, dh, LinesearchWolfe, LinesearchStrongWolfe, Zoom, LinesearchExact", "Solvers/SolversSMTR.cpp: Run, tCG_TR, Acceptence", "Problems/StieBrockett.cpp: f, EucGrad", "Problems/Problem.cpp: Grad, HessianEta"]}
{"id": "C143", "title": "When operands that are the target itself or one of its fields are safe", "statement": "After any history of operations, an in-place operation (x.AlphaXaddThis, x.AlphaABaddBetaThis) with operands that are other elements computes the same as on independent copies, whatever memory is shared. With one of the attached fields of x as operand it does so exactly if some element outside the fields of x shares the buffer of that field; otherwise the buffer is freed before it is read. x.AlphaXaddThis(alpha, x) is always right; x.AlphaABaddBetaThis with x as an operand hands overlapping buffers to gemm exactly if x is alone on its buffer. The assignment x = x.Field(\"a\") reads a deleted element exactly if x, or the field, has a field whose name comes after a; otherwise x ends up with exactly the fields the field had.", "quantifier": "all histories of operations on elements, all sharing patterns, any number of operands and attached fields, all names and values", "why_tests_cant": "Whether the operand is gone when it is read depends on who else shares its buffer and on the names of unrelated fields; a test with one sharing pattern reports nothing, and the freed buffer often still holds the old values.", "anchors": ["Manifolds/Element.cpp: AlphaXaddThis, AlphaABaddBetaThis, ObtainWritePartialData, RemoveAllFromFields, Field, CopyTo", "Manifolds/SmartSpace.cpp: CopyOnWrite, ~SmartSpace"]}
{"id": "C144", "title": "What the accelerated proximal solver asks of the problem and what it reports", "statement": "A run of AManPG that ends depends on the problem and the retraction only through the answers to the calls it has made. A gradient is asked for only right after the function value at the same point. In a run of k iterations the function is evaluated exactly 2k times more often than Getnf advances, the gradient k times more often than Getng and the retraction 2k times more often than GetnR. Getfinalfun is the value at the point GetXopt returns and the stored gradient is the gradient there. Up to SGIterGap iterations the returned point is the initial one; after more iterations of a run that ends normally the returned value is at most the last recorded one, which belongs to another point.", "quantifier": "all problems, retractions, proximal solvers, parameters, initial objects and numbers of iterations; arithmetic is a parameter", "why_tests_cant": "The counters and the recorded series look plausible in every test; that they count and describe something else can only be seen from all paths through the iteration.", "anchors": ["Solvers/AManPG.cpp: AManPG::Run", "Solvers/SolversNSMPGLS.cpp: LinesearchArmijo", "Solvers/SolversNSM.h: Getnormnd", "Solvers/Solvers.h: GetXopt, Getfinalfun, Getnf, Getng, GetnR"]}
{"id": "C145", "title": "The relative-change criterion ends AManPG when the safeguard takes effect", "statement": "With Stop_Criterion = NSM_FUN_REL a run of AManPG ends with the first iteration, from Min_Iteration on, in which the safeguard takes effect, whatever the tolerance is and however large the last decrease was: the safeguard makes the two values that are compared equal.", "quantifier": "all problems, retractions, proximal solvers, parameters and states of the solver in which the safeguard takes effect", "why_tests_cant": "The run ends without any message and with a plausible value; that it ends because two values were made equal, and not because of convergence, is a statement about all states.", "anchors": ["Solvers/AManPG.cpp: AManPG::Run", "Solvers/SolversNSM.cpp: IsStopped"]}
{"id": "C146", "title": "Adding a constant to the cost does not change a line-search or proximal run", "statement": "Let a user replace the cost f by f + c. With a stopping criterion that uses gradients (or a user criterion that ignores function values), every line-search solver (steepest descent, conjugate gradient, BFGS), with any of the line searches and any rule for the initial step, and both proximal-gradient solvers, return the same point after the same number of iterations with the same counters and gradient norms, and all reported function values differ by exactly c.", "quantifier": "all problems, manifolds, parameters, numbers of iterations, initial objects and constants c; arithmetic in which comparisons are invariant under adding c (exact arithmetic); multiplication, division and roots arbitrary", "why_tests_cant": "a test compares two runs for one constant; the claim is about every use of a function value in every search and every branch", "anchors": ["Solvers/SolversSMLS.cpp: Run, InitialStepSize, LinesearchArmijo, LinesearchWolfe, LinesearchStrongWolfe, LinesearchExact, LinesearchInput", "Solvers/SolversNSMPGLS.cpp / ManPG.cpp / AManPG.cpp: Run", "Solvers/RSD.cpp, RCG.cpp, RBFGS.cpp"]}
{"id": "C147", "title": "No solver configuration depends on a constant added to the cost", "statement": "For every solver and every built-in stopping criterion, replacing the cost f by f + c does not change the returned point.", "quantifier": "all problems, solvers, stopping criteria and constants", "why_tests_cant": "a test can show one dependence but not say where there is none", "anchors": ["Solvers/SolversSMTR.cpp: Run (lines 79-82)", "Solvers/Solvers.cpp / SolversSM.cpp: IsStopped (SM_FUN_REL)"]}
{"id": "C148", "title": "The guarantees of a line search hold for what the solver keeps and records", "statement": "When a line search reports success, the point, cost value and gradient the solver keeps are those of the accepted step along its search direction, and they satisfy the inequalities the chosen rule promises: sufficient decrease for Armijo, both Wolfe conditions for strong Wolfe. Searches end, with a positive step. Consequently, in runs whose directions descend (RSD, RCG with any formula and preconditioner), every recorded cost value is at most one of the max(1, Num_pre_funs) values recorded before it, so with the default Num_pre_funs = 1 the recorded values never increase; the only exception is the last value after a search that failed.", "quantifier": "all costs, gradients, metrics, retractions and transports, all directions and start points, all parameter values within the documented ranges, all initial step rules, all stopping tests, any number of iterations and trials; exact arithmetic", "why_tests_cant": "A test runs finitely many searches on finitely many costs; the claim links every exit of every search, for every interpolation value the formulas can produce, with members that later iterations and callers read.", "anchors": ["Solvers/SolversSMLS.cpp: SolversSMLS::LinesearchArmijo, LinesearchStrongWolfe, Zoom, LinesearchWolfe, InitialStepSize, Run", "Solvers/RSD.cpp: RSD::GetSearchDir", "Solvers/RCG.cpp: RCG::GetSearchDir"]}
{"id": "C149", "title": "The trust-region guarantees hold for the members a solver object keeps and returns", "statement": "In every pass of a trust-region Newton or steepest descent run, the trial vector the solver holds lies in the trust region, predicts at least the decrease of the best step along the (preconditioned) steepest descent direction, and the reported reason for ending the inner iteration is true; the candidate, its cost and the acceptance ratio are those of that vector. A run ends within Max_Iteration passes; the returned point, cost, gradient and gradient norm belong together, the cost is not above that of the initial point (if the stopping test comes before the parameter Accuracy takes effect), and the recorded series starts with the initial values and has one entry per pass. With bounded Hessians and the stopping test on the gradient norm, a run with enough passes returns a point whose gradient norm is below the tolerance.", "quantifier": "all manifolds, metrics, retractions, costs, symmetric Hessian operators and positive definite preconditioners, all ways of storing tangent vectors (as vectors of a larger space or as coordinates), all start points and earlier contents of the object, all parameters in the documented ranges, any number of passes and inner iterations; exact arithmetic", "why_tests_cant": "A test runs finitely many passes on finitely many problems; the claim is about every exit of the inner iteration and every sequence of acceptances, rejections and radius changes.", "anchors": ["Solvers/SolversSMTR.cpp: SolversSMTR::Run, tCG_TR, InitialVector", "Solvers/RTRNewton.cpp: RTRNewton::HessianEta", "Solvers/RTRSD.cpp: RTRSD::HessianEta", "Solvers/SolversSM.cpp: SolversSM::IsStopped"]}
{"id": "C150", "title": "Initial steps lie between the inverse curvatures of the cost", "statement": "With the Barzilai-Borwein rule, in a run in which the cost has curvature between m and L along every step taken, every initial step handed to the line search after the first iteration is at least 1/L and at most 1/m, unless it is the quadratic prediction from the last decrease (then it exceeds 100/L). The second quotient is never above the first, the newest quotients are remembered up to the chosen number, and the choice is the first quotient or the least of the second and the remembered ones. For all rules the initial step is positive, and the decrease they use is that over the last step.", "quantifier": "all manifolds with an inner product, costs, solvers (directions), numbers of remembered quotients, ratios, backtracking/interpolation and strong Wolfe searches, run lengths", "why_tests_cant": "The bound concerns every iteration of every run on every cost with bounded curvature.", "anchors": ["Solvers/SolversSMLS.cpp: InitialStepSize, Run", "Solvers/SolversSMLS.cpp: LinesearchArmijo, LinesearchStrongWolfe"]}
{"id": "C151", "title": "A ManPG object returns a point that belongs to its value, gradient and history, every run ends, and with a large enough weight it ends below the tolerance", "statement": "After a run of the proximal-gradient solver the value and gradient it reports belong to the returned point. The recorded values are those of a chain of points from the initial to the returned point; every step in it is the first of 1, LS_ratio, LS_ratio^2, ... with sufficient decrease along a direction found by the subproblem, no step but a full one is below Minstepsize, and the recorded length is the number of iterations plus one. If subproblem directions do not point up, the recorded values never increase. Every run ends, whatever the object did before. With a fixed weight above the curvature and a metric that does not depend on the point, a run with the criterion NSM_DIR_F ends with a reported direction norm below the tolerance, belonging to the direction at the returned point or at the one before it, and each iteration but the last has gained a fixed amount. Two limits: a tolerance above one ends the run before any direction is computed; and with a metric that depends on the point the reported norm is taken at another point, so that a run can stop although the norm of the direction is above the tolerance.", "quantifier": "all costs, gradients, retractions, subproblem solvers (including their dependence on the kept dual vector, the accuracies and the adaptive weight), parameters, initial points and solver objects in any state left by earlier runs", "why_tests_cant": "The subproblem depends on members that survive a run, so what a run does depends on its history; tests see one history. The two limits only show for tolerances above one and for non-constant metrics.", "anchors": ["Solvers/ManPG.cpp: ManPG::Run", "Solvers/SolversNSMPGLS.cpp: LinesearchArmijo", "Solvers/SolversNSM.cpp: IsStopped"]}
{"id": "C152", "title": "Subgradient solver objects: what a run of RGS, RBFGSSub or LRBFGSSub returns, records and leaves behind", "statement": "After a run of a subgradient solver the returned value and gradient belong to the returned point, the recorded values begin with that of the initial point and end with that of the returned one, and all array accesses are in bounds; the line search is the search of C60 on the cost along the direction, its initial slope is not positive, and the recorded values never increase except possibly the last one after the status 'minimum step size'; the sampling radius stays between its lower bound and its previous value, and the tolerance on the shortest vector between zero and its previous value; at a stationary point the solver stops; an object can be used again after SetProbX as if it were new, and no memory is lost.", "quantifier": "All arithmetics (members, bounds, reuse), all ordered fields (search, descent), all problems, manifolds, subproblem solvers and operators, all parameters, all numbers of iterations, all sequences of Run and SetProbX", "why_tests_cant": "The claims concern every problem and every history of an object; the failures depend on members that survive a run or were never initialised, and their values happen to be harmless in short tests.", "anchors": ["Solvers/SolversNSMSubLS.cpp: Run, GetSearchDir, Increasing, LinesearchWolfeLipschitz, ZoomLP, h, dh, SetProbX", "Solvers/SolversNSMSub.cpp: Run, SetProbX, ~SolversNSMSub", "Solvers/SolversNSM.cpp: IsStopped, Run", "Solvers/RGS.cpp: GetSearchDir", "Solvers/LRBFGSSub.cpp: Run, SetProbX", "Solvers/RBFGSSub.cpp: SetProbX"]}
{"id": "C153", "title": "Cost, gradient and Hessian given as Julia functions are called correctly", "statement": "If the Julia functions of a user compute a cost, its Euclidean gradient and the action of its Hessian, using the array Tmp for intermediate results as they like, then every sequence of calls on a variable gives the solver the right values, whatever has been called before; Tmp holds what the functions have returned last; results of a wrong length or type and exceptions are reported; variables are changed by the user's functions in no case.", "quantifier": "All user functions, all memory contents, all variables with or without Tmp, all sequences of calls of cost, gradient and Hessian", "why_tests_cant": "The order in which a solver calls the functions, and with which intermediate results, differs from solver to solver and run to run; tests see a few orders only.", "anchors": ["Problems/juliaProblem.cpp: f, EucGrad, EucHessianEta"]}
{"id": "C154", "title": "The projective retraction of the two-factor form is the metric projection", "statement": "For FixedRankQ2F and CFixedRankQ2F, ProjRetraction is defined exactly when both factors have at least 2r rows (otherwise memory behind the singular values is written). Then the matrix represented by the result is a nearest one, among all matrices of rank at most r, to G H* + dG H* + G dH*; it differs from G H* + t (dG H* + G dH*) by at most t^2 |dG dH*| along a ray, is G H* for the zero vector, and does not depend on the factors chosen to represent the point and the direction when the r-th singular value exceeds the next. The two factors of the result have the same diagonal Gram matrix, and they have full rank exactly when the moved matrix has rank at least r.", "quantifier": "All sizes, real and complex, all points, all tangent vectors, all factorisations LAPACK may return", "why_tests_cant": "Optimality over all matrices of rank r and independence of the representatives are universal statements; the missing size check shows only for r > min(m,n)/2.", "anchors": ["Manifolds/FixedRankQ2F.cpp: ProjRetraction", "Manifolds/CFixedRankQ2F.cpp: ProjRetraction"]}
{"id": "C155", "title": "CheckParams tells legal parameter values from illegal ones", "statement": "For every solver class and all values of its parameters, CheckParams prints one line for each parameter that SetParams recognises, and the line says YES exactly when the value is legal. A report without a NO is a guarantee: the line searches of the smooth and of the proximal-gradient solvers end for every objective, and the radius of the trust-region solvers stays between its bounds in every run. A new object gets a report without a NO. False in the code in four places: an enumeration value out of range is used as an index into an array of names, so that no NO is ever printed for it; the line of useRand of RNewton repeats the verdict on kappa; the initial radius is not compared with the bounds, and the two line-search constants of the subgradient solvers are not compared with each other; a backtracking ratio or decrease constant given to a proximal-gradient solver by SetParams is reported as illegal whatever its value.", "quantifier": "all eleven kinds of solver classes, all values of all parameters, all parameter maps, all objectives, all runs of the trust-region loop", "why_tests_cant": "a test calls CheckParams with the defaults and a few illegal values; the claim is about every combination of values and about what a clean report implies for every objective and run", "anchors": ["Solvers/Solvers.cpp:CheckParams", "Solvers/SolversSM.cpp:CheckParams", "Solvers/SolversSMLS.cpp:CheckParams", "Solvers/SolversSMTR.cpp:CheckParams", "Solvers/SolversNSM.cpp:CheckParams", "Solvers/SolversNSMSub.cpp:CheckParams", "Solvers/SolversNSMSubLS.cpp:CheckParams", "Solvers/SolversNSMPGLS.cpp:CheckParams", "Solvers/RCG.cpp:CheckParams", "Solvers/RNewton.cpp:CheckParams", "Solvers/LRBFGS.cpp:CheckParams", "Solvers/LRTRSR1.cpp:CheckParams", "Solvers/AManPG.cpp:CheckParams"]}
{"id": "C156", "title": "Interpolated trial steps minimise the interpolating polynomial", "statement": "When a trial step of the Armijo or of the Wolfe search fails, the next one is, up to the limits on how fast steps shrink, the minimiser of the polynomial through the known data: after the first failure of the parabola with the value and slope at 0 and the trial value, later a minimiser of the cubic that takes the last two trial values as well (the global one over all non-negative steps if its leading coefficient is positive). On a ray on which the objective is a strictly convex parabola, with the minimiser within the limits and LS_alpha at most 1/2, the Armijo search ends with the second trial at the exact minimiser.", "quantifier": "all steps, values and slopes, all interpolating polynomials, all objectives that are parabolas along the ray, all parameter values allowed", "why_tests_cant": "a test compares a few steps with numbers computed by the same formula; that the formula gives a minimiser for all data is an algebraic statement", "anchors": ["Solvers/SolversSMLS.cpp:LinesearchArmijo", "Solvers/SolversSMLS.cpp:LinesearchWolfe"]}
{"id": "C157", "title": "ManPG solves sparse PCA on the Stiefel manifold", "statement": "For sparse principal component analysis (minimise -trace(X'B'BX) + lambda * sum of |X_ij| over matrices with orthonormal columns) with the polar retraction, and subproblems solved exactly with the weights the problem supplies: the weights are positive for the supported values of lengthW; the subproblem has exactly one solution; the cost along a step differs from the subproblem's model by at most half of (2 s0^2 + lambda sqrt(np)) times the squared step; if every weight exceeds half that number and LS_alpha is small relative to the tolerance, the non-adaptive ManPG run stops with a direction shorter than the tolerance, at a cost not above the initial one, after a number of iterations bounded by the cost gap; with lengthW = 1 this holds whenever lambda sqrt(np) < 2 s0^2. Where the direction is short, no retraction decreases the cost by more than a multiple of its length plus the curvature term.", "quantifier": "all data matrices B, all numbers of rows and components, all lambda >= 0, all initial points, all tolerances and parameter values satisfying the stated inequalities", "why_tests_cant": "a test runs finitely many random data matrices; convergence for all data needs the second-order bound of the polar retraction and of the trace term", "anchors": ["Problems/StieSPCA.cpp:PreConditioner", "Problems/StieSPCA.cpp:f", "Problems/StieSPCA.cpp:EucGrad", "Manifolds/Stiefel.cpp:PolarRetraction", "Manifolds/Manifold.cpp:TangentSpaceProximalMap", "Solvers/SolversNSMPGLS.cpp:Run"]}
{"id": "C158", "title": "The default adaptive weights of ManPG stay at or below the supplied ones, and can fall so low that the cost rises", "statement": "With the default variant (LSPG_ADALIPSCHITZ) the factor by which ManPG multiplies the weights the problem supplies stays in (0, 1] through every run, whatever the problem. It is not reset between runs. Because every accepted full step lowers it and the acceptance test uses the slope of the smooth part only, a run with the default parameters can accept a step that raises the cost, even though the supplied weight is a Lipschitz constant of the gradient and all subproblems are solved exactly; and the next run of the same object, with a new initial point, can return a point whose cost is above that of its initial point.", "quantifier": "range: all problems, parameters, objects with a factor in (0, 1] and lengths of runs; the two increases: all states of the other members and all fuels, for one explicit problem on the line", "why_tests_cant": "the increase needs about seventy accepted full steps before it can occur, so short test runs and runs on a fresh object do not see it", "anchors": ["Solvers/ManPG.cpp:Run", "Solvers/SolversNSMPGLS.cpp:LinesearchArmijo", "Solvers/SolversNSMPGLS.cpp:SetProbX", "Solvers/SolversNSMPGLS.cpp:SetDefaultParams"]}
{"id": "C159", "title": "A preconditioner given as a Matlab function stays symmetric and positive definite when the solver works in coordinates, except that SPD matrices need symmetric values and matrix representations are not projected", "statement": "A user who supplies a preconditioner that is symmetric and positive on the tangent space gets, when the domain works with coordinates, an operator on coordinate vectors of the right length that is again symmetric and positive definite. On the Stiefel and Grassmann manifolds this holds even if the function returns matrices that are not tangent. On the manifold of positive definite matrices it holds when the function returns symmetric matrices, for both metrics, and fails otherwise: a preconditioner that is positive definite on all matrices can become one that points into the opposite half space. When the domain represents tangent vectors by matrices the value of the function reaches the solver unprojected and need not be tangent. Without a function the identity is used.", "quantifier": "all sizes, all points, all preconditioners and all coordinate vectors for the positive statements; all contents of fresh memory; one explicit preconditioner for each negation", "why_tests_cant": "symmetry and positivity are statements about all pairs of vectors; a test that looks at the convergence of one run does not see that the conjugate gradient recurrences are applied to an indefinite operator", "anchors": ["Problems/mexProblem.cpp:PreConditioner", "Problems/Problem.cpp:PreConditioner", "Manifolds/Stiefel.cpp:ObtainIntrHHR", "Manifolds/Stiefel.cpp:ObtainExtrHHR", "Manifolds/Grassmann.cpp:ObtainIntr", "Manifolds/SPDManifold.cpp:ObtainIntrEuc", "Manifolds/SPDManifold.cpp:ObtainIntrAF"]}
{"id": "C160", "title": "The recorded series, and the copies a callback takes of them during the run, are values", "statement": "The solvers store function values, times and gradient norms through a raw pointer that bypasses the protection of shared copies. Nevertheless, whatever the callbacks of the user and the rest of the library do with other objects in between, taking copies of the series included, a run has the effect of the program that writes each entry with the protecting accessor under deep-copy semantics: at the end the series holds every recorded value, a copy taken by a callback (or fetched after an earlier run) keeps every entry it had, and no store goes through a dangling pointer or past the end while the indices are below 1 + Max_Iteration. The reason is that no entry is stored twice. The series of direction norms of the subgradient solvers is the exception: its entry 0 is stored twice, and a copy taken in between changes.", "quantifier": "all reachable program states at the start of the run, all numbers of iterations, all values, all sequences of operations of the rest of the program between any two stores, with and without recording", "why_tests_cant": "a stale or overwritten copy needs a callback that keeps a copy across iterations; the interleavings of copies, assignments, writes and destructions with the stores are unbounded", "anchors": ["Solvers/Solvers.cpp:Run", "Solvers/SolversSMLS.cpp:Run", "Solvers/SolversSMTR.cpp:Run", "Solvers/ManPG.cpp:Run", "Solvers/AManPG.cpp:Run", "Solvers/SolversNSMSubLS.cpp:Run", "Solvers/Solvers.h:GetfunSeries", "Manifolds/SmartSpace.cpp:ObtainWritePartialData"]}
{"id": "C161", "title": "ManPG with its backtracking ratio passed by name makes full steps or none", "statement": "If the backtracking ratio of ManPG is passed through the parameter map, whatever admissible value in (0, 1) is given, every iterate of a run is the one before or the full proximal step from it; no shorter step is ever tried. If the full step from the initial point does not decrease the cost enough, every run that ends returns the initial point, however many iterations it may make. In particular passing the default values by name is not the same as not passing them: for the cost 2x^2 on the line with the weight 1, one iteration with the defaults finds the minimiser with the step 1/4, while a run with the same values passed by name returns its initial point, counting iterations with the step 0 as successful.", "quantifier": "all problems whose retraction maps the zero vector to the point itself, all variants, subproblem solvers, stopping rules and iteration limits, all values of the ratio in (0, 1), all initial points and object states, all runs that end", "why_tests_cant": "a test that sets parameters through the map compares results with itself; whether any shorter step can ever be taken is a statement about all problems and all iterations", "anchors": ["Solvers/SolversNSMPGLS.cpp:SetParams", "Solvers/SolversNSMPGLS.cpp:LinesearchArmijo", "Solvers/ManPG.cpp:Run"]}
{"id": "C162", "title": "The time limit never ends a run early and holds up to two iterations when no other solver runs meanwhile; rejected steps and inner runs void it", "statement": "Whatever the problem does during a run, a run that ends because of TimeBound has really lasted longer, and no recorded time and no GetComTime exceeds the true duration. If no other solver object runs meanwhile, an iteration beyond Min_Iteration that follows a stopping test starts only if the limit had not passed at that test; a line-search run whose iterations take at most D lasts at most the limit plus 2D; recorded times are the true ones, modulo the range of the tick counter. Otherwise the limit can be missed without bound: trust-region runs do not look at the clock after rejected steps; a run whose cost or manifold runs another solver measures time from the start of that inner run; the subgradient solvers do this in every iteration by themselves and in addition ignore the limit while the sampling radius is above its minimum; with a 32-bit counter a limit of 71.6 minutes or more never ends a run.", "quantifier": "all durations of all parts of a run, all placements of inner runs, all outcomes of the iterations, all limits, iteration limits and counter widths", "why_tests_cant": "tests do not wait for limits, and the failures depend on which of the parts of a run take the time and on what else runs in them", "anchors": ["Solvers/Solvers.cpp:Run", "Solvers/SolversSM.cpp:IsStopped", "Solvers/SolversNSM.cpp:IsStopped", "Solvers/SolversSMLS.cpp:Run", "Solvers/SolversSMTR.cpp:Run", "Solvers/SolversNSMSubLS.cpp:Run", "Others/MinPNormConHull.cpp:MinPNormConHullRMethod", "Others/Timer.cpp:getTickCount"]}
{"id": "C163", "title": "Several solvers on one problem object: whose Hessian is right", "statement": "Any number of solver objects may share one problem object. Runs of solvers that do not use the Hessian are never affected by the others. A run of RNewton or RTRNewton is given, for every action of the Hessian it asks for, the one at its current iterate computed from the Euclidean gradient there, and never aborts, provided that the last solver construction, SetProbX, derivative check (CheckGradHessian, MinMaxEigValHess) or SetUseHess call on the problem before Run was of a Newton class, a derivative check, or SetUseHess(true); calling SetProbX right before Run is always enough. If instead a solver of another class was constructed on the problem after the Newton solver, the run aborts at its first Hessian when assertions are on, and with assertions off computes every Hessian with the point in the place of the Euclidean gradient (unless the domain is Euclidean and the problem has its own Hessian).", "quantifier": "all problems, methods (any strategy of requests depending on everything told so far), run lengths, starts, sets of solver objects of the 16 classes, all programs (sequences of constructions, restarts, derivative checks, flag changes and runs), both builds", "why_tests_cant": "The dependence is through a mutable flag of a const problem and a hidden field of the iterate; tests construct a solver and run it at once, so the order that fails never occurs, and with NDEBUG the failure is a silently wrong Hessian.", "anchors": ["Problems/Problem.cpp:Problem::Grad, RieHessianEta, EucHessianEta, SetUseHess, CheckGradHessian", "Problems/SphereTxRQ.cpp:SphereTxRQ::SphereTxRQ", "Solvers/RTRNewton.cpp:SetProbX", "Solvers/RSD.cpp:SetProbX", "Manifolds/Stiefel.cpp:EucGradToGrad, EucHvToHv", "Manifolds/Element.cpp:Element::Field"]}
{"id": "C164", "title": "The verbosity level changes what is recorded and nothing else; after quiet runs the history is that of an earlier run", "statement": "For the line-search, trust-region and proximal-gradient solvers, a run with Verbose below ITERRESULT goes through the same iterates, stops after the same number of iterations for the same reason and returns the same values as the run with history kept, provided that one is defined (does not write past the history arrays because Min_Iteration exceeds Max_Iteration, and does not divide by OutputGap = 0); the quiet run has neither of these failures. A quiet run does not reset the history: after any number of quiet runs of one object GetlengthSeries is still the number left by its last recorded run (0 for a new object).", "quantifier": "all problems, search results, stopping tests that do not look at the series, parameters, run lengths, and all sequences of runs of one object", "why_tests_cant": "Tests compare printed output at one level; equality of whole runs at two levels for every problem, and the stale length after mixed sequences of runs, need a simulation argument.", "anchors": ["Solvers/Solvers.cpp:Run, SetDefaultParams", "Solvers/SolversSMLS.cpp:Run", "Solvers/SolversSMTR.cpp:Run", "Solvers/ManPG.cpp:Run", "Solvers/AManPG.cpp:Run", "Solvers/Solvers.h:GetlengthSeries"]}
{"id": "C165", "title": "On a quadratic function the conjugate gradient solver with exact steps is the linear conjugate gradient method", "statement": "RCG on a Euclidean space with the cost 1/2 <x, A x> - <b, x>, A symmetric positive definite, no preconditioner, and the step that minimises along the direction (supplied through LinesearchInput with IsPureLSInput): for each of the six values of RCGmethod the iterates are those of the linear conjugate gradient method of Hestenes and Stiefel, so they do not depend on RCGmethod; neither the restart test nor the safeguard interferes; the gradients at different iterates are orthogonal; the run reaches the unique minimiser after at most as many iterations as the dimension, and no iterate is NaN before.", "quantifier": "all finite dimensional inner product spaces, all symmetric positive definite A, all b, all initial iterates, all six formulas, all iteration counts", "why_tests_cant": "A test compares a few runs to a tolerance; that the six formulas coincide and the run is finite is a statement about all quadratics, all dimensions and all initial points.", "anchors": ["Solvers/RCG.cpp: GetSearchDir, UpdateData", "Solvers/SolversSMLS.cpp: Run"]}
{"id": "C166", "title": "A preconditioned conjugate gradient run on a quadratic function is finite", "statement": "RCG on a Euclidean space with a strongly convex quadratic cost, exact steps and a symmetric positive definite preconditioner supplied by Problem::PreConditioner reaches the minimiser after at most as many iterations as the dimension, as the preconditioned conjugate gradient method does. False in the code: the update takes the gradient, not the preconditioned gradient, as the first term of the new direction, so that the new direction is not conjugate to the old one. If the preconditioner is a multiple other than one of the identity, the second iteration never reaches the minimiser, in any dimension, for any quadratic and any of the six formulas, unless the first already did; on the plane this contradicts the claim. It holds when the preconditioner is the inverse of the Hessian.", "quantifier": "all inner product spaces, all quadratics, all multiples of the identity, all six formulas, all initial iterates", "why_tests_cant": "Runs with a preconditioner still converge, only slower, so no test on the result notices; that no case ends in time is a statement about all quadratics.", "anchors": ["Solvers/RCG.cpp: UpdateData, GetSearchDir", "Problems/Problem.cpp: PreConditioner", "Problems/SFRQLyapunov.cpp: PreConditioner"]}
{"id": "C167", "title": "The inner solver of the trust-region methods ends within as many passes as there are dimensions", "statement": "The truncated conjugate gradient solver of RTRNewton, with any symmetric Hessian (definite or not), any positive definite preconditioner, any radius and Min_Inner_Iter = 0, makes at most as many passes as the tangent space has dimensions: a Max_Inner_Iter at or above the dimension is never the reason for ending, and raising it further changes nothing. With a positive definite Hessian, kappa = 0 and the Newton step inside the region (in the norm of the preconditioner), the step returned is the Newton step exactly.", "quantifier": "all finite dimensional inner product spaces, symmetric Hessians, positive definite preconditioners, gradients, radii, theta, kappa and pass limits", "why_tests_cant": "Finite termination is an exact-arithmetic statement about every operator and dimension; tests see an iteration count for a few matrices.", "anchors": ["Solvers/SolversSMTR.cpp: tCG_TR"]}
{"id": "C168", "title": "On a quadratic function the trust-region Newton solver never rejects a step", "statement": "RTRNewton on a Euclidean space with a quadratic cost, convex or not, and its exact Hessian: every trial point has the value the model predicts, the ratio that decides on it is exactly one, it is accepted (Acceptance_Rho below one), the cost decreases strictly from iterate to iterate, and the radius never falls below the smaller of its initial value and its upper bound. If the Hessian is positive definite, kappa = 0, Max_Inner_Iter is at least the dimension and the minimiser lies inside the initial region, the first iteration reaches the minimiser.", "quantifier": "all quadratics in all inner product spaces, all positive definite preconditioners (varying with the point), all parameters, all states of all runs", "why_tests_cant": "A statement about every state of every run on every quadratic function; a test follows one run.", "anchors": ["Solvers/SolversSMTR.cpp: Run, tCG_TR", "Solvers/RTRNewton.cpp: HessianEta"]}
{"id": "C169", "title": "RBFGS and RBroydenFamily with exact steps solve a quadratic in at most n passes and learn its inverse Hessian", "statement": "On a Euclidean space with a strictly convex quadratic cost and exact step sizes, as long as the solver's cautious test accepts each update, the iterates of RBFGS and of RBroydenFamily (with the library's parameter 1) are those of the linear conjugate gradient method and so of the library's own RCG. The stored operator reproduces every earlier step from the gradient change over it, the run reaches the solution after at most as many passes as the space has dimensions, and after that many accepted passes the operator is the inverse of the Hessian.", "quantifier": "all inner product spaces (finite-dimensional ones for termination), all symmetric positive definite Hessians, linear terms and starting points, all constants of the cautious test with and without the convex rescaling, all passes", "why_tests_cant": "Finite termination and the agreement of three solvers are statements about whole runs in exact arithmetic over all quadratics and dimensions; a test compares a few iterates up to rounding.", "anchors": ["Solvers/RBFGS.cpp: RBFGS::UpdateDataRBFGS, RBFGS::GetSearchDir, RBFGS::SetProbX", "Solvers/RBroydenFamily.cpp: RBroydenFamily::UpdateDataRBroydenFamily", "Solvers/SolversSMLS.cpp: SolversSMLS::Run"]}
{"id": "C170", "title": "Far from the solution the cautious test turns RBFGS and RBroydenFamily into steepest descent", "statement": "With the default isconvex = false, on a quadratic cost with exact steps, as long as nu times the mu-th power of the gradient norm exceeds the largest curvature, every update is refused, the stored operator stays the identity and the iterates are those of steepest descent. With the default nu = 1e-4 and mu = 1 this happens for a well-conditioned quadratic with gradient norm above 1e4 times its largest curvature, and the finite termination of C169 is lost.", "quantifier": "all inner product spaces, symmetric or not Hessians with curvature bounded above, linear terms, starting points, all constants of the cautious test with isconvex = false, all values of the Broyden parameter, all passes", "why_tests_cant": "The loss depends on the scale of the cost function; tests on problems scaled to unit size never reach it, and it shows only as slow convergence.", "anchors": ["Solvers/RBFGS.cpp: RBFGS::UpdateDataRBFGS, RBFGS::SetDefaultParams", "Solvers/RBroydenFamily.cpp: RBroydenFamily::UpdateDataRBroydenFamily"]}
{"id": "C171", "title": "On a quadratic the SR1 operator learns the Hessian direction by direction, and then the next update near the solution divides by zero", "statement": "On a Euclidean space with a quadratic cost, whatever trial steps a run of RTRSR1 makes, after the first two passes a direction on which the operator agrees with the Hessian is never lost, every pass that changes the operator adds a dimension to the agreement, and so a run changes the operator at most n + 2 times in dimension n. After n changes the operator is the Hessian; then a further pass leaves it alone while the gradient is large, but divides by zero once the gradient norm is below a thousandth of the initial one. The pass with iteration number one forgets even an exact operator.", "quantifier": "all finite-dimensional inner product spaces, all symmetric Hessians (definite or not), all lists of trial steps and stored gradient norms, all symmetric initial operators, all thresholds", "why_tests_cant": "The count and the agreement are about runs of any length with arbitrary steps; the division by zero appears only when the operator is exact, which tests with rounding errors rarely produce but quadratic problems do.", "anchors": ["Solvers/RTRSR1.cpp: RTRSR1::UpdateDataRTRSR1", "Solvers/SolversSMTR.cpp: SolversSMTR::Run"]}
{"id": "C172", "title": "On a quadratic the memory of LRBFGS does not matter, as long as it holds one pair", "statement": "On a Euclidean space with a strictly convex quadratic cost, exact steps and no preconditioner, as long as the cautious test accepts each pair, the iterates of LRBFGS are those of the linear conjugate gradient method, and so of RBFGS, RBroydenFamily and RCG, for every memory length of at least one and with or without restarting a full memory; the run reaches the solution after at most as many passes as the space has dimensions. With memory length zero, a legal value, or while nu times the mu-th power of the gradient norm exceeds the largest curvature, it is steepest descent.", "quantifier": "all inner product spaces (finite-dimensional for termination), all symmetric positive definite Hessians, linear terms and starting points, all memory lengths, restart settings and constants of the cautious test, all passes, all contents of uninitialised memory", "why_tests_cant": "Independence of the memory length is a statement about all lengths and all runs in exact arithmetic; a test sees a few lengths and rounding differences.", "anchors": ["Solvers/LRBFGS.cpp: LRBFGS::HvLRBFGS, LRBFGS::UpdateDataLRBFGS, LRBFGS::GetSearchDir, LRBFGS::InitialHessian", "Solvers/SolversSMLS.cpp: SolversSMLS::Run"]}
{"id": "C173", "title": "The option useRand changes no result, only the number of Hessian actions", "statement": "Setting useRand for a trust-region solver (RTRSD, RTRNewton, RTRSR1) changes nothing a run returns: the run ends when the run without the option does, with the same iterate, value, gradient, radius, history, status and counters, except that the number of Hessian actions is larger by exactly one per iteration. For RNewton the search direction is the same with and without the option. No random vector enters any run, although the documentation of the option describes a random starting vector.", "quantifier": "all problems and manifolds whose vector operations treat the zero vector as a zero (linear Hessian action at zero included), all parameters, starting objects and run lengths; all local models for RNewton", "why_tests_cant": "That an option never matters is a statement about all problems and runs; a test compares two runs.", "anchors": ["Solvers/SolversSMTR.cpp: SolversSMTR::Run, SolversSMTR::tCG_TR, SolversSMTR::InitialVector", "Solvers/RNewton.cpp: RNewton::GetSearchDir, RNewton::tCG_LS"]}
{"id": "C174", "title": "RTRSD steps along the negative gradient, never farther than the gradient itself, and a positive Min_Inner_Iter ends it", "statement": "Without a preconditioner the trial point of every RTRSD iteration is the retraction of -t times the gradient, with t the smaller of one and the radius divided by the gradient norm. On a quadratic cost the ratio that decides on it is (2 - t R) / (2 - t) with R the curvature along the gradient, so the cost falls exactly when t R < 2; if no curvature exceeds one, no trial point is rejected, but if no curvature exceeds a <= 1 the gradient norm falls by at most the factor 1 - a per iteration whatever the radii. With Min_Inner_Iter positive (a legal value) and Max_Inner_Iter at least two, the inner solver divides zero by zero as soon as the radius exceeds the gradient norm, and the run ends there; with an initial radius above the initial gradient norm it returns the starting point.", "quantifier": "all manifolds, costs, points and radii for the step and the breakdown; all quadratic costs on Euclidean spaces of any dimension, all parameters with positive radii and all runs for the rest", "why_tests_cant": "That no step is longer than the gradient and that a legal setting always breaks the run down concern all problems and all runs; a test sees a few runs and their speed.", "anchors": ["Solvers/RTRSD.cpp: RTRSD::HessianEta", "Solvers/SolversSMTR.cpp: SolversSMTR::tCG_TR, SolversSMTR::Run, SolversSMTR::CheckParams"]}
{"id": "C175", "title": "A second run of an LRTRSR1 object, and a run with vectors shorter than LengthSY, read memory that was never written", "statement": "The first run of an LRTRSR1 object on a problem whose tangent vectors have at least LengthSY entries reads only stored pairs and inner products it has written, whichever pairs are stored and candidates accepted and for any number of iterations. Calling Run again on the same object fails in the first iteration exactly when the first run stored a pair: the pairs are thrown away but their number is kept. With tangent vectors of n < LengthSY entries (the default length is four) every run that stores more than n pairs and goes on fails in the iteration after the n+1-st one: an assertion, or without assertions a read outside the array of eigenvalues.", "quantifier": "all memory lengths, numbers of entries, both settings of LMrestart, all sequences of stored pairs and accepted candidates of any length", "why_tests_cant": "Whether any history of stored and rejected pairs leads to a read of unwritten memory concerns all histories; reads of uninitialised arrays often go unnoticed when a test runs.", "anchors": ["Solvers/LRTRSR1.cpp: LRTRSR1::Run, LRTRSR1::tCG_TR, LRTRSR1::UpdateDataLRTRSR1, LRTRSR1::Acceptence, LRTRSR1::SetDefaultParams", "Manifolds/Element.cpp: Element::AlphaABaddBetaThis"]}
{"id": "C176", "title": "Speed on quadratics: RCG and the quasi-Newton solvers gain the square root of the condition number over RSD", "statement": "On a quadratic cost with curvatures between m and M and exact steps: after k iterations RCG (any of its six formulas, no preconditioner) has reduced the distance of the cost from its least value by the factor 4 ((sqrt(K) - 1)/(sqrt(K) + 1))^(2k) at least, K = M/m, and so do RBFGS, RBroydenFamily with parameter one and LRBFGS with any memory while their cautious test passes; (sqrt(K) + 1)/4 log(4/e) iterations give the factor e. RCG ends after at most as many iterations as the Hessian has distinct eigenvalues. RSD reduces the distance by ((M - m)/(M + m))^2 per iteration at least, and for any m < M there is a problem and a starting point where it never does better and never ends.", "quantifier": "all symmetric positive definite Hessians on Euclidean spaces of any dimension, all right-hand sides and starting points, all numbers of iterations", "why_tests_cant": "How the number of iterations grows with the condition number is a statement over all problems; a test measures a few.", "anchors": ["Solvers/RCG.cpp: RCG::GetSearchDir, RCG::UpdateData", "Solvers/RSD.cpp: RSD::GetSearchDir", "Solvers/SolversSMLS.cpp: SolversSMLS::Run", "Solvers/RBFGS.cpp", "Solvers/RBroydenFamily.cpp", "Solvers/LRBFGS.cpp"]}
{"id": "C177", "title": "Hessian actions per iteration of the Newton solvers grow with the square root of the condition number, not with the dimension", "statement": "Where the Hessian is positive definite with curvatures between m and M, the inner solver of RTRNewton without preconditioner, and that of RNewton, ends within N passes (one Hessian action each) as soon as N >= 1 and N >= (sqrt(K) + 1)/2 log(2 sqrt(K)/t), where K = M/m and t is the smaller of kappa and the theta-th power of the gradient norm: raising Max_Inner_Iter beyond N changes neither step nor direction, and the limit is not the reason for ending. With a positive definite preconditioner P the same holds with N >= (sqrt(K) + 1)/2 log(2 sqrt(K) sqrt(C/c)/t), where m and M bound the curvatures of the preconditioned Hessian and c and C those of P.", "quantifier": "all gradients, positive definite Hessians and preconditioners on tangent spaces of any dimension, radii, accuracies and iteration limits, Min_Inner_Iter = 0", "why_tests_cant": "A bound in terms of the condition number alone concerns all Hessians in all dimensions.", "anchors": ["Solvers/SolversSMTR.cpp: SolversSMTR::tCG_TR", "Solvers/RNewton.cpp: RNewton::tCG_LS"]}
{"id": "C178", "title": "Number of iterations of RTRNewton on convex quadratics", "statement": "On a convex quadratic cost on a Euclidean space, with Max_Inner_Iter at least the dimension and any positive definite preconditioner: every iteration of RTRNewton either reduces the gradient norm to at most kappa times its value and to at most its (1 + theta)-th power, or lowers the cost by at least m D^2/2, where m is the least preconditioned curvature and D the smaller of the initial and the greatest radius. The iterations of the second kind are therefore at most B = 2 (f(x0) - f*)/(m D^2), and the number of iterations with gradient norm above eps is at most (B + 1)(log(G/eps)/log(1/kappa) + 1), where G^2 = 2 K (f(x0) - f*) and K is the greatest curvature. Without preconditioner the same holds with Max_Inner_Iter at least N >= (sqrt(K/m) + 1)/2 log(2 sqrt(K/m)/min(kappa, eps^theta)) instead of the dimension, and each of these iterations takes at most N Hessian actions.", "quantifier": "all convex quadratics in all dimensions, all starting points, preconditioners, radii, accuracies kappa in (0, 1), and all reachable states of the run", "why_tests_cant": "A bound on the number of iterations ranges over all problems and runs of any length.", "anchors": ["Solvers/SolversSMTR.cpp: SolversSMTR::Run, SolversSMTR::tCG_TR", "Solvers/RTRNewton.cpp: RTRNewton::HessianEta"]}
{"id": "C179", "title": "Transposes and block assignments of arrays with several slices concern the first slice only", "statement": "GetTranspose and Transpose accept an Element of dimensions r x l x n. The result always has one slice, the (for complex arrays conjugate) transpose of the first slice of the argument; the other slices have no effect on it, so that for n >= 2 some other array of the same shape has the same transpose, and transposing twice gives back the array exactly when n = 1. SubmatrixAssignment writes to the first slice only and leaves the others as they are if the Element owns its memory; if the memory is shared, the other slices hold undefined values afterwards.", "quantifier": "all dimensions, all contents, all numbers of slices, all blocks within the first slice", "why_tests_cant": "Loss of information is a statement about all arrays; the tests of the library transpose matrices.", "anchors": ["Manifolds/Element.cpp: Element::GetTranspose, Element::Transpose, Element::SubmatrixAssignment"]}
{"id": "C180", "title": "The pivots of an LU decomposition fit in the memory reserved for them, except in a single precision mex file", "statement": "Dividing by a square Element (operator/ and operator%) stores the integer pivots in memory reserved for as many real numbers. For matrices of every order at least one, writing the pivots stays within that memory exactly if the library is not compiled both with SINGLE_PRECISION and as a MATLAB mex file; where it does, the integers read back by later divisions are the pivots that were written. In a single precision mex file every division by a matrix writes beyond the end of the memory.", "quantifier": "all orders of the matrix, all pivots, all byte encodings of integers, both precisions and all three kinds of builds", "why_tests_cant": "Writing beyond the end of an allocation often goes unnoticed in a test, and the library is tested in double precision.", "anchors": ["Manifolds/Element.cpp: Element::LUdecom, operator/, operator%", "Others/def.h: realdp", "Others/BlasLapackCppWrapper.h: integer", "cwrapper/lapack/f2c.h: integer"]}
{"id": "C181", "title": "The Cayley vector transports move along the step last retracted from the point, whatever step they are given", "statement": "On the Stiefel manifold with the Cayley retraction and transport (parameter set 5, extrinsic vectors), VectorTransport and InverseVectorTransport from x ignore the step passed to them. After any sequence of retractions, transports, derivatives and writes on the object x they are the transports along the step of the last retraction from x, provided x was not written to since. Hence, if the step passed is that step, transports preserve inner products, send tangent vectors at x to tangent vectors at the point reached, and are undone by the inverse transport, and the derivative of the retraction in the direction of the step is the right one. With another step the result need not be tangent at the point reached. Without a retraction since x was created or written to, the calls have no result.", "quantifier": "all dimensions, all points, all steps and vectors, all finite sequences of calls on one point object", "why_tests_cant": "Tests transport directly after the retraction along the same step, where the fields left at the point are the right ones; the dependence on earlier calls shows only in longer sequences.", "anchors": ["Manifolds/Stiefel.cpp: CayleyRetraction, CayleyVectorTransport, CayleyInverseVectorTransport, DiffCayleyRetraction, ChooseParamsSet5", "Manifolds/Element.cpp: Element::AddToFields, Element::Field"]}
{"id": "C182", "title": "The convex hull subproblem accepts real vectors with one column and nothing else", "statement": "The gradient sampling solver computes the shortest vector of the convex hull of tangent vectors by minimising a function on a sphere. If the tangent vectors are real elements with one column, the function is the squared Euclidean length of the combination of the vectors with the squares of the coordinates as weights, and its gradient is the derivative of that. If they are matrices with more columns, arrays with several slices, or complex elements, as extrinsic tangent vectors of matrix manifolds are, every evaluation fails an assertion.", "quantifier": "any positive number of vectors of any dimensions, real or complex, all points", "why_tests_cant": "The solvers are tested on manifolds whose tangent vectors are columns (intrinsic coordinates); the statement is about every shape.", "anchors": ["Problems/SphereConvexHull.cpp: f, EucGrad", "Others/MinPNormConHull.cpp", "Manifolds/Element.cpp: operator+, operator*, DotProduct", "Solvers/RGS.cpp"]}
{"id": "C183", "title": "In line-search runs every Cayley transport is the one along the step between its two points", "statement": "On the Stiefel manifold with the Cayley retraction and transport, which moves along the step last retracted from the point object (C181): in every run of a line-search solver, whatever the directions, trial step sizes, user-supplied line search and stopping function, every vector transport of UpdateData and of the Barzilai-Borwein initial step, made after the two iterates have been exchanged, has a result and is the Cayley transport along the step that leads from its first to its second point. It therefore sends tangent vectors to tangent vectors of the same length.", "quantifier": "all dimensions, all runs of any length, all trial sequences, all vectors transported", "why_tests_cant": "The fields a transport reads depend on the whole history of retractions, copies and exchanges in the run; a test sees one history.", "anchors": ["Solvers/SolversSMLS.cpp: Run, InitialStepSize, h, dh", "Manifolds/Stiefel.cpp: CayleyRetraction, CayleyVectorTransport", "Manifolds/Element.cpp: CopyTo"]}
{"id": "C184", "title": "The line printed at the end of a line-search run agrees with the getters unless the run met a non-finite value", "statement": "At the end of every run of a line-search solver, the iteration count, the gradient norm and the gradient norm relative to the start that the final line shows are those the getters return; the function value shown is the one Getfinalfun returns, unless the value shown is not finite. In that case the two can differ: with infinite values at all trial points the line shows infinity while the getters return the starting point and its finite value.", "quantifier": "all problems, manifolds, parameters, direction rules, line searches and runs of any length", "why_tests_cant": "The line is printed from other members than the getters read; that they agree depends on every way out of the loop.", "anchors": ["Solvers/SolversSMLS.cpp: PrintFinalInfo, Run", "Solvers/SolversSM.h: Getfinalfun, Getnormgf, Getnormgfgf0, GetIter"]}
{"id": "C185", "title": "Limited-memory SR1 runs with the Cayley transport keep their pairs tangent and their inner products valid", "statement": "On the Stiefel manifold with the Cayley retraction and transport, which moves along the step last retracted from the point object (C181): in every run of LRTRSR1, whatever the trial steps and whichever steps and pairs are accepted, each inverse transport of a new gradient and each transport of a stored vector has a result and goes along the step between its two points, also after rejected steps. If trial steps and gradients are tangent, the stored vectors are tangent at the current iterate throughout, which keeps orthonormal columns, and moving them to a new iterate changes none of their inner products, so that the stored matrices of inner products, which the solver does not recompute, remain those of the stored vectors.", "quantifier": "all dimensions, all gradients, all runs of any length, all memory sizes, all acceptance decisions", "why_tests_cant": "The transports read fields left at a point object by the last retraction, and the solver relies on inner products computed many iterations before; a test sees one history.", "anchors": ["Solvers/LRTRSR1.cpp: UpdateDataLRTRSR1, Acceptence", "Solvers/SolversSMTR.cpp: Run", "Manifolds/Stiefel.cpp: CayleyRetraction, CayleyVectorTransport, CayleyInverseVectorTransport"]}
{"id": "C186", "title": "The slope in the Wolfe line searches is the derivative along the retraction for every representation of vectors", "statement": "On the Stiefel manifold with the Cayley retraction, the slope a line search computes at a trial point is the derivative of the objective along the retraction, whether tangent vectors are kept as matrices or in intrinsic coordinates (SetIsIntrApproach). False with intrinsic coordinates: the differentiated retraction is converted to coordinates of the old point, while the gradient it is multiplied with has coordinates of the new point. On the circle there is a step after which the objective increases along the retraction and the slope computed is negative.", "quantifier": "all points, tangent steps and gradients, all dimensions", "why_tests_cant": "For short steps the two frames are close and the slope is nearly right; only a comparison with the derivative at all points shows the error.", "anchors": ["Manifolds/Stiefel.cpp: DiffCayleyRetraction, ObtainIntrHHR", "Solvers/SolversSMLS.cpp: dh", "Manifolds/Manifold.h: SetIsIntrApproach"]}
