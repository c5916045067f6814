import json
P=[]
def p(title, statement, quantifier, why, *anchors):
    P.append(dict(id="C%02d"%(len(P)+1), title=title, statement=statement, quantifier=quantifier, why_tests_cant=why, anchors=list(anchors)))

# ---- core: caching machine -------------------------------------------------
p("Value reads are never stale",
  "Reading y.r always returns the value obtained by evaluating y's expression graph from scratch on the current leaf values, terms and links, whatever was read, assigned, replaced, copied, garbage-collected or raised before.",
  "every finite history of constructions, attribute assignments (x, terms, dterms), set(), replace(), copy(), clear_cache(), reads of r/dr_wrt and garbage collections, on every graph shape",
  "a stale cache needs a particular interleaving of reads and writes on a particular graph; the histories are unbounded",
  "chumpy/ch.py:Ch.r","chumpy/ch.py:Ch.__setattr__","chumpy/ch.py:Ch.clear_cache","chumpy/ch.py:Ch.__new__")
p("Derivative reads are never stale",
  "y.dr_wrt(w) always returns what an uncached recomputation of the chain rule on the current graph would return, for every w that is not itself a slice/reordering object.",
  "every history as in C01, every pair (y, w)",
  "the derivative cache is filled depending on the number of parents at read time, so staleness depends on the whole history",
  "chumpy/ch.py:Ch.dr_wrt","chumpy/ch.py:Ch.clear_cache","chumpy/ch.py:Ch._compute_dr_wrt_sliced")
p("Back-links mirror links exactly",
  "After any history, object p is registered as a dependent of c under exactly the set of attribute names through which p currently refers to c; no dangling or missing registration exists.",
  "every history of constructions, assignments (including re-assigning the same object, the same object under two names), replace, copy and collection",
  "the registration is updated incrementally in several branches; only an invariant over all histories rules out drift",
  "chumpy/ch.py:Ch.__setattr__","chumpy/ch.py:Ch.__setstate__","chumpy/ch.py:Ch.clear_cache")
p("clear_cache terminates and clears exactly the dependents",
  "x.clear_cache() terminates on every graph (even one made cyclic), clears the cached value and derivatives of x and of every object that depends on x directly or indirectly, clears nothing else, and returns 1 + the number of (dependent, object) registrations among the cleared objects.",
  "every heap of objects with arbitrary registrations, including cycles and shared dependents",
  "graph shapes are unbounded and cyclic graphs would hang a test rather than fail it",
  "chumpy/ch.py:Ch.clear_cache")
p("on_changed receives every changed name",
  "When a leaf or a term is assigned, every dependent object will, at its next evaluation, have its on_changed called with a set containing every attribute name through which the change can reach it, before compute_r/compute_dr_wrt runs; objects that do not depend on the change are not notified.",
  "every graph and every assigned object",
  "subclasses rely on this for arbitrary graphs; a test covers a few graphs",
  "chumpy/ch.py:Ch._call_on_changed","chumpy/ch.py:Ch.clear_cache","chumpy/ch.py:Ch.__setattr__")
p("@depends_on properties are never stale",
  "A @depends_on(names) property always returns what its function would return if run now, provided the function reads only the declared names; it is recomputed only after one of the declared names (or something below it) changed.",
  "every history of assignments and reads, every set of declared dependencies",
  "same unbounded interleavings as C01",
  "chumpy/ch.py:depends_on","chumpy/ch.py:Ch._invalidate_cacheprop_names")
p("Iteration-tagged writes are coherent",
  "Assigning several leaves with the same fresh iteration tag, with no evaluation in between, leaves every later read equal to a from-scratch evaluation, although the second and later writes skip already-cleared dependents.",
  "every graph, every list of leaves (in any order, overlapping dependents), every history before the batch that used other tags",
  "the skip makes correctness depend on which dependents are shared and on the order of writes",
  "chumpy/ch.py:Ch.clear_cache","chumpy/ch.py:Ch.__setattr__","chumpy/optimization_internal.py:ChInputsStacked.on_changed")
p("set(**kwargs) equals the individual assignments",
  "obj.set(a=..,b=..,...) leaves obj and all its dependents observably as if each keyword had been assigned separately, also if a previous or the current set() raised part way through.",
  "every object, every keyword list and order, every earlier history, every keyword position at which an exception is raised",
  "crash points times histories",
  "chumpy/ch.py:Ch.set","chumpy/ch.py:Ch.__setattr__","chumpy/ch.py:Ch.clear_cache")
p("Reads do not disturb",
  "Reading r, dr_wrt or a depends_on property of any objects in any order and number never changes what any later read returns.",
  "every graph state, every finite sequence of reads (including reads that raise) interposed before another read",
  "unbounded read sequences",
  "chumpy/ch.py:Ch.r","chumpy/ch.py:Ch.dr_wrt")
p("Exceptions during evaluation leave a usable graph",
  "If compute_r or compute_dr_wrt of some object raises, the exception reaches the caller and, once the cause is repaired by an assignment, every read again returns the from-scratch value.",
  "every graph, every object that raises, every later history",
  "crash points",
  "chumpy/ch.py:Ch.r","chumpy/ch.py:Ch.dr_wrt","chumpy/ch.py:Ch._call_on_changed")
p("replace(old,new) substitutes everywhere",
  "After y.replace(old,new) with old not reachable from new, no object reachable from y refers to old, everything else is unchanged, y's value is the value with new in place of old, and caching invariants hold.",
  "every acyclic graph, every old/new",
  "sharing makes the same node be visited many times",
  "chumpy/ch.py:Ch.replace")
p("copy() and pickling produce an independent equal graph",
  "x.copy() has the same value and derivatives as x, shares no object with x, and later assignments to either are not seen by the other; back-links inside the copy are complete.",
  "every acyclic graph and every later history of assignments",
  "needs all graph shapes with sharing",
  "chumpy/ch.py:Ch.__getstate__","chumpy/ch.py:Ch.__setstate__","chumpy/ch_ops.py:copy")
p("Garbage collection is unobservable",
  "Dropping the last reference to an object that nothing refers to never changes any value or derivative read from the remaining objects.",
  "every history with collections at arbitrary points",
  "collection points are nondeterministic",
  "chumpy/ch.py:Ch.__new__ (weakref _parents)","chumpy/ch.py:Ch.clear_cache")
p("remove_redundancy preserves values and freshness",
  "y.remove_redundancy() does not change y's value or derivatives, and later assignments to leaves are still seen by every later read.",
  "every acyclic graph, every later history",
  "needs a graph whose duplicate is reached from a different parent, and a collection of the duplicate",
  "chumpy/ch.py:Ch.remove_redundancy","chumpy/ch.py:Ch.sid")
p("clear_cache_wrt only invalidates",
  "x.clear_cache_wrt(w) never changes what y.dr_wrt(w) subsequently returns.",
  "every graph and w",
  "needs a specific order of dr_wrt / clear_cache_wrt / dr_wrt",
  "chumpy/ch.py:Ch.clear_cache_wrt","chumpy/ch.py:Ch.dr_wrt")
p("is_dr_wrt is reachability",
  "y.is_dr_wrt(w) is true exactly when y is w and a leaf, or w is reachable from y through one or more differentiable links; and y.dr_wrt(w) is None whenever is_dr_wrt is false and w is not a slice/reordering object.",
  "every acyclic graph, every pair",
  "unbounded graphs",
  "chumpy/ch.py:Ch.is_dr_wrt","chumpy/ch.py:Ch.dr_wrt")
p("tree_iterator visits each reachable object exactly once",
  "Iterating y.tree_iterator() yields y first, and every object reachable through differentiable links exactly once, terminating even on cyclic graphs.",
  "every graph",
  "unbounded graphs with sharing",
  "chumpy/ch.py:Ch.tree_iterator","chumpy/utils.py:dfs_do_func_on_graph")
# ---- AD --------------------------------------------------------------------
p("dr_wrt is the Jacobian",
  "If every class used returns the true partial Jacobians from compute_dr_wrt, then y.dr_wrt(w) is the Frechet derivative of y's value as a function of w's value, None meaning zero.",
  "every acyclic graph with arbitrary sharing, every y, every w (leaf or inner object), every point of differentiability",
  "all graphs and all reals; finite differences only sample",
  "chumpy/ch.py:Ch.dr_wrt","chumpy/ch.py:Ch.compute_rop","chumpy/ch.py:Ch._superdot")
p("Reverse mode equals forward mode",
  "y.lop(w, L) equals L times y.dr_wrt(w) for every L, and y.dr_wrt(w, reverse_mode=True) equals y.dr_wrt(w).",
  "every acyclic graph, every w, every left factor L",
  "all graphs, all matrices",
  "chumpy/ch.py:Ch.lop","chumpy/ch.py:Ch.lmult_wrt","chumpy/ch.py:Ch.dr_wrt")
p("Derivative wrt a slice is the column selection",
  "y.dr_wrt(a[key]) equals the columns of y.dr_wrt(a) selected by key, for slices of any nesting depth.",
  "every graph containing a, every key, every nesting depth",
  "depends on how the graph mixes a and its slices",
  "chumpy/ch.py:Ch._compute_dr_wrt_sliced")
p("_superdot is composition",
  "The product used by the chain rule returns the matrix product for all combinations of None, scalars, 1x1, dense and sparse operands, a scalar meaning a multiple of the identity; it is None iff an operand is None.",
  "every pair of operands with compatible sizes",
  "all sizes",
  "chumpy/ch.py:Ch._superdot","chumpy/utils.py:convert_inputs_to_sparse_if_necessary")
p("Jacobian has shape (y.size, w.size)",
  "Whenever y.dr_wrt(w) is not None, it has y.size rows and w.size columns.",
  "every graph, every w",
  "all sizes; some classes return bare scalars",
  "chumpy/ch.py:Ch.dr_wrt","chumpy/reordering.py:AtleastNd","chumpy/ch.py:ChHandle")
# ---- indexing --------------------------------------------------------------
p("Indexing agrees with numpy",
  "y[key].r equals numpy's y.r[key] (at least 1-d), and its Jacobian wrt y is the 0/1 selection matrix of the selected positions, for every basic key.",
  "every shape and every tuple of integers, slices with arbitrary step, ellipsis-free",
  "all shapes and keys",
  "chumpy/ch.py:Ch.__getitem__","chumpy/reordering.py:Select")
p("Assignment through slices and reorderings",
  "y[key] = v, where y is a chain of slices/reshapes/transposes over a leaf, makes y[key].r equal v and leaves every other entry of the leaf unchanged.",
  "every leaf shape, every chain with distinct selected positions, every v",
  "all chains",
  "chumpy/ch.py:Ch.__setitem__")
p("Reordering classes have correct Jacobians",
  "For transpose, swapaxes, rollaxis, tile, repeat, roll, rot90, diag, diagflat and sort, the Jacobian reported is the derivative of the value.",
  "every shape and parameter, every input",
  "all shapes, all inputs",
  "chumpy/reordering.py:Reorder","chumpy/reordering.py:Sort","chumpy/reordering.py:Diag","chumpy/reordering.py:DiagFlat")
p("Memoised Jacobians do not leak across shapes",
  "The Jacobians that classes memoise (reorderings, sum, mean, Select, broadcasting tables, cross) are always those of the current shape and parameters.",
  "every history of value/shape/parameter changes",
  "needs a shape change that keeps the memo key",
  "chumpy/reordering.py:Reorder.compute_dr_wrt","chumpy/reordering.py:Roll","chumpy/reordering.py:Repeat","chumpy/ch_ops.py:sum","chumpy/ch_ops.py:mean","chumpy/ch_ops.py:_broadcast_matrix")
p("reshape preserves the flat data",
  "reshape/ravel/squeeze/expand_dims/atleast_nd keep the C-order flat data, collapse chains of reshapes to one, and have identity Jacobian.",
  "every shape and target shape",
  "all shapes",
  "chumpy/reordering.py:Reshape","chumpy/reordering.py:reshape","chumpy/reordering.py:AtleastNd")
p("Concatenation value and Jacobian",
  "concatenate/vstack/hstack/dstack place each operand's block as numpy does and report the 0/1 placement matrix as Jacobian, also when an operand occurs several times.",
  "every number of operands, every shape, every axis",
  "all shapes",
  "chumpy/reordering.py:Concatenate","chumpy/reordering.py:concatenate")
p("Flattening nested concatenations is invisible",
  "concatenate flattens operands that are concatenations along the same axis; the value is the same as without flattening.",
  "every nesting tree",
  "unbounded nesting",
  "chumpy/reordering.py:expand_concatenates")
p("Re-pointing a concatenation operand is seen",
  "Assigning or replace()-ing an operand of a concatenation changes its value and Jacobian accordingly at the next read.",
  "every history mixing reads and operand assignments",
  "needs read-before-assign",
  "chumpy/reordering.py:Concatenate.our_terms","chumpy/reordering.py:Concatenate.everything","chumpy/reordering.py:Concatenate.compute_dr_wrt")
# ---- elementwise -----------------------------------------------------------
p("Broadcast arithmetic values and Jacobians",
  "For + - * / ** with numpy broadcasting, the Jacobian wrt either operand is the derivative of the broadcast result, including operands that are the same object.",
  "every pair of broadcastable shapes, every values (denominator nonzero, base positive)",
  "all shape pairs",
  "chumpy/ch_ops.py:_broadcast_matrix","chumpy/ch_ops.py:_broadcast_setup","chumpy/ch_ops.py:add","chumpy/ch_ops.py:subtract","chumpy/ch_ops.py:multiply","chumpy/ch_ops.py:divide","chumpy/ch_ops.py:power")
p("Unary elementwise derivatives",
  "exp, log, sin, cos, tan, arcsin, arccos, arctan, sqrt, square, reciprocal, negative, abs report a diagonal Jacobian holding the derivative of the scalar function, for inputs of every shape.",
  "every shape, every input in the open domain of differentiability",
  "all reals, all shapes",
  "chumpy/ch_ops.py:UnaryElemwise")
p("sum and mean",
  "sum/mean over any axis or all entries return numpy's value and the exact Jacobian.",
  "every shape and axis",
  "all shapes",
  "chumpy/ch_ops.py:sum","chumpy/ch_ops.py:mean")
p("cumsum",
  "cumsum (flattened) returns partial sums and its Jacobian is the lower-triangular matrix of ones.",
  "every size",
  "all sizes",
  "chumpy/ch_ops.py:cumsum")
p("dot",
  "a.dot(b) has numpy's value and its Jacobians wrt a, wrt b, and wrt a common operand are the exact partial derivatives.",
  "every compatible pair of shapes",
  "all shapes",
  "chumpy/ch_ops.py:dot")
p("cross",
  "cross(a,b) has numpy's value, and its Jacobians wrt a and b are exact, whatever the shapes numpy accepts: vectors of two or three along the last axis, the other axes broadcast.",
  "all shapes and values, the axes being the default ones",
  "all shapes, sizes and real values; the shapes tried in tests are few and those that go wrong do so silently",
  "chumpy/ch_ops.py:Cross")
p("Extrema along an axis",
  "amax/amin over an axis return the extremum and the Jacobian selects, for each output entry, a position of the input along that axis holding that extremum.",
  "every shape and axis and every values",
  "all shapes and ties",
  "chumpy/ch_ops.py:A_extremum")
p("Pairwise extrema",
  "maximum/minimum report derivative 1 exactly for the operand entries attaining the extremum, under broadcasting.",
  "every broadcastable shapes and values",
  "all values and ties",
  "chumpy/ch_ops.py:Extremum")
p("clip",
  "clip returns values in [a_min,a_max] and a diagonal Jacobian that is 1 strictly inside and 0 at or outside the bounds.",
  "every value and bounds a_min <= a_max",
  "all reals",
  "chumpy/ch_ops.py:clip")
p("var and std",
  "var(a) and std(a) return the variance and standard deviation of the entries, as numpy does.",
  "every array",
  "all arrays",
  "chumpy/ch_ops.py:var","chumpy/ch_ops.py:std")
p("Sum of squares and norm",
  "SumOfSquares(x) is the sum of squared entries with gradient 2x; linalg.norm(x) is the square root of the sum of squares with gradient x/|x| away from zero.",
  "every size and value",
  "all sizes",
  "chumpy/ch_ops.py:SumOfSquares","chumpy/linalg.py:norm")
p("Matrix inverse, determinant, log-determinant derivatives",
  "Inv, Det and LogAbsDet report the exact Jacobians at every invertible matrix.",
  "every n and every invertible n x n matrix",
  "all sizes, all matrices",
  "chumpy/linalg.py:Inv","chumpy/linalg.py:Det","chumpy/linalg.py:LogAbsDet")
p("Pseudo-inverse",
  "Pinv(M) satisfies the four Moore-Penrose conditions for every full-rank M, and lstsq's x minimises |Ax-b|.",
  "every shape, every full-rank matrix",
  "all sizes",
  "chumpy/linalg.py:Pinv","chumpy/linalg.py:lstsq")
p("tensordot",
  "tensordot(a,b,axes) contracts exactly the named axes, as numpy specifies, including negative axes.",
  "every pair of shapes and axes",
  "all shapes",
  "chumpy/np_tensordot.py:tensordot")
# ---- lambda ----------------------------------------------------------------
p("ChLambda behaves as function application",
  "After assigning arguments to Ch(lambda ...), its value and derivatives are those of the lambda body evaluated on the assigned arguments, whatever was assigned or read before.",
  "every body graph, every history of argument assignments and reads",
  "unbounded histories",
  "chumpy/ch.py:ChLambda","chumpy/ch.py:ChHandle")
# ---- optimisation ----------------------------------------------------------
p("Dogleg only accepts improvements",
  "Every callback after the first sees a strictly smaller sum of squares than the previous one, and the final sum of squares is at most the initial one.",
  "every objective, every solver answer, every option setting, every number of iterations",
  "all objectives",
  "chumpy/optimization_internal.py:minimize_dogleg","chumpy/optimization_internal.py:DoglegState.Trial")
p("Dogleg returns the best point",
  "When minimize returns, the free variables hold the last accepted point; a rejected trial step leaves no trace in them.",
  "every objective and run",
  "all runs",
  "chumpy/optimization_internal.py:minimize_dogleg","chumpy/optimization_internal.py:ChInputsStacked.on_changed")
p("Dogleg steps stay in the trust region",
  "Every proposed step has length at most the trust radius, and the interpolated dogleg step has length exactly the radius.",
  "every gradient step, Gauss-Newton step and radius (exact arithmetic)",
  "all reals, all dimensions",
  "chumpy/optimization_internal.py:DoglegState.update_step","chumpy/optimization_internal.py:DoglegState.beta_multiplier")
p("Predicted improvement is positive",
  "With an exact Gauss-Newton solve and nonzero gradient, the predicted improvement used to form rho is positive for every step the dogleg proposes.",
  "every Jacobian with full column rank, residual and radius",
  "all reals",
  "chumpy/optimization_internal.py:DoglegState.Trial","chumpy/optimization_internal.py:DoglegState.start_iteration")
p("Dogleg terminates",
  "The inner trust-region loop always ends after finitely many rejected steps and the outer loop runs at most max(1,maxiter) iterations.",
  "every objective, including ones returning NaN, every option setting",
  "non-termination cannot be observed by a test",
  "chumpy/optimization_internal.py:minimize_dogleg","chumpy/optimization_internal.py:DoglegState.updateRadius")
p("Free-variable packing round-trips",
  "Writing a flat vector to the stacked objective puts consecutive segments into the free variables in order (only the selected entries for slice variables, at any nesting depth), and reading them back gives the same vector; entries not selected are unchanged.",
  "every list of free variables with disjoint targets, every vector",
  "all lists, shapes and nesting depths",
  "chumpy/optimization_internal.py:ChInputsStacked.on_changed","chumpy/optimization_internal.py:setup_objective","chumpy/optimization.py:minimize.changevars")
p("Jacobian columns follow the packing order",
  "Column j of the stacked Jacobian is the derivative of the objective wrt entry j of the packed vector.",
  "every list of free variables (whole variables and single-level slices)",
  "all lists",
  "chumpy/optimization_internal.py:ChInputsStacked.dr_wrt","chumpy/optimization_internal.py:hstack")
p("Objective sees every free-variable write",
  "After the optimiser assigns a new packed vector, the objective is evaluated at that vector, for every admissible list of free variables, including several slices of one array.",
  "every list of distinct free variables",
  "depends on sharing between slice variables and on cached reads during the copy-out",
  "chumpy/optimization_internal.py:ChInputsStacked.on_changed","chumpy/ch.py:Ch.clear_cache")
p("scipy-driver memo is sound",
  "For non-dogleg methods the residual, gradient and Hessian callbacks return the objective's values at the vector passed in, whatever vectors were passed before.",
  "every sequence of callback invocations",
  "call sequences are chosen by scipy",
  "chumpy/optimization.py:minimize")
p("Leaf buffers are not shared",
  "Assigning into one leaf (a[key]=v) is seen by every object depending on that leaf and does not make any other object stale.",
  "every history with leaves built from user arrays",
  "needs two leaves built from one numpy array",
  "chumpy/ch.py:Ch.__setitem__","chumpy/ch.py:Ch.__new__")
p("NanDivide is finite",
  "NanDivide(a,b) equals a/b where that is finite and 0 elsewhere, in value and derivative.",
  "every inputs including zeros, infinities and NaN",
  "all inputs",
  "chumpy/ch_ops.py:NanDivide")
p("A value is computed at most once between changes",
  "After y.r returned, no further sequence of reads of any objects runs y's compute_r again; an assignment to something y does not depend on does not make the next read recompute it, one to something it depends on does.",
  "every graph, every history, every sequence of reads",
  "all sharing patterns and read orders; a test only times particular graphs",
  "chumpy/ch.py:Ch.r","chumpy/ch.py:Ch.clear_cache")
p("Step functions and comparisons have zero derivative",
  "floor, ceil, sign, greater, greater_equal, less, less_equal, equal, not_equal have numpy's values under broadcasting and report no derivative; wherever the function is locally constant that is the derivative.",
  "every shape and value",
  "all reals and all shapes",
  "chumpy/ch_ops.py:Simpleton","chumpy/ch_ops.py:BinaryElemwiseNoDrv")
p("Singular value decomposition",
  "Svd(x) returns U, D, Vt with orthonormal columns/rows, D decreasing and nonnegative and U diag(D) Vt = x, for matrices with more rows than columns or fewer; the reported derivatives of U, D and V are the true ones.",
  "every matrix size, every matrix with nonzero singular values, every LAPACK-like routine (any choice of signs)",
  "all matrices; derivative formulas are singular near equal singular values, and numerical differences hide sign switches of the routine",
  "chumpy/linalg.py:Svd","chumpy/linalg.py:SvdD","chumpy/linalg.py:SvdV","chumpy/linalg.py:SvdU")
p("The trust region follows the trials",
  "In dogleg minimisation, a trial whose fall of the sum of squares exceeds nine tenths of the predicted one lets the next steps be at least as long (up to 2.5 times the step tried), one that fails or falls below a twentieth of the prediction limits them to a quarter, any other leaves the limit as it is; after a rejection the next step tried is at most a quarter of the old limit.",
  "every objective, Jacobian, start, solver and option, every turn of every run, in exact arithmetic",
  "all objectives and all runs; a test sees the outcome of some runs, not the limit",
  "chumpy/optimization_internal.py:DoglegState.updateRadius","chumpy/optimization_internal.py:_minimize_dogleg")
p("Constructor arguments mean what the class says",
  "The positional arguments of a class constructor are bound in the order which the text of the class says (its term_order, or its terms then its dterms), keyword arguments by name, too many arguments raise; this does not depend on which objects were constructed before.",
  "every class hierarchy, every history of constructions, all arguments",
  "class attributes are completed at the first construction, so the answer depends on the history of the whole program",
  "chumpy/ch.py:Ch.__new__","chumpy/ch.py:Ch.setup_terms","chumpy/ch.py:Ch.parm_declarations")
p("Inverses of stacks of matrices",
  "Inv of an array with more than two axes is the stack of the inverses of the matrices in its last two axes, and the reported Jacobian is the exact one.",
  "every number of leading axes, every matrix size, every stack of invertible matrices with at least one entry",
  "all shapes and matrices; the Jacobian is assembled block by block",
  "chumpy/linalg.py:Inv")
p("slogdet",
  "slogdet(x) returns a sign, 1 or -1, and a logarithm with sign*exp(log) = det(x); the reported derivative of the logarithm is exact and that of the sign is zero.",
  "every n and every invertible n x n matrix",
  "all matrices",
  "chumpy/linalg.py:slogdet","chumpy/linalg.py:SignLogAbsDet","chumpy/linalg.py:LogAbsDet")
p("MatVecMult",
  "MatVecMult(mtx, vec) is the matrix-vector product of mtx with the entries of vec in C order, in the shape of as many columns as vec has if it has several; its Jacobian is mtx.",
  "every matrix and every conformable vec of every shape",
  "all sizes",
  "chumpy/ch.py:MatVecMult")
p("gamma",
  "extras.gamma(x) is Euler's gamma function of each entry and reports the diagonal matrix of its derivatives, for inputs of every shape.",
  "every shape, all reals that are not zero or negative whole numbers",
  "all reals, all shapes",
  "chumpy/extras.py:gamma")
p("Interpolation in images",
  "Interp3D(locations, image) is the image at lattice points, at a location strictly inside a cell of the lattice the image at the cell's lower corner plus the image's slopes there times the distances, reproduces affine images at all locations inside (and their nearest point outside), and wherever the value is differentiable in the locations the reported Jacobian is that derivative.",
  "every image with three axes of length at least 2, every number of locations, all locations",
  "all real locations and all images",
  "chumpy/extras.py:Interp3D")
p("Indexing with any key",
  "For every key numpy understands - arrays of integers, masks, ellipses, new axes and their combinations - a[key].r is a.r[key], refused exactly where numpy refuses it, and the reported Jacobian is the 0/1 matrix by which the flat data is multiplied when the key is applied.",
  "every operation on arrays that moves entries without looking at them, in particular all integer-array keys and masks; every shape; every history",
  "all keys, shapes and values",
  "chumpy/ch.py:Ch.__getitem__","chumpy/reordering.py:Select")
p("The derivative of the pseudo-inverse and of least squares",
  "At every matrix of full rank (tall, wide or square), pinv(a).dr_wrt(a) returns the derivative of the pseudo-inverse: entry (k, l) with respect to entry (r, c) of a is the one of Golub and Pereyra's formula, -P[k,r] P[c,l] + (P P^T)[k,c] (I - A P)[r,l] + (I - P A)[k,c] (P^T P)[r,l].  dr_wrt of the least-squares solution returns its Jacobian with respect to the matrix, the right-hand side and any other plain array.",
  "all matrices of full rank with more than one entry, of every shape; all right-hand sides; all reachable states",
  "a test differentiates numerically at a few matrices; the formula must hold at every matrix, on both branches of the code, and through five objects of the chain rule",
  "chumpy/linalg.py: Pinv, Inv, lstsq","chumpy/ch_ops.py: dot","chumpy/reordering.py: transpose")
p("A list of objectives is one objective with all their residuals",
  "When minimize is given a list, tuple or dict of objectives, the merged objective holds the residuals of all of them, flattened and in order; its sum of squares is the sum of theirs; and the rows of its Jacobian with respect to any object that is not a slice are exactly the rows each objective reports, in the same places. If each objective is differentiable and reports its Jacobian, then the merged objective is differentiable and reports its own. An objective may occur several times, may be a reshape of another and may be the free variable itself. Free variables that contain the same object twice are refused before anything is made.",
  "every reachable graph, every non-empty list of live objectives with values, of any number, shapes and classes, every object asked about that is no slice, every list of free variables",
  "The number, shapes, repetition and nesting of objectives are unbounded; a wrong offset shows only for particular combinations of sizes.",
  "chumpy/optimization_internal.py:setup_objective","chumpy/reordering.py:reshape","chumpy/reordering.py:concatenate","chumpy/ch.py:Ch.ravel")
p("Python's operators mean arithmetic on values",
  "For every binary operator (+, -, *, /, **, >, >=, <, <=, !=) with an object on at least one side and an object, a number or a numpy array on the other, the expression yields a new object whose value is the operator applied entry by entry under broadcasting, the left operand on the left, and whose derivatives are right wherever the operator is differentiable; -x and abs(x) likewise, +x is x itself. No object that was there before changes its value or its derivatives.",
  "every reachable state, every operator, every pair of operands of any broadcastable shapes with an object among them, both Python 2 and Python 3, whichever operand Python asks first",
  "The combinations of operators, kinds of operands, sides and shapes are unbounded, and a reflected method with exchanged operands is invisible for commutative operators and equal entries.",
  "chumpy/ch.py:Ch.__add__","chumpy/ch.py:Ch.__rsub__","chumpy/ch.py:Ch.__rdiv__","chumpy/ch.py:Ch.__rpow__","chumpy/ch.py:Ch.__gt__","chumpy/ch.py:Ch.__neg__","chumpy/ch.py:Ch.__abs__","chumpy/ch.py:Ch.__setattr__")
p("Central moments",
  "moment(a, k, axis) for a whole number k ≥ 1 yields the k-th central moments of a along the axis: that axis is gone, and every entry is the average of the k-th powers of the deviations from the average along the axis (zero for k = 1). The derivative reported with respect to a is that of this value. Nothing that was there before changes.",
  "every reachable state, every array of every shape, every axis, counted from the front or the back, every whole order k ≥ 1",
  "The formula must hold for every shape, axis and order; a wrong broadcast of the mean shows for some shapes only.",
  "chumpy/extras.py:moment","chumpy/reordering.py:expand_dims","chumpy/ch.py:Ch.mean","chumpy/ch_ops.py:power")
p("Calling an object",
  "f(**kwargs) raises what assigning the keywords raises; otherwise it returns what an evaluation from scratch returns for f with these arguments, everything else about f and every other object being as before. If all arguments are given, as values, the result depends on nothing but the class and the arguments. A second call without arguments returns the same.",
  "every reachable state, every object, every set of keywords, calls before and after any history",
  "Whether the result is a function of the arguments is a statement about all pairs of histories.",
  "chumpy/ch.py:Ch.__call__","chumpy/ch.py:Ch.set","chumpy/ch.py:Ch.r")
p("Each local derivative is computed once per dr_wrt",
  "One call y.dr_wrt(w), whether it returns or raises, calls j.compute_dr_wrt(p) at most once for every pair of objects j and p, however often sub-expressions are shared. Once it has returned, asking again, after any reads, computes nothing.",
  "every history, every expression graph, every y and w, every pair j, p, any number of reads in between",
  "The cost depends on the shape of the graph; with the caching rule of the library it grows exponentially for some graphs and not at all for others, and no finite set of graphs shows which.",
  "chumpy/ch.py:Ch.dr_wrt","chumpy/ch.py:Ch._compute_dr_wrt_sliced","chumpy/ch.py:Ch.compute_rop")
p("Differentiable terms that are aliases",
  "If a class declares a differentiable term that is a Python property standing for an attribute of one of its arguments (self.child.a), then value, properties and derivatives of an object are always those of a from-scratch evaluation with the alias leading where it now leads, whether it was changed through the alias, by assigning the inner attribute, or by replacing the inner object. Assigning through the alias sets exactly the inner attribute, and on_changed is then told of both names; set(child=..., aliased=...) gives the new child the new value in either order.",
  "every class with such terms, every history of constructions, assignments, reads, clear_cache and collections with exceptions, every object, property, and wrt that is not a slice",
  "Staleness depends on the order of assignments and reads over several objects; the test of the repository runs one history of one object.",
  "chumpy/ch.py:Ch.__setattr__","chumpy/ch.py:Ch.set","chumpy/ch.py:_props_for","chumpy/ch.py:Ch.dr_wrt","chumpy/test_inner_composition.py:TestInnerComposition.test_ic")
p("ChGroup",
  "An object G = ChGroup(result, args) has at every time the value of result with the arguments G now has standing in their places, whatever was assigned and read before, and G.dr_wrt(w) is the derivative of that value with respect to w.",
  "every result, every set of arguments, every history of assignments to the group and to other objects and of reads of the group, of other objects and of derivatives, every w that is not a slice",
  "The group keeps its own cached value although it has no link to the result, so whether it is stale depends on the history; the derivative depends on how w, the arguments and the result are connected.",
  "chumpy/ch.py:ChGroup.__init__","chumpy/ch.py:ChGroup.on_changed","chumpy/ch.py:ChGroup.compute_r","chumpy/ch.py:ChGroup.compute_dr_wrt","chumpy/ch.py:ChHandle")
p("Logic functions",
  "all(a, axis) and any(a, axis) tell of each row of a along the axis, or of all of a, whether every or some entry is nonzero; logical_not, isfinite, isinf, isnan, isneginf, isposinf tell it entry by entry; dr_wrt of each reports zero, which is the derivative wherever the answer does not hang on an exact zero.",
  "every array a of any shape, every axis (also negative or None), every history",
  "The axis arithmetic and the derivative claim range over all shapes and all real entries; whether zero is the derivative depends on a neighbourhood of the point.",
  "chumpy/logic.py:LogicFunc","chumpy/logic.py:unaries")
p("Questions answered from the value",
  "shape, size, ndim, len(), float(), int(), conversion to an array, argmax, argmin, flatnonzero, argwhere and nonzero of an object answer at any time what is right for the value the object has then, raise exactly when there is no answer or the value cannot be computed, and change nothing.",
  "every object, every history of assignments and reads before, every value and shape",
  "The answers must follow every assignment anywhere below the object, for all histories; ties in argmax and the order of nonzero positions range over all arrays.",
  "chumpy/ch.py:Ch.shape","chumpy/ch.py:Ch.size","chumpy/ch.py:Ch.ndim","chumpy/ch.py:Ch.__len__","chumpy/ch.py:Ch.__float__","chumpy/ch.py:Ch.__int__","chumpy/ch.py:Ch.__array__","chumpy/ch_ops.py:nonzero")
p("The stopwatch counts running time",
  "chumpy.utils.timer, called at any moment, returns the time since its construction during which it was not paused; pause raises exactly when it is paused and resume exactly when it is running, and a call that raises changes nothing.",
  "every sequence of calls at any times in the order of the clock",
  "The schedule of pauses is unbounded and the times are arbitrary.",
  "chumpy/utils.py:timer")
p("The tree written by a profiler",
  "The file a DrWrtProfiler writes on construction shows every object the objective depends on with its operands exactly once, lists exactly its operands there, and marks every other occurrence as a reference to an object shown elsewhere.",
  "every history, every objective, cycles and shared objects included",
  "Termination and completeness of the walk on shared and cyclic graphs range over all graphs and over what earlier profilers left on the objects.",
  "chumpy/monitor.py:DrWrtProfiler.dump_tree","chumpy/monitor.py:DrWrtProfiler.__init__")
p("Labelled residuals",
  "print_labeled_residuals() writes, for each object with a label that the object depends on, once, the label and the current sum of squares of that object's value, with the requested number of decimals; then the object's own sum of squares. It changes no object.",
  "every history, every object, every choice of labels",
  "It ranges over all graphs, shared objects included, and over all states of the caches the values are read through.",
  "chumpy/ch.py:Ch.print_labeled_residuals")
p("Methods named after numpy's",
  "x.T, x.transpose(...), x.sum, x.mean, x.cumsum, x.min, x.max (with any axis or none), x.floor(), x.ceil() and x.dot(other) return an object whose value is what the numpy array method of that name returns for x's value, with the right derivative where that is differentiable; no other object changes.",
  "every history, every object, every argument numpy accepts",
  "It ranges over all shapes, axes and values and all states the object may be in.",
  "chumpy/ch.py:Ch.T","chumpy/ch.py:Ch.transpose","chumpy/ch.py:Ch.sum","chumpy/ch.py:Ch.mean","chumpy/ch.py:Ch.cumsum","chumpy/ch.py:Ch.min","chumpy/ch.py:Ch.max","chumpy/ch.py:Ch.floor","chumpy/ch.py:Ch.ceil","chumpy/ch.py:Ch.dot")
p("fliplr and flipud",
  "fliplr(m) and flipud(m) have m's shape and m's entries with the second, respectively the first, axis reversed; their derivative about a plain Ch is the permutation matrix of that reversal; applied twice they give m's value back; they raise exactly when m has too few axes.",
  "every history, every object of any shape and number of axes",
  "It ranges over all shapes and values.",
  "chumpy/reordering.py:fliplr","chumpy/reordering.py:flipud")
p("Progress lines of the optimiser",
  "At each step, with disp set, the optimiser writes one line that shows the sum of squares of the objective for the current free variables and, for a dict of objectives, each label with the sum of squares of its objective for those same variables, in the order of the labels, none missing; on_step runs first, and what it changes is seen in the line; nothing else changes.",
  "every history, all free variables and objectives, any number of labels, any assigned vector, any on_step",
  "The vector reaches the variables only while the line is computed, so the order of reads matters; it ranges over all states of the caches.",
  "chumpy/optimization_internal.py:setup_objective")
p("nan_to_num and the derivative of sqrt are always finite",
  "nan_to_num(x) has only finite entries, keeps the finite entries of x and replaces NaN by 0 and infinities by the largest number of their sign; its derivative is the identity where x is finite and zero elsewhere; applying it twice is applying it once. The derivative reported for sqrt is finite for every operand, and is the derivative at positive ones.",
  "every array, with NaN and infinities in any places",
  "It ranges over all arrays of floating point numbers including the exceptional ones.",
  "chumpy/ch_ops.py:nan_to_num","chumpy/ch_ops.py:my_power","chumpy/ch_ops.py:sqrt")
p("Walking over all operands, and the picture of the tree",
  "loop_children_do(fn) calls fn with the object itself first and with exactly the objects it depends on, once for every way of reaching them (so an n-fold doubling costs 2^(n+1)-1 calls); used to reset flags it clears exactly those of the objects below. show_tree draws an arrow for exactly every direct use below the object, boxes for exactly the objects below under each name they are used (only their label if they have one), and a dotted arrow for exactly the cached derivatives above the size limit. Both return, given enough recursion depth, exactly when no object below uses itself.",
  "every history of operations, every object, every labelling, every size limit, every recursion limit",
  "Shared operands, cycles and cached derivatives depend on the whole history; the cost statement ranges over all depths.",
  "chumpy/ch.py:Ch.loop_children_do","chumpy/ch.py:Ch.reset_flag","chumpy/ch.py:Ch.show_tree")
p("The dogleg method on the object graph: what it computes is what the mathematics computes",
  "minimize(method='dogleg') only reaches the objective by assigning obj.x, reading obj.r and obj.J and calling on_changed on an object graph full of caches. Nevertheless, after every number of turns of its loops it has raised no exception and is at the same place, with the same parameters, residual, gradient, trust radius and counters, as the dogleg method run on the mathematical function the objective computes and on its derivative; the free variables hold its parameters, and held the accepted ones at every callback; no other object the user had is changed. This holds from the call on: the stacked objective that setup_objective builds is in such a state whatever the history was, and a free variable given twice raises before anything has happened. So the callbacks see strictly decreasing sums of squares, the free variables end at a vector not worse than the initial one, and the method ends if e_1 > 0 and e_2 >= 0. Called with a list of objectives it ends too, and the total of their sums of squares is not larger than before.",
  "every history before the call, every objective that is a differentiable function of its free variables, every number of free variables (whole Ch objects or slices of different ones), every solver, all options, every number of turns, display on or off",
  "A stale value or Jacobian would have to appear at some turn for some objective after some history; the statement ranges over all of them, and over unboundedly many turns.",
  "chumpy/optimization_internal.py:minimize_dogleg","chumpy/optimization_internal.py:ChInputsStacked","chumpy/ch.py:Ch.dr_wrt","chumpy/ch.py:Ch.r")
p("How deep reading recurses",
  "Reading y.r recurses no deeper than the longest chain of references under y (plus 2 nested requests), whatever is cached, and y.dr_wrt(w) no deeper than that length, plus the larger one of it and the longest chain under w (plus 3): with so deep a stack there is no RecursionError, and what is returned or raised does not depend on how much deeper the stack is. In a graph without cycles the depth for a value is at most the number of objects under y plus 1. A whole call of minimize with the dogleg method over one Ch needs no deeper stack than twice the height of the objective plus 4, or the number of objects plus 1, however many turns it takes. For values the bound is sharp up to 1: after x.clear_cache(), y.r overflows every stack not deeper than a chain of n references from y to x in which each object asks the next one first, and there are such graphs for every n. y.dr_wrt(w) then likewise overflows every stack not deeper than a chain of references from y to x in which no object has w as an operand and each has the next one as its first.",
  "every history before the read for which values (C01) and derivatives (C02) are proved fresh, every graph of finite height (any number of objects, any sharing), every state of the caches, every class without @depends_on properties whose compute_r does not read the own value, every stack limit",
  "Tests read graphs of a few objects under one recursion limit; the bound must hold for graphs of every shape and size, in which the number of paths is exponential in the number of objects although the depth is not.",
  "chumpy/ch.py:Ch.r","chumpy/ch.py:Ch.dr_wrt","chumpy/ch.py:Ch.compute_dr_wrt","chumpy/ch.py:Ch._compute_dr_wrt_sliced")
p("Random numbers are drawn once and reproducibly",
  "A call of a function of chumpy.random draws one sample and returns a new Ch holding it, changing no other object; if numpy raises, no Ch is made. As long as nothing is assigned to that Ch, .r is this sample, however often it is read and whatever else is done: it is not drawn again. Programs that set the generator to the same state (set_state or seed) and then make the same calls see the same samples as each other, and as calls of numpy.random alone, whatever they did before and whatever they build, assign, read or differentiate in between.",
  "every generator (any states, any samples, any calls that raise), every history before, every program of calls of the generator mixed with constructions, assignments, reads and derivatives, every position of a read",
  "Tests with a seed run a few fixed programs; the claim is about every interleaving of draws with the lazy evaluation of any graph.",
  "chumpy/ch_random.py:api_wrapped_simple","chumpy/ch_random.py:api_wrapped_direct")
with open('/verif/properties.jsonl','w') as f:
    for q in P: f.write(json.dumps(q)+"\n")
print(len(P))
