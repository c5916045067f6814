{"id": "C01", "title": "Value reads are never stale", "statement": "Reading y.r always returns the value obtained by evaluating y's expression graph from scratch on the current leaf values, terms and links, whatever was read, assigned, replaced, copied, garbage-collected or raised before.", "quantifier": "every finite history of constructions, attribute assignments (x, terms, dterms), set(), replace(), copy(), clear_cache(), reads of r/dr_wrt and garbage collections, on every graph shape", "why_tests_cant": "a stale cache needs a particular interleaving of reads and writes on a particular graph; the histories are unbounded", "anchors": ["chumpy/ch.py:Ch.r", "chumpy/ch.py:Ch.__setattr__", "chumpy/ch.py:Ch.clear_cache", "chumpy/ch.py:Ch.__new__"]}
{"id": "C02", "title": "Derivative reads are never stale", "statement": "y.dr_wrt(w) always returns what an uncached recomputation of the chain rule on the current graph would return, for every w that is not itself a slice/reordering object.", "quantifier": "every history as in C01, every pair (y, w)", "why_tests_cant": "the derivative cache is filled depending on the number of parents at read time, so staleness depends on the whole history", "anchors": ["chumpy/ch.py:Ch.dr_wrt", "chumpy/ch.py:Ch.clear_cache", "chumpy/ch.py:Ch._compute_dr_wrt_sliced"]}
{"id": "C03", "title": "Back-links mirror links exactly", "statement": "After any history, object p is registered as a dependent of c under exactly the set of attribute names through which p currently refers to c; no dangling or missing registration exists.", "quantifier": "every history of constructions, assignments (including re-assigning the same object, the same object under two names), replace, copy and collection", "why_tests_cant": "the registration is updated incrementally in several branches; only an invariant over all histories rules out drift", "anchors": ["chumpy/ch.py:Ch.__setattr__", "chumpy/ch.py:Ch.__setstate__", "chumpy/ch.py:Ch.clear_cache"]}
{"id": "C04", "title": "clear_cache terminates and clears exactly the dependents", "statement": "x.clear_cache() terminates on every graph (even one made cyclic), clears the cached value and derivatives of x and of every object that depends on x directly or indirectly, clears nothing else, and returns 1 + the number of (dependent, object) registrations among the cleared objects.", "quantifier": "every heap of objects with arbitrary registrations, including cycles and shared dependents", "why_tests_cant": "graph shapes are unbounded and cyclic graphs would hang a test rather than fail it", "anchors": ["chumpy/ch.py:Ch.clear_cache"]}
{"id": "C05", "title": "on_changed receives every changed name", "statement": "When a leaf or a term is assigned, every dependent object will, at its next evaluation, have its on_changed called with a set containing every attribute name through which the change can reach it, before compute_r/compute_dr_wrt runs; objects that do not depend on the change are not notified.", "quantifier": "every graph and every assigned object", "why_tests_cant": "subclasses rely on this for arbitrary graphs; a test covers a few graphs", "anchors": ["chumpy/ch.py:Ch._call_on_changed", "chumpy/ch.py:Ch.clear_cache", "chumpy/ch.py:Ch.__setattr__"]}
{"id": "C06", "title": "@depends_on properties are never stale", "statement": "A @depends_on(names) property always returns what its function would return if run now, provided the function reads only the declared names; it is recomputed only after one of the declared names (or something below it) changed.", "quantifier": "every history of assignments and reads, every set of declared dependencies", "why_tests_cant": "same unbounded interleavings as C01", "anchors": ["chumpy/ch.py:depends_on", "chumpy/ch.py:Ch._invalidate_cacheprop_names"]}
{"id": "C07", "title": "Iteration-tagged writes are coherent", "statement": "Assigning several leaves with the same fresh iteration tag, with no evaluation in between, leaves every later read equal to a from-scratch evaluation, although the second and later writes skip already-cleared dependents.", "quantifier": "every graph, every list of leaves (in any order, overlapping dependents), every history before the batch that used other tags", "why_tests_cant": "the skip makes correctness depend on which dependents are shared and on the order of writes", "anchors": ["chumpy/ch.py:Ch.clear_cache", "chumpy/ch.py:Ch.__setattr__", "chumpy/optimization_internal.py:ChInputsStacked.on_changed"]}
{"id": "C08", "title": "set(**kwargs) equals the individual assignments", "statement": "obj.set(a=..,b=..,...) leaves obj and all its dependents observably as if each keyword had been assigned separately, also if a previous or the current set() raised part way through.", "quantifier": "every object, every keyword list and order, every earlier history, every keyword position at which an exception is raised", "why_tests_cant": "crash points times histories", "anchors": ["chumpy/ch.py:Ch.set", "chumpy/ch.py:Ch.__setattr__", "chumpy/ch.py:Ch.clear_cache"]}
{"id": "C09", "title": "Reads do not disturb", "statement": "Reading r, dr_wrt or a depends_on property of any objects in any order and number never changes what any later read returns.", "quantifier": "every graph state, every finite sequence of reads (including reads that raise) interposed before another read", "why_tests_cant": "unbounded read sequences", "anchors": ["chumpy/ch.py:Ch.r", "chumpy/ch.py:Ch.dr_wrt"]}
{"id": "C10", "title": "Exceptions during evaluation leave a usable graph", "statement": "If compute_r or compute_dr_wrt of some object raises, the exception reaches the caller and, once the cause is repaired by an assignment, every read again returns the from-scratch value.", "quantifier": "every graph, every object that raises, every later history", "why_tests_cant": "crash points", "anchors": ["chumpy/ch.py:Ch.r", "chumpy/ch.py:Ch.dr_wrt", "chumpy/ch.py:Ch._call_on_changed"]}
{"id": "C11", "title": "replace(old,new) substitutes everywhere", "statement": "After y.replace(old,new) with old not reachable from new, no object reachable from y refers to old, everything else is unchanged, y's value is the value with new in place of old, and caching invariants hold.", "quantifier": "every acyclic graph, every old/new", "why_tests_cant": "sharing makes the same node be visited many times", "anchors": ["chumpy/ch.py:Ch.replace"]}
{"id": "C12", "title": "copy() and pickling produce an independent equal graph", "statement": "x.copy() has the same value and derivatives as x, shares no object with x, and later assignments to either are not seen by the other; back-links inside the copy are complete.", "quantifier": "every acyclic graph and every later history of assignments", "why_tests_cant": "needs all graph shapes with sharing", "anchors": ["chumpy/ch.py:Ch.__getstate__", "chumpy/ch.py:Ch.__setstate__", "chumpy/ch_ops.py:copy"]}
{"id": "C13", "title": "Garbage collection is unobservable", "statement": "Dropping the last reference to an object that nothing refers to never changes any value or derivative read from the remaining objects.", "quantifier": "every history with collections at arbitrary points", "why_tests_cant": "collection points are nondeterministic", "anchors": ["chumpy/ch.py:Ch.__new__ (weakref _parents)", "chumpy/ch.py:Ch.clear_cache"]}
{"id": "C14", "title": "remove_redundancy preserves values and freshness", "statement": "y.remove_redundancy() does not change y's value or derivatives, and later assignments to leaves are still seen by every later read.", "quantifier": "every acyclic graph, every later history", "why_tests_cant": "needs a graph whose duplicate is reached from a different parent, and a collection of the duplicate", "anchors": ["chumpy/ch.py:Ch.remove_redundancy", "chumpy/ch.py:Ch.sid"]}
{"id": "C15", "title": "clear_cache_wrt only invalidates", "statement": "x.clear_cache_wrt(w) never changes what y.dr_wrt(w) subsequently returns.", "quantifier": "every graph and w", "why_tests_cant": "needs a specific order of dr_wrt / clear_cache_wrt / dr_wrt", "anchors": ["chumpy/ch.py:Ch.clear_cache_wrt", "chumpy/ch.py:Ch.dr_wrt"]}
{"id": "C16", "title": "is_dr_wrt is reachability", "statement": "y.is_dr_wrt(w) is true exactly when y is w and a leaf, or w is reachable from y through one or more differentiable links; and y.dr_wrt(w) is None whenever is_dr_wrt is false and w is not a slice/reordering object.", "quantifier": "every acyclic graph, every pair", "why_tests_cant": "unbounded graphs", "anchors": ["chumpy/ch.py:Ch.is_dr_wrt", "chumpy/ch.py:Ch.dr_wrt"]}
{"id": "C17", "title": "tree_iterator visits each reachable object exactly once", "statement": "Iterating y.tree_iterator() yields y first, and every object reachable through differentiable links exactly once, terminating even on cyclic graphs.", "quantifier": "every graph", "why_tests_cant": "unbounded graphs with sharing", "anchors": ["chumpy/ch.py:Ch.tree_iterator", "chumpy/utils.py:dfs_do_func_on_graph"]}
{"id": "C18", "title": "dr_wrt is the Jacobian", "statement": "If every class used returns the true partial Jacobians from compute_dr_wrt, then y.dr_wrt(w) is the Frechet derivative of y's value as a function of w's value, None meaning zero.", "quantifier": "every acyclic graph with arbitrary sharing, every y, every w (leaf or inner object), every point of differentiability", "why_tests_cant": "all graphs and all reals; finite differences only sample", "anchors": ["chumpy/ch.py:Ch.dr_wrt", "chumpy/ch.py:Ch.compute_rop", "chumpy/ch.py:Ch._superdot"]}
{"id": "C19", "title": "Reverse mode equals forward mode", "statement": "y.lop(w, L) equals L times y.dr_wrt(w) for every L, and y.dr_wrt(w, reverse_mode=True) equals y.dr_wrt(w).", "quantifier": "every acyclic graph, every w, every left factor L", "why_tests_cant": "all graphs, all matrices", "anchors": ["chumpy/ch.py:Ch.lop", "chumpy/ch.py:Ch.lmult_wrt", "chumpy/ch.py:Ch.dr_wrt"]}
{"id": "C20", "title": "Derivative wrt a slice is the column selection", "statement": "y.dr_wrt(a[key]) equals the columns of y.dr_wrt(a) selected by key, for slices of any nesting depth.", "quantifier": "every graph containing a, every key, every nesting depth", "why_tests_cant": "depends on how the graph mixes a and its slices", "anchors": ["chumpy/ch.py:Ch._compute_dr_wrt_sliced"]}
{"id": "C21", "title": "_superdot is composition", "statement": "The product used by the chain rule returns the matrix product for all combinations of None, scalars, 1x1, dense and sparse operands, a scalar meaning a multiple of the identity; it is None iff an operand is None.", "quantifier": "every pair of operands with compatible sizes", "why_tests_cant": "all sizes", "anchors": ["chumpy/ch.py:Ch._superdot", "chumpy/utils.py:convert_inputs_to_sparse_if_necessary"]}
{"id": "C22", "title": "Jacobian has shape (y.size, w.size)", "statement": "Whenever y.dr_wrt(w) is not None, it has y.size rows and w.size columns.", "quantifier": "every graph, every w", "why_tests_cant": "all sizes; some classes return bare scalars", "anchors": ["chumpy/ch.py:Ch.dr_wrt", "chumpy/reordering.py:AtleastNd", "chumpy/ch.py:ChHandle"]}
{"id": "C23", "title": "Indexing agrees with numpy", "statement": "y[key].r equals numpy's y.r[key] (at least 1-d), and its Jacobian wrt y is the 0/1 selection matrix of the selected positions, for every basic key.", "quantifier": "every shape and every tuple of integers, slices with arbitrary step, ellipsis-free", "why_tests_cant": "all shapes and keys", "anchors": ["chumpy/ch.py:Ch.__getitem__", "chumpy/reordering.py:Select"]}
{"id": "C24", "title": "Assignment through slices and reorderings", "statement": "y[key] = v, where y is a chain of slices/reshapes/transposes over a leaf, makes y[key].r equal v and leaves every other entry of the leaf unchanged.", "quantifier": "every leaf shape, every chain with distinct selected positions, every v", "why_tests_cant": "all chains", "anchors": ["chumpy/ch.py:Ch.__setitem__"]}
{"id": "C25", "title": "Reordering classes have correct Jacobians", "statement": "For transpose, swapaxes, rollaxis, tile, repeat, roll, rot90, diag, diagflat and sort, the Jacobian reported is the derivative of the value.", "quantifier": "every shape and parameter, every input", "why_tests_cant": "all shapes, all inputs", "anchors": ["chumpy/reordering.py:Reorder", "chumpy/reordering.py:Sort", "chumpy/reordering.py:Diag", "chumpy/reordering.py:DiagFlat"]}
{"id": "C26", "title": "Memoised Jacobians do not leak across shapes", "statement": "The Jacobians that classes memoise (reorderings, sum, mean, Select, broadcasting tables, cross) are always those of the current shape and parameters.", "quantifier": "every history of value/shape/parameter changes", "why_tests_cant": "needs a shape change that keeps the memo key", "anchors": ["chumpy/reordering.py:Reorder.compute_dr_wrt", "chumpy/reordering.py:Roll", "chumpy/reordering.py:Repeat", "chumpy/ch_ops.py:sum", "chumpy/ch_ops.py:mean", "chumpy/ch_ops.py:_broadcast_matrix"]}
{"id": "C27", "title": "reshape preserves the flat data", "statement": "reshape/ravel/squeeze/expand_dims/atleast_nd keep the C-order flat data, collapse chains of reshapes to one, and have identity Jacobian.", "quantifier": "every shape and target shape", "why_tests_cant": "all shapes", "anchors": ["chumpy/reordering.py:Reshape", "chumpy/reordering.py:reshape", "chumpy/reordering.py:AtleastNd"]}
{"id": "C28", "title": "Concatenation value and Jacobian", "statement": "concatenate/vstack/hstack/dstack place each operand's block as numpy does and report the 0/1 placement matrix as Jacobian, also when an operand occurs several times.", "quantifier": "every number of operands, every shape, every axis", "why_tests_cant": "all shapes", "anchors": ["chumpy/reordering.py:Concatenate", "chumpy/reordering.py:concatenate"]}
{"id": "C29", "title": "Flattening nested concatenations is invisible", "statement": "concatenate flattens operands that are concatenations along the same axis; the value is the same as without flattening.", "quantifier": "every nesting tree", "why_tests_cant": "unbounded nesting", "anchors": ["chumpy/reordering.py:expand_concatenates"]}
{"id": "C30", "title": "Re-pointing a concatenation operand is seen", "statement": "Assigning or replace()-ing an operand of a concatenation changes its value and Jacobian accordingly at the next read.", "quantifier": "every history mixing reads and operand assignments", "why_tests_cant": "needs read-before-assign", "anchors": ["chumpy/reordering.py:Concatenate.our_terms", "chumpy/reordering.py:Concatenate.everything", "chumpy/reordering.py:Concatenate.compute_dr_wrt"]}
{"id": "C31", "title": "Broadcast arithmetic values and Jacobians", "statement": "For + - * / ** with numpy broadcasting, the Jacobian wrt either operand is the derivative of the broadcast result, including operands that are the same object.", "quantifier": "every pair of broadcastable shapes, every values (denominator nonzero, base positive)", "why_tests_cant": "all shape pairs", "anchors": ["chumpy/ch_ops.py:_broadcast_matrix", "chumpy/ch_ops.py:_broadcast_setup", "chumpy/ch_ops.py:add", "chumpy/ch_ops.py:subtract", "chumpy/ch_ops.py:multiply", "chumpy/ch_ops.py:divide", "chumpy/ch_ops.py:power"]}
{"id": "C32", "title": "Unary elementwise derivatives", "statement": "exp, log, sin, cos, tan, arcsin, arccos, arctan, sqrt, square, reciprocal, negative, abs report a diagonal Jacobian holding the derivative of the scalar function, for inputs of every shape.", "quantifier": "every shape, every input in the open domain of differentiability", "why_tests_cant": "all reals, all shapes", "anchors": ["chumpy/ch_ops.py:UnaryElemwise"]}
{"id": "C33", "title": "sum and mean", "statement": "sum/mean over any axis or all entries return numpy's value and the exact Jacobian.", "quantifier": "every shape and axis", "why_tests_cant": "all shapes", "anchors": ["chumpy/ch_ops.py:sum", "chumpy/ch_ops.py:mean"]}
{"id": "C34", "title": "cumsum", "statement": "cumsum (flattened) returns partial sums and its Jacobian is the lower-triangular matrix of ones.", "quantifier": "every size", "why_tests_cant": "all sizes", "anchors": ["chumpy/ch_ops.py:cumsum"]}
{"id": "C35", "title": "dot", "statement": "a.dot(b) has numpy's value and its Jacobians wrt a, wrt b, and wrt a common operand are the exact partial derivatives.", "quantifier": "every compatible pair of shapes", "why_tests_cant": "all shapes", "anchors": ["chumpy/ch_ops.py:dot"]}
{"id": "C36", "title": "cross", "statement": "cross(a,b) has numpy's value, and its Jacobians wrt a and b are exact, whatever the shapes numpy accepts: vectors of two or three along the last axis, the other axes broadcast.", "quantifier": "all shapes and values, the axes being the default ones", "why_tests_cant": "all shapes, sizes and real values; the shapes tried in tests are few and those that go wrong do so silently", "anchors": ["chumpy/ch_ops.py:Cross"]}
{"id": "C37", "title": "Extrema along an axis", "statement": "amax/amin over an axis return the extremum and the Jacobian selects, for each output entry, a position of the input along that axis holding that extremum.", "quantifier": "every shape and axis and every values", "why_tests_cant": "all shapes and ties", "anchors": ["chumpy/ch_ops.py:A_extremum"]}
{"id": "C38", "title": "Pairwise extrema", "statement": "maximum/minimum report derivative 1 exactly for the operand entries attaining the extremum, under broadcasting.", "quantifier": "every broadcastable shapes and values", "why_tests_cant": "all values and ties", "anchors": ["chumpy/ch_ops.py:Extremum"]}
{"id": "C39", "title": "clip", "statement": "clip returns values in [a_min,a_max] and a diagonal Jacobian that is 1 strictly inside and 0 at or outside the bounds.", "quantifier": "every value and bounds a_min <= a_max", "why_tests_cant": "all reals", "anchors": ["chumpy/ch_ops.py:clip"]}
{"id": "C40", "title": "var and std", "statement": "var(a) and std(a) return the variance and standard deviation of the entries, as numpy does.", "quantifier": "every array", "why_tests_cant": "all arrays", "anchors": ["chumpy/ch_ops.py:var", "chumpy/ch_ops.py:std"]}
{"id": "C41", "title": "Sum of squares and norm", "statement": "SumOfSquares(x) is the sum of squared entries with gradient 2x; linalg.norm(x) is the square root of the sum of squares with gradient x/|x| away from zero.", "quantifier": "every size and value", "why_tests_cant": "all sizes", "anchors": ["chumpy/ch_ops.py:SumOfSquares", "chumpy/linalg.py:norm"]}
{"id": "C42", "title": "Matrix inverse, determinant, log-determinant derivatives", "statement": "Inv, Det and LogAbsDet report the exact Jacobians at every invertible matrix.", "quantifier": "every n and every invertible n x n matrix", "why_tests_cant": "all sizes, all matrices", "anchors": ["chumpy/linalg.py:Inv", "chumpy/linalg.py:Det", "chumpy/linalg.py:LogAbsDet"]}
{"id": "C43", "title": "Pseudo-inverse", "statement": "Pinv(M) satisfies the four Moore-Penrose conditions for every full-rank M, and lstsq's x minimises |Ax-b|.", "quantifier": "every shape, every full-rank matrix", "why_tests_cant": "all sizes", "anchors": ["chumpy/linalg.py:Pinv", "chumpy/linalg.py:lstsq"]}
{"id": "C44", "title": "tensordot", "statement": "tensordot(a,b,axes) contracts exactly the named axes, as numpy specifies, including negative axes.", "quantifier": "every pair of shapes and axes", "why_tests_cant": "all shapes", "anchors": ["chumpy/np_tensordot.py:tensordot"]}
{"id": "C45", "title": "ChLambda behaves as function application", "statement": "After assigning arguments to Ch(lambda ...), its value and derivatives are those of the lambda body evaluated on the assigned arguments, whatever was assigned or read before.", "quantifier": "every body graph, every history of argument assignments and reads", "why_tests_cant": "unbounded histories", "anchors": ["chumpy/ch.py:ChLambda", "chumpy/ch.py:ChHandle"]}
{"id": "C46", "title": "Dogleg only accepts improvements", "statement": "Every callback after the first sees a strictly smaller sum of squares than the previous one, and the final sum of squares is at most the initial one.", "quantifier": "every objective, every solver answer, every option setting, every number of iterations", "why_tests_cant": "all objectives", "anchors": ["chumpy/optimization_internal.py:minimize_dogleg", "chumpy/optimization_internal.py:DoglegState.Trial"]}
{"id": "C47", "title": "Dogleg returns the best point", "statement": "When minimize returns, the free variables hold the last accepted point; a rejected trial step leaves no trace in them.", "quantifier": "every objective and run", "why_tests_cant": "all runs", "anchors": ["chumpy/optimization_internal.py:minimize_dogleg", "chumpy/optimization_internal.py:ChInputsStacked.on_changed"]}
{"id": "C48", "title": "Dogleg steps stay in the trust region", "statement": "Every proposed step has length at most the trust radius, and the interpolated dogleg step has length exactly the radius.", "quantifier": "every gradient step, Gauss-Newton step and radius (exact arithmetic)", "why_tests_cant": "all reals, all dimensions", "anchors": ["chumpy/optimization_internal.py:DoglegState.update_step", "chumpy/optimization_internal.py:DoglegState.beta_multiplier"]}
{"id": "C49", "title": "Predicted improvement is positive", "statement": "With an exact Gauss-Newton solve and nonzero gradient, the predicted improvement used to form rho is positive for every step the dogleg proposes.", "quantifier": "every Jacobian with full column rank, residual and radius", "why_tests_cant": "all reals", "anchors": ["chumpy/optimization_internal.py:DoglegState.Trial", "chumpy/optimization_internal.py:DoglegState.start_iteration"]}
{"id": "C50", "title": "Dogleg terminates", "statement": "The inner trust-region loop always ends after finitely many rejected steps and the outer loop runs at most max(1,maxiter) iterations.", "quantifier": "every objective, including ones returning NaN, every option setting", "why_tests_cant": "non-termination cannot be observed by a test", "anchors": ["chumpy/optimization_internal.py:minimize_dogleg", "chumpy/optimization_internal.py:DoglegState.updateRadius"]}
{"id": "C51", "title": "Free-variable packing round-trips", "statement": "Writing a flat vector to the stacked objective puts consecutive segments into the free variables in order (only the selected entries for slice variables, at any nesting depth), and reading them back gives the same vector; entries not selected are unchanged.", "quantifier": "every list of free variables with disjoint targets, every vector", "why_tests_cant": "all lists, shapes and nesting depths", "anchors": ["chumpy/optimization_internal.py:ChInputsStacked.on_changed", "chumpy/optimization_internal.py:setup_objective", "chumpy/optimization.py:minimize.changevars"]}
{"id": "C52", "title": "Jacobian columns follow the packing order", "statement": "Column j of the stacked Jacobian is the derivative of the objective wrt entry j of the packed vector.", "quantifier": "every list of free variables (whole variables and single-level slices)", "why_tests_cant": "all lists", "anchors": ["chumpy/optimization_internal.py:ChInputsStacked.dr_wrt", "chumpy/optimization_internal.py:hstack"]}
{"id": "C53", "title": "Objective sees every free-variable write", "statement": "After the optimiser assigns a new packed vector, the objective is evaluated at that vector, for every admissible list of free variables, including several slices of one array.", "quantifier": "every list of distinct free variables", "why_tests_cant": "depends on sharing between slice variables and on cached reads during the copy-out", "anchors": ["chumpy/optimization_internal.py:ChInputsStacked.on_changed", "chumpy/ch.py:Ch.clear_cache"]}
{"id": "C54", "title": "scipy-driver memo is sound", "statement": "For non-dogleg methods the residual, gradient and Hessian callbacks return the objective's values at the vector passed in, whatever vectors were passed before.", "quantifier": "every sequence of callback invocations", "why_tests_cant": "call sequences are chosen by scipy", "anchors": ["chumpy/optimization.py:minimize"]}
{"id": "C55", "title": "Leaf buffers are not shared", "statement": "Assigning into one leaf (a[key]=v) is seen by every object depending on that leaf and does not make any other object stale.", "quantifier": "every history with leaves built from user arrays", "why_tests_cant": "needs two leaves built from one numpy array", "anchors": ["chumpy/ch.py:Ch.__setitem__", "chumpy/ch.py:Ch.__new__"]}
{"id": "C56", "title": "NanDivide is finite", "statement": "NanDivide(a,b) equals a/b where that is finite and 0 elsewhere, in value and derivative.", "quantifier": "every inputs including zeros, infinities and NaN", "why_tests_cant": "all inputs", "anchors": ["chumpy/ch_ops.py:NanDivide"]}
{"id": "C57", "title": "A value is computed at most once between changes", "statement": "After y.r returned, no further sequence of reads of any objects runs y's compute_r again; an assignment to something y does not depend on does not make the next read recompute it, one to something it depends on does.", "quantifier": "every graph, every history, every sequence of reads", "why_tests_cant": "all sharing patterns and read orders; a test only times particular graphs", "anchors": ["chumpy/ch.py:Ch.r", "chumpy/ch.py:Ch.clear_cache"]}
{"id": "C58", "title": "Step functions and comparisons have zero derivative", "statement": "floor, ceil, sign, greater, greater_equal, less, less_equal, equal, not_equal have numpy's values under broadcasting and report no derivative; wherever the function is locally constant that is the derivative.", "quantifier": "every shape and value", "why_tests_cant": "all reals and all shapes", "anchors": ["chumpy/ch_ops.py:Simpleton", "chumpy/ch_ops.py:BinaryElemwiseNoDrv"]}
{"id": "C59", "title": "Singular value decomposition", "statement": "Svd(x) returns U, D, Vt with orthonormal columns/rows, D decreasing and nonnegative and U diag(D) Vt = x, for matrices with more rows than columns or fewer; the reported derivatives of U, D and V are the true ones.", "quantifier": "every matrix size, every matrix with nonzero singular values, every LAPACK-like routine (any choice of signs)", "why_tests_cant": "all matrices; derivative formulas are singular near equal singular values, and numerical differences hide sign switches of the routine", "anchors": ["chumpy/linalg.py:Svd", "chumpy/linalg.py:SvdD", "chumpy/linalg.py:SvdV", "chumpy/linalg.py:SvdU"]}
{"id": "C60", "title": "The trust region follows the trials", "statement": "In dogleg minimisation, a trial whose fall of the sum of squares exceeds nine tenths of the predicted one lets the next steps be at least as long (up to 2.5 times the step tried), one that fails or falls below a twentieth of the prediction limits them to a quarter, any other leaves the limit as it is; after a rejection the next step tried is at most a quarter of the old limit.", "quantifier": "every objective, Jacobian, start, solver and option, every turn of every run, in exact arithmetic", "why_tests_cant": "all objectives and all runs; a test sees the outcome of some runs, not the limit", "anchors": ["chumpy/optimization_internal.py:DoglegState.updateRadius", "chumpy/optimization_internal.py:_minimize_dogleg"]}
{"id": "C61", "title": "Constructor arguments mean what the class says", "statement": "The positional arguments of a class constructor are bound in the order which the text of the class says (its term_order, or its terms then its dterms), keyword arguments by name, too many arguments raise; this does not depend on which objects were constructed before.", "quantifier": "every class hierarchy, every history of constructions, all arguments", "why_tests_cant": "class attributes are completed at the first construction, so the answer depends on the history of the whole program", "anchors": ["chumpy/ch.py:Ch.__new__", "chumpy/ch.py:Ch.setup_terms", "chumpy/ch.py:Ch.parm_declarations"]}
{"id": "C62", "title": "Inverses of stacks of matrices", "statement": "Inv of an array with more than two axes is the stack of the inverses of the matrices in its last two axes, and the reported Jacobian is the exact one.", "quantifier": "every number of leading axes, every matrix size, every stack of invertible matrices with at least one entry", "why_tests_cant": "all shapes and matrices; the Jacobian is assembled block by block", "anchors": ["chumpy/linalg.py:Inv"]}
{"id": "C63", "title": "slogdet", "statement": "slogdet(x) returns a sign, 1 or -1, and a logarithm with sign*exp(log) = det(x); the reported derivative of the logarithm is exact and that of the sign is zero.", "quantifier": "every n and every invertible n x n matrix", "why_tests_cant": "all matrices", "anchors": ["chumpy/linalg.py:slogdet", "chumpy/linalg.py:SignLogAbsDet", "chumpy/linalg.py:LogAbsDet"]}
{"id": "C64", "title": "MatVecMult", "statement": "MatVecMult(mtx, vec) is the matrix-vector product of mtx with the entries of vec in C order, in the shape of as many columns as vec has if it has several; its Jacobian is mtx.", "quantifier": "every matrix and every conformable vec of every shape", "why_tests_cant": "all sizes", "anchors": ["chumpy/ch.py:MatVecMult"]}
{"id": "C65", "title": "gamma", "statement": "extras.gamma(x) is Euler's gamma function of each entry and reports the diagonal matrix of its derivatives, for inputs of every shape.", "quantifier": "every shape, all reals that are not zero or negative whole numbers", "why_tests_cant": "all reals, all shapes", "anchors": ["chumpy/extras.py:gamma"]}
{"id": "C66", "title": "Interpolation in images", "statement": "Interp3D(locations, image) is the image at lattice points, at a location strictly inside a cell of the lattice the image at the cell's lower corner plus the image's slopes there times the distances, reproduces affine images at all locations inside (and their nearest point outside), and wherever the value is differentiable in the locations the reported Jacobian is that derivative.", "quantifier": "every image with three axes of length at least 2, every number of locations, all locations", "why_tests_cant": "all real locations and all images", "anchors": ["chumpy/extras.py:Interp3D"]}
{"id": "C67", "title": "Indexing with any key", "statement": "For every key numpy understands - arrays of integers, masks, ellipses, new axes and their combinations - a[key].r is a.r[key], refused exactly where numpy refuses it, and the reported Jacobian is the 0/1 matrix by which the flat data is multiplied when the key is applied.", "quantifier": "every operation on arrays that moves entries without looking at them, in particular all integer-array keys and masks; every shape; every history", "why_tests_cant": "all keys, shapes and values", "anchors": ["chumpy/ch.py:Ch.__getitem__", "chumpy/reordering.py:Select"]}
{"id": "C68", "title": "The derivative of the pseudo-inverse and of least squares", "statement": "At every matrix of full rank (tall, wide or square), pinv(a).dr_wrt(a) returns the derivative of the pseudo-inverse: entry (k, l) with respect to entry (r, c) of a is the one of Golub and Pereyra's formula, -P[k,r] P[c,l] + (P P^T)[k,c] (I - A P)[r,l] + (I - P A)[k,c] (P^T P)[r,l].  dr_wrt of the least-squares solution returns its Jacobian with respect to the matrix, the right-hand side and any other plain array.", "quantifier": "all matrices of full rank with more than one entry, of every shape; all right-hand sides; all reachable states", "why_tests_cant": "a test differentiates numerically at a few matrices; the formula must hold at every matrix, on both branches of the code, and through five objects of the chain rule", "anchors": ["chumpy/linalg.py: Pinv, Inv, lstsq", "chumpy/ch_ops.py: dot", "chumpy/reordering.py: transpose"]}
{"id": "C69", "title": "A list of objectives is one objective with all their residuals", "statement": "When minimize is given a list, tuple or dict of objectives, the merged objective holds the residuals of all of them, flattened and in order; its sum of squares is the sum of theirs; and the rows of its Jacobian with respect to any object that is not a slice are exactly the rows each objective reports, in the same places. If each objective is differentiable and reports its Jacobian, then the merged objective is differentiable and reports its own. An objective may occur several times, may be a reshape of another and may be the free variable itself. Free variables that contain the same object twice are refused before anything is made.", "quantifier": "every reachable graph, every non-empty list of live objectives with values, of any number, shapes and classes, every object asked about that is no slice, every list of free variables", "why_tests_cant": "The number, shapes, repetition and nesting of objectives are unbounded; a wrong offset shows only for particular combinations of sizes.", "anchors": ["chumpy/optimization_internal.py:setup_objective", "chumpy/reordering.py:reshape", "chumpy/reordering.py:concatenate", "chumpy/ch.py:Ch.ravel"]}
{"id": "C70", "title": "Python's operators mean arithmetic on values", "statement": "For every binary operator (+, -, *, /, **, >, >=, <, <=, !=) with an object on at least one side and an object, a number or a numpy array on the other, the expression yields a new object whose value is the operator applied entry by entry under broadcasting, the left operand on the left, and whose derivatives are right wherever the operator is differentiable; -x and abs(x) likewise, +x is x itself. No object that was there before changes its value or its derivatives.", "quantifier": "every reachable state, every operator, every pair of operands of any broadcastable shapes with an object among them, both Python 2 and Python 3, whichever operand Python asks first", "why_tests_cant": "The combinations of operators, kinds of operands, sides and shapes are unbounded, and a reflected method with exchanged operands is invisible for commutative operators and equal entries.", "anchors": ["chumpy/ch.py:Ch.__add__", "chumpy/ch.py:Ch.__rsub__", "chumpy/ch.py:Ch.__rdiv__", "chumpy/ch.py:Ch.__rpow__", "chumpy/ch.py:Ch.__gt__", "chumpy/ch.py:Ch.__neg__", "chumpy/ch.py:Ch.__abs__", "chumpy/ch.py:Ch.__setattr__"]}
{"id": "C71", "title": "Central moments", "statement": "moment(a, k, axis) for a whole number k \u2265 1 yields the k-th central moments of a along the axis: that axis is gone, and every entry is the average of the k-th powers of the deviations from the average along the axis (zero for k = 1). The derivative reported with respect to a is that of this value. Nothing that was there before changes.", "quantifier": "every reachable state, every array of every shape, every axis, counted from the front or the back, every whole order k \u2265 1", "why_tests_cant": "The formula must hold for every shape, axis and order; a wrong broadcast of the mean shows for some shapes only.", "anchors": ["chumpy/extras.py:moment", "chumpy/reordering.py:expand_dims", "chumpy/ch.py:Ch.mean", "chumpy/ch_ops.py:power"]}
{"id": "C72", "title": "Calling an object", "statement": "f(**kwargs) raises what assigning the keywords raises; otherwise it returns what an evaluation from scratch returns for f with these arguments, everything else about f and every other object being as before. If all arguments are given, as values, the result depends on nothing but the class and the arguments. A second call without arguments returns the same.", "quantifier": "every reachable state, every object, every set of keywords, calls before and after any history", "why_tests_cant": "Whether the result is a function of the arguments is a statement about all pairs of histories.", "anchors": ["chumpy/ch.py:Ch.__call__", "chumpy/ch.py:Ch.set", "chumpy/ch.py:Ch.r"]}
{"id": "C73", "title": "Each local derivative is computed once per dr_wrt", "statement": "One call y.dr_wrt(w), whether it returns or raises, calls j.compute_dr_wrt(p) at most once for every pair of objects j and p, however often sub-expressions are shared. Once it has returned, asking again, after any reads, computes nothing.", "quantifier": "every history, every expression graph, every y and w, every pair j, p, any number of reads in between", "why_tests_cant": "The cost depends on the shape of the graph; with the caching rule of the library it grows exponentially for some graphs and not at all for others, and no finite set of graphs shows which.", "anchors": ["chumpy/ch.py:Ch.dr_wrt", "chumpy/ch.py:Ch._compute_dr_wrt_sliced", "chumpy/ch.py:Ch.compute_rop"]}
{"id": "C74", "title": "Differentiable terms that are aliases", "statement": "If a class declares a differentiable term that is a Python property standing for an attribute of one of its arguments (self.child.a), then value, properties and derivatives of an object are always those of a from-scratch evaluation with the alias leading where it now leads, whether it was changed through the alias, by assigning the inner attribute, or by replacing the inner object. Assigning through the alias sets exactly the inner attribute, and on_changed is then told of both names; set(child=..., aliased=...) gives the new child the new value in either order.", "quantifier": "every class with such terms, every history of constructions, assignments, reads, clear_cache and collections with exceptions, every object, property, and wrt that is not a slice", "why_tests_cant": "Staleness depends on the order of assignments and reads over several objects; the test of the repository runs one history of one object.", "anchors": ["chumpy/ch.py:Ch.__setattr__", "chumpy/ch.py:Ch.set", "chumpy/ch.py:_props_for", "chumpy/ch.py:Ch.dr_wrt", "chumpy/test_inner_composition.py:TestInnerComposition.test_ic"]}
{"id": "C75", "title": "ChGroup", "statement": "An object G = ChGroup(result, args) has at every time the value of result with the arguments G now has standing in their places, whatever was assigned and read before, and G.dr_wrt(w) is the derivative of that value with respect to w.", "quantifier": "every result, every set of arguments, every history of assignments to the group and to other objects and of reads of the group, of other objects and of derivatives, every w that is not a slice", "why_tests_cant": "The group keeps its own cached value although it has no link to the result, so whether it is stale depends on the history; the derivative depends on how w, the arguments and the result are connected.", "anchors": ["chumpy/ch.py:ChGroup.__init__", "chumpy/ch.py:ChGroup.on_changed", "chumpy/ch.py:ChGroup.compute_r", "chumpy/ch.py:ChGroup.compute_dr_wrt", "chumpy/ch.py:ChHandle"]}
{"id": "C76", "title": "Logic functions", "statement": "all(a, axis) and any(a, axis) tell of each row of a along the axis, or of all of a, whether every or some entry is nonzero; logical_not, isfinite, isinf, isnan, isneginf, isposinf tell it entry by entry; dr_wrt of each reports zero, which is the derivative wherever the answer does not hang on an exact zero.", "quantifier": "every array a of any shape, every axis (also negative or None), every history", "why_tests_cant": "The axis arithmetic and the derivative claim range over all shapes and all real entries; whether zero is the derivative depends on a neighbourhood of the point.", "anchors": ["chumpy/logic.py:LogicFunc", "chumpy/logic.py:unaries"]}
{"id": "C77", "title": "Questions answered from the value", "statement": "shape, size, ndim, len(), float(), int(), conversion to an array, argmax, argmin, flatnonzero, argwhere and nonzero of an object answer at any time what is right for the value the object has then, raise exactly when there is no answer or the value cannot be computed, and change nothing.", "quantifier": "every object, every history of assignments and reads before, every value and shape", "why_tests_cant": "The answers must follow every assignment anywhere below the object, for all histories; ties in argmax and the order of nonzero positions range over all arrays.", "anchors": ["chumpy/ch.py:Ch.shape", "chumpy/ch.py:Ch.size", "chumpy/ch.py:Ch.ndim", "chumpy/ch.py:Ch.__len__", "chumpy/ch.py:Ch.__float__", "chumpy/ch.py:Ch.__int__", "chumpy/ch.py:Ch.__array__", "chumpy/ch_ops.py:nonzero"]}
{"id": "C78", "title": "The stopwatch counts running time", "statement": "chumpy.utils.timer, called at any moment, returns the time since its construction during which it was not paused; pause raises exactly when it is paused and resume exactly when it is running, and a call that raises changes nothing.", "quantifier": "every sequence of calls at any times in the order of the clock", "why_tests_cant": "The schedule of pauses is unbounded and the times are arbitrary.", "anchors": ["chumpy/utils.py:timer"]}
{"id": "C79", "title": "The tree written by a profiler", "statement": "The file a DrWrtProfiler writes on construction shows every object the objective depends on with its operands exactly once, lists exactly its operands there, and marks every other occurrence as a reference to an object shown elsewhere.", "quantifier": "every history, every objective, cycles and shared objects included", "why_tests_cant": "Termination and completeness of the walk on shared and cyclic graphs range over all graphs and over what earlier profilers left on the objects.", "anchors": ["chumpy/monitor.py:DrWrtProfiler.dump_tree", "chumpy/monitor.py:DrWrtProfiler.__init__"]}
{"id": "C80", "title": "Labelled residuals", "statement": "print_labeled_residuals() writes, for each object with a label that the object depends on, once, the label and the current sum of squares of that object's value, with the requested number of decimals; then the object's own sum of squares. It changes no object.", "quantifier": "every history, every object, every choice of labels", "why_tests_cant": "It ranges over all graphs, shared objects included, and over all states of the caches the values are read through.", "anchors": ["chumpy/ch.py:Ch.print_labeled_residuals"]}
{"id": "C81", "title": "Methods named after numpy's", "statement": "x.T, x.transpose(...), x.sum, x.mean, x.cumsum, x.min, x.max (with any axis or none), x.floor(), x.ceil() and x.dot(other) return an object whose value is what the numpy array method of that name returns for x's value, with the right derivative where that is differentiable; no other object changes.", "quantifier": "every history, every object, every argument numpy accepts", "why_tests_cant": "It ranges over all shapes, axes and values and all states the object may be in.", "anchors": ["chumpy/ch.py:Ch.T", "chumpy/ch.py:Ch.transpose", "chumpy/ch.py:Ch.sum", "chumpy/ch.py:Ch.mean", "chumpy/ch.py:Ch.cumsum", "chumpy/ch.py:Ch.min", "chumpy/ch.py:Ch.max", "chumpy/ch.py:Ch.floor", "chumpy/ch.py:Ch.ceil", "chumpy/ch.py:Ch.dot"]}
{"id": "C82", "title": "fliplr and flipud", "statement": "fliplr(m) and flipud(m) have m's shape and m's entries with the second, respectively the first, axis reversed; their derivative about a plain Ch is the permutation matrix of that reversal; applied twice they give m's value back; they raise exactly when m has too few axes.", "quantifier": "every history, every object of any shape and number of axes", "why_tests_cant": "It ranges over all shapes and values.", "anchors": ["chumpy/reordering.py:fliplr", "chumpy/reordering.py:flipud"]}
{"id": "C83", "title": "Progress lines of the optimiser", "statement": "At each step, with disp set, the optimiser writes one line that shows the sum of squares of the objective for the current free variables and, for a dict of objectives, each label with the sum of squares of its objective for those same variables, in the order of the labels, none missing; on_step runs first, and what it changes is seen in the line; nothing else changes.", "quantifier": "every history, all free variables and objectives, any number of labels, any assigned vector, any on_step", "why_tests_cant": "The vector reaches the variables only while the line is computed, so the order of reads matters; it ranges over all states of the caches.", "anchors": ["chumpy/optimization_internal.py:setup_objective"]}
{"id": "C84", "title": "nan_to_num and the derivative of sqrt are always finite", "statement": "nan_to_num(x) has only finite entries, keeps the finite entries of x and replaces NaN by 0 and infinities by the largest number of their sign; its derivative is the identity where x is finite and zero elsewhere; applying it twice is applying it once. The derivative reported for sqrt is finite for every operand, and is the derivative at positive ones.", "quantifier": "every array, with NaN and infinities in any places", "why_tests_cant": "It ranges over all arrays of floating point numbers including the exceptional ones.", "anchors": ["chumpy/ch_ops.py:nan_to_num", "chumpy/ch_ops.py:my_power", "chumpy/ch_ops.py:sqrt"]}
{"id": "C85", "title": "Walking over all operands, and the picture of the tree", "statement": "loop_children_do(fn) calls fn with the object itself first and with exactly the objects it depends on, once for every way of reaching them (so an n-fold doubling costs 2^(n+1)-1 calls); used to reset flags it clears exactly those of the objects below. show_tree draws an arrow for exactly every direct use below the object, boxes for exactly the objects below under each name they are used (only their label if they have one), and a dotted arrow for exactly the cached derivatives above the size limit. Both return, given enough recursion depth, exactly when no object below uses itself.", "quantifier": "every history of operations, every object, every labelling, every size limit, every recursion limit", "why_tests_cant": "Shared operands, cycles and cached derivatives depend on the whole history; the cost statement ranges over all depths.", "anchors": ["chumpy/ch.py:Ch.loop_children_do", "chumpy/ch.py:Ch.reset_flag", "chumpy/ch.py:Ch.show_tree"]}
{"id": "C86", "title": "The dogleg method on the object graph: what it computes is what the mathematics computes", "statement": "minimize(method='dogleg') only reaches the objective by assigning obj.x, reading obj.r and obj.J and calling on_changed on an object graph full of caches. Nevertheless, after every number of turns of its loops it has raised no exception and is at the same place, with the same parameters, residual, gradient, trust radius and counters, as the dogleg method run on the mathematical function the objective computes and on its derivative; the free variables hold its parameters, and held the accepted ones at every callback; no other object the user had is changed. This holds from the call on: the stacked objective that setup_objective builds is in such a state whatever the history was, and a free variable given twice raises before anything has happened. So the callbacks see strictly decreasing sums of squares, the free variables end at a vector not worse than the initial one, and the method ends if e_1 > 0 and e_2 >= 0. Called with a list of objectives it ends too, and the total of their sums of squares is not larger than before.", "quantifier": "every history before the call, every objective that is a differentiable function of its free variables, every number of free variables (whole Ch objects or slices of different ones), every solver, all options, every number of turns, display on or off", "why_tests_cant": "A stale value or Jacobian would have to appear at some turn for some objective after some history; the statement ranges over all of them, and over unboundedly many turns.", "anchors": ["chumpy/optimization_internal.py:minimize_dogleg", "chumpy/optimization_internal.py:ChInputsStacked", "chumpy/ch.py:Ch.dr_wrt", "chumpy/ch.py:Ch.r"]}
{"id": "C87", "title": "How deep reading recurses", "statement": "Reading y.r recurses no deeper than the longest chain of references under y (plus 2 nested requests), whatever is cached, and y.dr_wrt(w) no deeper than that length, plus the larger one of it and the longest chain under w (plus 3): with so deep a stack there is no RecursionError, and what is returned or raised does not depend on how much deeper the stack is. In a graph without cycles the depth for a value is at most the number of objects under y plus 1. A whole call of minimize with the dogleg method over one Ch needs no deeper stack than twice the height of the objective plus 4, or the number of objects plus 1, however many turns it takes. For values the bound is sharp up to 1: after x.clear_cache(), y.r overflows every stack not deeper than a chain of n references from y to x in which each object asks the next one first, and there are such graphs for every n. y.dr_wrt(w) then likewise overflows every stack not deeper than a chain of references from y to x in which no object has w as an operand and each has the next one as its first.", "quantifier": "every history before the read for which values (C01) and derivatives (C02) are proved fresh, every graph of finite height (any number of objects, any sharing), every state of the caches, every class without @depends_on properties whose compute_r does not read the own value, every stack limit", "why_tests_cant": "Tests read graphs of a few objects under one recursion limit; the bound must hold for graphs of every shape and size, in which the number of paths is exponential in the number of objects although the depth is not.", "anchors": ["chumpy/ch.py:Ch.r", "chumpy/ch.py:Ch.dr_wrt", "chumpy/ch.py:Ch.compute_dr_wrt", "chumpy/ch.py:Ch._compute_dr_wrt_sliced"]}
{"id": "C88", "title": "Random numbers are drawn once and reproducibly", "statement": "A call of a function of chumpy.random draws one sample and returns a new Ch holding it, changing no other object; if numpy raises, no Ch is made. As long as nothing is assigned to that Ch, .r is this sample, however often it is read and whatever else is done: it is not drawn again. Programs that set the generator to the same state (set_state or seed) and then make the same calls see the same samples as each other, and as calls of numpy.random alone, whatever they did before and whatever they build, assign, read or differentiate in between.", "quantifier": "every generator (any states, any samples, any calls that raise), every history before, every program of calls of the generator mixed with constructions, assignments, reads and derivatives, every position of a read", "why_tests_cant": "Tests with a seed run a few fixed programs; the claim is about every interleaving of draws with the lazy evaluation of any graph.", "anchors": ["chumpy/ch_random.py:api_wrapped_simple", "chumpy/ch_random.py:api_wrapped_direct"]}
