# Formal model of chumpy: design

Source: `/repo/chumpy` (mattloper/chumpy, pinned).  Proof assistant: Lean 4.33.0 + Mathlib.
Everything lives in `lean/Verif`; `properties.jsonl` lists the claims, `MANIFEST.json` maps
claims to theorem names, `seeded/LOG.jsonl` records edits of the model that the theorems had to notice.

## Trusted base

* Lean's kernel, and the axioms `propext`, `Classical.choice`, `Quot.sound`.  Every theorem named in
  `MANIFEST.json` depends on a subset of these three and on nothing else.  No `sorry`, no `native_decide`,
  no `bv_decide`, no axioms of our own.  Concrete witnesses are evaluated by the kernel (`decide +kernel`).
* The reading of the Python source: each definition of the model cites the lines it models, and
  says where it simplifies.  Nothing is executed.
* Numbers are exact: elements of ℝ, not IEEE doubles.  There is no rounding and no NaN, except where the
  property is about them: C56 and the refutation of C50 use reals extended by ±∞ and NaN.
* Numpy and scipy kernels are modelled by what they compute (index arithmetic, sums, matrix products), not by
  their code.  The linear solver of the optimiser and the objective are parameters.
* Python object identity is a natural number, never reused; dictionaries and sets are lists whose order is
  immaterial for the results proved.
* Recursion: every recursive method takes a fuel argument standing for the interpreter's recursion
  limit; running out is the exception `Err.fuel` (`RecursionError`, or divergence of a loop).  Theorems hold for
  every fuel, or say "from some fuel on"; C87 says from which fuel on, in terms of the height of the graph.

## Layers

### `Verif/Core`: the caching machine, for arbitrary classes

| module | models |
|---|---|
| `Prog` | what a user-written `compute_r` / `compute_dr_wrt` / `@depends_on` body may do: an arbitrary adaptive program that reads own terms, children's `.r`, own `.r`, own properties, or raises |
| `Heap` | objects, links, back-links (`_parents`), caches, `_dirty_vars`, `_itr`; `__new__`, `__setattr__`, `set`, `add_dterm`, `clear_cache`, `_call_on_changed`, `r`, `dr_wrt`, `_compute_dr_wrt_sliced`, `depends_on`, collection; an event trace of bodies run and `on_changed` calls |
| `Step`, `Reach` | the operations a user can perform, histories of them, and the restrictions (`Legal`, `Mode`) some theorems need |
| `Spec`, `SpecLemmas`, `Indep`, `Iso` | the cache-free evaluator (the specification) and facts about it |
| `Clear`, `Links`, `Str`, `Write`, `Ops`, `Sim`, `Inv`, `Pending`, `ReadFrame`, `TagRead`, `Tags`, `Off`, `SameOn`, `SameObs`, `DrCount`, `DrLower` | invariants, simulation, frames, counts |
| `ClearWrt`, `Clone`, `Copy`, `Redundancy`, `Replace`, `Traverse` | `clear_cache_wrt`, pickling and `copy`, `remove_redundancy`/`sid`, `replace`, `is_dr_wrt`/`tree_iterator` |
| `Depth` | no new code: how much fuel the specification evaluator needs, by the height of the graph |
| `Reverse`, `RevHist` | `lop`, `lmult_wrt`, `dr_wrt(reverse_mode=True)`, also anywhere in a history |
| `Profile`, `Draw`, `Residuals` | the tree `DrWrtProfiler` writes; `loop_children_do` and the text behind `show_tree`; `print_labeled_residuals` |
| `Lambda*` | `ChHandle` and `ChLambda`: reads whose `on_changed` assigns to handles |
| `Alias*` | differentiable terms that are Python properties standing for `self.k.k2`: lookups and assignments through them |
| `Group*` | `ChGroup`: reads and derivatives taken of an object that is not linked |
| `ClassSetup`, `Below` | constructor arguments and what a class declares; what lies below an object |
| `Build` | histories that build a given graph |

A *state* is reached by a history of operations, starting from no objects.  Exceptions are part of histories:
an operation that raises leaves whatever it had changed.  `Mode` restricts histories: `frozen` (slices are not modified after
their construction), `plain` (no `make_dense`/`make_sparse`).  `Legal` says which single operations are allowed in a mode, and excludes a
raising multi-keyword `set` while a tag 9999 is left over (refuted in C08).

### `Verif/AD`: arrays, Jacobians, the library's classes

| module | models |
|---|---|
| `Num`, `Jac` | values, and Jacobians as numbers, dense or sparse matrices, as `_superdot`, `+` and the end of `dr_wrt` treat them |
| `Lib` | class definitions as bodies over arrays of reals (`ClassDef`), and the signature `lib` they form |
| `Graph`, `Chain`, `Total`, `Shape` | `HasJacobian` (Mathlib's Fréchet derivative of the value of `y` as a function of the entries of `w`), the chain rule, when `dr_wrt` returns, sizes |
| `Api`, `Steps`, `Compose`, `Expr`, `Built`, `Wrong` | the form of statements about single classes; evaluation of concrete graphs; reachable examples; tools for refutations |
| `Bcast`, `Arith`, `Unary`, `Pairwise`, `Atleast`, `XFloat` | ch_ops.py: broadcasting, elementwise functions, comparisons, `NanDivide` |
| `NdIndex`, `Reorder`, `Select`, `SliceWrt`, `SetItem` | reordering.py, indexing, slices as variables, `__setitem__` |
| `Concat`, `Flatten`, `ConcatMemo` | `Concatenate`, `concatenate`/`vstack`/`dstack`/`hstack`, what a `Concatenate` keeps between reads |
| `Reduce`, `AxisExtremum`, `Bilin`, `Dot`, `Tensordot` | sums, means, extrema, dot, cross, `np_tensordot.py` |
| `Lambda` | `ChHandle` and `ChLambda` hand on a value, with the number 1 as derivative |
| `Linalg` | linalg.py: `Inv`, `Det`, `LogAbsDet`, `Pinv`, `lstsq` |
| `Memo` | the tables in which classes keep Jacobians |
| `SvdMath`, `SvdExists`, `Svd` | existence, uniqueness and derivatives of singular value decompositions; the classes `SvdD`, `SvdV`, `SvdU` |
| `Stack`, `Extras` | `Inv` of stacks; `MatVecMult`, the sign of `slogdet`, `gamma` |
| `Reverse` | reverse mode multiplies the same matrices |
| `Packing`, `StackedJac`, `Minimize` | `ChInputsStacked`; the callbacks of `minimize` for methods other than dogleg |
| `Objective`, `Operators`, `Moment`, `Call` | objectives given as a list; Python's operators and the wrapping of numbers; central moments |
| `Buffers` | numpy arrays shared between objects |
| `Logic`, `Accessors`, `Timer` | logic.py; questions answered from the value; the stopwatch of utils.py |
| `Methods`, `Flip`, `NanToNum`, `Report`, `Interp`, `Group` | numpy-style methods; `fliplr`/`flipud`; `nan_to_num` and `sqrt`; the progress lines of the optimiser; `Interp3D`; `ChGroup` over the library's classes |

### `Verif/Opt`: `minimize_dogleg`

`Dogleg` is the control flow and arithmetic line by line over an abstract arithmetic; `Control` what follows for every arithmetic; `Real` and
`Nan` the instances.  `Machine` is the same loop where reading the objective, its Jacobian and assigning `obj.x` are actions on a state that may
raise, with a refinement theorem from `Dogleg`; `OnHeap` is these actions on the caching object graph of `Core`, `Call` the
whole call, with the construction of the stacked objective by `setup_objective` (C86).

### `Verif/Properties`

The property theorems with their own specifications, non-vacuity examples and refutations, apart from helper lemmas.

## How the properties are stated

* Core properties: "what a read returns is what the cache-free evaluator gives on the current graph" (`ReadFresh`, `DrFresh`, via `Means` and
  `MeansDr`), for every state reached by a history.
* Properties of a class: for every object `y` of the class, in every reachable state, whose children have such and such values:
  reading gives the stated array, and `y.dr_wrt(w)` is the stated matrix, which is the Fréchet derivative (`Right`, `Exactly`).
  Composition over whole graphs is C18.
* Where the English property is false of the code at a corner, `C.._full` is the property as stated, `C.._full_refuted` its negation with a
  reachable witness, and `C.._partial` the property on the complement.  These are reported with status `partial`.

## Per-property plan and outcome

| id | what is modelled / how proved | outcome |
|---|---|---|
| C01, C09, C10 | heap machine vs cache-free evaluator; simulation; induction over histories | partial: a raising `set()` after another raising `set()` is stale (refuted) |
| C02 | same simulation for `dr_wrt` | partial: `make_dense`/`make_sparse` differ between first and cached read; re-assigned slices as variables (both refuted) |
| C03 | invariant by induction over operations | proved |
| C04 | work-list loop, termination measure on (unvisited registrations, stack); post-condition = reflexive-transitive closure; visits counted | proved |
| C05, C57 | dirty-set invariant and event trace | proved |
| C06 | property component of the simulation | partial: exception of C01 |
| C07 | batch invariant "tag t ⇒ already cleared upward" | proved; tag reuse after a read refuted. Without raising multi-keyword `set`s no tag is ahead of the counter (Core/Tags.lean), so the freshness condition always holds |
| C08 | `set` = tagged writes, then an untagged one | partial: two raising `set`s refuted |
| C11 | recursion with fuel; acyclic graphs | proved for `new` not containing `old`; refuted otherwise |
| C12 | graph isomorphism onto fresh identities + `__setstate__` re-registration | partial: aliasing raises (refuted) |
| C13 | collection removes a node and weak entries | partial: derivatives with `make_dense` |
| C14 | links rewritten without back-links | partial: values at the moment of the call; derivatives and later writes refuted |
| C15 | `None` is cached | partial; refuted |
| C16, C17 | reachability; DFS with visited set | proved |
| C18 | chain rule over `HasFDerivAt`, induction over the evaluation | partial: aliased inner objects are counted twice (refuted), an object wrt itself, single-entry sums |
| C19 | induction along both walks; an invariant on cached derivatives for histories with reverse-mode calls | partial: reverse mode refuted for slices and for dense matrices |
| C20 | one-level slices as variables; `None` by induction on the stack depth of both calls (Properties/SliceNone.lean) | partial: nested, mixed and self cases refuted |
| C21 | algebra of Jacobian values | proved |
| C22 | sizes by induction | partial: `atleast_2d` refuted |
| C23 | index arithmetic of basic keys | proved |
| C24 | `x + Dᵀv − DᵀDx` for injective selections, chains of views | partial: numbers through views raise |
| C25 | natural gathers | partial: Sort, Diag, DiagFlat refuted |
| C26 | "the table entry is what is computed anew", all histories | partial: Roll, Repeat refuted |
| C27 | flat data | partial: `atleast_nd` refuted |
| C28, C29 | block placement; flattening | C28 partial (`hstack` of vectors refuted), C29 proved |
| C30 | an automaton for what a Concatenate keeps | partial; refuted |
| C31, C38, C58 | broadcasting index arithmetic + calculus | proved |
| C32, C39 | the same, unary | partial: shape (1,n) refuted |
| C33 | axis index arithmetic | partial: mean of all entries refuted for other shapes |
| C34, C37, C41 | sums and extrema over index sets | proved |
| C35, C36 | bilinear classes | partial: b with three axes; cross: value for all shapes, Jacobians for two (n,3) arrays, refuted for cross(a,a) and for one row against several, raising for vectors |
| C40 | var, std | partial: refuted, right for zero mean |
| C42, C43 | Mathlib `Matrix` | proved |
| C44 | the six objects `tensordot` makes | partial: contracted axes of length 0 refuted |
| C45 | reads whose `on_changed` assigns to handles; simulation onto the graph with the arguments substituted | partial: an argument handed on unchanged refuted |
| C46–C49 | state machine, for every arithmetic / over ℝ | proved |
| C50 | termination over ℝ by a decrease argument | partial: NaN refuted |
| C51, C53 | packing and unpacking on the heap | partial: two slices of one array refuted |
| C52 | columns of the stacked Jacobian | proved |
| C54 | callbacks with arrays passed by reference | partial: reused arrays, `hess` refuted |
| C55 | heap with array identities | partial: shared arrays refuted |
| C56 | extended reals with NaN | proved |
| C59 | `np.linalg.svd` is any function returning decompositions; singular vectors differentiable by compactness and a product rule for functions vanishing at the point | partial: equal singular values raise, sign switches of the routine (both refuted) |
| C60 | the turns of the inner loop over exact reals; the predicted fall is stated by the linearised residual, not by the code's formula | proved |
| C61 | class attributes as a state, looked up along the chain of base classes; invariant over all histories of constructions | partial: a class extending another without its own and classes of equal `__name__`, refuted |
| C62 | `Inv` of stacks: blocks of the flat entries; derivative of functions of blocks is block diagonal | proved |
| C63 | `slogdet`: the sign is locally constant at invertible matrices | proved |
| C64 | `MatVecMult`: a linear map | proved |
| C65 | `gamma`: Mathlib's Γ; `polygamma(0, ·)` is its logarithmic derivative | proved |
| C66 | `Interp3D` as a class of the calculus; values at lattice points and of affine images, value and Jacobian inside cells; outside the image the reported derivative is not that of the clipped value (refuted) | partial |
| C67 | keys as operations on arrays with entries of any type that commute with maps of the entries; integer arrays and masks as instances | proved |
| C68 | Composition of the exact classes transpose, dot and Inv through the chain rule of C18 (AD/Straight.lean); the Jacobian so found is then identified by differentiating the normal equations along lines. | proved |
| C69 | Model `setup_objective` up to the making of ChInputsStacked: the loop of `reshape`, the new Reshape objects, `concatenate`. Prove by induction over the list what heap results, by evaluation of the concatenation what value it has, and by the chain rule of `dr_wrt` that products with the placement matrices put each block in its place. MergedJac.lean: the Fréchet derivatives of the parts, put together entry by entry, give that of the merged value. | proved |
| C70 | Model Python's dispatch: the methods of class Ch, the reflected methods Python looks for, the wrapping of values by `__setattr__`. Prove by cases what heap results, that nothing else changes because nothing refers to the new objects, and the value and derivatives by C31, C32 and C58. | partial |
| C71 | Model the function as the program that makes and reads the objects (two means, a reshape, a difference, a power with a wrapped exponent). Prove the value from the rules of broadcasting against an axis of length 1 and the derivative by the chain rule (C18) for the chain of objects made. For vectors the mean has shape (1,), so `expand_dims` makes (1, 1): axis 0 is refuted, axis -1 proved. | partial |
| C72 | Model the call as the keyword assignment followed by the read. Prove by induction over the keywords what the assigned object looks like, freshness from C01, and independence of the history by a bisimulation between the two expression graphs. | partial |
| C73 | Count the compute_dr_wrt events of the machine's log. By induction on the call depth, a call's counts satisfy: objects without exactly one parent are computed at most once and then stored; an object with one parent is computed at most as often as that parent, times the names it is referred to by. Induction along the path from y gives the bound. For the refutation, induction over a tower of squares gives the lower bound 2^n for every n. | partial |
| C74 | A second machine whose name lookups go through the alias. It simulates the first machine on the view of the heap in which the alias is a plain link. The cache invariant is stated on the view and shown to be kept by every operation, using that whatever depends on the inner object through the alias also depends on it through the argument. | partial |
| C75 | The group is added on top of the caching machine: an object of the heap with the arguments as differentiable terms, a cached value, and methods that read the result. The invariant: a handle refers to the argument unless the argument's name is pending, and a cached value is that of the result unless something is pending. It is kept by every operation; assignments to objects below an argument reach the group through the back-links. For derivatives the group's chain-rule loop is shown to add the products through the arguments to the derivative of the result. | partial |
| C76 | The functions are class bodies whose compute_dr_wrt returns None; the value is read off position by position along the axis, and the derivative is that of a locally constant function. | proved |
| C77 | Each question reads r in the caching machine and computes from it; the answer is compared with a specification stated on the value computed from scratch. | proved |
| C78 | The two attributes as a state machine; induction over the schedule, with the running time as an integral over the time axis. | proved |
| C79 | The walk with its marks as state; it visits in the order of tree_iterator, so C17 gives completeness; the rest by induction on the recursion limit. | partial |
| C80 | The recursion on the caching machine; induction on the recursion limit gives a one-to-one listing of the routes to labelled objects, values by the coherence of C01. | partial |
| C81 | The methods as constructor calls on the caching machine; the object built is shown to have the class, operand and parameter to which C25, C33, C34, C35, C37 and C58 apply. | partial |
| C82 | The keys they index with; C23 gives the Select object's meaning; Python's slice.indices is evaluated for `:` and `::-1` at any length. | proved |
| C83 | The callback on the caching machine: a read of the stacked objective (C53), then reads of the labelled objects in the state it leaves. | partial |
| C84 | Reals with two infinities and NaN; case analysis per entry; on finite values the class is an instance of the elementwise classes of C32. | proved |
| C85 | Induction on the recursion depth; the walk is put in bijection with the paths of names; termination by well-foundedness of the use relation. | proved |
| C86 | A refinement: the loop of Opt/Dogleg.lean is restated over actions on a state (Opt/Machine.lean), and proved to do the same over vectors if each action is faithful; the actions on the heap (Opt/OnHeap.lean) are faithful by C01, C02, C51-C53 and uniqueness of derivatives. C46, C47, C50 are then transferred. The construction of the stacked objective (Opt/Call.lean), with its keywords in either order, is followed assignment by assignment to show that it leaves such a state; the state after the loop is such a state again, so calls can follow each other; with Core/Tags.lean the condition on tags at the call follows from the user's history. For one free `Ch` the objective is shown to be a differentiable function from C18 at every value of the `Ch` (Properties/DoglegChain.lean). Lists of objectives: the merged object is shown to be such a function if each objective is (Properties/MergedMin.lean); its derivative is not `None` because the list of terms of the chain rule only grows. | proved |
| C87 | Induction on the height of an object: the specification evaluator does not run out of fuel (Core/Depth.lean); C01 and C02 carry it to reads with caches. The number of objects bounds the height by removing one object per link. Lower bound: induction on the stack depth along a chain without cached values (Tower.lean) or derivatives (TowerDr.lean). | proved |
| C88 | The generator is a parameter (AD/Random.lean). Induction on programs; that the sample is still there is C01 with the frame theorem of Core/Off.lean. | proved |

## Not modelled

Plotting / visualisation / profiling code (`monitor.py` except `dump_tree`; `show_tree_wrt`, `show_tree_cache` and all of `show_tree` but its text; DEBUG branches), printing other than C80 and C83, `LinearOperator` Jacobians and
Jacobian arrays that are not two-dimensional, dtype conversion, sparse storage formats beyond
their meaning, hash order of Python sets, threads.  
Non-differentiable attributes (`terms`) hold values, not objects.  Reverse-mode calls, `lop` and `lmult_wrt` may occur
anywhere in histories (`Verif/Core/RevHist.lean` for the first; histories with `ChLambda`, groups, aliases or optimisers have no reverse-mode calls).
