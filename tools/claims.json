{
 "C01": {
  "status": "partial",
  "theorems": [
   "Chumpy.C01_value_never_stale_partial",
   "Chumpy.C01_tame_histories_partial",
   "Chumpy.C01_without_failing_sets_partial",
   "Chumpy.C01_full_refuted",
   "Chumpy.C01_with_optimiser",
   "Chumpy.C01_values_with_reverse_partial"
  ],
  "note": "All histories except a multi-keyword set() that raises while some object still carries the tag 9999 left by an earlier raising set() (there the code is stale: refuted). C01_with_optimiser extends it to histories with reads of r and J of stacked objectives whose free variables are slices of different Chs. C01_values_with_reverse_partial: the same when dr_wrt(\u2026, reverse_mode=True) occurs anywhere in the history. C01_without_failing_sets_partial: a form whose only condition is that no multi-keyword set() raises; no condition on tags or on the number of batches."
 },
 "C02": {
  "status": "partial",
  "theorems": [
   "Chumpy.C02_derivative_never_stale_partial",
   "Chumpy.C02_derivative_wrt_slices_partial",
   "Chumpy.C02_without_failing_sets_partial",
   "Chumpy.C02_full_refuted",
   "Chumpy.C02_slice_refuted",
   "Chumpy.C02_with_optimiser"
  ],
  "note": "Excludes make_dense/make_sparse objects (first and cached read differ in storage form: refuted) and the C01 exception. Also proved for slices w when slices are not re-assigned; refuted otherwise. C02_with_optimiser extends it to histories with an optimiser."
 },
 "C03": {
  "status": "proved",
  "theorems": [
   "Chumpy.C03_back_links_exact"
  ],
  "note": "All histories, unconditional."
 },
 "C04": {
  "status": "proved",
  "theorems": [
   "Chumpy.C04_clear_cache",
   "Chumpy.C04_dependents_are_referrers",
   "Chumpy.C04_reachable"
  ],
  "note": "Arbitrary registrations, cycles included."
 },
 "C05": {
  "status": "proved",
  "theorems": [
   "Chumpy.C05_notified_before_computing",
   "Chumpy.C05_reported_at_next_read",
   "Chumpy.C05_nothing_else_reported"
  ],
  "note": "Single assignment in any reachable state, any later history."
 },
 "C06": {
  "status": "partial",
  "theorems": [
   "Chumpy.C06_property_never_stale_partial",
   "Chumpy.C06_recomputed_only_after_change",
   "Chumpy.C06_computed_after_read"
  ],
  "note": "Freshness has the C01 exception (a .r read inside the property may be stale after two raising set()s)."
 },
 "C07": {
  "status": "proved",
  "theorems": [
   "Chumpy.C07_batch_coherent",
   "Chumpy.C07_batch_coherent_derivatives",
   "Chumpy.C07_tag_reuse_refuted",
   "Chumpy.C07_counter_ahead_of_tags"
  ],
  "note": "Fresh tag, any legal earlier history; reuse of a tag after a read is shown to be stale. C07_counter_ahead_of_tags: without a raising multi-keyword set() every tag is at most the counter, so the next tag is always fresh, also when the counter reaches 9999."
 },
 "C08": {
  "status": "partial",
  "theorems": [
   "Chumpy.C08_set_is_each_assignment_partial",
   "Chumpy.C08_set_is_each_assignment_dr_partial",
   "Chumpy.C08_full_refuted"
  ],
  "note": "Excludes a raising set() while an object carries the tag of an earlier raising one (refuted)."
 },
 "C09": {
  "status": "partial",
  "theorems": [
   "Chumpy.C09_reads_change_no_link",
   "Chumpy.C09_reads_do_not_disturb_values_partial",
   "Chumpy.C09_reads_do_not_disturb_derivatives_partial",
   "Chumpy.C09_limit_partial",
   "Chumpy.C09_reverse_changes_no_link",
   "Chumpy.C09_reverse_does_not_disturb_values_partial"
  ],
  "note": "Same exceptions as C01/C02. Reverse-mode calls change no link and disturb no value; that they change no derivative, as a matrix, is C19_after_reverse_partial."
 },
 "C10": {
  "status": "partial",
  "theorems": [
   "Chumpy.C10_exception_reaches_caller_partial",
   "Chumpy.C10_usable_after_exception_partial"
  ],
  "note": "Same exception as C01."
 },
 "C11": {
  "status": "proved",
  "theorems": [
   "Chumpy.C11_replace_substitutes",
   "Chumpy.C11_new_containing_old_refuted"
  ],
  "note": "All acyclic graphs with old not reachable from new. Without that condition the code builds a cycle and reading recurses forever (C11_new_containing_old_refuted)."
 },
 "C12": {
  "status": "partial",
  "theorems": [
   "Chumpy.C12_copy_is_isomorphic_partial",
   "Chumpy.C12_copy_raises_on_aliasing",
   "Chumpy.C12_later_assignments_not_seen",
   "Chumpy.C12_full_refuted"
  ],
  "note": "Acyclic graphs in which no object refers to one child under two names; with such aliasing copy() raises KeyError for every graph (C12_copy_raises_on_aliasing), which refutes the unrestricted statement."
 },
 "C13": {
  "status": "partial",
  "theorems": [
   "Chumpy.C13_values_unobservable",
   "Chumpy.C13_derivatives_unobservable_partial",
   "Chumpy.C13_full_refuted"
  ],
  "note": "Values: all histories. Derivatives: without make_dense/make_sparse (refuted with)."
 },
 "C14": {
  "status": "partial",
  "theorems": [
   "Chumpy.C14_values_unchanged_partial",
   "Chumpy.C14_full_dr_refuted",
   "Chumpy.C14_full_later_refuted"
  ],
  "note": "Values and reads right after the call are unchanged for every reachable state, provided classes declare the parameters they use; derivatives change and later assignments are missed (both refuted with a witness)."
 },
 "C15": {
  "status": "partial",
  "theorems": [
   "Chumpy.C15_clear_cache_wrt_partial",
   "Chumpy.C15_cached_derivative_lost",
   "Chumpy.C15_full_refuted"
  ],
  "note": "Everything stays right except derivatives wrt w held by the object or its parents, which are lost in every state (C15_cached_derivative_lost); the unrestricted claim is refuted."
 },
 "C16": {
  "status": "proved",
  "theorems": [
   "Chumpy.C16_is_dr_wrt_is_reachability",
   "Chumpy.C16_none_if_not_reachable"
  ],
  "note": "The None half for histories without make_dense/make_sparse, and classes whose bodies compare wrt only with their terms."
 },
 "C17": {
  "status": "proved",
  "theorems": [
   "Chumpy.C17_tree_iterator_each_once",
   "Chumpy.C17_after_every_history"
  ],
  "note": "Any finite graph, cyclic or not."
 },
 "C18": {
  "status": "partial",
  "theorems": [
   "Chumpy.C18_dr_wrt_is_jacobian_partial",
   "Chumpy.C18_dr_wrt_returns_partial",
   "Chumpy.C18_single_entry_returns_partial",
   "Chumpy.C18_scalars_return_partial",
   "Chumpy.C18_leaf_wrt_itself",
   "Chumpy.C18_full_refuted",
   "Chumpy.C18_inner_wrt_itself_refuted",
   "Chumpy.C18_single_entry_refuted"
  ],
  "note": "Proved for every history, every acyclic graph and every non-slice wrt in which no object uses under two names another object depending on wrt (that restriction is needed: C18_full_refuted shows aliasing of an inner object is counted twice). Also proved: dr_wrt returns when wrt has not one entry; it also returns when wrt has one entry, if every one-entry object either uses only one object depending on wrt or meets no sparse matrix (C18_single_entry_returns_partial; C18_scalars_return_partial for scalar arithmetic); a leaf wrt itself is the identity. Refuted: an inner object wrt itself is None; a single-entry sum can raise. wrt being a slice is C20."
 },
 "C19": {
  "status": "partial",
  "theorems": [
   "Chumpy.C19_lop_is_product_partial",
   "Chumpy.C19_lop_wrt_slices_partial",
   "Chumpy.C19_lop_returns_partial",
   "Chumpy.C19_lop_is_derivative_partial",
   "Chumpy.C19_reverse_is_forward_partial",
   "Chumpy.C19_reverse_refuted_for_slices",
   "Chumpy.C19_reverse_refuted_for_dense",
   "Chumpy.C19_after_reverse_partial",
   "Chumpy.C19_jacobian_after_reverse_of_partial",
   "Chumpy.C19_jacobian_after_reverse_partial",
   "Chumpy.C19_lop_after_reverse_partial",
   "Chumpy.C19_operators_never_dense",
   "Chumpy.C19_reverse_returns_partial",
   "Chumpy.C19_reverse_is_derivative_partial",
   "Chumpy.C19_forward_returns_after_reverse_partial"
  ],
  "note": "lop is L times dr_wrt, and reverse mode is forward mode, as matrices, in every reachable state, whatever the sharing and whatever the entries, if classes return matrices of the right sizes. Reverse mode in full is refuted: for slices it returns None where forward mode does not, and for dense Jacobians it raises. Reverse-mode calls may occur anywhere in the history (C19_after_reverse_partial and the two theorems after it): both modes then return the matrix that forward mode computes from scratch, and the true Jacobian under the conditions of C18, whatever either mode left in the caches. Reverse mode returns, under the conditions of C18 and after any history of calls of either mode, if no object strictly between computes a dense derivative with respect to w (C19_reverse_returns_partial); leaves and the elementwise operators never do. Forward mode returns after any such history, also where it meets derivatives that reverse mode cached (C19_forward_returns_after_reverse_partial). If w has one entry, forward mode is shown to return when each one-entry object uses only one object depending on w. Missing: reverse mode returning for w with one entry."
 },
 "C20": {
  "status": "partial",
  "theorems": [
   "Chumpy.C20_slice_columns_partial",
   "Chumpy.C20_reordered_columns_partial",
   "Chumpy.C20_nested_refuted",
   "Chumpy.C20_both_used_refuted",
   "Chumpy.C20_self_refuted",
   "Chumpy.C20_full_refuted",
   "Chumpy.C20_none_only_if_none"
  ],
  "note": "In every reachable state, y.dr_wrt(a[key]) is the columns of y.dr_wrt(a) that key selects (and likewise for transposes and other reorderings used as variables), whenever both return, whatever the graph under y, if a is not itself a slice, y is not a, and no object under y uses the slice twice or the slice and a together. C20_full is refuted where each of these conditions fails: slices of slices raise AttributeError, an object using both a and a[key] loses a's contribution, and a.dr_wrt(a[key]) is None. C20_none_only_if_none: without conditions on sharing, y.dr_wrt(a[key]) is None only if y.dr_wrt(a) is None (or raises)."
 },
 "C21": {
  "status": "proved",
  "theorems": [
   "Chumpy.C21_superdot_is_composition"
  ],
  "note": "All combinations of the modelled Jacobian values (numbers, dense and sparse matrices), including None. scipy LinearOperator operands are not modelled."
 },
 "C22": {
  "status": "partial",
  "theorems": [
   "Chumpy.C22_jacobian_shape_partial",
   "Chumpy.C22_jacobian_shape_wrt_slices_partial",
   "Chumpy.C22_full_refuted"
  ],
  "note": "Proved for graphs whose classes give matrices of the declared sizes, wrt slices included; the unrestricted statement is refuted by atleast_2d, whose derivative is the bare number 1."
 },
 "C23": {
  "status": "proved",
  "theorems": [
   "Chumpy.C23_indexing",
   "Chumpy.C23_accepts"
  ],
  "note": "Keys are tuples of integers and slices without an ellipsis (boolean and integer-array keys are not modelled): the value has the entries and the shape numpy's rules give, the derivative is the 0/1 selection matrix, out-of-range keys are rejected."
 },
 "C24": {
  "status": "partial",
  "theorems": [
   "Chumpy.C24_through_views_partial",
   "Chumpy.C24_array_partial",
   "Chumpy.C24_numbers_raise",
   "Chumpy.C24_full_refuted"
  ],
  "note": "Proved for the array itself with any value numpy can broadcast, and through every chain of slices, reshapes and other reorderings with distinct selected positions when the value has as many entries as are selected; the selected entries get the value, every other entry and every other object is unchanged. As stated it is false: assigning a number to several entries through a view raises (C24_numbers_raise, C24_full_refuted)."
 },
 "C25": {
  "status": "partial",
  "theorems": [
   "Chumpy.C25_transpose_partial",
   "Chumpy.C25_transpose_reversed_partial",
   "Chumpy.C25_swapaxes_partial",
   "Chumpy.C25_rollaxis_partial",
   "Chumpy.C25_tile_partial",
   "Chumpy.C25_repeat_along_partial",
   "Chumpy.C25_repeat_partial",
   "Chumpy.C25_roll_along_partial",
   "Chumpy.C25_roll_partial",
   "Chumpy.C25_rot90_partial",
   "Chumpy.C25_diag_matrix_partial",
   "Chumpy.C25_sort_partial",
   "Chumpy.C25_sort_value_partial",
   "Chumpy.C25_diag_value_partial",
   "Chumpy.C25_diagflat_value_partial",
   "Chumpy.C25_full_refuted_diag",
   "Chumpy.C25_full_refuted_diagflat",
   "Chumpy.C25_full_refuted_sort"
  ],
  "note": "Proved for transpose, swapaxes, rollaxis, tile, repeat, roll, rot90 and diag of a matrix, and for sort of strictly increasing vectors. False as stated, with a reachable witness, for diag of a vector, diagflat and sort of other vectors. Values of diag, diagflat and sort are right without restriction."
 },
 "C26": {
  "status": "partial",
  "theorems": [
   "Chumpy.C26_memo_tables_partial",
   "Chumpy.C26_roll_repeat_partial",
   "Chumpy.C26_roll_refuted",
   "Chumpy.C26_repeat_refuted",
   "Chumpy.C26_full_refuted",
   "Chumpy.C26_broadcast_tables",
   "Chumpy.C26_select",
   "Chumpy.C26_cross",
   "Chumpy.reorderFresh_spec",
   "Chumpy.sumFresh_spec",
   "Chumpy.meanFresh_spec",
   "Chumpy.selFresh_spec"
  ],
  "note": "Proved for every history: the tables of Sort, Tile, Diag, DiagFlat, transpose, rollaxis, swapaxes, Rot90, sum, mean, the module-wide broadcasting tables, Select's kept matrix (given that changes are reported to on_changed, C05) and cross's index cache. Refuted for Roll and Repeat: their keys lack the shape, so after a shape change the old matrix is returned; proved for them while the shape stays the same. The matrices computed anew are tied to the class models by the *_spec theorems."
 },
 "C27": {
  "status": "partial",
  "theorems": [
   "Chumpy.C27_reshape_partial",
   "Chumpy.C27_reshape_collapses_partial",
   "Chumpy.C27_ravel_partial",
   "Chumpy.C27_squeeze_partial",
   "Chumpy.C27_expand_dims_partial",
   "Chumpy.C27_atleast_value_partial",
   "Chumpy.C27_full_refuted"
  ],
  "note": "Reshape, ravel, squeeze, expand_dims and chains of them keep the flat data, have the shape asked for and report the identity. False as stated for atleast_2d: the value is right, the derivative is reported as the number 1, which C27_full_refuted shows is not the Jacobian."
 },
 "C28": {
  "status": "partial",
  "theorems": [
   "Chumpy.C28_concatenate_partial",
   "Chumpy.C28_vstack_partial",
   "Chumpy.C28_dstack_partial",
   "Chumpy.C28_hstack_partial",
   "Chumpy.C28_hstack_refuted"
  ],
  "note": "Values and derivatives of concatenate for operands of any number and shapes along any axis; 0/1 placement matrix for plain Ch operands, also repeated ones, through the functions concatenate, vstack, dstack and hstack. hstack of vectors is refuted: np.hstack joins them along axis 0, chumpy asks for axis 1 and reading raises. The matrices kept between reads (dr_cached, our_terms) are the subject of C30."
 },
 "C29": {
  "status": "proved",
  "theorems": [
   "Chumpy.C29_flattening_invisible"
  ],
  "note": "For any operands with values, nested concatenations to any depth: the object made has the value np.concatenate gives for the unflattened operands, and raises exactly when that raises."
 },
 "C30": {
  "status": "partial",
  "theorems": [
   "Chumpy.C30_repointing_seen_partial",
   "Chumpy.C30_values_partial",
   "Chumpy.C30_full_refuted",
   "Chumpy.C30_shapes_refuted"
  ],
  "note": "Model of what a Concatenate keeps between reads. Holds for histories in which operands are assigned only before the first read and keep their shapes after it; values alone hold for any writes of any shapes. Refuted otherwise: assigning an operand after a read is never seen, and matrices kept from before a change of shape are returned."
 },
 "C31": {
  "status": "proved",
  "theorems": [
   "Chumpy.C31_add",
   "Chumpy.C31_subtract",
   "Chumpy.C31_multiply",
   "Chumpy.C31_divide",
   "Chumpy.C31_power",
   "Chumpy.C31_power_natural"
  ],
  "note": "Every pair of broadcastable shapes, also when both operands are the same object; divide where no denominator entry is zero and power where every base entry is positive (the open domain of differentiability). With natural exponents the base may have any sign."
 },
 "C32": {
  "status": "partial",
  "theorems": [
   "Chumpy.C32_elementwise_partial",
   "Chumpy.C32_full_refuted"
  ],
  "note": "All thirteen functions, all inputs in the open domain, shapes whose first axis is longer than 1 or which have a single entry. Refuted for shape (1,n): the reported matrix has one row."
 },
 "C33": {
  "status": "partial",
  "theorems": [
   "Chumpy.C33_sum_axis",
   "Chumpy.C33_sum_all",
   "Chumpy.C33_mean_axis",
   "Chumpy.C33_mean_all_partial",
   "Chumpy.C33_mean_all_value_partial",
   "Chumpy.C33_full_refuted"
  ],
  "note": "sum over any axis or all entries and mean over any axis are proved without restriction. mean of all entries is proved for arrays whose entries lie along the first axis; for other shapes the value is right but the reported Jacobian has the wrong shape (refuted with a 1x2 array)."
 },
 "C34": {
  "status": "proved",
  "theorems": [
   "Chumpy.C34_cumsum",
   "Chumpy.C34_cumsum_axis_value",
   "Chumpy.C34_cumsum_axis_derivative_raises"
  ],
  "note": "cumsum without an axis: value and lower triangular matrix, all sizes; with an axis the value only (the code raises when asked for the derivative)."
 },
 "C35": {
  "status": "partial",
  "theorems": [
   "Chumpy.C35_dot_vector",
   "Chumpy.C35_dot_matrix_partial",
   "Chumpy.C35_dot_value_partial",
   "Chumpy.C35_full_refuted"
  ],
  "note": "Value for every pair of shapes; Jacobians exact for b of one or two axes, any axes of a, also a is b, a contracted axis of length at least 1. For b of three axes or more the Jacobian is wrong (C35_full_refuted)."
 },
 "C36": {
  "status": "partial",
  "theorems": [
   "Chumpy.C36_cross_partial",
   "Chumpy.C36_value",
   "Chumpy.C36_not_two_axes_raises",
   "Chumpy.C36_vectors_of_two_raise",
   "Chumpy.C36_one_row_reports",
   "Chumpy.C36_same_operand_refuted",
   "Chumpy.C36_full_refuted"
  ],
  "note": "Default axes. The value is proved for all shapes np.cross takes. The Jacobians are exact for two arrays of n rows of three that are different objects. In general they are not: they raise unless a has two axes (so for two 3-vectors), they raise for n vectors of two, for a (1, 3) array and an (n, 3) array the Jacobian wrt the latter is reported with all rows but the first vector's zero (C36_full_refuted), and cross(a, a) reports a wrong one (C36_same_operand_refuted)."
 },
 "C37": {
  "status": "proved",
  "theorems": [
   "Chumpy.C37_amax_axis",
   "Chumpy.C37_amin_axis",
   "Chumpy.C37_amax_all",
   "Chumpy.C37_amin_all"
  ],
  "note": "Value and selected positions for every shape, axis and ties; derivative exact where the extremum is attained once."
 },
 "C38": {
  "status": "proved",
  "theorems": [
   "Chumpy.C38_maximum",
   "Chumpy.C38_minimum"
  ],
  "note": "Values and reported matrices for all broadcastable shapes including ties and both operands the same object; where there are no ties it is the derivative."
 },
 "C39": {
  "status": "partial",
  "theorems": [
   "Chumpy.C39_clip_partial",
   "Chumpy.C39_full_refuted"
  ],
  "note": "All bounds and values; shapes whose first axis is longer than 1 or with a single entry. Refuted for shape (1,n)."
 },
 "C40": {
  "status": "partial",
  "theorems": [
   "Chumpy.C40_var_partial",
   "Chumpy.C40_std_partial",
   "Chumpy.C40_var_is_mean_square",
   "Chumpy.C40_full_refuted"
  ],
  "note": "False as stated: var is the mean of squares without centring (refuted with [1,1]). Proved what it computes and that it equals the variance when the mean is zero."
 },
 "C41": {
  "status": "proved",
  "theorems": [
   "Chumpy.C41_sum_of_squares",
   "Chumpy.C41_norm"
  ],
  "note": "Values and gradients for every shape; norm's gradient away from zero, derived through the graph sqrt(sum(x**2)) by the chain rule."
 },
 "C42": {
  "status": "proved",
  "theorems": [
   "Chumpy.C42_inv",
   "Chumpy.C42_det",
   "Chumpy.C42_logAbsDet"
  ],
  "note": "Exact real arithmetic; Inv for single n x n matrices (stacks of matrices are not modelled)."
 },
 "C43": {
  "status": "proved",
  "theorems": [
   "Chumpy.C43_pinv",
   "Chumpy.C43_lstsq_vector",
   "Chumpy.C43_lstsq_matrix"
  ],
  "note": "Stated for the graph that Pinv.on_changed builds, in exact real arithmetic."
 },
 "C44": {
  "status": "partial",
  "theorems": [
   "Chumpy.C44_tensordot_partial",
   "Chumpy.C44_count",
   "Chumpy.C44_derivative_partial",
   "Chumpy.C44_full_refuted",
   "Chumpy.tdPlan_rejects"
  ],
  "note": "Value: for every pair of shapes and every list of axes numpy accepts (negative ones included, any order, also axes=N via C44_count) the object returned by tensordot reads as the contraction, and each of the six objects it makes is exact; calls whose axes do not fit are rejected (tdPlan_rejects). Derivatives wrt plain operands, possibly the same object: C44_derivative_partial. Missing: contracted axes of length 0, where numpy gives zeros and chumpy raises (C44_full_refuted); one object of a single entry given as both operands, for dr_wrt (see C18)."
 },
 "C45": {
  "status": "partial",
  "theorems": [
   "Chumpy.C45_value_of_body_partial",
   "Chumpy.C45_derivative_of_body_partial",
   "Chumpy.C45_assignment_partial",
   "Chumpy.C45_derivative_is_jacobian_partial",
   "Chumpy.C45_dr_returns_partial",
   "Chumpy.C45_handed_on",
   "Chumpy.C45_refuted"
  ],
  "note": "Values: after every history of constructions, assignments, reads and collections with lambdas of any bodies, applied to anything including other lambdas, reads return what an evaluation of the body on the present arguments returns; assignment F.a = y is substitution. Derivatives: dr_wrt is what the chain rule computes in that graph, and is the true Jacobian unless an argument of several entries is handed on unchanged. Refuted in full: F = Ch(lambda a: a) has a 1x1 derivative for an argument of two entries. Missing: keyword batches and tagged writes, copies, collection of lambdas, programs holding on to objects inside the body, derivatives wrt slices."
 },
 "C46": {
  "status": "proved",
  "theorems": [
   "Chumpy.C46_dogleg_accepts_improvements",
   "Chumpy.C46_dogleg_accepts_improvements_real"
  ],
  "note": "For any arithmetic in which a positive difference means smaller and < is transitive (shown for reals and for numbers with infinities and NaN), any objective, solver, options and number of turns. The objective is a function of what the free variables hold; callbacks do not write to them."
 },
 "C47": {
  "status": "proved",
  "theorems": [
   "Chumpy.C47_dogleg_returns_last_accepted",
   "Chumpy.C47_rejected_trial_leaves_no_trace",
   "Chumpy.C47_state_belongs_to_accepted_point"
  ],
  "note": "For any arithmetic, objective, solver and options; uses only that copying a vector to the free variables overwrites the previous copy."
 },
 "C48": {
  "status": "proved",
  "theorems": [
   "Chumpy.C48_step_within_radius",
   "Chumpy.C48_interpolated_step_on_boundary"
  ],
  "note": "Exact real arithmetic, any dimension, any state of the optimiser."
 },
 "C49": {
  "status": "proved",
  "theorems": [
   "Chumpy.C49_predicted_improvement_positive",
   "Chumpy.C49_accepts_exactly_the_decreases"
  ],
  "note": "Exact real arithmetic, every turn of every run, any exact solution of the normal equations (full rank not needed)."
 },
 "C50": {
  "status": "partial",
  "theorems": [
   "Chumpy.C50_iterations_bounded",
   "Chumpy.C50_terminates_with_max_fevals",
   "Chumpy.C50_terminates_partial",
   "Chumpy.C50_inner_loop_ends_partial",
   "Chumpy.C50_full_refuted"
  ],
  "note": "Iterations are bounded by max(1,maxiter); with finite max_fevals the method returns for every arithmetic; in exact arithmetic it returns for every differentiable objective with its true Jacobian, e_1>0 and e_2>=0. Refuted with NaN: minimising sqrt(2x-1) from 1 never returns."
 },
 "C51": {
  "status": "partial",
  "theorems": [
   "Chumpy.C51_packing_partial",
   "Chumpy.C51_refuted"
  ],
  "note": "Proved for free variables that are whole Chs or nested slices of different Chs. Refuted for two slices of one Ch: the second write is skipped by the iteration tag, so packing the free variables does not give the assigned vector."
 },
 "C52": {
  "status": "proved",
  "theorems": [
   "Chumpy.C52_columns",
   "Chumpy.J_ignores_assignment",
   "Chumpy.ADDemo.slices_right"
  ],
  "note": "For lists of whole Chs and single-level slices of Chs that do not share entries, after every history (including reads of r and J of stacked objectives): J either returns a matrix whose column j is the derivative of the objective wrt entry j of the packed vector, or raises and the derivative wrt some free variable is zero. That dr_wrt is right for each Ch under a free variable is a hypothesis (C18)."
 },
 "C53": {
  "status": "partial",
  "theorems": [
   "Chumpy.C53_objective_sees_writes_partial",
   "Chumpy.C53_refuted"
  ],
  "note": "Proved for free variables that are whole Chs or nested slices of different Chs, after any history. Refuted for two slices of one Ch (stale objective)."
 },
 "C54": {
  "status": "partial",
  "theorems": [
   "Chumpy.C54_residual_partial",
   "Chumpy.C54_gradient_partial",
   "Chumpy.C54_hessian_always_raises",
   "Chumpy.C54_full_refuted"
  ],
  "note": "residuals: proved after every sequence of callback invocations, writes to the caller's arrays, and reads. Gradient: proved as long as the caller does not overwrite the array of the last successful gradient call or the gradient it got back, given that lop is right for the objective (C19); a first call with a vector consisting of 1e16 only raises. Refuted otherwise: scalar_jacfunc keeps the vector by reference, so reusing the array gives the gradient at the old vector. Hessian: refuted, hess and hessp raise for every problem and history (hstack is not defined). Not modelled: NaN entries (such segments are not written)."
 },
 "C55": {
  "status": "partial",
  "theorems": [
   "Chumpy.C55_assignment_seen_partial",
   "Chumpy.C55_none_stale_partial",
   "Chumpy.C55_full_refuted",
   "Chumpy.C55_shared_values_follow"
  ],
  "note": "Arrays with identities: numpy arrays made by the user, put into Ch objects without copying, assigned into in place. Proved for histories in which each assignment is made into an object whose array is, at that time, in no other object (sharing as such is allowed). Refuted for shared arrays: v = np.array([1.,2.]); a = Ch(v); b = Ch(v); y = SumOfSquares(b); y.r; a[0] = 5 changes b without clearing y. Also proved, with arbitrary sharing: after an assignment into one Ch object, reading it and reading any other Ch object over the same array give the same values, cached or not."
 },
 "C56": {
  "status": "proved",
  "theorems": [
   "Chumpy.C56_value",
   "Chumpy.C56_derivative",
   "Chumpy.C56_objects"
  ],
  "note": "All inputs including zeros, infinities and NaN at the level of arrays of extended numbers; on finite arrays also at the level of objects."
 },
 "C57": {
  "status": "proved",
  "theorems": [
   "Chumpy.C57_computed_once",
   "Chumpy.C57_invalidated_exactly"
  ],
  "note": ""
 },
 "C58": {
  "status": "proved",
  "theorems": [
   "Chumpy.C58_steps",
   "Chumpy.C58_comparisons"
  ],
  "note": ""
 },
 "C59": {
  "status": "partial",
  "theorems": [
   "Chumpy.C59_values",
   "Chumpy.C59_vectors_partial",
   "Chumpy.C59_tall_product",
   "Chumpy.C59_wide_product",
   "Chumpy.svdU_expression",
   "Chumpy.C59_equal_values_refuted",
   "Chumpy.C59_sign_jump_refuted"
  ],
  "note": "Values proved for every size and every routine returning decompositions, tall and wide; SvdD proved right at distinct singular values above np.spacing(1) whatever the signs; SvdU and SvdV where moreover the routine's signs do not switch. Equal singular values make dr_wrt raise (C59_equal_values_refuted) and a routine that switches signs leaves no derivative (C59_sign_jump_refuted). svdU_expression: the entries written out for SvdU are what dr_wrt of the expression in the code returns, for more than one entry."
 },
 "C60": {
  "status": "proved",
  "theorems": [
   "Chumpy.C60_radius_follows_the_gain",
   "Chumpy.C60_rejection_shortens_the_next_step"
  ],
  "note": "The radius after each trial, from the actual and the predicted fall of the sum of squares, for every run in exact arithmetic."
 },
 "C61": {
  "status": "partial",
  "theorems": [
   "Chumpy.C61_positional_arguments_partial",
   "Chumpy.C61_direct_subclasses",
   "Chumpy.C61_full_refuted",
   "Chumpy.C61_extended_class_refuted",
   "Chumpy.C61_same_name_refuted"
  ],
  "note": "Proved when every base class says the same order (in particular directly below Ch) and no namesake has Term declarations; refuted otherwise: constructing the base class first changes what positional arguments of the derived class mean."
 },
 "C62": {
  "status": "proved",
  "theorems": [
   "Chumpy.C62_inv_stack"
  ],
  "note": "Value and Jacobian for every stack with at least one entry; a stack without entries raises."
 },
 "C63": {
  "status": "proved",
  "theorems": [
   "Chumpy.C63_slogdet"
  ],
  "note": ""
 },
 "C64": {
  "status": "proved",
  "theorems": [
   "Chumpy.C64_matVecMult"
  ],
  "note": ""
 },
 "C65": {
  "status": "proved",
  "theorems": [
   "Chumpy.C65_gamma"
  ],
  "note": ""
 },
 "C66": {
  "status": "partial",
  "theorems": [
   "Chumpy.C66_inside_partial",
   "Chumpy.C66_lattice",
   "Chumpy.C66_affine",
   "Chumpy.C66_full_refuted"
  ],
  "note": "Proved: value at lattice points and for affine images at all locations; value and Jacobian at locations strictly inside cells. Refuted: outside the image the value is locally constant along the clipped axis but the image's slope is reported as derivative. Missing: nothing else of the statement is true there; locations on cell faces are where the value is not differentiable in general."
 },
 "C67": {
  "status": "proved",
  "theorems": [
   "Chumpy.C67_any_key",
   "Chumpy.C67_refused",
   "Chumpy.C67_integer_arrays",
   "Chumpy.C67_masks"
  ],
  "note": "A key is modelled as an operation, natural in the type of the entries. Integer arrays are taken after numpy's broadcasting of the key arrays among themselves; every mixture with slices is an instance of C67_any_key but its entries are written out only for arrays and masks on the leading axes (C23: integers and slices)."
 },
 "C68": {
  "status": "proved",
  "theorems": [
   "Chumpy.C68_pinv_derivative",
   "Chumpy.C68_lstsq_derivative"
  ],
  "note": "Matrices with one entry are excluded (dr_wrt of objects with one entry is the subject of C18).  Pinv's inner objects are modelled (PinvGraph); the wrapper class only forwards to the last of them."
 },
 "C69": {
  "status": "proved",
  "theorems": [
   "Chumpy.C69_merged_objective",
   "Chumpy.C69_merged_jacobian",
   "Chumpy.C69_contributes_reported",
   "Chumpy.C69_reshape_reports",
   "Chumpy.C69_free_variables_checked"
  ],
  "note": "Mode: plain objects (no make_dense/make_sparse). The packing of free variables that follows is C51/C52."
 },
 "C70": {
  "status": "partial",
  "theorems": [
   "Chumpy.C70_binary_partial",
   "Chumpy.C70_python2",
   "Chumpy.C70_power_natural",
   "Chumpy.C70_unary",
   "Chumpy.C70_full_refuted"
  ],
  "note": "Refuted in Python 3: a number or array divided by an object raises a TypeError, since the class defines __rdiv__ but not __rtruediv__. Everything else is proved for both versions. Derivatives of -x and abs(x) are right for the shapes of C32."
 },
 "C71": {
  "status": "partial",
  "theorems": [
   "Chumpy.C71_moment_partial",
   "Chumpy.C71_first_moment",
   "Chumpy.C71_vector_last_axis",
   "Chumpy.C71_vector_axis_zero",
   "Chumpy.C71_full_refuted"
  ],
  "note": "Proved for arrays with two or more axes, for vectors with axis=-1, and for the first moment. Refuted for vectors with the default axis=0: the mean of a vector is an array of shape (1,), expand_dims makes it (1, 1), the deviations get shape (1, n), and the average is taken over the new axis of length 1, so that moment(Ch([0, 2]), 2) is (1, 1) instead of 1. Derivatives with respect to a plain Ch with other than one entry."
 },
 "C72": {
  "status": "partial",
  "theorems": [
   "Chumpy.C72_call_returns_value_partial",
   "Chumpy.C72_call_is_a_function",
   "Chumpy.C72_call_again",
   "Chumpy.C72_full_refuted"
  ],
  "note": "Proved after every history legal as in C01. Refuted without that: after two set() calls that raised, f() returns the old value."
 },
 "C73": {
  "status": "partial",
  "theorems": [
   "Chumpy.C73_each_derivative_once_partial",
   "Chumpy.C73_again_partial",
   "Chumpy.C73_squaring_exponential",
   "Chumpy.C73_full_refuted",
   "Chumpy.C73_again_refuted"
  ],
  "note": "Proved for graphs without slices in which no object refers to one object under two names, and, for the repeated call, for objects that do not have exactly one parent. Refuted otherwise: for x squared n+1 times, one dr_wrt computes the first square's derivative at least 2^n times, for every n; an object with exactly one parent recomputes on every call."
 },
 "C74": {
  "status": "partial",
  "theorems": [
   "Chumpy.C74_value_through_alias_never_stale_partial",
   "Chumpy.C74_derivative_through_alias_never_stale_partial",
   "Chumpy.C74_assignment_sets_inner_attribute",
   "Chumpy.C74_inner_assignment_seen_through_alias",
   "Chumpy.C74_plain_value_is_wrapped",
   "Chumpy.C74_set_assigns_aliases_last",
   "Chumpy.C74_full_refuted",
   "Chumpy.C74_inner_assignment_reports_alias_refuted"
  ],
  "note": "Partial: a property declared with @depends_on on the alias must also declare the argument behind it. Otherwise it goes stale when the inner attribute is assigned directly (refuted; this is the form used in the repository's test). on_changed is then told of the argument only (refuted). Derivatives with respect to slices and repeated failing set() calls are excluded as in C01 and C02."
 },
 "C75": {
  "status": "partial",
  "theorems": [
   "Chumpy.C75_value_partial",
   "Chumpy.C75_constructor",
   "Chumpy.C75_dr_partial",
   "Chumpy.C75_derivative_is_jacobian_partial",
   "Chumpy.C75_derivative_returns_partial",
   "Chumpy.C75_counts_arguments_twice",
   "Chumpy.C75_value_refuted",
   "Chumpy.C75_dr_refuted",
   "Chumpy.C75_kept_derivative_current",
   "Chumpy.C75_kept_derivative_returns",
   "Chumpy.C75_kept_derivative_hit",
   "Chumpy.C75_kept_derivative_is_jacobian_partial"
  ],
  "note": "Partial: objects inside of the result that are not below an argument must not be assigned to, else the group keeps its old value (refuted). The derivative is right if no argument other than w depends on w; in general the part going through the arguments is counted twice (proved, and the full claim refuted). The group's own derivative cache is modelled: what it returns is what a computation returns now, for w and arguments on the way to w that are not slices. Nothing is proved about the derivative of a group with respect to a slice, although the loop over slices is in the model."
 },
 "C76": {
  "status": "proved",
  "theorems": [
   "Chumpy.C76_quantifiers_axis",
   "Chumpy.C76_quantifiers",
   "Chumpy.C76_of_entries"
  ],
  "note": "Truth values are the numbers 1 and 0. Entries are real numbers, so isfinite is constantly true and isinf, isnan, isneginf, isposinf constantly false. Keyword arguments other than axis are not modelled, nor a tuple of axes."
 },
 "C77": {
  "status": "proved",
  "theorems": [
   "Chumpy.C77_answers",
   "Chumpy.C77_raises",
   "Chumpy.C77_asking_changes_nothing"
  ],
  "note": "argmax and argmin without an axis. The reachable states are those of C01 (see there for the condition on failing set())."
 },
 "C78": {
  "status": "proved",
  "theorems": [
   "Chumpy.C78_stopwatch_shows_running_time",
   "Chumpy.C78_stopwatch_raises"
  ],
  "note": "The clock does not go backwards. Assertions are enabled."
 },
 "C79": {
  "status": "partial",
  "theorems": [
   "Chumpy.C79_tree_is_complete_partial",
   "Chumpy.C79_second_profiler_shows_nothing"
  ],
  "note": "Proved for objectives whose objects no profiler has seen. Refuted otherwise, for every objective: the marks are never removed, so a second profiler for the same objective writes a single entry without operands. Not modelled: the other fields of an entry, and writing the file."
 },
 "C80": {
  "status": "partial",
  "theorems": [
   "Chumpy.C80_what_is_printed_partial",
   "Chumpy.C80_each_label_once_partial",
   "Chumpy.C80_returns",
   "Chumpy.C80_full_refuted",
   "Chumpy.C80_decimals_refuted"
  ],
  "note": "Exactly one piece is written for each route through operands to a labelled object, with its value computed from scratch. Refuted in full: an object reached by two routes is listed twice, and num_decimals is not passed on to the operands, which are written with 2 decimals. Class setup: names of operands are distinct. Not modelled: the text of a number, and what was written before an exception."
 },
 "C81": {
  "status": "partial",
  "theorems": [
   "Chumpy.C81_methods_partial",
   "Chumpy.C81_dot_partial",
   "Chumpy.C81_separate_axes_raise",
   "Chumpy.C81_full_refuted"
  ],
  "note": "Refuted in full: x.transpose(1, 0), which numpy's arrays accept, raises IndexError for every object; x.transpose((1, 0)) is right. dot: other of one or two axes (see C35). The derivative of mean over all entries is claimed for the shapes of C33, that of cumsum along an axis is not claimed. reshape, ravel and squeeze are C27."
 },
 "C82": {
  "status": "proved",
  "theorems": [
   "Chumpy.C82_flip",
   "Chumpy.C82_flip_twice",
   "Chumpy.C82_raises"
  ],
  "note": "For Ch arguments; a plain numpy argument is indexed by numpy itself."
 },
 "C83": {
  "status": "partial",
  "theorems": [
   "Chumpy.C83_report_partial",
   "Chumpy.C83_report_now",
   "Chumpy.C83_on_step",
   "Chumpy.C83_refuted"
  ],
  "note": "Refuted in full for several free variables that are slices of one Ch (as C53): the line then shows old values. Formatting of the numbers ('%.2e') and the write to stderr are not modelled."
 },
 "C84": {
  "status": "proved",
  "theorems": [
   "Chumpy.C84_nan_to_num_value",
   "Chumpy.C84_nan_to_num_derivative",
   "Chumpy.C84_nan_to_num_twice",
   "Chumpy.C84_sqrt_derivative",
   "Chumpy.C84_objects"
  ],
  "note": "As an object of a graph: finite values and the shapes of C32. At 0 sqrt reports half the largest double. Rounding is not modelled."
 },
 "C85": {
  "status": "proved",
  "theorems": [
   "Chumpy.C85_loop_reaches",
   "Chumpy.C85_loop_once_per_path",
   "Chumpy.C85_loop_is_exponential",
   "Chumpy.C85_reset",
   "Chumpy.C85_show_tree",
   "Chumpy.C85_one_caption",
   "Chumpy.C85_returns_iff"
  ],
  "note": "The lines are the set written between the braces of the dot file. Not modelled: the DEBUG assertion, colours for sizes, the external dot program and the browser."
 },
 "C86": {
  "status": "proved",
  "theorems": [
   "Chumpy.C86_dogleg_on_the_graph",
   "Chumpy.C86_graph_improves",
   "Chumpy.C86_graph_terminates",
   "Chumpy.C86_minimize",
   "Chumpy.C86_minimize_ends",
   "Chumpy.C86_minimize_duplicate",
   "Chumpy.C86_minimize_again",
   "Chumpy.C86_program_ends",
   "Chumpy.C86_objective_decreases",
   "Chumpy.C86_chain_rule_ends",
   "Chumpy.C86_list_of_objectives",
   "Chumpy.C86_list_chain_rule"
  ],
  "note": "Exact real arithmetic. C86_list_of_objectives: lists of objectives, merged as in C69; that the merged object is a differentiable function of the free variables (IsFunction) is a hypothesis there. C86_list_chain_rule does without it for one free variable that is a whole Ch: every objective, or what it reshapes if it is a Reshape object, is that Ch itself, or has values and derivatives (possibly None) and correct parts (SmoothPart); at least one depends on the Ch. The other theorems: one objective object. Free variables that are slices are one level deep and of different Ch objects; two slices of one Ch are refuted in C53. dr_wrt of the objective must not be None for a free variable (optimization_internal.py:60-63 raises then, C52). The callback without on_step and labels. IsFunction assumes that values and derivatives of the objective are right (C18 and the properties of each operation); C86_chain_rule_ends does without it for one free variable that is a whole Ch, from the partial Jacobians of the parts of the objective (SmoothIn), still assuming that values and dr_wrt are returned at the given stack depth. At the call no object may carry a tag 9999 left by a failed set() while the counter of the optimiser is below it (C07). Non-vacuity: ADDemo.bowl_ready, ADDemo.bowl_called. C86_minimize_again: the conditions of the call hold again afterwards. C86_program_ends: the condition on tags follows for every program in which no multi-keyword set() raises. C86_objective_decreases and C86_chain_rule_ends speak of the value of the objective before and after. Non-vacuity: ADDemo.sq_smooth."
 },
 "C87": {
  "status": "proved",
  "theorems": [
   "Chumpy.C87_value_depth",
   "Chumpy.C87_derivative_depth",
   "Chumpy.C87_value_depth_by_objects",
   "Chumpy.C87_minimize_depth",
   "Chumpy.C87_depth_needed",
   "Chumpy.C87_linear_depth",
   "Chumpy.C87_derivative_depth_needed",
   "Chumpy.C87_derivative_linear_depth"
  ],
  "note": "Depth counts nested requests; each is a fixed number of Python frames (not modelled further). Objects under y (and w) have no @depends_on properties and their compute_r does not read self.r. Derivatives: plain histories and w not a slice, as in C02. Histories legal as in C01. Non-vacuity: y = a*b + a. C87_minimize_depth: a whole minimize call with the dogleg method over one Ch, for objectives as in C86_chain_rule_ends, with the stack depth given by the height of the graph before the call. C87_depth_needed, C87_linear_depth: the lower bound for values; n applications of **2 to one Ch overflow every stack of depth n or less after clear_cache, and none of depth n + 2 or more. C87_derivative_depth_needed, C87_derivative_linear_depth: for derivatives a lower bound linear in the height, not the exact constant."
 },
 "C88": {
  "status": "proved",
  "theorems": [
   "Chumpy.C88_samples_are_numpys",
   "Chumpy.C88_reproducible",
   "Chumpy.C88_reproducible_seed",
   "Chumpy.C88_drawn_once"
  ],
  "note": "Histories legal as in C01 (no second raising multi-keyword set()). The generator of numpy is a parameter: a function from states to states and samples. That nothing but the functions of chumpy.random uses the generator is read off the source (the only other use, in linalg.py:296, is in the demonstration `main` of that file) and is part of the model's step."
 }
}