{
 "claims": [
  {
   "property": "C01",
   "status": "proved",
   "theorems": [
    "Verif.Scope.C01_constructor_accepts_iff_valid",
    "Verif.Scope.C01_constructor_rejects",
    "Verif.Scope.C01_reachable_valid",
    "Verif.Scope.C01_join_joinAll_copy_total",
    "Verif.Scope.C01_removeFromQuery"
   ],
   "note": "every scope reachable through any sequence of API calls"
  },
  {
   "property": "C02",
   "status": "proved",
   "theorems": [
    "Verif.Scope.C02_join_is_union",
    "Verif.Scope.C02_join_comm",
    "Verif.Scope.C02_join_assoc",
    "Verif.Scope.C02_join_idem",
    "Verif.Scope.C02_joinAll_is_union",
    "Verif.Scope.C02_joinAll_perm",
    "Verif.Scope.C02_joinAll_empty"
   ],
   "note": ""
  },
  {
   "property": "C03",
   "status": "proved",
   "theorems": [
    "Verif.Scope.C03_allPairwiseDisjoint",
    "Verif.Scope.C03_allEqual",
    "Verif.Scope.C03_isDisjoint"
   ],
   "note": ""
  },
  {
   "property": "C04",
   "status": "partial",
   "theorems": [
    "Verif.Scope.C04_eq_equivalence",
    "Verif.Scope.C04_hash_contract_violated",
    "Verif.Scope.C04_hash_contract_partial",
    "Verif.Scope.C04_join_canonical"
   ],
   "note": "== is an equivalence; the hash contract is FALSE of the code (C04_hash_contract_violated, Scope([0,1]) vs Scope([1,0])); proved for canonically sorted scopes, which join returns"
  },
  {
   "property": "C05",
   "status": "partial",
   "theorems": [
    "Verif.Graph.C05_post_order",
    "Verif.Graph.C05_regions",
    "Verif.Graph.C05_add_partition_iff",
    "Verif.Graph.C05_history",
    "Verif.Graph.C05_acyclic",
    "Verif.Graph.C05_self_partition_accepted"
   ],
   "note": "add_partition, histories, regions and once-ness of post_order: proved for every finite graph; children-first proved for acyclic graphs (C05_acyclic gives a sufficient condition); cyclic graphs are accepted (C05_self_partition_accepted)"
  },
  {
   "property": "C06",
   "status": "proved",
   "theorems": [
    "Verif.CacheM.C06_transparent",
    "Verif.CacheM.C06_entries_unchanged",
    "Verif.CacheM.C06_at_most_once",
    "Verif.CacheM.C06_stale_on_reuse",
    "Verif.CacheM.C06_any_schedule",
    "Verif.CacheM.C06_none_is_recomputed"
   ],
   "note": "transparency, at most once, stability of entries, any thread schedule; at-most-once needs methods that never return None (true of the two decorated methods; C06_none_is_recomputed shows why)"
  },
  {
   "property": "C07",
   "status": "partial",
   "theorems": [
    "Verif.Replace.C07_restores_partial",
    "Verif.Replace.C07_getattr_restored_partial",
    "Verif.Replace.C07_body_sees_replacement",
    "Verif.Replace.C07_staticmethod_not_restored",
    "Verif.Replace.C07_classmethod_not_restored",
    "Verif.Replace.C07_overlapping_not_restored",
    "Verif.Replace.C07_event_pair_partial"
   ],
   "note": "proved for ordinary methods and any nesting; FALSE for staticmethods, classmethods and overlapping non-nested blocks (witnesses)"
  },
  {
   "property": "C08",
   "status": "proved",
   "theorems": [
    "Verif.Circ.C08_weights_convex",
    "Verif.Circ.C08_setter_accepts_iff",
    "Verif.Circ.C08_set_get"
   ],
   "note": "set/get returns w/sum(w): exactly w when it sums to one; acceptance characterised including the allclose tolerance"
  },
  {
   "property": "C09",
   "status": "proved",
   "theorems": [
    "Verif.Circ.C09_log_likelihood_semantics",
    "Verif.Circ.C09_logsumexp_exact"
   ],
   "note": ""
  },
  {
   "property": "C10",
   "status": "partial",
   "theorems": [
    "Verif.Circ.C10_normalised_partial",
    "Verif.Circ.C10_decomposable",
    "Verif.Circ.C10_constructors_accepted",
    "Verif.Circ.C10_misaligned_not_normalised",
    "Verif.Interval.C10_leaf_families"
   ],
   "note": "FALSE for circuits whose channel-concatenated inputs order their scope differently (C10_misaligned_not_normalised, accepted by all constructors, mass 9/8); proved for feature-aligned circuits and normalised leaves"
  },
  {
   "property": "C11",
   "status": "partial",
   "theorems": [
    "Verif.Circ.C11_nan_is_integral_partial"
   ],
   "note": "same alignment hypothesis as C10"
  },
  {
   "property": "C12",
   "status": "partial",
   "theorems": [
    "Verif.Circ.C12_marginalize_partial",
    "Verif.Circ.C12_marginalize_log_likelihood_partial",
    "Verif.Circ.C12_zero_weight_raises"
   ],
   "note": "proved for aligned circuits with finite logits and non-empty leaf scopes; with a zero weight (after EM) the code raises (C12_zero_weight_raises)"
  },
  {
   "property": "C13",
   "status": "partial",
   "theorems": [
    "Verif.Circ.C13_evidence_unchanged",
    "Verif.Circ.C13_fills_partial",
    "Verif.Circ.C13_evidence_fills_partial",
    "Verif.Circ.C13_misaligned_leaves_missing"
   ],
   "note": "evidence/out-of-scope cells unchanged: proved for every accepted circuit and every random outcome; filling and not raising: proved for aligned circuits (sample_with_evidence: no dead Sum unit); FALSE otherwise (C13_misaligned_leaves_missing)"
  },
  {
   "property": "C14",
   "status": "partial",
   "theorems": [
    "Verif.Circ.C14_conditional_partial",
    "Verif.Circ.C14_unconditional_partial",
    "Verif.Circ.C14_dead_branch_raises"
   ],
   "note": "exact conditional law p(x)/p(e) for aligned circuits when no Sum unit has probability zero on the evidence; FALSE otherwise: the call raises on evidence of probability 1/2 (C14_dead_branch_raises)"
  },
  {
   "property": "C15",
   "status": "partial",
   "theorems": [
    "Verif.Circ.C15_greedy_partial",
    "Verif.Circ.C15_one_hot_partial",
    "Verif.Circ.C15_sumfree_partial",
    "Verif.Circ.C15_mixture_not_optimal",
    "Verif.Circ.C15_evidence_ignored"
   ],
   "note": "proved for circuits without Sum and circuits whose Sums are one-hot; for every circuit mpe returns a completion that is optimal for the circuit reduced to its heaviest inputs (C15_greedy_partial); FALSE for mixtures (C15_mixture_not_optimal) and mpe(data=e) ignores the evidence when choosing components (C15_evidence_ignored)"
  },
  {
   "property": "C16",
   "status": "proved",
   "theorems": [
    "Verif.Routing.C16_route_error_iff",
    "Verif.Routing.C16_route_unique_owner",
    "Verif.Routing.C16_slice_unique_owner"
   ],
   "note": ""
  },
  {
   "property": "C17",
   "status": "partial",
   "theorems": [
    "Verif.Split.C17_consecutive_merge_split",
    "Verif.Split.C17_consecutive_split",
    "Verif.Split.C17_interleaved_merge_split",
    "Verif.Split.C17_interleaved_uneven_raises",
    "Verif.Split.C17_by_index_accepts_iff",
    "Verif.Split.C17_by_index_merge_split",
    "Verif.Split.C17_by_index_merge_indices",
    "Verif.Split.C17_by_index_each_once",
    "Verif.Split.C17_interleaved_each_once",
    "Verif.Split.C17_route_consecutive",
    "Verif.Split.C17_route_interleaved"
   ],
   "note": "merge after split is the identity and every feature is in exactly one split: proved for all three splits (interleaved: number of features a multiple of the splits); FALSE otherwise (C17_interleaved_uneven_raises); routing of the products proved for consecutive and interleaved"
  },
  {
   "property": "C18",
   "status": "partial",
   "theorems": [
    "Verif.Split.C18_by_index_partial",
    "Verif.Split.C18_consecutive_single_partial",
    "Verif.Split.C18_consecutive_wrong",
    "Verif.Split.C18_interleaved_wrong",
    "Verif.Split.C18_outer_wrong"
   ],
   "note": "proved for SplitByIndex and for a single output feature; FALSE for SplitConsecutive/SplitInterleaved/OuterProduct (witnesses)"
  },
  {
   "property": "C19",
   "status": "proved",
   "theorems": [
    "Verif.Outer.C19_unravel_row_major",
    "Verif.Outer.C19_unravel_bijective",
    "Verif.Outer.C19_log_likelihood",
    "Verif.Outer.C19_likelihood_is_product",
    "Verif.Outer.C19_sampling_routes_tuple",
    "Verif.Outer.C19_one_hot_agrees",
    "Verif.Outer.C19_split_routing"
   ],
   "note": ""
  },
  {
   "property": "C20",
   "status": "partial",
   "theorems": [
    "Verif.Fact.C20_partition",
    "Verif.Fact.C20_owner",
    "Verif.Fact.C20_decomposable",
    "Verif.Fact.C20_log_likelihood_partial",
    "Verif.Fact.C20_neg_inf_poisons",
    "Verif.Fact.C20_sampling_routes"
   ],
   "note": "partition, balance, StructureError, decomposability, owners and sampling routes: proved for every shuffle and permutation; log_likelihood proved for finite inputs, FALSE when a feature of another group has -inf (C20_neg_inf_poisons: NaN)"
  },
  {
   "property": "C21",
   "status": "partial",
   "theorems": [
    "Verif.Einsum.C21_likelihood_is_bilinear_partial",
    "Verif.Einsum.C21_path_irrelevant",
    "Verif.Einsum.C21_dead_input_gives_nan",
    "Verif.Einsum.C21_weights_normalised",
    "Verif.Einsum.C21_weights_set_get",
    "Verif.Einsum.C21_normalised",
    "Verif.Einsum.C21_linsum_likelihood"
   ],
   "note": "bilinear form on every contraction path, weights, set/get, normalisation, LinsumLayer: proved; FALSE when all channels of one input are -inf: NaN instead of -inf (C21_dead_input_gives_nan)"
  },
  {
   "property": "C22",
   "status": "partial",
   "theorems": [
    "Verif.Einsum.C22_unravel",
    "Verif.Einsum.C22_choice_law",
    "Verif.Einsum.C22_prior_choice_law",
    "Verif.Einsum.C22_interleaved",
    "Verif.Einsum.C22_consecutive_partial",
    "Verif.Einsum.C22_consecutive_wrong"
   ],
   "note": "channel choice law and unraveling proved; masks and scopes proved for the interleaved split, for the consecutive split only with uniform masks; FALSE for the default consecutive split in general (C22_consecutive_wrong)"
  },
  {
   "property": "C23",
   "status": "partial",
   "theorems": [
    "Verif.CLTree.C23_bp_exact",
    "Verif.CLTree.C23_fast_path_agrees",
    "Verif.CLTree.C23_log_likelihood",
    "Verif.CLTree.C23_normalised",
    "Verif.CLTree.C23_cycle_batch_dependent",
    "Verif.CLTree.C23_truncation_batch_dependent"
   ],
   "note": "exact message passing, fast path, log_likelihood and normalisation proved for rooted trees and integer data; FALSE for accepted cycles (C23_cycle_batch_dependent) and for values that are not exact integers (C23_truncation_batch_dependent)"
  },
  {
   "property": "C24",
   "status": "proved",
   "theorems": [
    "Verif.CLTree.C24_mpe_optimal"
   ],
   "note": ""
  },
  {
   "property": "C25",
   "status": "partial",
   "theorems": [
    "Verif.CLTree.C25_accepts_iff",
    "Verif.CLTree.C25_rejects",
    "Verif.CLTree.C25_orders",
    "Verif.CLTree.C25_tree",
    "Verif.CLTree.C25_cycle_accepted"
   ],
   "note": "acceptance characterised exactly, orders and tree structure proved; FALSE: a cycle beside the root is accepted (C25_cycle_accepted)"
  },
  {
   "property": "C26",
   "status": "proved",
   "theorems": [
    "Verif.Mst.C26_find_terminates",
    "Verif.Mst.C26_kruskal_min",
    "Verif.Mst.C26_kruskal_max",
    "Verif.Mst.C26_kruskal_empty",
    "Verif.Mst.C26_star_tree",
    "Verif.Mst.C26_constrained",
    "Verif.Mst.C26_prim",
    "Verif.Mst.C26_prim_witness"
   ],
   "note": "Prim (symmetric finite weights), Kruskal (both directions), constrained Kruskal; union-find modelled with path halving"
  },
  {
   "property": "C27",
   "status": "partial",
   "theorems": [
    "Verif.Mst.C27_pick_exists",
    "Verif.Mst.C27_topk",
    "Verif.Mst.C27_rejects",
    "Verif.Mst.C27_maximize_broken",
    "Verif.Mst.C27_triangle"
   ],
   "note": "proved for minimize=True and dropout 0; FALSE for minimize=False: one tree only (C27_maximize_broken)"
  },
  {
   "property": "C28",
   "status": "partial",
   "theorems": [
    "Verif.Em.C28_em_step_monotone",
    "Verif.Em.C28_weights_normalised",
    "Verif.Em.C28_em_step_positive_model",
    "Verif.Em.C28_em_run_monotone",
    "Verif.Em.C28_dead_unit_nan",
    "Verif.Em.C28_em_nan_witness",
    "Verif.Em.C28_shared_not_monotone"
   ],
   "note": "one step and whole runs: proved for trees of leaves/Cat/Product/Sum with equal repetitions and leaf updates that are (generalised) M-steps, when no unit is dead; FALSE for shared Sum nodes (C28_shared_not_monotone) and a Sum without responsibility becomes NaN (C28_em_nan_witness)"
  },
  {
   "property": "C29",
   "status": "proved",
   "theorems": [
    "Verif.EmLoop.C29_history",
    "Verif.EmLoop.C29_raises_iff",
    "Verif.EmLoop.C29_final_not_reported",
    "Verif.EmLoop.C29_batched_history"
   ],
   "note": "plus C29_final_not_reported: the returned history never contains the likelihood of the parameters left behind"
  },
  {
   "property": "C30",
   "status": "partial",
   "theorems": [
    "Verif.Circ.C30_prune_preserves",
    "Verif.Circ.C30_terminates",
    "Verif.Circ.C30_no_nested_sums",
    "Verif.Circ.C30_multi_channel_raises"
   ],
   "note": "proved when nested Sums have one output channel, weights are finite and repetitions agree (it never raises, terminates, and leaves no Cat of Sums below a Sum); FALSE for nested Sums with several channels (C30_multi_channel_raises)"
  },
  {
   "property": "C31",
   "status": "partial",
   "theorems": [
    "Verif.LearnSpn.C31_learn_explicit_scope_partial",
    "Verif.LearnSpn.C31_learn_default_scope_partial",
    "Verif.LearnSpn.C31_cluster_weights",
    "Verif.LearnSpn.C31_rejects_limits",
    "Verif.LearnSpn.C31_overlapping_templates_raise",
    "Verif.LearnSpn.C31_one_cluster_diverges",
    "Verif.LearnSpn.C31_witness",
    "Verif.LearnSpn.C31_unequal_channels_fail",
    "Verif.LearnSpn.C31_uncovered_fails",
    "Verif.LearnSpn.C31_uncovered_dropped"
   ],
   "note": "proved for every partitioning answer, every fit and every clustering that separates at least two clusters, leaf templates with equal channel numbers that cover the scope; FALSE otherwise: one cluster recurses forever (C31_one_cluster_diverges), unequal channels raise, uncovered variables raise or are dropped"
  },
  {
   "property": "C32",
   "status": "partial",
   "theorems": [
    "Verif.Prometheus.C32_correlation",
    "Verif.Prometheus.C32_missing_raises",
    "Verif.Prometheus.C32_matrix_thresholds",
    "Verif.Prometheus.C32_matrix_single_linkage",
    "Verif.Prometheus.C32_edges_partitions",
    "Verif.Prometheus.C32_edges_thresholds",
    "Verif.Prometheus.C32_matrix_partitions",
    "Verif.Prometheus.C32_matrix_documented",
    "Verif.Prometheus.C32_matrix_rejects",
    "Verif.Prometheus.C32_matrix_zero",
    "Verif.Prom.C32_affinity_general",
    "Verif.Prom.C32_affinity",
    "Verif.Prom.C32_zero_affinity_no_partition",
    "Verif.Prom.C32_zero_affinity_first",
    "Verif.Prom.C32_single_linkage",
    "Verif.Prom.C32_sampled",
    "Verif.Prom.C32_sort_exists"
   ],
   "note": "proved for non-zero affinities and for sampled edges; for arbitrary affinities the general form is proved; FALSE with zero affinities: networkx drops them (C32_zero_affinity_no_partition, C32_zero_affinity_first)"
  },
  {
   "property": "C33",
   "status": "partial",
   "theorems": [
    "Verif.CNet.C33_learn_partial",
    "Verif.CNet.C33_evaluable_iff",
    "Verif.CNet.C33_density",
    "Verif.CNet.C33_rejects_values",
    "Verif.CNet.C33_rejects_alpha",
    "Verif.CNet.C33_witness",
    "Verif.CNet.C33_lonely_row_breaks_network",
    "Verif.CNet.C33_gap_raises"
   ],
   "note": "acceptance characterised exactly, validity, termination and density proved for all data, orders and leaf fits; FALSE: a value that does not occur raises InvalidWeightsError (C33_gap_raises), a terminal slice with one row and several variables gives a network whose log_likelihood raises (C33_lonely_row_breaks_network)"
  },
  {
   "property": "C34",
   "status": "partial",
   "theorems": [
    "Verif.Signed.C34_signed_logsumexp",
    "Verif.Signed.C34_sign_normal",
    "Verif.Signed.C34_signed_sum_partial",
    "Verif.Signed.C34_tiny_weight_wrong",
    "Verif.Signed.C34_signed_eval_partial"
   ],
   "note": "signed_logsumexp: proved in full; SignedSum and whole circuits: proved for weights that are 0 or at least 1e-30; FALSE below (C34_tiny_weight_wrong)"
  },
  {
   "property": "C35",
   "status": "partial",
   "theorems": [
    "Verif.Inner.C35_leaves",
    "Verif.Inner.C35_main",
    "Verif.Inner.C35_order_matters",
    "Verif.Inner.C35_example",
    "Verif.Inner.C35_inner_product",
    "Verif.Inner.C35_symmetric",
    "Verif.Inner.C35_self",
    "Verif.Inner.C35_socs_normalised"
   ],
   "note": "proved for trees of Cat/Product/Sum/SignedSum over Bernoulli, (Signed)Categorical, Geometric, Poisson, Binomial, Normal, LogNormal, Laplace, Exponential, Gamma and Uniform leaves whose parameters keep the 1e-30 clamps inactive and whose leaves list their variables in increasing order; FALSE when two leaves list the same variables in different orders (C35_order_matters). Missing: Hypergeometric, NegativeBinomial (truncated series), Histogram, PiecewiseLinear and CLTree closed forms, triple products"
  },
  {
   "property": "C36",
   "status": "partial",
   "theorems": [
    "Verif.Interval.C36_box_probability_partial",
    "Verif.Interval.C36_exact",
    "Verif.Interval.C36_unbounded",
    "Verif.Interval.C36_answered_iff",
    "Verif.Interval.C36_gamma_example",
    "Verif.Interval.C36_missing_lower_bound_raises",
    "Verif.Interval.C36_impossible_box",
    "Verif.Interval.C36_example"
   ],
   "note": "proved up to the code's own floor of 1e-40 per variable, exactly when no leaf is clamped, for Bernoulli, Categorical, Uniform, Normal, Laplace, Exponential, LogNormal and Gamma leaves; FALSE: a missing or negative lower bound raises for Exponential/LogNormal/Gamma (C36_missing_lower_bound_raises), impossible boxes get 1e-40 (C36_impossible_box). conditional leaves not modelled"
  },
  {
   "property": "C37",
   "status": "partial",
   "theorems": [
    "Verif.Hist.C37_unique_bin",
    "Verif.Hist.C37_density",
    "Verif.Hist.C37_density_exact",
    "Verif.Hist.C37_outside",
    "Verif.Hist.C37_measurable",
    "Verif.Hist.C37_normalised",
    "Verif.Hist.C37_mass_bounds",
    "Verif.Hist.C37_sample_in_bin",
    "Verif.Hist.C37_mode_optimal_partial",
    "Verif.Hist.C37_mode_not_optimal",
    "Verif.Hist.C37_setProbs"
   ],
   "note": "unique bin, density, normalisation and support proved when every bin probability is at least min_prob (otherwise the floor adds mass: bounded by C37 theorems); mode is optimal for equal bin widths; FALSE in general: the bin with most mass need not be densest (C37_mode_not_optimal)"
  },
  {
   "property": "C38",
   "status": "proved",
   "theorems": [
    "Verif.Proj.C38_bounded_roundtrip",
    "Verif.Proj.C38_image_inside",
    "Verif.Proj.C38_real_roundtrip",
    "Verif.Proj.C38_no_bounds_raises",
    "Verif.Proj.C38_convex_roundtrip",
    "Verif.Proj.C38_convex_image"
   ],
   "note": ""
  },
  {
   "property": "C39",
   "status": "partial",
   "theorems": [
    "Verif.Dsl.C39_mul_assoc",
    "Verif.Dsl.C39_mul_comm",
    "Verif.Dsl.C39_add_assoc",
    "Verif.Dsl.C39_unweighted_sum_rejected",
    "Verif.Dsl.C39_weight_left",
    "Verif.Dsl.C39_weight_right_unbuildable",
    "Verif.Dsl.C39_weight_right_modules",
    "Verif.Dsl.C39_normalised_partial",
    "Verif.Dsl.C39_restores",
    "Verif.Dsl.C39_inside",
    "Verif.Dsl.C39_outside",
    "Verif.Dsl.C39_inside_modules",
    "Verif.Dsl.C39_overlapping_blocks_leak",
    "Verif.Dsl.C39_multivariate_terms",
    "Verif.Dsl.C39_build_iff",
    "Verif.Dsl.C39_build_shape",
    "Verif.Dsl.C39_features",
    "Verif.Dsl.C39_denotes_partial"
   ],
   "note": "acceptance, exact feature-wise meaning, product/mixture semantics, grouping of * and +, normalisation and restoration of the operators proved; FALSE: mixtures of multi-feature terms mix every feature separately (C39_multivariate_terms), a weight on the right factor of two expression objects gives an unbuildable expression (C39_weight_right_unbuildable), overlapping non-nested dsl() blocks leave the operators installed (C39_overlapping_blocks_leak)"
  },
  {
   "property": "C40",
   "status": "partial",
   "theorems": [
    "Verif.Measures.C40_logsumexp_negative",
    "Verif.Measures.C40_entropy",
    "Verif.Measures.C40_entropy_bounds",
    "Verif.Measures.C40_mutual_information",
    "Verif.Measures.C40_mutual_information_laws",
    "Verif.Measures.C40_conditional_mutual_information",
    "Verif.Measures.C40_conditional_probability",
    "Verif.Measures.C40_conditional_sums_to_one",
    "Verif.Measures.C40_entropy_raises",
    "Verif.Measures.C40_reduction",
    "Verif.Measures.C40_marginal",
    "Verif.Measures.C40_domains"
   ],
   "note": "exact method, all aggregations for conditional probabilities, normalising aggregations for the entropy laws; FALSE for channel_agg=\"logsumexp\" with several channels (C40_logsumexp_negative: negative entropy); models whose variable ids are not 0..d-1 raise IndexError (C40_entropy_raises). Monte-Carlo estimators not modelled"
  },
  {
   "property": "C41",
   "status": "partial",
   "theorems": [
    "Verif.Classify.C41_posterior",
    "Verif.Classify.C41_impossible_row",
    "Verif.Classify.C41_single_class_raises",
    "Verif.Classify.C41_predict",
    "Verif.Classify.C41_label_iff",
    "Verif.Classify.C41_sklearn_partial",
    "Verif.Classify.C41_labels_missing"
   ],
   "note": "posterior and predict proved for all rows of positive probability; an impossible row gives NaN posterior and class 0 (C41_impossible_row); the SPFlowClassifier label mapping is right iff y contains every class (C41_label_iff, C41_labels_missing)"
  },
  {
   "property": "C42",
   "status": "partial",
   "theorems": [
    "Verif.Routing.C42_index_one_hot_finite",
    "Verif.Routing.C42_neg_inf_gives_nan",
    "Verif.Routing.C42_one_hot_argmax",
    "Verif.Routing.C42_route_one_hot"
   ],
   "note": "proved for finite tensors and for Cat routing; FALSE for tensors with -inf at an unselected position (C42_neg_inf_gives_nan)"
  },
  {
   "property": "C43",
   "status": "partial",
   "theorems": [
    "Verif.Conv.ProdConv.C43_likelihood",
    "Verif.Conv.ProdConv.C43_scope",
    "Verif.Conv.ProdConv.C43_each_pixel_once",
    "Verif.Conv.ProdConv.C43_routing_unpadded_partial",
    "Verif.Conv.ProdConv.C43_indivisible_raises",
    "Verif.Conv.ProdConv.C43_padding_misroutes"
   ],
   "note": "likelihood, scopes and each-pixel-once proved for every geometry; sampling routes correctly proved for unpadded layers whose kernel divides the image (C43_routing_unpadded_partial); FALSE with padding: the first H*H cells of the padded grid are kept instead of its centre (C43_padding_misroutes); an indivisible unpadded kernel raises when sampling (C43_indivisible_raises)"
  },
  {
   "property": "C44",
   "status": "partial",
   "theorems": [
    "Verif.RepMix.C44_weights_convex_over_repetitions",
    "Verif.RepMix.C44_assign_roundtrip_partial",
    "Verif.RepMix.C44_constructor_rejects",
    "Verif.RepMix.C44_constructor_renormalises",
    "Verif.RepMix.C44_accepted_not_read_back"
   ],
   "note": "assignment after construction proved; FALSE of the constructor (C44_constructor_rejects, C44_accepted_not_read_back)"
  },
  {
   "property": "C45",
   "status": "partial",
   "theorems": [
    "Verif.Classify.C45_law",
    "Verif.Classify.C45_conditional_partial",
    "Verif.Classify.C45_no_evidence",
    "Verif.Classify.C45_single_class_partial",
    "Verif.Classify.C45_class_not_conditioned"
   ],
   "note": "exact law of the sampler proved (C45_law); FALSE in general: the class is drawn from the prior, not from the posterior given the evidence (C45_class_not_conditioned); the conditional law holds without evidence and when the evidence has the same probability under every class (C45_no_evidence, C45_conditional_partial)"
  },
  {
   "property": "C46",
   "status": "partial",
   "theorems": [
    "Verif.Routing.C46_global_columns",
    "Verif.Routing.C46_columns_partial",
    "Verif.Routing.C46_columns_collide",
    "Verif.Routing.C46_allocated_partial"
   ],
   "note": "proved when all ids are columns and for sample(num_samples); FALSE in general (C46_columns_collide)"
  },
  {
   "property": "C47",
   "status": "partial",
   "theorems": [
    "Verif.Hyp.C47_upper_bound",
    "Verif.Hyp.C47_in_support_partial",
    "Verif.Hyp.C47_out_of_support",
    "Verif.Hyp.C47_log_prob",
    "Verif.Hyp.C47_normalised"
   ],
   "note": "proved when all channels share N and n; FALSE otherwise (C47_out_of_support)"
  },
  {
   "property": "C48",
   "status": "proved",
   "theorems": [
    "Verif.LeafFit.C48_example",
    "Verif.LeafFit.C48_raises_iff",
    "Verif.LeafFit.C48_weight_scale_irrelevant",
    "Verif.LeafFit.C48_bernoulli",
    "Verif.LeafFit.C48_categorical"
   ],
   "note": "exact maximiser whenever the documented clamp is inactive, explicit bound when it is active"
  },
  {
   "property": "C49",
   "status": "proved",
   "theorems": [
    "Verif.Graph.C49_counts",
    "Verif.Graph.C49_max_depth"
   ],
   "note": "the child lists are those of _iter_structure_children, which skips Cat wrappers"
  },
  {
   "property": "C50",
   "status": "partial",
   "theorems": [
    "Verif.Conv.C50_pixel_mixture",
    "Verif.Conv.C50_evaluates_iff",
    "Verif.Conv.C50_sampling_weights_partial",
    "Verif.Conv.C50_small_image_cannot_sample",
    "Verif.Conv.C50_sampling_ok",
    "Verif.Conv.C50_em_ties_kernel",
    "Verif.Conv.C50_em_decreases",
    "Verif.Conv.C50_em_kernel_one_partial",
    "Verif.Conv.C50_marginalize_redraws"
   ],
   "note": "the pixel mixture, the set of evaluable images and the sampling weights are proved; FALSE: an image smaller than the kernel evaluates but cannot be sampled (C50_small_image_cannot_sample), an EM step can lower the likelihood (C50_em_decreases, C50_em_ties_kernel), marginalize draws new weights (C50_marginalize_redraws)"
  },
  {
   "property": "C51",
   "status": "partial",
   "theorems": [
    "Verif.RepMix.C51_likelihood_is_repetition_mixture",
    "Verif.RepMix.C51_single_channel_partial",
    "Verif.RepMix.C51_two_channels_wrong"
   ],
   "note": "likelihood proved; sampling proved for one channel, FALSE for more (C51_two_channels_wrong)"
  },
  {
   "property": "C52",
   "status": "partial",
   "theorems": [
    "Verif.Einsum.C52_einsum_marginalize_drops_weights",
    "Verif.Fact.C52_factorize_regroups",
    "Verif.Fact.C52_factorize_raises"
   ],
   "note": "FALSE of the code: the layers are rebuilt with fresh random weights or groupings (witness theorems)"
  },
  {
   "property": "C53",
   "status": "partial",
   "theorems": [
    "Verif.Inner.C53_missing_is_wrong",
    "Verif.Inner.C53_factorised",
    "Verif.Inner.C53_marginalize_everything",
    "Verif.Inner.C53_marginalize_keeps_weights",
    "Verif.Inner.C53_marginalize_is_wrong"
   ],
   "note": "FALSE: a missing value gives the wrong number for every Bernoulli component (C53_missing_is_wrong), SOCS.marginalize gives the wrong distribution (C53_marginalize_is_wrong); proved: the exact factor by which a factorised component is off (C53_factorised)"
  },
  {
   "property": "C54",
   "status": "proved",
   "theorems": [
    "Verif.Inner.C54_invariant",
    "Verif.Inner.C54_convergence",
    "Verif.Inner.C54_equilibrium",
    "Verif.Inner.C54_sampler",
    "Verif.Inner.C54_sampler_monotone",
    "Verif.Inner.C54_proposal_covers",
    "Verif.Inner.C54_example"
   ],
   "note": "finite state spaces; convergence rate explicit"
  },
  {
   "property": "C55",
   "status": "proved",
   "theorems": [
    "Verif.Einsum.C55_eval_cache_never_stale",
    "Verif.Einsum.C55_raw_data_stale"
   ],
   "note": "for all histories of setters and counted updates; C55_raw_data_stale shows what writing logits.data from outside does"
  },
  {
   "property": "C56",
   "status": "proved",
   "theorems": [
    "Verif.CLTree.C56_sample_law",
    "Verif.CLTree.C56_total"
   ],
   "note": ""
  },
  {
   "property": "C57",
   "status": "partial",
   "theorems": [
    "Verif.CltFit.C57_structure",
    "Verif.CltFit.C57_keeps_structure",
    "Verif.CltFit.C57_tables",
    "Verif.CltFit.C57_effective_pseudocount",
    "Verif.CltFit.C57_tables_optimal",
    "Verif.CltFit.C57_structure_best_partial",
    "Verif.CltFit.C57_ignores_incomplete",
    "Verif.CltFit.C57_accepts_iff",
    "Verif.CltFit.C57_unit_weights",
    "Verif.CltFit.Wit.C57_structure_wrong",
    "Verif.CltFit.Wit.C57_scope_order_wrong",
    "Verif.CltFit.Wit.C57_example"
   ],
   "note": "acceptance, missing rows, tables, their optimality and the maximised score proved; the learned tree is a best one when all variables have the same excess and the scope is read in order (C57_structure_best_partial); FALSE otherwise: single values and pairs get the same pseudo-count, so the score is not a mutual information and the learned tree can be worse than another (C57_structure_wrong), and a scope that is not in ascending order learns the tree of permuted variables (C57_scope_order_wrong); without weights the pseudo-count is alpha*F*C*R, not alpha (C57_effective_pseudocount)"
  },
  {
   "property": "C58",
   "status": "partial",
   "theorems": [
    "Verif.LeafFit.C58_poisson",
    "Verif.LeafFit.C58_exponential",
    "Verif.LeafFit.C58_geometric",
    "Verif.LeafFit.C58_binomial",
    "Verif.LeafFit.C58_negative_binomial",
    "Verif.LeafFit.C58_normal",
    "Verif.LeafFit.C58_log_normal",
    "Verif.LeafFit.C58_laplace",
    "Verif.LeafFit.C58_bias_denominator",
    "Verif.LeafFit.C58_bias_two_channels",
    "Verif.LeafFit.C58_laplace_weights_ignored",
    "Verif.LeafFit.C58_example"
   ],
   "note": "maximisers proved for all families when no clamp is active (Laplace: equal weights); FALSE for weighted Laplace (C58_laplace_weights_ignored: the median ignores the weights) and for the bias correction of a leaf with more than one feature, channel or repetition (C58_bias_denominator, C58_bias_two_channels: it divides by N - F*C*R)"
  },
  {
   "property": "C59",
   "status": "partial",
   "theorems": [
    "Verif.Measures.C59_value",
    "Verif.Measures.C59_laws",
    "Verif.Measures.C59_exact",
    "Verif.Measures.C59_leave_one_out",
    "Verif.Measures.C59_missing_cell_is_zero"
   ],
   "note": "value, sign laws and antisymmetry proved; FALSE: a missing entry gets 0 instead of NaN when another row of the batch has that entry (C59_missing_cell_is_zero); the strict sign law needs eps <= 1/(n+k)"
  },
  {
   "property": "C60",
   "status": "partial",
   "theorems": [
    "Verif.NB.C60_fit_per_class_partial",
    "Verif.NB.C60_laplace_mixes_classes",
    "Verif.NB.C60_prior",
    "Verif.NB.C60_targets_iff",
    "Verif.NB.C60_gamma_per_class_partial",
    "Verif.NB.C60_gamma_mixes_classes",
    "Verif.NB.C60_accepts_iff",
    "Verif.NB.C60_density"
   ],
   "note": "acceptance, density and prior proved; per-class fit proved for complete data and nine leaf families, and for Gamma when all values are positive (C60_gamma_per_class_partial); FALSE for Laplace (C60_laplace_mixes_classes) and for Gamma with a value <= 0 in another class (C60_gamma_mixes_classes); rows with NaN and the remaining families missing"
  },
  {
   "property": "C61",
   "status": "partial",
   "theorems": [
    "Verif.Conv.C61_odd_padding_unusable",
    "Verif.Conv.C61_sampling_padded_wrong",
    "Verif.Conv.C61_density_partial",
    "Verif.Conv.C61_rejects",
    "Verif.Conv.C61_sampling_partial"
   ],
   "note": "density and exact marginals proved whenever the total padding is even, the sampling law (with and without evidence) when k^depth divides the image; FALSE: odd total padding gives a model whose log_likelihood always raises (C61_odd_padding_unusable), and with non-zero even padding samples do not follow the density (C61_sampling_padded_wrong). num_repetitions other than 1 is rejected by the code"
  },
  {
   "property": "C62",
   "status": "partial",
   "theorems": [
    "Verif.WSum.C62_accepts_iff",
    "Verif.WSum.C62_stored_weights",
    "Verif.WSum.C62_linear",
    "Verif.WSum.C62_mass",
    "Verif.WSum.C62_route",
    "Verif.WSum.C62_sample_law",
    "Verif.WSum.C62_mpe",
    "Verif.WSum.C62_setter_negative",
    "Verif.WSum.C62_marginalize",
    "Verif.WSum.C62_sampling_ignores_child_mass",
    "Verif.WSum.C62_declared_repetitions"
   ],
   "note": "constructor, likelihood, mass, routing, mpe and marginalize proved; FALSE: sampling ignores the masses of unnormalised inputs (C62_sampling_ignores_child_mass) so the law needs inputs of equal mass, the setter stores negative weights which are read as 0 (C62_setter_negative), the declared repetitions can disagree with the tensor (C62_declared_repetitions); the cached evidence is not used by sampling"
  },
  {
   "property": "C63",
   "status": "partial",
   "theorems": [
    "Verif.PicQ.C63_end_to_end",
    "Verif.PicQ.C63_missing_is_integral",
    "Verif.PicQ.C63_quadrature",
    "Verif.PicQ.C63_accepts",
    "Verif.PicQ.C63_multi_partition_rejected",
    "Verif.PicQ.C63_cp_rejected",
    "Verif.PicQ.C63_normalised",
    "Verif.PicQ.C63_swapped_arguments",
    "Verif.PicQ.C63_constructors"
   ],
   "note": "quadrature, acceptance, marginals and normalisation proved for every coherent PIC, end to end for region graphs with binary partitions in ascending order; FALSE: CP merging rejects every region graph with a partition (C63_cp_rejected), AUTO/TUCKER rejects a non-root region with two partitions (C63_multi_partition_rejected), with unsorted latents (three or more children) the function is evaluated with exchanged arguments (C63_swapped_arguments). Functional sharing groups, multi-feature leaves and the tensorized mode are not modelled"
  },
  {
   "property": "C64",
   "status": "partial",
   "theorems": [
    "Verif.Cms.C64_cltree_sampling_wrong",
    "Verif.Cms.C64_near_integer_truncated",
    "Verif.Cms.C64_infinite_is_missing",
    "Verif.Cms.C64_rqmc",
    "Verif.Cms.C64_compiled_is_objective",
    "Verif.Cms.C64_sample_factorized",
    "Verif.Cms.C64_cltree_likelihood",
    "Verif.Cms.C64_cltree_normalised",
    "Verif.Cms.C64_cltree_is_objective",
    "Verif.Cms.C64_cltree_sample_partial"
   ],
   "note": "weights, likelihood = objective, normalisation and marginals proved for both structures, the sampling law for the factorized structure; FALSE for trees with two or more points: the Sum draws a component per feature (C64_cltree_sampling_wrong), proved only for one point (C64_cltree_sample_partial); nearly integral categorical values are truncated (C64_near_integer_truncated); infinite entries count as missing in training (C64_infinite_is_missing). The decoder network and the Sobol points are arbitrary parameters"
  },
  {
   "property": "C65",
   "status": "proved",
   "theorems": [
    "Verif.Cms.C65_early_stopping",
    "Verif.Cms.C65_no_evaluation",
    "Verif.Cms.C65_no_epochs",
    "Verif.Cms.C65_first_nan"
   ],
   "note": "for scores that are not NaN; a NaN first score is kept for ever (C65_first_nan). The optimiser step is an arbitrary state update"
  },
  {
   "property": "C66",
   "status": "partial",
   "theorems": [
    "Verif.ESum.C66_em_monotone",
    "Verif.ESum.C66_em_weights",
    "Verif.ESum.C66_em_mixed_channels_raises",
    "Verif.ESum.C66_em_no_nan",
    "Verif.ESum.C66_normalised",
    "Verif.ESum.C66_nan_is_integral",
    "Verif.ESum.C66_marginalize_partial",
    "Verif.ESum.C66_accepts_iff",
    "Verif.ESum.C66_weights_convex",
    "Verif.ESum.C66_set_get",
    "Verif.ESum.C66_log_likelihood",
    "Verif.ESum.C66_sample_law",
    "Verif.ESum.C66_sample_conditional",
    "Verif.ESum.C66_sample_fills",
    "Verif.ESum.C66_broadcast_sampling_raises",
    "Verif.ESum.C66_marginalize_multivariate_raises",
    "Verif.ESum.C66_broadcast_witness",
    "Verif.ESum.C66_marginalize_wrong_weights"
   ],
   "note": "proved: acceptance, weights, likelihood, normalisation, missing cells, sampling laws, EM. False of the code, with theorems: sampling and EM raise with a one-channel input beside multi-channel ones (C66_broadcast_sampling_raises, C66_em_mixed_channels_raises), marginalize raises when features are not single variables (C66_marginalize_multivariate_raises) and keeps the weights of the wrong features when the feature order is not the scope order (C66_marginalize_wrong_weights); C66_marginalize_partial assumes feature f is the f-th variable of the scope"
  },
  {
   "property": "C67",
   "status": "partial",
   "theorems": [
    "Verif.Rat.C67_constructor",
    "Verif.Rat.C67_rejects",
    "Verif.Rat.C67_log_likelihood_partial",
    "Verif.Rat.C67_impossible_component_nan",
    "Verif.Rat.C67_normalised",
    "Verif.Rat.C67_density_partial",
    "Verif.Rat.C67_three_parts_raise",
    "Verif.Rat.C67_posterior_partial",
    "Verif.Rat.C67_sampling_fills",
    "Verif.Rat.C67_sampling_partial",
    "Verif.Rat.C67_sampling_law",
    "Verif.Rat.C67_impossible_component_raises",
    "Verif.Rat.Wit.C67_several_roots_wrong",
    "Verif.Rat.Wit.C67_class_ignores_evidence",
    "Verif.Rat.Wit.C67_nan_wrong",
    "Verif.Rat.Wit.C67_three_channels_rejected",
    "Verif.Rat.Wit.C67_three_parts_wrong"
   ],
   "note": "proved for splits into two parts: acceptance and errors (C67_constructor, C67_rejects), normalised density with exact marginals (C67_normalised), log_likelihood = that density on rows possible under every leaf component (C67_log_likelihood_partial), posterior, sampling fills and never fails, the law of the sampler for every number of roots and repetitions (C67_sampling_law), which is p(x) with one root or one repetition and p(x)/p(e) with one root (C67_sampling_partial). FALSE: NaN on rows excluded by one leaf component (C67_impossible_component_nan, C67_nan_wrong), then sample_with_evidence raises; with several roots samples do not follow the density (C67_several_roots_wrong, C67_class_ignores_evidence); three channels are rejected (C67_three_channels_rejected); three or more parts give a model that always raises (C67_three_parts_wrong)"
  },
  {
   "property": "C68",
   "status": "partial",
   "theorems": [
    "Verif.Rat.C68_constructor",
    "Verif.Rat.C68_rejects",
    "Verif.Rat.C68_log_likelihood_partial",
    "Verif.Rat.C68_single_group",
    "Verif.Rat.C68_impossible_component_nan",
    "Verif.Rat.C68_normalised",
    "Verif.Rat.C68_density_partial",
    "Verif.Rat.C68_posterior_partial",
    "Verif.Rat.C68_sampling_fills",
    "Verif.Rat.C68_sampling_partial",
    "Verif.Rat.C68_sampling_law",
    "Verif.Rat.C68_impossible_component_raises",
    "Verif.Rat.C68_sample_data_partial",
    "Verif.Rat.EWit.C68_several_classes_wrong",
    "Verif.Rat.EWit.C68_class_ignores_evidence",
    "Verif.Rat.EWit.C68_nan_wrong"
   ],
   "note": "proved for both structures and layer types: acceptance and errors (C68_constructor, C68_rejects), normalised density with exact marginals (C68_normalised), log_likelihood = that density on rows possible under every leaf component (C68_log_likelihood_partial) and on every row when Factorize has one group (C68_single_group), posterior, sampling fills and never fails, the law of the sampler in general (C68_sampling_law), which is p(x) with one class or one repetition and p(x)/p(e) with one class (C68_sampling_partial, and C68_sample_data_partial for a row of any batch). FALSE: NaN on rows excluded by one leaf component (C68_impossible_component_nan, C68_nan_wrong), sampling then raises (C68_impossible_component_raises); with several classes samples do not follow the density (C68_several_classes_wrong, C68_class_ignores_evidence)"
  },
  {
   "property": "C69",
   "status": "partial",
   "theorems": [
    "Verif.LP.Mod.C69_elementwise_accepts",
    "Verif.LP.Mod.C69_outer_accepts",
    "Verif.LP.Mod.C69_constructors",
    "Verif.LP.Mod.C69_elementwise_log_likelihood",
    "Verif.LP.Mod.C69_outer_log_likelihood",
    "Verif.LP.Mod.C69_nan_is_integral",
    "Verif.LP.Mod.C69_normalised",
    "Verif.LP.Mod.C69_sample_fills",
    "Verif.LP.Mod.C69_sample_law",
    "Verif.LP.Mod.C69_sample_conditional",
    "Verif.LP.Mod.C69_elementwise_any_features",
    "Verif.LP.Mod.C69_elementwise_broadcast_raises",
    "Verif.LP.Mod.C69_broadcast_sampling_raises",
    "Verif.LP.Mod.C69_outer_single_raises",
    "Verif.LP.Wit.C69_hmm_example",
    "Verif.LP.Wit.C69_outer_example",
    "Verif.LP.Wit.C69_broadcast_example"
   ],
   "note": "proved for inputs with the same number of features: acceptance (C69_elementwise_accepts, C69_outer_accepts), value (C69_elementwise_log_likelihood, C69_outer_log_likelihood), normalisation and exact marginals for every nesting (C69_normalised, C69_nan_is_integral), sampling fills, never fails and has the right law (C69_sample_fills, C69_sample_law, C69_sample_conditional). FALSE: the documented broadcasting of features - an ElementwiseProduct of inputs with different numbers of features is accepted but always raises (C69_elementwise_any_features, C69_elementwise_broadcast_raises), an OuterProduct computes the likelihood but sampling raises (C69_broadcast_sampling_raises, C69_broadcast_example); OuterProduct of one module with several features raises TypeError (C69_outer_single_raises)"
  },
  {
   "property": "C70",
   "status": "partial",
   "theorems": [
    "Verif.Hclt.C70_construction",
    "Verif.Hclt.C70_rejects",
    "Verif.Hclt.C70_random_independent",
    "Verif.Hclt.C70_uniform_start",
    "Verif.Hclt.C70_normalised",
    "Verif.Hclt.C70_sampling",
    "Verif.Hclt.C70_conditional",
    "Verif.Hclt.C70_model",
    "Verif.Hclt.C70_learn",
    "Verif.Hclt.C70_density",
    "Verif.Hclt.Wit.C70_example",
    "Verif.Hclt.Wit.C70_learn_example"
   ],
   "note": "construction for every spanning tree (C70_construction: succeeds exactly below the recursion limit), rejections, density, normalisation, exact marginals, sampling law and conditional sampling for a tree (C70_density, C70_normalised, C70_sampling, C70_conditional), mixtures of trees (C70_model), the learner (C70_learn). FALSE: with init=\"random\" every transition Sum has one channel, so all variables stay independent for every tree and all weights (C70_random_independent); missing: dropout_prob > 0, conditional sampling for mixtures of several trees; the mutual information matrix is a parameter"
  },
  {
   "property": "C71",
   "status": "proved",
   "theorems": [
    "Verif.Mi.C71_binary",
    "Verif.Mi.C71_binary_accepts_iff",
    "Verif.Mi.C71_categorical_accepts_iff",
    "Verif.Mi.C71_chunk_size",
    "Verif.Mi.C71_truncates",
    "Verif.Mi.C71_binary_nonzero",
    "Verif.Mi.C71_categorical_rejects_nan",
    "Verif.Mi.C71_infers_categories",
    "Verif.Mi.C71_agree",
    "Verif.Mi.C71_symmetric_nonneg",
    "Verif.Mi.Wit.C71_example",
    "Verif.Mi.Wit.C71_example_trees",
    "Verif.Mi.C71_categorical",
    "Verif.Mi.C71_trees_categorical",
    "Verif.Mi.C71_trees_binary",
    "Verif.Mi.C71_max_likelihood",
    "Verif.Mi.C71_resolved_counts",
    "Verif.Mi.C71_resolved_smoothed"
   ],
   "note": "the accepted arguments are characterised exactly; not rejected and documented by theorems: NaN and every non-zero value count as 1 in binary data (C71_binary_nonzero), non-integers are truncated in categorical data (C71_truncates), negative weights (C71_*_accepts_iff). dropout_prob = 0"
  },
  {
   "property": "C72",
   "status": "partial",
   "theorems": [
    "Verif.Pwl.C72_discrete_range",
    "Verif.Pwl.C72_clusters",
    "Verif.Pwl.C72_auto_fd",
    "Verif.Pwl.C72_auto_range",
    "Verif.Pwl.C72_accepts_iff",
    "Verif.Pwl.C72_fit",
    "Verif.Pwl.C72_log_likelihood",
    "Verif.Pwl.C72_life_cycle",
    "Verif.Pwl.C72_sample_action",
    "Verif.Pwl.C72_product_and_sum_wrong",
    "Verif.Pwl.C72_bin_edges",
    "Verif.Pwl.C72_bin_edges_rejects",
    "Verif.Pwl.C72_curve",
    "Verif.Pwl.C72_interpolates",
    "Verif.Pwl.C72_integrates_to_one",
    "Verif.Pwl.C72_log_prob",
    "Verif.Pwl.C72_floor_improper",
    "Verif.Pwl.C72_mass_on_support",
    "Verif.Pwl.C72_mode",
    "Verif.Pwl.C72_discrete_pmf",
    "Verif.Pwl.C72_discrete_mode",
    "Verif.Pwl.C72_discrete_sample",
    "Verif.Pwl.C72_effective_alpha",
    "Verif.Pwl.C72_sample_in_support",
    "Verif.Pwl.C72_sample_segments",
    "Verif.Pwl.C72_sample_affine",
    "Verif.Pwl.Wit.C72_gap_wrong",
    "Verif.Pwl.Wit.C72_discrete_sample_wrong",
    "Verif.Pwl.Wit.C72_out_of_domain_nan",
    "Verif.Pwl.Wit.C72_sampler_wrong",
    "Verif.Pwl.Wit.C72_zero_bound_wrong",
    "Verif.Pwl.Wit.C72_failed_initialize_mixes",
    "Verif.Pwl.Wit.C72_example"
   ],
   "note": "fit, acceptance, bin edges, interpolation, area one, mode, the Laplace estimate for consecutive values, missing values, support and segment probabilities of the sampler proved. FALSE: the floor 1e-10 makes the total mass infinite (C72_floor_improper), values with gaps get wrong masses (Wit.C72_gap_wrong), smoothing of continuous features uses alpha times the bin width (C72_effective_alpha), discrete samples are class numbers instead of values (Wit.C72_discrete_sample_wrong, right only for 0..n-1: C72_discrete_sample), continuous samples are uniform inside a segment (Wit.C72_sampler_wrong, C72_sample_affine), data outside the domain give NaN (Wit.C72_out_of_domain_nan), a bound of 0 is ignored for empty clusters (Wit.C72_zero_bound_wrong), a failed initialize changes the leaf (Wit.C72_failed_initialize_mixes), Product does not multiply and Sum raises (C72_product_and_sum_wrong). Not modelled: infinite domain bounds for empty clusters, NaN in training data"
  },
  {
   "property": "C73",
   "status": "partial",
   "theorems": [
    "Verif.Simple.C73_circuit_partial",
    "Verif.Simple.C73_circuit_evidence_partial",
    "Verif.Simple.C73_circuit_agrees",
    "Verif.Simple.C73_circuit_example",
    "Verif.Simple.C73_bernoulli",
    "Verif.Simple.C73_categorical",
    "Verif.Simple.C73_binomial_simple",
    "Verif.Simple.C73_one_hot",
    "Verif.Simple.C73_law",
    "Verif.Simple.C73_mpe",
    "Verif.Simple.C73_dead_is_nan",
    "Verif.Simple.C73_value_law",
    "Verif.Simple.C73_program",
    "Verif.Simple.C73_hypergeometric",
    "Verif.Simple.C73_truncated_law",
    "Verif.Simple.C73_truncated_error",
    "Verif.Simple.C73_poisson_partial",
    "Verif.Simple.C73_negative_binomial_partial",
    "Verif.Simple.C73_geometric_partial",
    "Verif.Simple.C73_histogram",
    "Verif.Simple.C73_binomial_normal_support",
    "Verif.Simple.C73_binomial_normal_wrong",
    "Verif.Simple.C73_poisson_cap_wrong",
    "Verif.Simple.C73_geometric_cap_wrong",
    "Verif.Simple.C73_example",
    "Verif.Simple.C73_poisson_example",
    "Verif.Simple.C73_program_example"
   ],
   "note": "one-hot decisions, the law of the decisions, whole sampling programs, circuits (under the hypotheses of C14), Bernoulli, Categorical, Binomial (method simple), Hypergeometric and Histogram proved exactly; Poisson, Geometric and NegativeBinomial follow the law truncated at a cap, with the error bounded by the cut tail (C73_truncated_law, C73_truncated_error). FALSE: the default Binomial method is a rounded Normal (C73_binomial_normal_wrong), the caps 2048 and 1024 change the law for large means (C73_poisson_cap_wrong, C73_geometric_cap_wrong), and logits that are all minus infinity give NaN where ordinary sampling raises (C73_dead_is_nan). Idealised: real arithmetic, and the eps inside sample_gumbel is 0"
  },
  {
   "property": "C74",
   "status": "partial",
   "theorems": [
    "Verif.Apc.C74_posterior_le",
    "Verif.Apc.C74_not_posterior_kl",
    "Verif.Apc.C74_record_iff",
    "Verif.Apc.C74_weights",
    "Verif.Apc.C74_normal",
    "Verif.Apc.C74_normal_scale",
    "Verif.Apc.C74_redraw",
    "Verif.Apc.C74_bernoulli",
    "Verif.Apc.C74_binomial",
    "Verif.Apc.C74_categorical",
    "Verif.Apc.C74_categorical_exact",
    "Verif.Apc.C74_categorical_batch_size",
    "Verif.Apc.C74_categorical_other_batch",
    "Verif.Apc.C74_record",
    "Verif.Apc.C74_rejects",
    "Verif.Apc.C74_components",
    "Verif.Apc.C74_components_raises",
    "Verif.Apc.C74_zero_weight_unused",
    "Verif.Apc.C74_evaluate",
    "Verif.Apc.C74_evaluate_batch_size",
    "Verif.Apc.C74_empty_batch_nan",
    "Verif.Apc.C74_evaluate_empty",
    "Verif.Apc.C74_error_leaves_eval_mode",
    "Verif.Apc.C74_fit",
    "Verif.Apc.C74_generator_raises"
   ],
   "note": "divergence, mean, log-variance and mode of the routed components proved for Normal, Bernoulli, Binomial and Categorical leaves (probabilities moved into [eps, 1-eps]), objective, batching and history proved. FALSE: the documented exact posterior divergence is that of one routed component, an upper bound on average (C74_posterior_le, C74_not_posterior_kl); Categorical statistics raise when batch size, latent dimension and channels agree (C74_categorical_batch_size); with a temperature other than 1 the returned Normal latents have the wrong variance (C74_redraw); an empty batch makes the result NaN (C74_empty_batch_nan); an error leaves the model in evaluation mode (C74_error_leaves_eval_mode); a generator lasts one epoch (C74_generator_raises). Not modelled: gradients and the optimiser (an arbitrary step function), gradient clipping, float rounding"
  },
  {
   "property": "C75",
   "status": "partial",
   "theorems": [
    "Verif.Apc.C75_encode_partial",
    "Verif.Apc.C75_decode_partial",
    "Verif.Apc.C75_decode_keeps",
    "Verif.Apc.C75_prior_partial",
    "Verif.Apc.C75_constructor",
    "Verif.Apc.C75_rejects",
    "Verif.Apc.C75_shapes",
    "Verif.Apc.C75_densities",
    "Verif.Apc.C75_batch_mismatch"
   ],
   "note": "constructor, shapes, densities and laws proved; the laws are those of discrete leaves, for rows at which no leaf component is impossible (elsewhere NaN, see C68), the densities for leaves that are positive everywhere or depth 0. mpe=True and return_latent_stats=True (C74) are not part of it; the one-hot routing is that of C73 and C42"
  },
  {
   "property": "C76",
   "status": "partial",
   "theorems": [
    "Verif.Prometheus.C76_valid_partial",
    "Verif.Prometheus.C76_default_scope_partial",
    "Verif.Prometheus.C76_mixture",
    "Verif.Prometheus.C76_rejects",
    "Verif.Prometheus.C76_missing",
    "Verif.Prometheus.C76_constant_columns",
    "Verif.Prometheus.C76_unequal_channels_fail",
    "Verif.Prometheus.C76_uncovered_fails",
    "Verif.Prometheus.C76_uncovered_dropped",
    "Verif.Prometheus.Wit.C76_witness"
   ],
   "note": "proved for disjoint leaf templates of equal channel number that cover the scope; FALSE otherwise: unequal channel numbers raise (C76_unequal_channels_fail), uncovered variables raise or are dropped (C76_uncovered_fails, C76_uncovered_dropped). FALSE: clusters of one row and clusters whose affinities are all zero are left out and the weights renormalised; when that happens to all clusters the clustering is thrown away (C76_constant_columns)"
  },
  {
   "property": "C77",
   "status": "partial",
   "theorems": [
    "Verif.Inner.C77_triple_product",
    "Verif.Inner.C77_defined",
    "Verif.Inner.C77_symmetric",
    "Verif.Inner.C77_constructor",
    "Verif.Inner.C77_normalised",
    "Verif.Inner.C77_leaves",
    "Verif.Inner.C77_main",
    "Verif.Inner.C77_example",
    "Verif.Inner.C77_missing_is_wrong",
    "Verif.Inner.C77_marginalize_is_wrong"
   ],
   "note": "integrals, domain of definition, symmetry, constructor and normalisation proved for Bernoulli, (signed) Categorical, Uniform, Geometric, Normal and Binomial leaves (Hypergeometric and NegativeBinomial triples: see C90; Histogram and PiecewiseLinear triples are not modelled). FALSE: with missing entries log_likelihood is not the marginal (C77_missing_is_wrong) and marginalize does not give the marginal (C77_marginalize_is_wrong)."
  },
  {
   "property": "C78",
   "status": "partial",
   "theorems": [
    "Verif.Sos.C78_component",
    "Verif.Sos.C78_exp_constructor",
    "Verif.Sos.C78_exp_normalised",
    "Verif.Sos.C78_structured",
    "Verif.Sos.C78_seeds",
    "Verif.Sos.C78_exp_leaf_kinds",
    "Verif.Sos.C78_sos_constructor",
    "Verif.Sos.C78_sos_components",
    "Verif.Sos.C78_sos_normalised",
    "Verif.Sos.C78_fresh_nonneg",
    "Verif.Sos.C78_leaf_kinds",
    "Verif.Sos.C78_trees",
    "Verif.Sos.C78_regions",
    "Verif.Sos.C78_linear_mixed",
    "Verif.Sos.C78_binary_mixed",
    "Verif.Sos.C78_quad_not_mixed",
    "Verif.Sos.Wit.C78_default_region",
    "Verif.Sos.Wit.C78_three_variables",
    "Verif.Sos.Wit.C78_quad_mixed"
   ],
   "note": "region trees, components, normalisation and sharing proved in full. FALSE: the documented arguments are not enough; with different numbers of input and sum units the constructors raise ValueError whenever a tree node has both a leaf and an inner child (exact characterisation in C78_sos_constructor and C78_exp_constructor): linear trees from three variables on, random binary trees unless n is a power of two (C78_default_region), 3x3 quadtrees."
  },
  {
   "property": "C79",
   "status": "partial",
   "theorems": [
    "Verif.BuildSocs.C79_build",
    "Verif.BuildSocs.C79_density",
    "Verif.BuildSocs.C79_plain",
    "Verif.BuildSocs.C79_complex",
    "Verif.BuildSocs.C79_inner_products",
    "Verif.BuildSocs.C79_check",
    "Verif.BuildSocs.C79_check_leaves",
    "Verif.BuildSocs.C79_example",
    "Verif.BuildSocs.C79_gamma"
   ],
   "note": "proved in full for trees of Cat, Product, Sum, SignedSum and the twelve modelled leaf classes. FALSE for Gamma leaves: compatible components may lack inner products (C79_gamma). Not modelled: modules shared inside one circuit, RepetitionMixingLayer, CLTree."
  },
  {
   "property": "C80",
   "status": "partial",
   "theorems": [
    "Verif.Gd.C80_batches",
    "Verif.Gd.C80_training",
    "Verif.Gd.C80_losses_are_shared",
    "Verif.Gd.C80_rejected",
    "Verif.Gd.C80_empty_loaders",
    "Verif.Gd.C80_error_leaves_eval_mode",
    "Verif.Gd.C80_learning_rate",
    "Verif.Gd.C80_classification_loss",
    "Verif.Gd.C80_example"
   ],
   "note": "updates, scheduler steps, callbacks, mode, schedule and losses proved in full for well-formed non-empty loaders. FALSE: an empty validation loader, or verbose with an empty training loader, raises UnboundLocalError (C80_empty_loaders); an exception in validation leaves the model in evaluation mode (C80_error_leaves_eval_mode); epochs=1 trains with lr/100 (C80_learning_rate); the list given to callback_epoch is emptied and refilled in the next epoch (C80_losses_are_shared). Not modelled: the accuracy counters, which are only logged."
  },
  {
   "property": "C81",
   "status": "partial",
   "theorems": [
    "Verif.Sk.C81_learn_spn_partial",
    "Verif.Sk.C81_prometheus_partial",
    "Verif.Sk.C81_fit_rejects",
    "Verif.Sk.C81_failed_fit_leaves_model",
    "Verif.Sk.C81_generator",
    "Verif.Sk.C81_unseeded_repeats",
    "Verif.Sk.C81_sampling_law_partial",
    "Verif.Sk.C81_learn_example",
    "Verif.Sk.C81_example",
    "Verif.Sk.C81_samples_first_channel",
    "Verif.Sk.C81_logsumexp_not_normalised",
    "Verif.Sk.C81_shapes",
    "Verif.Sk.C81_score",
    "Verif.Sk.C81_single",
    "Verif.Sk.C81_unknown_reduction",
    "Verif.Sk.C81_missing",
    "Verif.Sk.C81_normalised_partial",
    "Verif.Sk.C81_vector",
    "Verif.Sk.C81_axes"
   ],
   "note": "scores, missing values, normalisation for first and logmeanexp, both learners, sampling law for one channel or first, and the generator proved. FALSE: logsumexp multiplies the mass by the number of channels and of repetitions (C81_normalised_partial, C81_logsumexp_not_normalised); with several channels samples follow the first channel, not the scored mixture (C81_samples_first_channel); without a seed a second sample call returns the same samples (C81_unseeded_repeats); a fit that raises because the model has no maximum likelihood estimation leaves the estimator fitted (C81_failed_fit_leaves_model); an unknown reduction is only rejected if there is something to reduce (C81_unknown_reduction). Assumed of the learners: what C31 and C76 assume of their callables."
  },
  {
   "property": "C82",
   "status": "partial",
   "theorems": [
    "Verif.Qpc.C82_density",
    "Verif.Qpc.C82_out_of_support",
    "Verif.Qpc.C82_constructor",
    "Verif.Qpc.C82_semantics",
    "Verif.Qpc.C82_fails"
   ],
   "note": "constructor, recursion over the region graph and normalisation proved for one class. FALSE: a configuration with num_classes other than 1 is accepted and then fails at every evaluation (C82_fails, C82_classes_never_work); a root without partitions fails unless the rule has one point (C82_fails); categorical leaves clamp, so impossible values get the probability of a category (C82_out_of_support). Networks are arbitrary functions (outputs before softplus); NaN, -inf leaf values and floating-point rounding are not modelled; quadrature weights must be positive."
  },
  {
   "property": "C83",
   "status": "partial",
   "theorems": [
    "Verif.Image.C83_marginalize_partial",
    "Verif.Image.C83_marginalize_sizes",
    "Verif.Image.C83_marginalize_unusable",
    "Verif.Image.C83_marginalize_last",
    "Verif.Image.C83_formats",
    "Verif.Image.C83_constructor",
    "Verif.Image.C83_log_likelihood",
    "Verif.Image.C83_normalised_partial",
    "Verif.Image.C83_sampling_partial",
    "Verif.Image.C83_example",
    "Verif.Image.C83_marginalize_wrong_pixel",
    "Verif.Image.C83_sample_accepts_transposed",
    "Verif.Image.C83_sample_count",
    "Verif.Image.C83_sample_unconditional"
   ],
   "note": "constructor, formats, log-likelihood, normalisation and conditional sampling proved. FALSE: the wrapper returned by marginalize has the right sizes but its module still reads the columns of the large image, so every tensor raises IndexError unless the removed pixels are the last ones (C83_marginalize_unusable; C83_marginalize_last for the good case); with a scope in another order the wrong pixel is integrated out (C83_marginalize_wrong_pixel); sample accepts a tensor with height and width exchanged (C83_sample_accepts_transposed). The sampling laws are those of the circuit sampler (C14), in distribution."
  },
  {
   "property": "C84",
   "status": "partial",
   "theorems": [
    "Verif.TL.C84_tucker_prob",
    "Verif.TL.C84_collapsed_prob",
    "Verif.TL.C84_shared_prob",
    "Verif.TL.C84_uncollapsed_prob",
    "Verif.TL.C84_mixing_prob",
    "Verif.TL.C84_collapsed_density",
    "Verif.TL.C84_tucker_density",
    "Verif.TL.C84_mixing_density",
    "Verif.TL.C84_tucker",
    "Verif.TL.C84_collapsed",
    "Verif.TL.C84_shared",
    "Verif.TL.C84_uncollapsed",
    "Verif.TL.C84_mixing",
    "Verif.TL.C84_accepts",
    "Verif.TL.C84_constructors",
    "Verif.TL.C84_factory",
    "Verif.TL.C84_mixing_initial",
    "Verif.TL.C84_shared_is_collapsed",
    "Verif.TL.C84_cp_is_tucker",
    "Verif.TL.C84_impossible_is_nan",
    "Verif.TL.C84_tucker_ignores",
    "Verif.TL.C84_masked_child",
    "Verif.TL.C84_shared_drops_mask",
    "Verif.TL.C84_masked_mixing",
    "Verif.TL.C84_example",
    "Verif.TL.C84_num_params"
   ],
   "note": "values on every input of the documented shape, accepted shapes, constructors, integrals and relations proved. FALSE: a child whose units all have probability zero gives NaN, not -inf (C84_impossible_is_nan); in the uncollapsed layer a masked child that is impossible or NaN makes the output NaN (C84_masked_child, C84_uncollapsed); the shared layer drops the mask (C84_shared_drops_mask); a Tucker layer ignores children after the second (C84_tucker_ignores); sizes of one are repeated instead of rejected (C84_accepts); a new mixing layer with a mask is not normalised over the children that take part (C84_masked_mixing). Rounding and +inf are not modelled; values are given for inputs of the documented shape."
  },
  {
   "property": "C85",
   "status": "partial",
   "theorems": [
    "Verif.JEnc.C85_rejects_arguments",
    "Verif.JEnc.C85_rejects_leaves",
    "Verif.JEnc.C85_rejects_odd_width",
    "Verif.JEnc.C85_rejects_channels",
    "Verif.JEnc.C85_rejects_shapes",
    "Verif.JEnc.C85_permutation_ignored",
    "Verif.JEnc.C85_samples_without_permutation",
    "Verif.JEnc.C85_constructor",
    "Verif.JEnc.C85_densities",
    "Verif.JEnc.C85_encode_partial",
    "Verif.JEnc.C85_decode_partial",
    "Verif.JEnc.C85_prior_partial"
   ],
   "note": "constructor, densities, marginal and total mass proved for all architectures. FALSE: with permute_latents=True and a latent stream that already has the fusion width, sampling ignores the permutation that log_likelihood applies, so encode/decode/prior sample a different model (C85_permutation_ignored, C85_samples_without_permutation). Only square one-channel images build; others raise ValueError (C85_rejects_shapes); a latent width that cannot be halved to the fusion width raises (C85_rejects_odd_width); latent_depth 0 with another number of leaf channels raises ShapeError, not InvalidParameterError (C85_rejects_channels). The sampling laws (C85_encode_partial, C85_decode_partial, C85_prior_partial) need tilings without padding, the permutation not ignored, and evidence that no leaf component excludes; MPE decoding is not covered."
  },
  {
   "property": "C86",
   "status": "partial",
   "theorems": [
    "Verif.Fs.C86_materialize",
    "Verif.Fs.C86_same_as_ungrouped",
    "Verif.Fs.C86_f_materialize",
    "Verif.Fs.Wit.C86_example",
    "Verif.Fs.C86_broadcast",
    "Verif.Fs.C86_new",
    "Verif.Fs.C86_indices",
    "Verif.Fs.C86_evaluate",
    "Verif.Fs.C86_function",
    "Verif.Fs.C86_first",
    "Verif.Fs.C86_stable",
    "Verif.Fs.C86_pointwise",
    "Verif.Fs.C86_empty",
    "Verif.Fs.C86_rejects",
    "Verif.Fs.C86_late_unit",
    "Verif.Fs.C86_refinalize",
    "Verif.Fs.C86_multi"
   ],
   "note": "constructor, indices, values, shapes, stability over histories and materialisation of c groups proved. FALSE: an f group with two or more units cannot be materialised, the second unit raises an IndexError (C86_f_materialize); a unit added after the first evaluation has no function until finalize is called (C86_late_unit), and finalize then replaces the functions of all units by new random ones (C86_refinalize, Wit.C86_example); a group without units raises an AssertionError (C86_empty). Rounding is not modelled; activation is the default SiLU."
  },
  {
   "property": "C87",
   "status": "partial",
   "theorems": [
    "Verif.IpMemo.C87_triple_memo",
    "Verif.IpMemo.C87_triple_stored",
    "Verif.IpMemo.C87_memo",
    "Verif.IpMemo.C87_stored",
    "Verif.IpMemo.C87_hit",
    "Verif.IpMemo.Wit.C87_example",
    "Verif.IpMemo.Wit.C87_triple_example",
    "Verif.IpMemo.Wit.C87_stale_is_wrong",
    "Verif.IpMemo.Wit.C87_stale_no_error",
    "Verif.IpMemo.Wit.C87_laplace_is_wrong"
   ],
   "note": "C87_memo proves it for all histories on modules that keep identity and parameters, for well-formed circuits with leaf parameters in their domains and Laplace scales that are equal or clearly different. FALSE otherwise: the memo knows modules only by id(), so after a parameter update, or when Python reuses the identity of a deleted module, the old tensor is returned (Wit.C87_stale_is_wrong), even where an error is due (Wit.C87_stale_no_error); for Laplace scales at the border of torch.isclose, which is not symmetric, the answer depends on which order was asked first (Wit.C87_laplace_is_wrong). C87_triple_memo proves the same for triple products and ExpSOCS log-partitions. Rounding is not modelled."
  },
  {
   "property": "C88",
   "status": "partial",
   "theorems": [
    "Verif.Dec.C88_mlp_accepts",
    "Verif.Dec.C88_mlp",
    "Verif.Dec.C88_mlp_rows",
    "Verif.Dec.C88_conv_accepts",
    "Verif.Dec.C88_conv",
    "Verif.Dec.C88_conv_rows",
    "Verif.Dec.C88_neural_accepts",
    "Verif.Dec.C88_neural",
    "Verif.Dec.C88_neural_rows",
    "Verif.Dec.C88_single_row_training",
    "Verif.Dec.C88_skip_is_rectified",
    "Verif.Dec.C88_conv_overshoot",
    "Verif.Dec.Wit.C88_example",
    "Verif.Dec.Wit.C88_example_rows",
    "Verif.Dec.Wit.C88_rows_false_in_training",
    "Verif.Dec.Wit.C88_training_couples"
   ],
   "note": "Acceptance, shapes and ranges are proved for all three decoders (C88_*_accepts, C88_mlp, C88_conv, C88_neural), row independence for the first two and for NeuralDecoder2D outside training mode with batch norm (C88_*_rows). FALSE of NeuralDecoder2D in training mode with batch norm, its default: the rows are coupled (Wit.C88_rows_false_in_training; Wit.C88_training_couples shows how, at the batch-norm layer), and a single latent raises ValueError when the first feature map is one pixel (C88_single_row_training). Arguments are integers; dtypes, rounding and the update of the running statistics are not modelled."
  },
  {
   "property": "C89",
   "status": "partial",
   "theorems": [
    "Verif.LeafFit.C89_positive",
    "Verif.LeafFit.C89_moments",
    "Verif.LeafFit.C89_rate_maximises",
    "Verif.LeafFit.C89_corrected",
    "Verif.LeafFit.C89_rate_collapses",
    "Verif.LeafFit.C89_zero_row",
    "Verif.LeafFit.C89_constant_rows",
    "Verif.LeafFit.C89_distribution",
    "Verif.LeafFit.C89_unique",
    "Verif.LeafFit.C89_corrected_unclamped",
    "Verif.LeafFit.C89_not_maximiser",
    "Verif.LeafFit.Wit.C89_example",
    "Verif.LeafFit.Wit.C89_two_channels"
   ],
   "note": "Proved: both parameters are always positive, possibly +inf (C89_positive); without bias correction the fitted distribution has the weighted mean and the weighted covariance of x and ln x of the rows (C89_moments, C89_distribution), and the fitted rate maximises the likelihood for the fitted concentration (C89_rate_maximises); the two moments determine the pair (C89_unique); the corrected pair (C89_corrected, without clamping from 3 F C R rows on: C89_corrected_unclamped). FALSE: the pair is not the maximum of the likelihood (C89_not_maximiser); the correction uses N / (F C R) for the number of rows, so with the default weights a leaf with F C R >= N gets the rate 1e-8 (C89_rate_collapses, Wit.C89_two_channels); equal rows give an infinite rate (C89_constant_rows); one row with the value 0 sets both parameters to 1e-8 (C89_zero_row). Exact reals; rounding is not modelled."
  },
  {
   "property": "C90",
   "status": "partial",
   "theorems": [
    "Verif.Count.C90_hyper_lik",
    "Verif.Count.C90_hyper_normalised",
    "Verif.Count.C90_hyper_inner",
    "Verif.Count.C90_hyper_triple",
    "Verif.Count.C90_hyper_self_raises",
    "Verif.Count.Wit.C90_example_raises",
    "Verif.Count.Wit.C90_hyper_close_is_wrong",
    "Verif.Count.Wit.C90_example",
    "Verif.Count.C90_hyper_mode",
    "Verif.Count.C90_hyper_mode_support",
    "Verif.Count.C90_nb_truncated",
    "Verif.Count.C90_nb_underestimates",
    "Verif.Count.C90_nb_error",
    "Verif.Count.C90_nb_normalised",
    "Verif.Count.Wit.C90_nb_half",
    "Verif.Count.Wit.C90_nb_example"
   ],
   "note": "Proved: the likelihood of Hypergeometric cells (C90_hyper_lik, C90_hyper_normalised) and its mode (C90_hyper_mode, C90_hyper_mode_support), their inner and triple products for one population size (C90_hyper_inner, C90_hyper_triple), the total mass of NegativeBinomial cells with a whole number of failures (C90_nb_normalised), what the truncated series of NegativeBinomial cells returns (C90_nb_truncated) and its error when it is left early and the terms decrease (C90_nb_error). FALSE: a leaf whose channels have different population sizes cannot be multiplied with itself (C90_hyper_self_raises, Wit.C90_example_raises); population sizes within 1e-5 are identified and the product can be 0 instead of 1 (Wit.C90_hyper_close_is_wrong); products of NegativeBinomial cells are always below the exact value (C90_nb_underestimates) and, with success probabilities near one, less than half of it, since at most 4097 terms are added (Wit.C90_nb_half). Clamped NegativeBinomial cells and rounding are not covered."
  }
 ]
}