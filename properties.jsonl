{"id": "C01", "title": "Scopes are always well formed", "statement": "Every Scope a user can obtain - from the constructor, join, join_all, remove_from_query, copy or as_scope - has non-negative, duplicate-free query and evidence sets that are disjoint, and no evidence without a query; the constructor rejects exactly the inputs that violate this.", "quantifier": "all lists of integers given as query/evidence and all finite sequences of scope operations on the results", "why_tests_cant": "the space of integer lists and operation sequences is infinite; tests try a handful of literals", "anchors": ["spflow/meta/data/scope.py: Scope.__init__, join, join_all, remove_from_query, copy, as_scope"]}
{"id": "C02", "title": "Scope join is a union that does not depend on order", "statement": "join returns a scope whose query is the union of the queries and whose evidence is the union of the evidences minus that query; up to == it is commutative, associative and idempotent, so join_all of any reordering of a list gives an equal scope.", "quantifier": "all scopes, all finite lists of scopes and all permutations of them", "why_tests_cant": "permutations of arbitrary-length lists cannot be enumerated", "anchors": ["spflow/meta/data/scope.py: Scope.join, Scope.join_all"]}
{"id": "C03", "title": "all_pairwise_disjoint and all_equal decide exactly what they say", "statement": "Scope.all_pairwise_disjoint(list) returns True iff every two scopes at different positions have disjoint queries; Scope.all_equal(list) returns True iff every two scopes in the list are ==.", "quantifier": "all finite lists of scopes", "why_tests_cant": "the code folds an accumulator; only an induction shows the fold equals the pairwise definition for every length", "anchors": ["spflow/meta/data/scope.py: Scope.all_pairwise_disjoint, Scope.all_equal, Scope.isdisjoint"]}
{"id": "C04", "title": "Equal scopes hash equally", "statement": "Scope can be used as a dict key: == is an equivalence relation and a == b implies hash(a) == hash(b).", "quantifier": "all pairs of scopes", "why_tests_cant": "the contract ranges over all pairs, including pairs with the same variables in another order", "anchors": ["spflow/meta/data/scope.py: Scope.__eq__, frozen dataclass __hash__"]}
{"id": "C05", "title": "Region graphs only hold valid partitions and are traversed bottom-up once", "statement": "Region.add_partition accepts exactly partitions whose parts are pairwise disjoint and jointly cover the region; post_order yields every reachable region exactly once and each region after all regions of its partitions.", "quantifier": "all finite region DAGs (with sharing) and all sequences of add_partition", "why_tests_cant": "arbitrary DAG shapes with shared regions", "anchors": ["spflow/meta/region_graph.py: Region.add_partition, RegionGraph.post_order, RegionGraph.regions"]}
{"id": "C06", "title": "The per-traversal cache is transparent and evaluates shared nodes once", "statement": "Calling a @cached method with a fresh Cache on any module DAG returns exactly the uncached result, calls the underlying method at most once per module, and leaves previously stored entries unchanged. Reusing the same Cache for different data returns the old result (documented hazard).", "quantifier": "all module DAGs, all sharing patterns, all data", "why_tests_cant": "sharing patterns are unbounded", "anchors": ["spflow/utils/cache.py: Cache, cached"]}
{"id": "C07", "title": "replace() always restores the original method", "statement": "After leaving a `with replace(...)` block - normally or by an exception, at any nesting depth and with any other replacements active - every class attribute is what it was before the block.", "quantifier": "all well-nested sequences of replace blocks, bodies and exceptions", "why_tests_cant": "nesting depth, order and the place an exception is raised are unbounded", "anchors": ["spflow/utils/replace.py: replace"]}
{"id": "C08", "title": "Sum weights are always a convex combination and survive set/get", "statement": "Whatever logits a Sum holds, reading .weights gives strictly positive numbers that sum to one over the input channels; assigning weights that are positive and sum to one and reading them back returns the same weights; assigning anything else is rejected.", "quantifier": "all weight shapes, all real logits, all assigned weight tensors", "why_tests_cant": "a continuum of parameter values", "anchors": ["spflow/modules/sums/sum.py: Sum.weights (getter/setter), Sum.log_weights", "spflow/utils/projections.py: proj_convex_to_real, proj_real_to_convex"]}
{"id": "C09", "title": "log_likelihood computes the mixture/product semantics of the circuit", "statement": "exp(log_likelihood) of a circuit of leaves, Cat, Product and Sum equals the value obtained by reading Sum as convex combination, Product as product over features and Cat as concatenation, including inputs of probability zero (-inf) - the max-shifted logsumexp never changes the value.", "quantifier": "all circuits, all data rows, all parameter values", "why_tests_cant": "unbounded circuit depth/width and real-valued parameters", "anchors": ["spflow/modules/sums/sum.py: Sum.log_likelihood", "spflow/modules/products/product.py: Product.log_likelihood", "spflow/modules/ops/cat.py: Cat.log_likelihood", "spflow/modules/module.py: Module.probability"]}
{"id": "C10", "title": "Every accepted circuit is a normalised distribution", "statement": "For every module the constructors accept, each output feature/channel integrates to one over the variables of its scope.", "quantifier": "all circuits accepted by the Leaf/Cat/Product/Sum constructors with normalised leaves", "why_tests_cant": "no test can integrate over every structure and parameter setting", "anchors": ["spflow/modules/ops/cat.py: Cat.__init__", "spflow/modules/sums/sum.py: Sum.__init__", "spflow/modules/products/product.py: Product.__init__"]}
{"id": "C11", "title": "NaN means integrate out", "statement": "Evaluating a circuit with NaN in some columns gives the exact integral (sum) of the likelihood over those variables with the other columns fixed.", "quantifier": "all circuits, all rows, all subsets of missing columns, all leaf families with normalised density", "why_tests_cant": "subset of columns x structure x continuous domain", "anchors": ["spflow/modules/leaves/leaf.py: LeafModule.log_likelihood", "spflow/modules/sums/sum.py", "spflow/modules/products/product.py", "spflow/modules/ops/cat.py"]}
{"id": "C12", "title": "Structural marginalize agrees with NaN evaluation", "statement": "module.marginalize(rvs) returns None iff every query variable is marginalised; otherwise it returns a module over the remaining variables whose likelihood on any row equals the likelihood of the original module with the marginalised columns set to NaN, with or without pruning.", "quantifier": "all circuits, all lists of variables, both values of prune, all rows", "why_tests_cant": "structure x subset x data", "anchors": ["spflow/modules/sums/sum.py: Sum.marginalize", "spflow/modules/products/product.py: Product.marginalize", "spflow/modules/ops/cat.py: Cat.marginalize", "spflow/modules/leaves/leaf.py: LeafModule.marginalize"]}
{"id": "C13", "title": "Sampling never changes evidence and fills every missing cell", "statement": "sample(data=...) leaves every non-NaN cell and every out-of-scope cell unchanged, and every NaN cell of a variable in the circuit's scope holds a drawn value afterwards, whatever random choices are made.", "quantifier": "all circuits, all evidence patterns, all outcomes of the random generator", "why_tests_cant": "tests observe a few seeds; the claim is for every random outcome", "anchors": ["spflow/modules/leaves/leaf.py: LeafModule._sample", "spflow/modules/sums/sum.py: Sum._sample", "spflow/modules/products/product.py: Product._sample", "spflow/modules/ops/cat.py: Cat._sample"]}
{"id": "C14", "title": "sample_with_evidence draws from the exact conditional distribution", "statement": "For discrete leaves and evidence of positive probability, the probability that sample_with_evidence returns a completion x of the evidence e is p(x)/p(e).", "quantifier": "all circuits, all evidence rows, all completions", "why_tests_cant": "a distributional statement: tests can only estimate frequencies", "anchors": ["spflow/modules/module.py: Module.sample_with_evidence", "spflow/modules/sums/sum.py: Sum._sample", "spflow/modules/leaves/leaf.py: LeafModule._sample"]}
{"id": "C15", "title": "mpe returns a most probable completion", "statement": "mpe(data) returns a completion of the evidence whose likelihood is at least that of every other completion.", "quantifier": "all circuits and all evidence rows", "why_tests_cant": "the claim compares with every completion", "anchors": ["spflow/modules/module.py: Module.mpe", "spflow/modules/sums/sum.py: Sum._sample (is_mpe)"]}
{"id": "C16", "title": "Channel routing through Cat gives every position exactly one owner", "statement": "When sampling through Cat(dim=2), each (row, feature) whose mask is set is handed to exactly one child, with a local channel in range such that offset + local = requested channel; no other child is active there; an out-of-range channel raises instead of being dropped. Cat(dim=1) hands each feature to exactly one child at its own position.", "quantifier": "all child counts, channel counts, widths, index tensors and masks", "why_tests_cant": "unbounded shapes and index values", "anchors": ["spflow/utils/sampling_context.py: SamplingContext.route_channel_offsets, slice_feature_ranges", "spflow/modules/ops/cat.py: Cat._sample"]}
{"id": "C17", "title": "Splitting then merging features is the identity", "statement": "For SplitConsecutive, SplitInterleaved and SplitByIndex, merging the per-split tensors of log_likelihood by the inverse used in sampling restores every feature to its place: each feature appears in exactly one split.", "quantifier": "all feature counts, split counts dividing them, and all index partitions", "why_tests_cant": "unbounded sizes and arbitrary index partitions", "anchors": ["spflow/modules/ops/split_consecutive.py", "spflow/modules/ops/split_interleaved.py", "spflow/modules/ops/split_by_index.py"]}
{"id": "C18", "title": "Reported feature scopes match the features that are actually multiplied", "statement": "For every product over a split, output feature f reports (feature_to_scope) exactly the variables of the input features multiplied by log_likelihood into f.", "quantifier": "all feature counts, split counts and split kinds", "why_tests_cant": "for every size; sizes 2/2 hide the error", "anchors": ["spflow/modules/ops/split_consecutive.py: feature_to_scope", "spflow/modules/ops/split_interleaved.py: feature_to_scope", "spflow/modules/products/base_product.py: feature_to_scope", "spflow/modules/einsum/einsum_layer.py: feature_to_scope"]}
{"id": "C19", "title": "OuterProduct sampling unravels the channel that log_likelihood built", "statement": "Output channel o of an OuterProduct is the product of input channels unravel(o); unravel is a bijection between output channels and tuples of input channels, and sampling from o routes exactly that tuple.", "quantifier": "all numbers of inputs and channel counts", "why_tests_cant": "mixed-radix arithmetic of unbounded length", "anchors": ["spflow/modules/products/outer_product.py: log_likelihood, map_out_channels_to_in_channels", "spflow/modules/products/base_product.py"]}
{"id": "C20", "title": "Factorize partitions the input features in every repetition", "statement": "For every permutation drawn, each input feature belongs to exactly one output group, all groups are non-empty and sizes differ by at most one; too few features raises StructureError; hence the factorised product is decomposable.", "quantifier": "all feature counts, depths, repetition counts and permutations", "why_tests_cant": "all n! permutations", "anchors": ["spflow/modules/rat/factorize.py: Factorize._factorize, log_likelihood"]}
{"id": "C21", "title": "EinsumLayer computes the dense bilinear mixture", "statement": "EinsumLayer.log_likelihood equals log sum_{i,j} w_{ij} exp(left_i + right_j) for every input including -inf entries, whichever contraction path is used, and its weights are normalised over (i,j).", "quantifier": "all channel counts, weights and inputs", "why_tests_cant": "real-valued inputs, unbounded shapes", "anchors": ["spflow/modules/einsum/einsum_layer.py: EinsumLayer.log_likelihood, weights"]}
{"id": "C22", "title": "Einsum sampling masks and scopes follow the split that was used", "statement": "With a single-input EinsumLayer, the features masked/routed while sampling output feature f are exactly the two input features multiplied into f.", "quantifier": "all even feature counts, all split kinds, all masks", "why_tests_cant": "needs all masks and sizes", "anchors": ["spflow/modules/einsum/einsum_layer.py: _sample, feature_to_scope"]}
{"id": "C23", "title": "CLTree log-likelihood is the exact tree marginal", "statement": "For any valid tree and CPTs, the likelihood returned for a row with missing entries equals the sum over all completions of the product of conditional probabilities; the fast path for complete rows agrees; the distribution sums to one.", "quantifier": "all trees (any number of features), all category counts, all CPTs, all missing patterns", "why_tests_cant": "exponentially many completions, all trees", "anchors": ["spflow/modules/leaves/cltree.py: CLTree.log_likelihood / _upward messages"]}
{"id": "C24", "title": "CLTree MPE is optimal", "statement": "CLTree MPE returns a completion of the evidence with maximal joint probability.", "quantifier": "all trees, CPTs, evidence patterns", "why_tests_cant": "compares with exponentially many completions", "anchors": ["spflow/modules/leaves/cltree.py: mpe/backpointers"]}
{"id": "C25", "title": "CLTree accepts only trees", "statement": "Every parents vector accepted by CLTree is a rooted tree, and the computed pre-order lists every node once, parents first; post-order is its reverse.", "quantifier": "all integer parent vectors", "why_tests_cant": "arbitrary functional graphs", "anchors": ["spflow/modules/leaves/cltree.py: _compute_orders_from_parents"]}
{"id": "C26", "title": "Chow-Liu structure learning returns an optimal spanning tree", "statement": "The tree built from a mutual-information matrix is a spanning tree and no other spanning tree has larger total weight.", "quantifier": "all symmetric weight matrices of any size (ties included)", "why_tests_cant": "n^(n-2) competitors", "anchors": ["spflow/modules/leaves/cltree.py: _prim_maximum_spanning_tree", "spflow/zoo/hclt/topk_mst.py: mst_kruskal"]}
{"id": "C27", "title": "top-k spanning trees are distinct, valid and in order", "statement": "topk_mst(w,k) returns pairwise different spanning trees in non-decreasing cost, the first is a minimum one, and returns fewer than k only if fewer exist.", "quantifier": "all weight matrices, all k", "why_tests_cant": "exponentially many trees", "anchors": ["spflow/zoo/hclt/topk_mst.py: topk_mst, mst_with_constraints"]}
{"id": "C28", "title": "An EM step never decreases the training likelihood", "statement": "With leaf parameters fixed, one expectation-maximisation step on the weights of all Sum nodes of a circuit does not decrease the total log-likelihood of the batch, and leaves the weights normalised.", "quantifier": "all circuits, all weights, all batches of positive likelihood", "why_tests_cant": "an inequality over a continuum of parameters", "anchors": ["spflow/modules/sums/sum.py: Sum._expectation_maximization_step", "spflow/learn/expectation_maximization.py"]}
{"id": "C29", "title": "The EM driver terminates and reports the history it ran", "statement": "expectation_maximization performs at most max_steps iterations, returns one average log-likelihood per performed iteration, and stops at the first iteration whose average did not improve on the previous one.", "quantifier": "all models (step functions) and all step limits", "why_tests_cant": "arbitrary sequences of likelihood values", "anchors": ["spflow/learn/expectation_maximization.py: expectation_maximization"]}
{"id": "C30", "title": "prune_sums preserves the distribution", "statement": "Replacing a Sum over Sums by one flat Sum in learn_spn leaves every likelihood unchanged.", "quantifier": "all nested sums, all weights, all channel counts", "why_tests_cant": "arbitrary channel counts and weights", "anchors": ["spflow/learn/learn_spn.py: prune_sums"]}
{"id": "C31", "title": "learn_spn always builds a valid circuit over exactly the requested variables", "statement": "For every behaviour of the clustering and independence tests, learn_spn terminates and returns a smooth, decomposable circuit whose scope is exactly the requested scope, with sum weights equal to cluster fractions summing to one.", "quantifier": "all data sizes, all clustering and partitioning oracles", "why_tests_cant": "all oracles: an unbounded schedule", "anchors": ["spflow/learn/learn_spn.py: learn_spn, cluster_by_kmeans, partition_by_rdc"]}
{"id": "C32", "title": "Prometheus partitions are disjoint covers, nested and increasing", "statement": "The k-th partition derived from the maximum spanning tree consists of pairwise disjoint, non-empty variable groups that cover the scope, has exactly one more group than the previous one, and refines it. The partitions are the single-linkage clusterings: for every threshold the groups connected by affinities above it are among them, and with pairwise different affinities every partition is of this form. The corr affinity is the absolute Pearson correlation. Missing values raise.", "quantifier": "all data, dependency matrices, sampled edges and scope sizes", "why_tests_cant": "all matrices", "anchors": ["spflow/learn/prometheus.py"]}
{"id": "C33", "title": "CNet learning yields a normalised deterministic circuit", "statement": "For every dataset, split oracle and smoothing, the learned cutset network is a normalised distribution over the scope and never raises.", "quantifier": "all datasets and split choices", "why_tests_cant": "includes datasets with empty branches at any depth", "anchors": ["spflow/learn/cnet.py"]}
{"id": "C34", "title": "Signed log-space arithmetic refines real arithmetic", "statement": "signed_logsumexp / SignedSum evaluate a signed linear combination: sign*exp(logabs) of the result equals the real sum, for all signs including zero and complete cancellation.", "quantifier": "all finite lists of signed log values", "why_tests_cant": "continuum, cancellation", "anchors": ["spflow/utils/signed_semiring.py: signed_logsumexp", "spflow/modules/sums/signed_sum.py"]}
{"id": "C35", "title": "inner_product_matrix is the integral of the product of two circuits", "statement": "inner_product_matrix(a,b)[f,i,j,r] equals the sum/integral over the scope of feature f of a_i*b_j for all compatible circuits, so log_self_inner_product is log of the integral of the square, and SOCS likelihoods integrate to one.", "quantifier": "all pairs of compatible circuits and parameters", "why_tests_cant": "structure x parameters", "anchors": ["spflow/utils/inner_product_core.py: inner_product_matrix, leaf_inner_product, triple_product_tensor", "spflow/modules/sos/socs.py"]}
{"id": "C36", "title": "Interval evidence gives the probability of the box", "statement": "log_likelihood(IntervalEvidence(low,high)) equals the probability that every variable lies in [low,high], NaN bounds meaning unbounded.", "quantifier": "all circuits, all boxes", "why_tests_cant": "continuum of boxes", "anchors": ["spflow/modules/leaves/leaf.py: _log_likelihood_interval", "spflow/modules/leaves/bernoulli.py", "spflow/modules/leaves/categorical.py", "spflow/modules/leaves/uniform.py", "spflow/meta/data/interval_evidence.py"]}
{"id": "C37", "title": "Histogram density is a proper density and mpe picks a densest bin", "statement": "The Histogram leaf assigns each value in the support the density of the unique bin containing it, integrates to one, is -inf outside, and mpe returns a point of maximal density.", "quantifier": "all edge vectors and bin probabilities, all values", "why_tests_cant": "continuum and bin boundaries", "anchors": ["spflow/modules/leaves/histogram.py: HistogramDist.log_prob, mode"]}
{"id": "C38", "title": "Parameter projections are mutually inverse", "statement": "proj_real_to_bounded(proj_bounded_to_real(x)) = x inside the bounds for every combination of bounds, the image of the former always lies strictly inside the bounds, and proj_real_to_convex(proj_convex_to_real(w)) = w on the simplex.", "quantifier": "all reals and all bounds", "why_tests_cant": "continuum", "anchors": ["spflow/utils/projections.py"]}
{"id": "C39", "title": "DSL expressions denote what the algebra says", "statement": "Building an expression yields the circuit whose density is the product of factors / the weight-normalised mixture of terms; grouping of '+' and '*' does not matter; an expression is rejected iff scopes/shapes are incompatible; dsl() restores the operators on exit.", "quantifier": "all expressions", "why_tests_cant": "unbounded expression trees", "anchors": ["spflow/dsl.py"]}
{"id": "C40", "title": "Exact information measures satisfy their laws", "statement": "conditional_probability over all values of a discrete target sums to one; exact entropy of a discrete circuit is non-negative; exact mutual_information equals H(X)+H(Y)-H(X,Y), is symmetric and non-negative.", "quantifier": "all discrete circuits, scopes and evidence", "why_tests_cant": "inequalities over a continuum", "anchors": ["spflow/measures/weight_of_evidence.py: conditional_probability", "spflow/measures/information_theory.py: entropy, mutual_information"]}
{"id": "C41", "title": "predict_proba is the Bayes posterior", "statement": "For multi-class RatSPN/NaiveBayes, predict_proba rows are non-negative, sum to one and equal prior*likelihood/evidence; predict returns a maximiser; SPFlowClassifier maps it to the right label.", "quantifier": "all class counts, priors and likelihoods, all label sets", "why_tests_cant": "continuum; arbitrary label sets", "anchors": ["spflow/utils/inference.py: log_posterior", "spflow/zoo/rat/rat_spn.py: log_posterior", "spflow/interfaces/classifier.py", "spflow/interfaces/sklearn.py: SPFlowClassifier"]}
{"id": "C42", "title": "One-hot (differentiable) routing equals integer routing", "statement": "Indexing a tensor with a one-hot channel/repetition index gives the same result as integer gather, and to_one_hot/argmax are inverse.", "quantifier": "all sizes, indices and tensors", "why_tests_cant": "unbounded sizes", "anchors": ["spflow/utils/sampling_context.py: index_one_hot, index_tensor, to_one_hot"]}
{"id": "C43", "title": "Convolutional products pool and upsample the same patches", "statement": "In ProdConv each input pixel is multiplied into exactly one output pixel, the one whose reported scope contains it, and sampling routes that output's channel back to it, for every kernel size and padding.", "quantifier": "all image sizes, kernels and paddings", "why_tests_cant": "all sizes/paddings; tests use unpadded squares", "anchors": ["spflow/modules/conv/prod_conv.py", "spflow/modules/conv/utils.py: upsample_sampling_context"]}
{"id": "C44", "title": "RepetitionMixingLayer accepts and keeps repetition-normalised weights", "statement": "Weights that are positive and sum to one over repetitions can be passed to RepetitionMixingLayer and are read back unchanged.", "quantifier": "all weight tensors", "why_tests_cant": "continuum", "anchors": ["spflow/modules/sums/repetition_mixing_layer.py"]}
{"id": "C45", "title": "RAT-SPN conditional sampling conditions the class as well", "statement": "RatSPN.sample_with_evidence draws from the conditional distribution of the modelled joint given the evidence, also when n_root_nodes > 1.", "quantifier": "all RAT-SPNs and evidence rows", "why_tests_cant": "distributional", "anchors": ["spflow/zoo/rat/rat_spn.py: RatSPN.sample, _sample"]}
{"id": "C46", "title": "Leaf sampling writes the column of its own variable", "statement": "A leaf's sample for variable v is written to v's column, whichever data width is supplied.", "quantifier": "all scopes and data widths", "why_tests_cant": "all scopes", "anchors": ["spflow/modules/leaves/leaf.py: _resolve_scope_columns"]}
{"id": "C47", "title": "Leaf samples lie in the support", "statement": "Values drawn by Hypergeometric leaves always lie in the leaf's own support.", "quantifier": "all parameter tensors and all permutations drawn", "why_tests_cant": "all permutations", "anchors": ["spflow/modules/leaves/hypergeometric.py: _HypergeometricDistribution.sample"]}
{"id": "C48", "title": "Maximum-likelihood estimates of discrete leaves are maximisers", "statement": "The weighted Bernoulli/Categorical estimate computed by maximum_likelihood_estimation maximises the weighted log-likelihood (up to the documented clamping), and weights/NaN handling do not change that.", "quantifier": "all datasets and weights", "why_tests_cant": "inequality over all competing parameters", "anchors": ["spflow/modules/leaves/bernoulli.py", "spflow/modules/leaves/categorical.py", "spflow/utils/leaves.py: apply_nan_strategy"]}
{"id": "C49", "title": "Structure statistics count the DAG", "statement": "get_structure_stats counts every reachable node once, every parent-child reference once, reports the longest path, and raises only on cycles.", "quantifier": "all module graphs", "why_tests_cant": "arbitrary sharing", "anchors": ["spflow/utils/structure_stats.py: get_structure_stats"]}
{"id": "C50", "title": "SumConv keeps per-pixel mixtures in place", "statement": "SumConv mixes the channels of each pixel with the weights of its position inside the kernel and leaves pixel order unchanged; sampling uses the same weights as log_likelihood; EM does not decrease the likelihood; marginalize preserves it.", "quantifier": "all image and kernel sizes, weights", "why_tests_cant": "all sizes", "anchors": ["spflow/modules/conv/sum_conv.py"]}
{"id": "C51", "title": "RepetitionMixingLayer samples the repetition it mixes", "statement": "RepetitionMixingLayer.log_likelihood is the mixture over repetitions of the input with the layer's weights, and sampling output channel c draws repetition r with the weight of (c, r).", "quantifier": "all shapes, logits, requested channels and inputs", "why_tests_cant": "real-valued parameters; a sampler's law cannot be tested exactly", "anchors": ["spflow/modules/sums/repetition_mixing_layer.py: RepetitionMixingLayer.log_likelihood, _sample"]}
{"id": "C52", "title": "Structural marginalize of layers keeps their parameters and layout", "statement": "marginalize on a Factorize, EinsumLayer, LinsumLayer or SumConv returns a module whose likelihood on the remaining variables equals that of the original with the marginalised columns missing; in particular marginalising nothing relevant changes nothing.", "quantifier": "all layers, weights, sets of marginalised variables", "why_tests_cant": "must hold for all parameters and all variable sets", "anchors": ["spflow/modules/rat/factorize.py: Factorize.marginalize", "spflow/modules/einsum/einsum_layer.py: EinsumLayer.marginalize", "spflow/modules/einsum/linsum_layer.py: LinsumLayer.marginalize", "spflow/modules/conv/sum_conv.py: SumConv.marginalize"]}
{"id": "C53", "title": "Missing values in a SOCS are integrated out", "statement": "Evaluating a sum of compatible squares with NaN columns, or after SOCS.marginalize, gives the integral of its density over those variables.", "quantifier": "all SOCS models, rows and sets of missing columns", "why_tests_cant": "must hold for all parameters and evidence patterns", "anchors": ["spflow/modules/sos/socs.py: SOCS.log_likelihood, SOCS.marginalize", "spflow/modules/sos/socs.py: _signed_eval"]}
{"id": "C54", "title": "The SOCS sampler targets the SOCS density", "statement": "The Metropolis-Hastings step of SOCS.sample leaves the distribution proportional to c_i(x)^2 invariant, the component is drawn with probability Z_i/Z, so chains in equilibrium are distributed as the SOCS density; from any start the distance to it shrinks geometrically in the number of steps.", "quantifier": "all finite state spaces, components, proposals that cover the target, numbers of steps", "why_tests_cant": "a statement about the law of a random process for all step counts; tests can only look at frequencies", "anchors": ["spflow/modules/sos/socs.py: SOCS._sample"]}
{"id": "C55", "title": "EinsumLayer's evaluation cache never returns stale weights", "statement": "Whatever sequence of weight assignments, optimizer updates and evaluations is performed, the weights read (and used by log_likelihood) are the normalisation of the current logits, in training and evaluation mode.", "quantifier": "all finite histories of operations", "why_tests_cant": "stale caches depend on the order of an unbounded history", "anchors": ["spflow/modules/einsum/einsum_layer.py: EinsumLayer._normalized_weights, weights, log_weights"]}
{"id": "C56", "title": "CLTree conditional sampling is exact", "statement": "CLTree sampling with evidence fills the missing variables of a row with probability equal to the joint probability of the completed row divided by the probability of the evidence; the draws sum to one and sampling does not raise when the evidence has positive probability.", "quantifier": "all tree structures, tables, evidence patterns and completions", "why_tests_cant": "the law of a sampler over all trees and tables cannot be tested exactly", "anchors": ["spflow/modules/leaves/cltree.py: CLTree._sample"]}
{"id": "C57", "title": "Fitting a Chow-Liu tree leaf", "statement": "CLTree.maximum_likelihood_estimation accepts exactly the data in which the leaf's variables can be found and which have at least two rows complete on them, all complete rows having values in {0,...,K-1} (up to the rounding tolerance); only complete rows count. A leaf that has a tree keeps it; otherwise it learns a spanning tree rooted at its first variable that maximises the sum of the pairwise scores, and no tree-structured distribution fits the smoothed data better than this tree with its conditional frequencies. The fitted tables are the conditional relative frequencies with a pseudo-count (clamped at 1e-12); when nothing is clamped they are normalised and for every channel and repetition maximise, among all tables on the leaf's tree, the weighted likelihood times a symmetric Dirichlet prior.", "quantifier": "all scopes, data tables with missing values, weight tensors, numbers of channels and repetitions, category numbers and alphas; all competing tables and trees", "why_tests_cant": "optimality over all conditional tables and all spanning trees, for all data", "anchors": ["spflow/modules/leaves/cltree.py: _has_learned_structure, _resolve_scoped_data, _compute_mutual_information, fit_structure, _prepare_mle_inputs, maximum_likelihood_estimation, _prim_maximum_spanning_tree", "spflow/modules/leaves/leaf.py: _resolve_scope_columns", "spflow/utils/leaves.py: apply_nan_strategy"]}
{"id": "C58", "title": "Maximum-likelihood estimates of count and continuous leaves", "statement": "maximum_likelihood_estimation with bias_correction=False leaves Poisson, Exponential, Geometric, Binomial, NegativeBinomial, Normal, LogNormal and Laplace leaves at parameters that maximise the weighted likelihood of the rows without NaN, whatever the leaf's numbers of channels and repetitions; with bias_correction=True the Normal variance is the sum of squared deviations divided by N-1.", "quantifier": "all datasets, weights, numbers of channels and repetitions, competing parameters", "why_tests_cant": "inequality over a continuum of competing parameters, for every dataset", "anchors": ["spflow/modules/leaves/normal.py: _compute_parameter_estimates", "spflow/modules/leaves/poisson.py", "spflow/modules/leaves/exponential.py", "spflow/modules/leaves/geometric.py", "spflow/modules/leaves/binomial.py", "spflow/modules/leaves/negative_binomial.py", "spflow/modules/leaves/log_normal.py", "spflow/modules/leaves/laplace.py", "spflow/utils/leaves.py: apply_nan_strategy, _handle_mle_edge_cases"]}
{"id": "C59", "title": "Weight of evidence", "statement": "weight_of_evidence returns the difference of the logits of the Laplace-corrected conditional probabilities of the target under the full and the reduced evidence (clamped to [eps,1-eps]): it is positive exactly when the full evidence makes the target more likely, zero when it makes no difference, antisymmetric in the two evidences. weight_of_evidence_leave_one_out returns it per observed feature and NaN for unobserved features.", "quantifier": "all discrete targets, circuits, evidence rows, training sizes n and eps", "why_tests_cant": "ordering statement over a continuum of probabilities and all evidence patterns", "anchors": ["spflow/measures/weight_of_evidence.py: weight_of_evidence, weight_of_evidence_leave_one_out"]}
{"id": "C60", "title": "NaiveBayes: construction, density and per-class fit", "statement": "NaiveBayes(leaves, num_classes, prior) is accepted exactly when there is a leaf, every leaf has one channel per class and one repetition, no two leaves share a variable and the prior (if given) lists one positive finite number per class; the result is a normalised density whose likelihood is the normalised-prior mixture of the products of the leaves' class densities. maximum_likelihood_estimation(data, targets) leaves class k's parameters at what fitting a single leaf to the rows of class k gives, and a learnable prior at the (eps-smoothed) class frequencies.", "quantifier": "all leaf lists, numbers of classes, priors, data sets and target vectors", "why_tests_cant": "equality of densities and of fitted parameters over all data sets, leaf families and class assignments", "anchors": ["spflow/zoo/naive_bayes.py: NaiveBayes.__init__, _build_prior_weights, _validate_targets, maximum_likelihood_estimation"]}
{"id": "C61", "title": "ConvPc is a normalised density over the image and samples from it", "statement": "A ConvPc built over a leaf layer with one feature per pixel of an H x H image is, for every depth, kernel size and number of channels and with product-only or sum-convolution layers, a normalised density over all pixels; NaN pixels are integrated out exactly; sampling (with or without evidence) draws from that density.", "quantifier": "all image sizes, depths, kernel sizes, channel counts, leaf distributions and weights", "why_tests_cant": "integrals over images and sampling laws for an unbounded family of geometries", "anchors": ["spflow/zoo/conv/conv_pc.py: ConvPc, compute_non_overlapping_kernel_and_padding", "spflow/modules/conv/prod_conv.py: ProdConv", "spflow/modules/conv/sum_conv.py: SumConv"]}
{"id": "C62", "title": "WeightedSum (non-normalised sum) semantics", "statement": "WeightedSum(inputs, weights) accepts exactly the non-negative weight tensors of 1 to 4 dimensions whose sizes match the input (a size-1 feature axis is broadcast) and stores them unchanged; its likelihood is the weighted sum of the inputs' likelihoods for any scale of the weights and with zero weights, so its mass is the weighted sum of the inputs' masses; sampling picks an input channel with probability weight/sum of weights and follows the normalised likelihood when the inputs are normalised; mpe takes the first largest weight; marginalising gives the likelihood with the marginalised variables missing.", "quantifier": "all input shapes, weight tensors, rows, sampling programs of the inputs and sets of marginalised variables", "why_tests_cant": "equalities over all real tensors and laws of a sampler", "anchors": ["spflow/zoo/pic/weighted_sum.py: WeightedSum.__init__, log_likelihood, _sample, marginalize"]}
{"id": "C63", "title": "rg2pic and pic2qpc: the QPC is the quadrature of the PIC", "statement": "For a PIC, pic2qpc(pic, rule) returns a circuit whose likelihood in channel c is the nested quadrature sum of the PIC with the free latents at grid point c: every Integral is replaced by the weighted sum over the rule's points of its function times its child. For a region graph with binary partitions rg2pic followed by pic2qpc succeeds and yields one channel with that value; a missing variable is integrated out exactly, and the circuit is normalised when the integral functions integrate to one under the rule.", "quantifier": "all PICs, quadrature rules, region graphs, functions, rows and assignments of the latents", "why_tests_cant": "nested sums over grids of unbounded dimension, for arbitrary functions and graphs", "anchors": ["spflow/zoo/pic/pipeline.py: rg2pic, pic2qpc, QuadratureRule", "spflow/zoo/pic/integral.py: Integral, PICProduct, PICSum"]}
{"id": "C64", "title": "Continuous mixtures: the compiled circuit is the trained mixture", "statement": "learn_continuous_mixture_factorized / _cltree compile the decoder outputs at the integration points into a module. That module is a normalised density over the data's columns; on every batch its log_likelihood equals, row by row, the mixture log-likelihood that training maximised (missing entries integrated out); and its samples, given any evidence, follow that mixture's conditional distribution. The quadrature weights are positive and sum to one.", "quantifier": "all decoders, numbers of points and features, leaf families, trees, rows and evidence patterns", "why_tests_cant": "real-valued decoder outputs and unbounded numbers of components and features; the sampling claim is about distributions", "anchors": ["spflow/zoo/cms/continuous_mixtures.py: _factorized_component_ll, _mixture_log_likelihood_from_component_ll, _compile_factorized, _compile_cltree, learn_continuous_mixture_cltree", "spflow/zoo/cms/joint.py: JointLogLikelihood", "spflow/zoo/cms/rqmc.py: rqmc_sobol_normal"]}
{"id": "C65", "title": "Continuous mixtures: early stopping returns the best evaluated epoch", "statement": "With validation data or patience > 0 the learners stop at the first epoch count at which the best score so far lies patience epochs back (or when the budget is used up) and return the parameters of the first epoch with the maximal score among those trained; without both they return the last parameters; with zero epochs the initial ones.", "quantifier": "all budgets, patience values, score sequences and update rules", "why_tests_cant": "quantifies over every history of scores and every length of training", "anchors": ["spflow/zoo/cms/continuous_mixtures.py: learn_continuous_mixture_factorized, learn_continuous_mixture_cltree, _latent_opt_factorized, _latent_opt_cltree"]}
{"id": "C66", "title": "ElementwiseSum is a mixture of its inputs, channel by channel", "statement": "The constructor accepts exactly the input lists with equal feature count, scope, feature-to-scope columns and channel counts that are equal or one, and weights of the matching shape that are positive and sum to one over the inputs; set/get of the weights round-trips. Output channel ci*num_sums+co of every feature is the convex mixture of channel ci of the inputs (one-channel inputs repeated), is normalised, and integrates missing cells out. sample() and sample_with_evidence() return a complete row with its (conditional) probability, keep the evidence and raise nothing; an EM step never decreases the accumulated log-likelihood and leaves convex weights; marginalize returns the module whose values are those of the original with the removed cells missing.", "quantifier": "all lists of accepted inputs, weights, rows, evidence, batches and sets of removed variables", "why_tests_cant": "the law quantifies over every random choice and every input list; EM monotonicity over every batch and model", "anchors": ["spflow/modules/sums/elementwise_sum.py: ElementwiseSum.__init__, weights, log_likelihood, _sample, _expectation_maximization_step, marginalize"]}
{"id": "C67", "title": "RatSPN, end to end: a normalised density with matching posterior and sampler", "statement": "RatSPN(leaves, n_root_nodes, n_region_nodes, num_repetitions, depth, ...) succeeds exactly for the admissible numbers (2^depth at most the number of variables) and raises the documented errors otherwise. Whatever random groups, permutations and logits it draws, exp(log_likelihood) of the model is a normalised density over the leaves' variables, missing values are integrated out exactly, and the values are never NaN. predict_proba returns prior times class likelihood divided by the model's likelihood and sums to one; with a single root it raises UnsupportedOperationError. sample() and sample_with_evidence(e) fill every variable, keep the evidence, raise nothing, and return x with probability p(x), respectively p(x)/p(e).", "quantifier": "all leaf lists, numbers of channels, repetitions, roots and region nodes, depths, both split modes, elementwise and outer products, all random groups, permutations and logits, all rows and evidence", "why_tests_cant": "quantifies over every random structure and every logit, over integrals and over the law of the sampler", "anchors": ["spflow/zoo/rat/rat_spn.py: RatSPN.__init__, create_spn, log_likelihood, log_posterior, predict_proba, sample, _sample", "spflow/modules/rat/factorize.py: Factorize", "spflow/modules/sums/repetition_mixing_layer.py: RepetitionMixingLayer"]}
{"id": "C68", "title": "Einet, end to end: a normalised density with matching posterior and sampler, for both structures and layer types", "statement": "Einet(leaf_modules, num_classes, num_sums, num_leaves, depth, num_repetitions, layer_type, structure) succeeds exactly when every argument is in the documented range and the leaves have at least 2^depth variables, and raises InvalidParameterError otherwise. Whatever groups, permutations and logits it draws, exp(log_likelihood) is a normalised density over the leaves' variables, missing values are integrated out exactly, and the values are never NaN. predict_proba returns prior times class likelihood divided by the model's likelihood and sums to one; with one class it raises UnsupportedOperationError. sample() and sample(data) fill every variable, keep the given values, raise nothing, and return x with probability p(x), respectively p(x)/p(e), whatever the other rows of the batch are.", "quantifier": "all leaf lists, numbers of channels, classes, sums, repetitions, depths, top-down and bottom-up structures, EinsumLayer and LinsumLayer, all random groups, permutations, logits and contraction schedules, all rows, evidence and batches", "why_tests_cant": "quantifies over every random structure and every logit, over integrals and over the law of the sampler", "anchors": ["spflow/zoo/einet/einet.py: Einet.__init__, _finalize_root, _build_structure_top_down, _build_structure_bottom_up, log_likelihood, log_posterior, predict_proba, sample, _sample", "spflow/modules/einsum/einsum_layer.py: EinsumLayer", "spflow/modules/einsum/linsum_layer.py: LinsumLayer", "spflow/modules/rat/factorize.py: Factorize"]}
{"id": "C69", "title": "ElementwiseProduct and OuterProduct over a list of modules: constructors, value, normalisation, sampling", "statement": "ElementwiseProduct(inputs=[...]) of modules with the same number of features is accepted exactly when the list is not empty, the scopes are pairwise disjoint and every channel count is one or the largest; OuterProduct(inputs=[...]) exactly when it is not empty, scopes are disjoint and a single input has one feature. log_likelihood of the first adds the inputs channel by channel (a one-channel input is repeated), that of the second has one channel per tuple of input channels in row-major order. Freely nested with Cat, Product, Sum and leaves, every channel is a normalised density of its variables, NaN entries are integrated out exactly, and sample() / sample_with_evidence(e) raise nothing, keep the evidence, fill every variable and return x with probability p(x), respectively p(x)/p(e).", "quantifier": "all nestings of products over lists, Cat, Product, Sum and leaves, all channel counts, all logits, all rows and evidence on which no Sum unit is impossible", "why_tests_cant": "quantifies over every circuit structure and every logit, over integrals and over the law of the sampler", "anchors": ["spflow/modules/products/base_product.py: BaseProduct.__init__, _sample", "spflow/modules/products/elementwise_product.py: ElementwiseProduct", "spflow/modules/products/outer_product.py: OuterProduct"]}
{"id": "C70", "title": "Hidden Chow-Liu trees: structure, density, normalisation, sampling", "statement": "learn_hclt_binary and learn_hclt_categorical return a mixture over at most num_trees pairwise different spanning trees of the columns with the largest total mutual information. For every spanning tree the circuit's likelihood is that of the latent tree model: the sum over all assignments of a hidden state to every column of prior, transition and emission probabilities, for all parameter values (so also after training). The model is a normalised density, NaN columns are integrated out exactly, sample() and sample_with_evidence(e) never raise on possible evidence, fill exactly the missing columns and return x with probability p(x), respectively p(x)/p(e). The learned tree matters: hidden states of neighbours are dependent.", "quantifier": "all numbers of columns, all spanning trees, all numbers of hidden states, all mutual information matrices and tie breakings, all weights and emissions, all rows and evidence", "why_tests_cant": "quantifies over all trees, all hidden state assignments and all parameters, over integrals and over the law of the sampler", "anchors": ["spflow/zoo/hclt/learn.py: _edges_to_adjacency, _build_hclt_from_tree, learn_hclt_binary, learn_hclt_categorical", "spflow/zoo/hclt/chow_liu.py", "spflow/zoo/hclt/topk_mst.py: topk_mst"]}
{"id": "C71", "title": "Mutual information and Chow-Liu trees from data", "statement": "pairwise_mi_binary and pairwise_mi_categorical return, for every table of categories and non-negative weights whose probabilities stay above the documented clamp eps, the matrix of mutual informations (entropies on the diagonal) of the smoothed empirical distribution, in which the pseudo-count mass is spread evenly over all joint assignments; the matrix is symmetric and non-negative, does not depend on chunk_size_pairs, and both functions agree on binary data with the same pseudo-mass. learn_chow_liu_trees_* return the num_trees spanning trees of largest total mutual information, best first; the first is a tree of maximum likelihood: without pseudo-counts no distribution that factorises along any tree gives the data a higher weighted likelihood than the first tree with the relative frequencies as conditional probabilities. Up to a million unweighted rows (or K(W+pc) <= 1e6 pc) nothing is clamped.", "quantifier": "all numbers of features and categories, all tables of rows, all weights, pseudo-counts, chunk sizes, numbers of trees and tie breakings; all competing trees and conditional probability tables", "why_tests_cant": "an optimality statement over all spanning trees and all conditional probability tables, for all data", "anchors": ["spflow/zoo/hclt/mi.py: pairwise_marginal_binary, pairwise_mi_binary, pairwise_mi_categorical", "spflow/zoo/hclt/chow_liu.py: learn_chow_liu_trees_binary, learn_chow_liu_trees_categorical"]}
{"id": "C72", "title": "PiecewiseLinear leaves: fit, density, mode, sampling", "statement": "PiecewiseLinear.initialize succeeds exactly when data and domains have one column and one entry per variable and every domain is continuous or lists a value; whatever the clustering, each cell then holds a continuous piecewise linear density, 0 outside its first and last point, that integrates to one. Bin edges are increasing, equally spaced, enclose the data, and are no wider than Sturges' rule. For a discrete domain the densities of the values are the Laplace-smoothed relative frequencies and sum to one. log_likelihood is the logarithm of that density, 0 for a missing value, and the mode is a most likely value. sample draws values of the domain from that density. The leaf can be used below Product and Sum like any other leaf.", "quantifier": "all data sets, domains, clusterings, smoothing parameters, numbers of channels and repetitions, paddings, rows and uniform numbers", "why_tests_cant": "an integral over all reals, a maximum over all reals and the law of a sampler, for all data sets and clusterings", "anchors": ["spflow/modules/leaves/piecewise_linear.py: PiecewiseLinear.initialize, reset, distribution, log_likelihood, _sample, PiecewiseLinearDist.log_prob, sample, mode", "spflow/utils/histogram.py: get_bin_edges_torch", "spflow/utils/domain.py: Domain", "spflow/modules/products/product.py: Product.log_likelihood", "spflow/modules/sums/sum.py: Sum.log_likelihood"]}
{"id": "C73", "title": "Differentiable sampling has the law of ordinary sampling", "statement": "With a differentiable sampling context every categorical decision is returned as a one-hot vector of the forward pass; with fresh Gumbel noise it selects every component with exactly its softmax probability, whatever the temperature, and with mpe the largest logit. Hence sampling a circuit, with or without evidence, returns every row with the probability of the ordinary sampler, that is, its likelihood or conditional likelihood. Differentiable samples of Bernoulli, Categorical, Binomial, Hypergeometric, Poisson, Geometric, NegativeBinomial and Histogram leaves follow the law of the leaf.", "quantifier": "all logits (also minus infinity), temperatures, sampling programs, accepted circuits, rows, evidence and leaf parameters", "why_tests_cant": "equality of probability laws over continuous noise, for all logits, temperatures and circuits", "anchors": ["spflow/utils/sampling_context.py: sample_gumbel (942-955), SIMPLE (1011-1053), sample_from_logits (1147-1183)", "spflow/modules/sums/sum.py: Sum._sample (282-385)", "spflow/modules/leaves/bernoulli.py: 203-221", "spflow/modules/leaves/categorical.py: 249-259", "spflow/modules/leaves/binomial.py: 176-273", "spflow/modules/leaves/poisson.py: 132-154", "spflow/modules/leaves/geometric.py: 161-185", "spflow/modules/leaves/negative_binomial.py: 191-220", "spflow/modules/leaves/hypergeometric.py: 210-244", "spflow/modules/leaves/histogram.py: 161-180"]}
{"id": "C74", "title": "Latent statistics, objective and training of autoencoding circuits", "statement": "encode(return_latent_stats=True) reports for every row the Kullback-Leibler divergence of the latent leaf components from the fixed prior (standard Normal, fair coin, Binomial with p = 1/2, uniform classes), with their mean, log-variance and mode, for every routing. loss_components returns the means over the batch of reconstruction error, divergence and negative log-likelihood and their weighted sum; terms of weight zero are not computed. evaluate_apc does not depend on how the rows are split into batches and restores the training mode. fit_apc returns one history entry per epoch, with the losses taken before each step.", "quantifier": "all leaf parameters, channels, repetitions, batch sizes, routings, temperatures, loss weights, encoders, batches and numbers of epochs", "why_tests_cant": "the statistics must be divergences of distributions, for all parameters; independence of batching for all splits of all data sets", "anchors": ["spflow/modules/leaves/leaf.py: 803-1009", "spflow/zoo/apc/encoders/latent_stats.py: latent_stats_from_leaf_record", "spflow/zoo/apc/encoders/base.py: LatentStats", "spflow/zoo/apc/encoders/joint_pc_base.py: encode (203-226)", "spflow/zoo/apc/model.py: _reconstruction_loss (105-127), loss_components (166-260)", "spflow/zoo/apc/train.py: evaluate_apc (82-125), fit_apc (128-193)", "spflow/zoo/apc/config.py"]}
{"id": "C75", "title": "The Einet joint encoder samples posteriors and returns consistent likelihoods", "statement": "EinetJointEncoder is built exactly for positive sizes, leaf factories that return leaves over the requested columns and a depth with 2**depth <= num_x_features + latent_dim. exp(joint_log_likelihood) integrates to one over all columns and exp(log_likelihood_x) is its integral over the latent columns and over missing entries. encode(x) draws z with probability p(x,z)/p(x), decode(z, x) draws the completion with probability p(x',z)/p(x,z), keeps the given entries and is not changed by fill_evidence, sample_prior_z draws z with probability p(z), at every temperature. Wrong shapes and different batch sizes raise ShapeError, non-positive num_samples InvalidParameterError.", "quantifier": "all sizes, depths, repetitions, layer types, leaf factories, drawn structures and weights, tensors, missing patterns and temperatures", "why_tests_cant": "an equality of probability laws and of integrals for every structure, weight and input", "anchors": ["spflow/zoo/apc/encoders/einet_joint_encoder.py: EinetJointEncoder", "spflow/zoo/apc/encoders/joint_pc_base.py: _validate_leaf_scope, _build_evidence, _sample_joint, encode, decode, joint_log_likelihood, log_likelihood_x, sample_prior_z"]}
{"id": "C76", "title": "learn_prometheus builds a valid circuit, a mixture over clusters and partitions", "statement": "For every clustering, similarity, leaf fit and random draw learn_prometheus terminates with recursion no deeper than the scope is wide and returns a smooth, decomposable, normalised circuit over exactly the requested scope (or, with scope=None, over the union of the templates' scopes), or raises for unsupported arguments. Above the slice limits it is the mixture over the clusters, weighted by their numbers of rows, of an even mixture of one product per variable partition, whose factors are learned on the cluster's rows and once per variable group.", "quantifier": "all data without missing values, scopes, leaf templates, clusterings, similarities, fits, channel numbers and limits", "why_tests_cant": "a statement about every recursion the learner can take", "anchors": ["spflow/learn/prometheus.py: learn_prometheus, _learn_prometheus_single_channel, _create_partitioned_mv_leaf, _adapt_product_inputs, _infer_scope_from_leaf_modules"]}
{"id": "C77", "title": "ExpSOCS densities are normalised by exact triple products", "statement": "triple_product_tensor(a, b, c) returns, for every feature, channel triple and repetition, the integral over that feature's variables of the product of the three circuit functions; it is defined exactly for circuits of the same shape with leaves of one supported family, and exchanging the first two circuits exchanges their channel axes. ExpSOCS accepts exactly scalar circuits over one scope; on complete rows log_likelihood is the logarithm of m(x) * sum_i c_i(x)^2 divided by its exact integral, a density that integrates to one. With missing entries, and after marginalize, it is the marginal of that density.", "quantifier": "all circuits of leaves, Cat, Product and (signed) Sum, all parameters, all rows and sets of marginalised variables", "why_tests_cant": "an identity between a recursion over circuits and integrals over all assignments", "anchors": ["spflow/utils/inner_product_core.py: triple_product_tensor, triple_product_scalar", "spflow/zoo/sos/exp_socs.py: ExpSOCS.__init__, _log_partition, log_likelihood, marginalize"]}
{"id": "C78", "title": "SOSModel and ExpSOSModel build normalised models over all variables", "statement": "SOSModel(...) and ExpSOSModel(...) succeed exactly for positive numbers of variables, squares and units, the documented input layers with their keyword arguments, image shapes whose product is the number of variables, and the documented region graphs. Whatever the random generator shuffles, every region graph decomposes the variables 0..n-1 into disjoint parts, down to single variables or to all channels of single pixels. The model has one component per square (two with complex=True), each over all variables with one output; on complete rows log_likelihood is the logarithm of the normalised sum of squares (for ExpSOSModel times the monotone circuit), a density that integrates to one. With structured_decomposable=True all squares share one region tree.", "quantifier": "all argument combinations, all shuffles of the generator, all parameter values, all rows", "why_tests_cant": "the trees depend on a random generator and on arbitrary image shapes; normalisation is a statement about an integral over all assignments", "anchors": ["spflow/zoo/sos/models.py: SOSModel, ExpSOSModel, _build_tree, _build_random_binary_tree, _build_linear_tree_from_order, _build_quadtree_patch, _instantiate_tree, _finalize_scalar, _validate_model_common, _resolve_num_states, _structure_seed"]}
{"id": "C79", "title": "Compatible components, build_socs and complex squared circuits", "statement": "check_compatible_components accepts exactly the lists in which any two circuits have the same skeleton (module classes, variables, shapes, arities, concatenation axes, numbers of categories), and raises StructureError or ShapeError otherwise; accepted components have pairwise inner products as soon as one of them has a self inner product. build_socs raises InvalidParameterError exactly for arguments out of range and otherwise returns num_components compatible components: copies of the template, with signed=True with every Sum made a SignedSum whose weights are the old ones up to sign plus noise_scale times a random number; whatever is drawn, the resulting SOCS density integrates to one, and without perturbation it is t(x)^2 over its integral. build_complex_socs(a, b) has the density |a(x) + i b(x)|^2 over its integral.", "quantifier": "all lists of circuits, all templates, all arguments, all random draws, all rows", "why_tests_cant": "the check is a recursion over pairs of arbitrary circuits; normalisation must hold for every draw of signs and noise", "anchors": ["spflow/utils/compatibility.py: check_compatible_components, _check_pair", "spflow/learn/build_socs.py: build_socs, build_complex_socs"]}
{"id": "C80", "title": "train_gradient_descent performs and reports exactly the requested training", "statement": "train_gradient_descent raises ValueError for fewer than one epoch and InvalidTypeError for classification with a model that is not a Classifier, without changing anything. Otherwise it makes exactly one optimizer update per batch of every epoch, in order, and one scheduler step per epoch; validation, in every tenth epoch, does not change the parameters; callback_batch gets the loss of every batch and the running step number, callback_epoch the losses of its epoch; the model ends in training mode, also with empty loaders and after an exception. By default the learning rate is lr, divided by ten from half and again from three quarters of the epochs on. The classification loss is the mean of -log p(y|x) plus nll_weight times the mean of -log p(x).", "quantifier": "all models, optimizers, schedulers and losses, all loaders and batch formats, all numbers of epochs", "why_tests_cant": "the claims are about whole training histories of any length with arbitrary losses and updates", "anchors": ["spflow/learn/gradient_descent.py: train_gradient_descent, _process_training_batch, _run_validation_epoch, _extract_batch_data, classification_loss, negative_log_likelihood_loss"]}
{"id": "C81", "title": "SPFlowDensityEstimator scores a normalised density and samples from it", "statement": "After fit, score_samples returns one log-density per row of any array with as many columns as the training data, depending on that row only; the exponentials integrate to one over all columns, and a NaN cell integrates its variable out. Learning a structure with learn_spn or learn_prometheus gives such an estimator. sample draws rows from the density that is scored; it is reproducible with a seed, leaves the global generator alone, and repeated calls without a seed give fresh samples. A fit that raises leaves the estimator as it was.", "quantifier": "all models, learned or given, all reductions, all arrays, all generator states, all sequences of calls", "why_tests_cant": "the density claims are integrals over all real inputs; the generator claims quantify over all states and call histories", "anchors": ["spflow/interfaces/sklearn.py: SPFlowDensityEstimator, _reduce_log_likelihood, _as_2d_numpy"]}
{"id": "C82", "title": "The folded tensorised QPC evaluates the circuit of its region graph and is normalised", "statement": "For every acyclic region graph with univariate leaf regions, quadrature rule with positive weights and parameters of the networks, TensorizedQPC is constructed exactly for the documented configurations, and its log-likelihood is the logarithm of the circuit described by the region graph: leaf regions are the leaf densities at the quadrature points, a partition is a Tucker or CP contraction of its children with weights that sum to one, a region with several partitions is a convex mixture of them, whatever padding, masking, folding and concatenation of layers is used. It depends on the variables of the root only and its exponential integrates to one; values outside the support of a leaf get probability zero.", "quantifier": "all region graphs (any depth, arity and numbers of partitions), all rules, all parameter values, all layer classes, all rows", "why_tests_cant": "folding indices, padding and masks must be right for every shape of region graph; normalisation is an integral over all rows", "anchors": ["spflow/zoo/pic/tensorized/qpc.py: TensorizedQPC, InnerNet, _build_folded_layers, _layer_to_group_args, _masked_softmax", "spflow/zoo/pic/tensorized/utils.py: log_func_exp, eval_tucker, eval_collapsed_cp, eval_mixing"]}
{"id": "C83", "title": "An image wrapper is the wrapped circuit on images", "statement": "ImageWrapper(m, C, H, W) is accepted exactly if m has C*H*W variables; pixel (c, h, w) is variable cHW+hW+w, and flattening and to_image_format are inverse to each other. The log-likelihood of a batch of images is that of the module on the flattened rows, and its exponential integrates to one over the images. Sampling keeps the given pixels and completes the missing ones with their conditional law under the module. Marginalising channels, rows or columns returns a wrapper for the image without them, whose density is the marginal density of the remaining pixels.", "quantifier": "all modules, image sizes, tensors of any shape, patterns of missing pixels, lists of removed indices (negative ones included)", "why_tests_cant": "the index arithmetic must be right for every size, and the marginal and conditional claims are integrals over all images", "anchors": ["spflow/modules/wrapper/image_wrapper.py: ImageWrapper", "spflow/modules/wrapper/base.py: Wrapper"]}
{"id": "C84", "title": "Tensorized layers compute the documented sums of products in log space", "statement": "TuckerLayer, CollapsedCPLayer, UncollapsedCPLayer, SharedCPLayer, MixingSumLayer and the factory CPLayer are accepted exactly for the documented arguments and have the requested sizes. forward returns the logarithm of the documented sum of products of the children's probabilities for every input, including probability zero; a masked child does not matter; inputs of other sizes are rejected. The shared layer is the collapsed layer with equal weights and a CP layer is a Tucker layer of low rank. If the children are densities over separate variables (mixing: over the same variables) the output integrates to the sum of the weights, and a new mixing layer is normalised.", "quantifier": "all sizes, weights, masks and inputs (NaN and minus infinity included), all densities of the children", "why_tests_cant": "the max-shifted log-space formula, broadcasting and masks must agree with the real-valued polynomial for every tensor; normalisation is an integral", "anchors": ["spflow/zoo/pic/tensorized/base.py: TensorizedLayer", "spflow/zoo/pic/tensorized/cp.py: CollapsedCPLayer, UncollapsedCPLayer, SharedCPLayer, CPLayer", "spflow/zoo/pic/tensorized/tucker.py: TuckerLayer", "spflow/zoo/pic/tensorized/mixing.py: MixingSumLayer", "spflow/zoo/pic/tensorized/utils.py: log_func_exp, eval_tucker, eval_collapsed_cp, eval_mixing"]}
{"id": "C85", "title": "The joint Conv-PC encoder is one normalised model of data and latents; encode, decode and prior sample its conditionals", "statement": "ConvPcJointEncoder accepts the documented arguments and rejects the others with InvalidParameterError. joint_log_likelihood(x, z) is log p(x, z) for one density p with total integral one, log_likelihood_x(x) is its exact marginal over z, NaN entries of x integrated out. encode(x) samples z from p(z | x), decode(z, x) samples x from p(x | z, observed entries of x), sample_prior_z(n) gives n independent samples of p(z). permute_latents=True permutes the latents only: it does not change which model is sampled.", "quantifier": "all arguments, leaf factories, parameters, evidence batches and random draws; all tree depths, fusion depths, kernel sizes and numbers of repetitions", "why_tests_cant": "normalisation is an integral; the conditional laws must be exact for every architecture and every pattern of missing entries; the routing of channel choices through fusion and permutation is invisible to shape tests", "anchors": ["spflow/zoo/apc/encoders/convpc_joint_encoder.py: ConvPcJointEncoder, _LatentFeaturePacking, _PairwiseLatentProduct, _build_reference_latent_stream, _build_joint_convpc_reference", "spflow/zoo/apc/encoders/joint_pc_base.py: JointPcEncoderBase"]}
{"id": "C86", "title": "Functional sharing: every unit of a group keeps its own positive function through any history", "statement": "FunctionGroup accepts sharing types c and f only and numbers its units 0, 1, 2, ... in the order of add_unit. evaluate_batched returns one positive value per head and place, computed from the rows of z and y at that place only, for all broadcastable leading shapes; get_function(i) is the function of unit i (c) or the common function (f). Once evaluated, the functions do not change whatever is added, evaluated or asked for later. MultiHeadedMLP called directly returns the same functions. Materialising a group gives each integral the same weights as an ungrouped integral with the function of that unit.", "quantifier": "all histories of operations, network sizes, parameters, shapes, quadrature rules and inputs", "why_tests_cant": "heads are created lazily on the first evaluation, so the result depends on the order of calls; histories are unbounded and every broadcast shape counts", "anchors": ["spflow/zoo/pic/functional_sharing.py: FourierFeatures, SharedMLP, MultiHeadedMLP, FunctionGroup", "spflow/zoo/pic/pipeline.py: _maybe_attach_function_group, pic2qpc (materialize_integral_group)"]}
{"id": "C87", "title": "A cache changes no inner product", "statement": "For any sequence of calls of inner_product_matrix and log_self_inner_product_scalar, or of the triple-product functions, with one Cache, on modules that may share submodules within and between circuits, in any order and with the arguments in either order, every call returns the values, or raises the error, that it does without a cache.", "quantifier": "all circuits, all ways of sharing modules, all sequences of calls including failing ones", "why_tests_cant": "the memo is shared by all calls, is filled by nested and by failing calls and answers reversed pairs; a wrong entry shows only in some later call, so the property is about histories", "anchors": ["spflow/utils/inner_product_core.py: _get_pair_memo, inner_product_matrix, log_self_inner_product_scalar, _get_triple_memo, triple_product_tensor, triple_product_scalar", "spflow/utils/inner_product.py: inner_product_matrix, log_self_inner_product_scalar"]}
{"id": "C88", "title": "Neural decoders return the configured shape, row by row", "statement": "MLPDecoder1D, ConvDecoder2D and NeuralDecoder2D reject every bad configuration when they are built; every decoder that was built maps every batch of latents of the right width to a batch of exactly the configured output shape with values in the range of the output activation, rejects every other width, and row n of the output depends on row n of the input only.", "quantifier": "all configurations, all weights, all batch sizes and latents, training and evaluation mode", "why_tests_cant": "the shapes come from rounding and resizing of arbitrary sizes, and independence of rows is a statement about pairs of batches", "anchors": ["spflow/zoo/apc/decoders.py: MLPDecoder1D, ConvDecoder2D, NeuralDecoder2D, _Residual, _ResidualStack"]}
{"id": "C89", "title": "Maximum-likelihood estimation of Gamma leaves", "statement": "maximum_likelihood_estimation leaves a Gamma leaf with positive finite parameters; for positive rows that are not all equal and bias_correction=False they maximise the weighted likelihood of the rows; with bias_correction=True they are the bias-corrected estimates for the number of rows.", "quantifier": "all datasets, weights, numbers of features, channels and repetitions, competing parameters", "why_tests_cant": "a statement about a continuum of competing parameters and about moments of a distribution, for every dataset", "anchors": ["spflow/modules/leaves/gamma.py: Gamma._compute_parameter_estimates", "spflow/utils/leaves.py: apply_nan_strategy, _handle_mle_edge_cases", "spflow/modules/leaves/leaf.py: maximum_likelihood_estimation"]}
{"id": "C90", "title": "Hypergeometric and negative binomial leaves: likelihood and exact products", "statement": "A Hypergeometric leaf has the hypergeometric distribution, and for two or three accepted Hypergeometric or NegativeBinomial leaves over the same variables inner_product_matrix and triple_product_tensor return the sum over all counts of the product of their likelihoods, so that squared densities built on them have total mass one.", "quantifier": "all parameter tensors the constructors accept, all numbers of features, channels and repetitions", "why_tests_cant": "sums over infinitely many counts and identities between binomial coefficients for every parameter", "anchors": ["spflow/modules/leaves/hypergeometric.py: _HypergeometricDistribution.log_prob", "spflow/modules/leaves/negative_binomial.py: NegativeBinomial", "spflow/utils/inner_product_core.py: leaf_inner_product, triple_product_tensor, _series_logsumexp"]}
