# SPFlow formal model - design

## 1. Approach

The code in `/repo` (Python / PyTorch) is modelled function by function in Lean 4 (`/verif/lean/Verif/*.lean`). One file
per area holds the *model* (every definition cites file and lines), `*Props.lean` beside it holds the property theorems;
helper lemmas live in `*Lemmas.lean` or beside the theorems. A property theorem is named `Cxx_...`; the suffix `_partial`
means that the theorem needs a hypothesis the property as stated does not have, and what is missing is said in its comment and
in `MANIFEST.json`. Where a property is *false* of the code, the refutation is itself a theorem (a concrete input on which the
modelled code misbehaves) and the positive theorem states exactly the cases that hold.

Modelling conventions:

* Exceptions are values of `Except Exc`; the order of the checks is that of the code, so theorems of the form "accepted iff"
  characterise acceptance.
* Loops are folds or structural recursion; unbounded recursion or `while` loops take fuel, and a theorem shows which fuel is
  enough (or that no fuel is).
* A tensor is an index function with explicit sizes. One batch row at a time, because no operation of the modelled code mixes
  rows, except EM, maximum likelihood, `leaveOneOut` and CLTree batches, where the batch is an explicit list.
* Data cells are `Option ℝ`, NaN is `none`. Log-likelihoods are `LogV = WithBot ℝ`, `-inf` is `⊥`. Where NaN results matter
  (einsum, one-hot indexing, posterior, EM) values are `Option` of that, or the `Fl` floats of LeafFit.lean.
* Numbers are exact reals. Rounding and overflow are not modelled; explicit epsilons, clamps and tolerances of the code are
  (`1e-30`, `1e-40`, `1e-8`, `allclose`).
* Random generators are arbitrary oracles (for "whatever is drawn" statements) or exact finite/continuous distributions
  (`Prog` in Sampling.lean) for statements about laws. k-means, RDC, networkx and similar callees are arbitrary oracles or are
  modelled by their documented result.

## 2. Properties: model and proof

Statements are in `properties.jsonl`, theorem names in `MANIFEST.json`. "Status" repeats what is proved and what is not.

| id | property | model | proof | status |
|----|----------|-------|-------|--------|
| C01 | Scopes are always well formed | Scope.lean | scopes reachable by any sequence of API calls, induction over the sequence | proved: every scope reachable through any sequence of API calls |
| C02 | Scope join is a union that does not depend on order | Scope.lean | list/finset algebra, permutations | proved |
| C03 | all_pairwise_disjoint and all_equal decide exactly what they say | Scope.lean | induction over lists | proved |
| C04 | Equal scopes hash equally | Scope.lean | witness against the hash contract; proof for canonical scopes | partial: == is an equivalence; the hash contract is FALSE of the code (C04_hash_contract_violated, Scope([0,1]) vs Scope([1,0])); proved for canonically sorted scopes, which join returns |
| C05 | Region graphs only hold valid partitions and are traversed bottom-up once | Graph.lean | arbitrary finite graphs; visited-set invariant of the DFS | partial: add_partition, histories, regions and once-ness of post_order: proved for every finite graph; children-first proved for acyclic graphs (C05_acyclic gives a sufficient condition); cyclic graphs are accepted (C05_self_partition_accepted) |
| C06 | The per-traversal cache is transparent and evaluates shared nodes once | Cache.lean | memo table as state over a well-founded DAG; invariant "every entry is the unmemoised value"; small-step threads for schedules | proved: transparency, at most once, stability of entries, any thread schedule; at-most-once needs methods that never return None (true of the two decorated methods; C06_none_is_recomputed shows why) |
| C07 | replace() always restores the original method | Replace.lean | attribute store, block-structured programs with exceptions, induction over programs | partial: proved for ordinary methods and any nesting; FALSE for staticmethods, classmethods and overlapping non-nested blocks (witnesses) |
| C08 | Sum weights are always a convex combination and survive set/get | Circuit.lean | softmax/log identities | proved: set/get returns w/sum(w): exactly w when it sums to one; acceptance characterised including the allclose tolerance |
| C09 | log_likelihood computes the mixture/product semantics of the circuit | Circuit.lean, LogSpace.lean | inductive circuits with features x channels x repetitions; max-shifted logsumexp; induction | proved |
| C10 | Every accepted circuit is a normalised distribution | Circuit.lean, Leaves.lean | Lebesgue integral over product measures (`lmarginal`), induction | partial: FALSE for circuits whose channel-concatenated inputs order their scope differently (C10_misaligned_not_normalised, accepted by all constructors, mass 9/8); proved for feature-aligned circuits and normalised leaves |
| C11 | NaN means integrate out | Circuit.lean | as C10 | partial: same alignment hypothesis as C10 |
| C12 | Structural marginalize agrees with NaN evaluation | Marginalize.lean | induction; index maps of kept features | partial: proved for aligned circuits with finite logits and non-empty leaf scopes; with a zero weight (after EM) the code raises (C12_zero_weight_raises) |
| C13 | Sampling never changes evidence and fills every missing cell | Sampling.lean | probabilistic programs (`Prog`: ret/fail/choose/draw); every outcome | partial: evidence/out-of-scope cells unchanged: proved for every accepted circuit and every random outcome; filling and not raising: proved for aligned circuits (sample_with_evidence: no dead Sum unit); FALSE otherwise (C13_misaligned_leaves_missing) |
| C14 | sample_with_evidence draws from the exact conditional distribution | Sampling.lean | expectation semantics of `Prog`, induction with the cached likelihoods | partial: exact conditional law p(x)/p(e) for aligned circuits when no Sum unit has probability zero on the evidence; FALSE otherwise: the call raises on evidence of probability 1/2 (C14_dead_branch_raises) |
| C15 | mpe returns a most probable completion | Sampling.lean, MpeGreedy.lean | greedy run of `Prog`; circuit reduced to heaviest inputs; witnesses | partial: proved for circuits without Sum and circuits whose Sums are one-hot; for every circuit mpe returns a completion that is optimal for the circuit reduced to its heaviest inputs (C15_greedy_partial); FALSE for mixtures (C15_mixture_not_optimal) and mpe(data=e) ignores the evidence when choosing components (C15_evidence_ignored) |
| C16 | Channel routing through Cat gives every position exactly one owner | Routing.lean, Circuit.lean | offset arithmetic | proved |
| C17 | Splitting then merging features is the identity | Splits.lean | mixed-radix index maps | partial: merge after split is the identity and every feature is in exactly one split: proved for all three splits (interleaved: number of features a multiple of the splits); FALSE otherwise (C17_interleaved_uneven_raises); routing of the products proved for consecutive and interleaved |
| C18 | Reported feature scopes match the features that are actually multiplied | Splits.lean | index maps, witnesses | partial: proved for SplitByIndex and for a single output feature; FALSE for SplitConsecutive/SplitInterleaved/OuterProduct (witnesses) |
| C19 | OuterProduct sampling unravels the channel that log_likelihood built | Outer.lean | mixed-radix bijection | proved |
| C20 | Factorize partitions the input features in every repetition | Factorize.lean | group sizes, permutations, one-hot indicator algebra with NaN | partial: partition, balance, StructureError, decomposability, owners and sampling routes: proved for every shuffle and permutation; log_likelihood proved for finite inputs, FALSE when a feature of another group has -inf (C20_neg_inf_poisons: NaN) |
| C21 | EinsumLayer computes the dense bilinear mixture | Einsum.lean | finite sums with NaN; all contraction paths | partial: bilinear form on every contraction path, weights, set/get, normalisation, LinsumLayer: proved; FALSE when all channels of one input are -inf: NaN instead of -inf (C21_dead_input_gives_nan) |
| C22 | Einsum sampling masks and scopes follow the split that was used | Einsum.lean | index maps, witnesses | partial: channel choice law and unraveling proved; masks and scopes proved for the interleaved split, for the consecutive split only with uniform masks; FALSE for the default consecutive split in general (C22_consecutive_wrong) |
| C23 | CLTree log-likelihood is the exact tree marginal | CLTree.lean | rooted trees from parent arrays; message passing = sum over completions | partial: exact message passing, fast path, log_likelihood and normalisation proved for rooted trees and integer data; FALSE for accepted cycles (C23_cycle_batch_dependent) and for values that are not exact integers (C23_truncation_batch_dependent) |
| C24 | CLTree MPE is optimal | CLTree.lean | max-product version of the C23 induction | proved |
| C25 | CLTree accepts only trees | CLTree.lean | exact characterisation of accepted parent arrays | partial: acceptance characterised exactly, orders and tree structure proved; FALSE: a cycle beside the root is accepted (C25_cycle_accepted) |
| C26 | Chow-Liu structure learning returns an optimal spanning tree | Mst.lean, SpanTree.lean | graph connectivity from scratch; union-find invariant; exchange argument | proved: Prim (symmetric finite weights), Kruskal (both directions), constrained Kruskal; union-find modelled with path halving |
| C27 | top-k spanning trees are distinct, valid and in order | Mst.lean (MstTopk) | partition of the solution space by required/forbidden edges; heap invariant | partial: proved for minimize=True and dropout 0; FALSE for minimize=False: one tree only (C27_maximize_broken) |
| C28 | An EM step never decreases the training likelihood | Em.lean | exact chain-rule gradients; Gibbs inequality on the circuit polynomial, induction over the circuit | partial: one step and whole runs: proved for trees of leaves/Cat/Product/Sum with equal repetitions and leaf updates that are (generalised) M-steps, when no unit is dead; FALSE for shared Sum nodes (C28_shared_not_monotone) and a Sum without responsibility becomes NaN (C28_em_nan_witness) |
| C29 | The EM driver terminates and reports the history it ran | EmLoop.lean | induction over the loop, abstract float comparison (NaN allowed) | proved: plus C29_final_not_reported: the returned history never contains the likelihood of the parameters left behind |
| C30 | prune_sums preserves the distribution | Prune.lean | induction with fuel = number of modules | partial: proved when nested Sums have one output channel, weights are finite and repetitions agree (it never raises, terminates, and leaves no Cat of Sums below a Sum); FALSE for nested Sums with several channels (C30_multi_channel_raises) |
| C31 | learn_spn always builds a valid circuit over exactly the requested variables | LearnSpn.lean, BuildKit.lean | clustering/partitioning/fitting are arbitrary oracles; induction on fuel | partial: proved for every partitioning answer, every fit and every clustering that separates at least two clusters, leaf templates with equal channel numbers that cover the scope; FALSE otherwise: one cluster recurses forever (C31_one_cluster_diverges), unequal channels raise, uncovered variables raise or are dropped |
| C32 | Prometheus partitions are disjoint covers, nested and increasing | Prometheus.lean: the trees with any tie-breaking; PromModel.lean: matrices, sampled edges and correlations as the code has them | spanning forests, components after removing edges; Cauchy-Schwarz for the correlation | partial: proved for non-zero affinities and for sampled edges; for arbitrary affinities the general form is proved; FALSE with zero affinities: networkx drops them (C32_zero_affinity_no_partition, C32_zero_affinity_first) |
| C33 | CNet learning yields a normalised deterministic circuit | CNet.lean | as C31; data slices | partial: acceptance characterised exactly, validity, termination and density proved for all data, orders and leaf fits; FALSE: a value that does not occur raises InvalidWeightsError (C33_gap_raises), a terminal slice with one row and several variables gives a network whose log_likelihood raises (C33_lonely_row_breaks_network) |
| C34 | Signed log-space arithmetic refines real arithmetic | Signed.lean | reals; induction over signed circuits | partial: signed_logsumexp: proved in full; SignedSum and whole circuits: proved for weights that are 0 or at least 1e-30; FALSE below (C34_tiny_weight_wrong) |
| C35 | inner_product_matrix is the integral of the product of two circuits | Inner.lean, Socs.lean | simultaneous induction over two circuits; closed-form integrals per leaf family | partial: proved for trees of Cat/Product/Sum/SignedSum over Bernoulli, (Signed)Categorical, Geometric, Poisson, Binomial, Normal, LogNormal, Laplace, Exponential, Gamma and Uniform leaves whose parameters keep the 1e-30 clamps inactive and whose leaves list their variables in increasing order; FALSE when two leaves list the same variables in different orders (C35_order_matters). Missing: Hypergeometric, NegativeBinomial (truncated series), Histogram, PiecewiseLinear and CLTree closed forms, triple products |
| C36 | Interval evidence gives the probability of the box | Interval.lean | cdf differences = measure of the interval; induction over circuits | partial: proved up to the code's own floor of 1e-40 per variable, exactly when no leaf is clamped, for Bernoulli, Categorical, Uniform, Normal, Laplace, Exponential, LogNormal and Gamma leaves; FALSE: a missing or negative lower bound raises for Exponential/LogNormal/Gamma (C36_missing_lower_bound_raises), impossible boxes get 1e-40 (C36_impossible_box). conditional leaves not modelled |
| C37 | Histogram density is a proper density and mpe picks a densest bin | Histogram.lean | bin search, integrals over bins | partial: unique bin, density, normalisation and support proved when every bin probability is at least min_prob (otherwise the floor adds mass: bounded by C37 theorems); mode is optimal for equal bin widths; FALSE in general: the bin with most mass need not be densest (C37_mode_not_optimal) |
| C38 | Parameter projections are mutually inverse | Projections.lean | real analysis | proved |
| C39 | DSL expressions denote what the algebra says | Dsl.lean | expression objects, Python operator dispatch, class attribute store; induction over expressions and over programs | partial: acceptance, exact feature-wise meaning, product/mixture semantics, grouping of * and +, normalisation and restoration of the operators proved; FALSE: mixtures of multi-feature terms mix every feature separately (C39_multivariate_terms), a weight on the right factor of two expression objects gives an unbuildable expression (C39_weight_right_unbuildable), overlapping non-nested dsl() blocks leave the operators installed (C39_overlapping_blocks_leak) |
| C40 | Exact information measures satisfy their laws | Measures.lean | finite sums, Jensen | partial: exact method, all aggregations for conditional probabilities, normalising aggregations for the entropy laws; FALSE for channel_agg="logsumexp" with several channels (C40_logsumexp_negative: negative entropy); models whose variable ids are not 0..d-1 raise IndexError (C40_entropy_raises). Monte-Carlo estimators not modelled |
| C41 | predict_proba is the Bayes posterior | Classify.lean | softmax/posterior algebra | partial: posterior and predict proved for all rows of positive probability; an impossible row gives NaN posterior and class 0 (C41_impossible_row); the SPFlowClassifier label mapping is right iff y contains every class (C41_label_iff, C41_labels_missing) |
| C42 | One-hot (differentiable) routing equals integer routing | Routing.lean | IEEE NaN-aware sums | partial: proved for finite tensors and for Cat routing; FALSE for tensors with -inf at an unselected position (C42_neg_inf_gives_nan) |
| C43 | Convolutional products pool and upsample the same patches | Conv.lean | patch index arithmetic | partial: likelihood, scopes and each-pixel-once proved for every geometry; sampling routes correctly proved for unpadded layers whose kernel divides the image (C43_routing_unpadded_partial); FALSE with padding: the first H*H cells of the padded grid are kept instead of its centre (C43_padding_misroutes); an indivisible unpadded kernel raises when sampling (C43_indivisible_raises) |
| C44 | RepetitionMixingLayer accepts and keeps repetition-normalised weights | RepMixing.lean | weights tensors | partial: assignment after construction proved; FALSE of the constructor (C44_constructor_rejects, C44_accepted_not_read_back) |
| C45 | RAT-SPN conditional sampling conditions the class as well | Classify.lean, SamplingLaw.lean | law of the sampler from C14 | partial: exact law of the sampler proved (C45_law); FALSE in general: the class is drawn from the prior, not from the posterior given the evidence (C45_class_not_conditioned); the conditional law holds without evidence and when the evidence has the same probability under every class (C45_no_evidence, C45_conditional_partial) |
| C46 | Leaf sampling writes the column of its own variable | Routing.lean | column maps | partial: proved when all ids are columns and for sample(num_samples); FALSE in general (C46_columns_collide) |
| C47 | Leaf samples lie in the support | Hypergeom.lean | counting in permutations; binomial identities | partial: proved when all channels share N and n; FALSE otherwise (C47_out_of_support) |
| C48 | Maximum-likelihood estimates of discrete leaves are maximisers | LeafFit.lean | Gibbs inequality, convexity | proved: exact maximiser whenever the documented clamp is inactive, explicit bound when it is active |
| C49 | Structure statistics count the DAG | Graph.lean (StatsProps) | DFS invariant | proved: the child lists are those of _iter_structure_children, which skips Cat wrappers |
| C50 | SumConv keeps per-pixel mixtures in place | Conv.lean (SumConvProps) | index bijections, witnesses | partial: the pixel mixture, the set of evaluable images and the sampling weights are proved; FALSE: an image smaller than the kernel evaluates but cannot be sampled (C50_small_image_cannot_sample), an EM step can lower the likelihood (C50_em_decreases, C50_em_ties_kernel), marginalize draws new weights (C50_marginalize_redraws) |
| C51 | RepetitionMixingLayer samples the repetition it mixes | RepMixing.lean | softmax algebra, witnesses | partial: likelihood proved; sampling proved for one channel, FALSE for more (C51_two_channels_wrong) |
| C52 | Structural marginalize of layers keeps their parameters and layout | Factorize.lean, Einsum.lean | witnesses | partial: FALSE of the code: the layers are rebuilt with fresh random weights or groupings (witness theorems) |
| C53 | Missing values in a SOCS are integrated out | Socs.lean (SocsMissing) | exact error factor, witnesses | partial: FALSE: a missing value gives the wrong number for every Bernoulli component (C53_missing_is_wrong), SOCS.marginalize gives the wrong distribution (C53_marginalize_is_wrong); proved: the exact factor by which a factorised component is off (C53_factorised) |
| C54 | The SOCS sampler targets the SOCS density | Socs.lean (SocsSampler) | finite Markov kernels: detailed balance, minorisation | proved: finite state spaces; convergence rate explicit |
| C55 | EinsumLayer's evaluation cache never returns stale weights | Einsum.lean | state machine over all histories | proved: for all histories of setters and counted updates; C55_raw_data_stale shows what writing logits.data from outside does |
| C56 | CLTree conditional sampling is exact | CLTree.lean | law of the tree sampler | proved |
| C57 | Fitting a Chow-Liu tree leaf | CltFit.lean: _resolve_scope_columns, _compute_mutual_information, fit_structure, _prepare_mle_inputs, maximum_likelihood_estimation, over LeafFit.prepare and Mst.prim | CltFitProps: preparation, counts, Gibbs inequality per table column; CltFitTree: parents as rooted tree, the computed score = mutual information + excess; CltFitMain: theorems, via C26_prim and ChowLiu; CltFitWit: two counterexamples | partial: acceptance, missing rows, tables, their optimality and the maximised score proved; the learned tree is a best one when all variables have the same excess and the scope is read in order (C57_structure_best_partial); FALSE otherwise: single values and pairs get the same pseudo-count, so the score is not a mutual information and the learned tree can be worse than another (C57_structure_wrong), and a scope that is not in ascending order learns the tree of permuted variables (C57_scope_order_wrong); without weights the pseudo-count is alpha*F*C*R, not alpha (C57_effective_pseudocount) |
| C58 | Maximum-likelihood estimates of count and continuous leaves | LeafFit.lean (LeafFitMore) | maximisers per family by convexity | partial: maximisers proved for all families when no clamp is active (Laplace: equal weights); FALSE for weighted Laplace (C58_laplace_weights_ignored: the median ignores the weights) and for the bias correction of a leaf with more than one feature, channel or repetition (C58_bias_denominator, C58_bias_two_channels: it divides by N - F*C*R) |
| C59 | Weight of evidence | Measures.lean (MeasuresWoe) | real algebra | partial: value, sign laws and antisymmetry proved; FALSE: a missing entry gets 0 instead of NaN when another row of the batch has that entry (C59_missing_cell_is_zero); the strict sign law needs eps <= 1/(n+k) |
| C60 | NaiveBayes: construction, density and per-class fit | NaiveBayes.lean | constructor + LeafFit per class | partial: acceptance, density and prior proved; per-class fit proved for complete data and nine leaf families, and for Gamma when all values are positive (C60_gamma_per_class_partial); FALSE for Laplace (C60_laplace_mixes_classes) and for Gamma with a value <= 0 in another class (C60_gamma_mixes_classes); rows with NaN and the remaining families missing |
| C61 | ConvPc is a normalised density over the image and samples from it | Conv.lean (ConvNet, ConvPcProps, ConvSample, ConvPcNeg) | induction over layers, even padding arithmetic | partial: density and exact marginals proved whenever the total padding is even, the sampling law (with and without evidence) when k^depth divides the image; FALSE: odd total padding gives a model whose log_likelihood always raises (C61_odd_padding_unusable), and with non-zero even padding samples do not follow the density (C61_sampling_padded_wrong). num_repetitions other than 1 is rejected by the code |
| C62 | WeightedSum (non-normalised sum) semantics | WeightedSum.lean | algebra of log-sum-exp, Prog.E, filter of features | partial: constructor, likelihood, mass, routing, mpe and marginalize proved; FALSE: sampling ignores the masses of unnormalised inputs (C62_sampling_ignores_child_mass) so the law needs inputs of equal mass, the setter stores negative weights which are read as 0 (C62_setter_negative), the declared repetitions can disagree with the tensor (C62_declared_repetitions); the cached evidence is not used by sampling |
| C63 | rg2pic and pic2qpc: the QPC is the quadrature of the PIC | Pic.lean (PicProps, PicGraph, PicEnd, PicWitness) | induction over PIC terms with grid indexing, loop invariant of rg2pic | partial: quadrature, acceptance, marginals and normalisation proved for every coherent PIC, end to end for region graphs with binary partitions in ascending order; FALSE: CP merging rejects every region graph with a partition (C63_cp_rejected), AUTO/TUCKER rejects a non-root region with two partitions (C63_multi_partition_rejected), with unsorted latents (three or more children) the function is evaluated with exchanged arguments (C63_swapped_arguments). Functional sharing groups, multi-feature leaves and the tensorized mode are not modelled |
| C64 | Continuous mixtures: the compiled circuit is the trained mixture | Cms.lean (CmsProps, CmsTree, CmsNeg) | BuildKit for the compiled circuit, exp/log algebra against the objective, C23 for the trees, explicit counterexample law | partial: weights, likelihood = objective, normalisation and marginals proved for both structures, the sampling law for the factorized structure; FALSE for trees with two or more points: the Sum draws a component per feature (C64_cltree_sampling_wrong), proved only for one point (C64_cltree_sample_partial); nearly integral categorical values are truncated (C64_near_integer_truncated); infinite entries count as missing in training (C64_infinite_is_missing). The decoder network and the Sobol points are arbitrary parameters |
| C65 | Continuous mixtures: early stopping returns the best evaluated epoch | Cms.lean (CmsSelect) | loop invariant: stored state is the first maximum of the scores so far | proved: for scores that are not NaN; a NaN first score is kept for ever (C65_first_nan). The optimiser step is an arbitrary state update |
| C66 | ElementwiseSum is a mixture of its inputs, channel by channel | ElemSum.lean: constructor checks (with numpy/IndexError outcomes), setter, log_likelihood, _sample as Prog, EM step, marginalize | the module is embedded into the Sum-over-Cat(dim=2) circuit with block-diagonal logits (ElemSumLaw emb, ElemSumSample sample_emb), whose laws are C10/C11/C14; EM by the same unit-gain inequality as C28; marginalize via marg_post | partial: proved: acceptance, weights, likelihood, normalisation, missing cells, sampling laws, EM. False of the code, with theorems: sampling and EM raise with a one-channel input beside multi-channel ones (C66_broadcast_sampling_raises, C66_em_mixed_channels_raises), marginalize raises when features are not single variables (C66_marginalize_multivariate_raises) and keeps the weights of the wrong features when the feature order is not the scope order (C66_marginalize_wrong_weights); C66_marginalize_partial assumes feature f is the f-th variable of the scope |
| C67 | RatSPN, end to end: a normalised density with matching posterior and sampler | Rat.lean: layers as an inductive type Net (Factorize, products over a split, Sum, EinsumLayer, LinsumLayer, Product), log_likelihood with NaN as Option, _sample as Prog, Model = net + RepetitionMixingLayer + root Sum, constructor build with every random draw a parameter | induction over the layers: den (RatProps) is a Fam of normalised local densities, logLik = den on rows alive in every leaf component and NaN elsewhere (RatLL, RatNaN), sampling law by Frames/Law composition (RatSample, RatModel); RatBuild/RatLeaves show that the constructor produces exactly such networks | partial: proved for splits into two parts: acceptance and errors (C67_constructor, C67_rejects), normalised density with exact marginals (C67_normalised), log_likelihood = that density on rows possible under every leaf component (C67_log_likelihood_partial), posterior, sampling fills and never fails, the law of the sampler for every number of roots and repetitions (C67_sampling_law), which is p(x) with one root or one repetition and p(x)/p(e) with one root (C67_sampling_partial). FALSE: NaN on rows excluded by one leaf component (C67_impossible_component_nan, C67_nan_wrong), then sample_with_evidence raises; with several roots samples do not follow the density (C67_several_roots_wrong, C67_class_ignores_evidence); three channels are rejected (C67_three_channels_rejected); three or more parts give a model that always raises (C67_three_parts_wrong) |
| C68 | Einet, end to end: a normalised density with matching posterior and sampler, for both structures and layer types | Einet.lean: the constructor (checks, top-down and bottom-up structures, _finalize_root) over the Net layers of Rat.lean, sample(data) of a batch row; every random draw and contraction schedule a parameter | EinetProps: every constructed network is a Good Net (induction over the layers), so the theory of RatSound (facts about any such network) applies; EinetWit: concrete networks | partial: proved for both structures and layer types: acceptance and errors (C68_constructor, C68_rejects), normalised density with exact marginals (C68_normalised), log_likelihood = that density on rows possible under every leaf component (C68_log_likelihood_partial) and on every row when Factorize has one group (C68_single_group), posterior, sampling fills and never fails, the law of the sampler in general (C68_sampling_law), which is p(x) with one class or one repetition and p(x)/p(e) with one class (C68_sampling_partial, and C68_sample_data_partial for a row of any batch). FALSE: NaN on rows excluded by one leaf component (C68_impossible_component_nan, C68_nan_wrong), sampling then raises (C68_impossible_component_raises); with several classes samples do not follow the density (C68_several_classes_wrong, C68_class_ignores_evidence) |
| C69 | ElementwiseProduct and OuterProduct over a list of modules: constructors, value, normalisation, sampling | ListProd.lean: modules as a tree of Circ leaves, Cat, Product, Sum and the two products over lists; constructors, value tensors, tensor shapes, sampling | ListProdProps: each module is a family of densities (Conv.Fam), closed under concatenation, stacking, products and sums; ListProdSample: frame and law of the sampler by induction; ListProdMain: the theorems; ListProdWit: a hidden Markov model and the broadcasting counterexamples | partial: proved for inputs with the same number of features: acceptance (C69_elementwise_accepts, C69_outer_accepts), value (C69_elementwise_log_likelihood, C69_outer_log_likelihood), normalisation and exact marginals for every nesting (C69_normalised, C69_nan_is_integral), sampling fills, never fails and has the right law (C69_sample_fills, C69_sample_law, C69_sample_conditional). FALSE: the documented broadcasting of features - an ElementwiseProduct of inputs with different numbers of features is accepted but always raises (C69_elementwise_any_features, C69_elementwise_broadcast_raises), an OuterProduct computes the likelihood but sampling raises (C69_broadcast_sampling_raises, C69_broadcast_example); OuterProduct of one module with several features raises TypeError (C69_outer_single_raises) |
| C70 | Hidden Chow-Liu trees: structure, density, normalisation, sampling | Hclt.lean: adjacency lists, build_subtree with the recursion limit as fuel, initial weights, the mixture, the learner on top of Mst.topk | HcltTree: every spanning tree can be rooted, exact elimination of the hidden states along the tree; HcltProps/HcltMain: every subtree is a valid module of C69 and satisfies the elimination recursion; HcltIndep: independence with one-channel transitions, sampling via C69; HcltBuild/HcltLearn: constructor and learner (with C27); HcltWit: a two-column model with dependent columns | partial: construction for every spanning tree (C70_construction: succeeds exactly below the recursion limit), rejections, density, normalisation, exact marginals, sampling law and conditional sampling for a tree (C70_density, C70_normalised, C70_sampling, C70_conditional), mixtures of trees (C70_model), the learner (C70_learn). FALSE: with init="random" every transition Sum has one channel, so all variables stay independent for every tree and all weights (C70_random_independent); missing: dropout_prob > 0, conditional sampling for mixtures of several trees; the mutual information matrix is a parameter |
| C71 | Mutual information and Chow-Liu trees from data | Mi.lean: mi.py and chow_liu.py function by function, including the flattened bincount in batches | ChowLiu.lean: the Chow-Liu theorem (Gibbs inequality per factor, sum over the edges of a rooted tree); MiProps: marginals of the smoothed empirical distribution; MiCat: codes are unique, so every batch counts correctly; MiBin; MiTrees: combination with C27 | proved: the accepted arguments are characterised exactly; not rejected and documented by theorems: NaN and every non-zero value count as 1 in binary data (C71_binary_nonzero), non-integers are truncated in categorical data (C71_truncates), negative weights (C71_*_accepts_iff). dropout_prob = 0 |
| C72 | PiecewiseLinear leaves: fit, density, mode, sampling | Pwl.lean: piecewise_linear.py (padding tables, searchsorted, CDF, initialize with arbitrary clusters, states), utils/histogram.py and domain.py | PwlProps: dens_seg and the integral of an affine function per segment; PwlFit: bins partition the range, normalisation by the area; PwlSample: the CDF index is the segment, volume of the preimage; PwlWit: counterexamples | partial: fit, acceptance, bin edges, interpolation, area one, mode, the Laplace estimate for consecutive values, missing values, support and segment probabilities of the sampler proved. FALSE: the floor 1e-10 makes the total mass infinite (C72_floor_improper), values with gaps get wrong masses (Wit.C72_gap_wrong), smoothing of continuous features uses alpha times the bin width (C72_effective_alpha), discrete samples are class numbers instead of values (Wit.C72_discrete_sample_wrong, right only for 0..n-1: C72_discrete_sample), continuous samples are uniform inside a segment (Wit.C72_sampler_wrong, C72_sample_affine), data outside the domain give NaN (Wit.C72_out_of_domain_nan), a bound of 0 is ignored for empty clusters (Wit.C72_zero_bound_wrong), a failed initialize changes the leaf (Wit.C72_failed_initialize_mixes), Product does not multiply and Sum raises (C72_product_and_sum_wrong). Not modelled: infinite domain bounds for empty clusters, NaN in training data |
| C73 | Differentiable sampling has the law of ordinary sampling | Simple.lean: sample_gumbel, SIMPLE and sample_from_logits on uniform noise, straight-through forward value; SimpleLeaves/SimpleTrunc: the differentiable samplers of the leaves; gumbelE: a sampling program with SIMPLE choices | the Gumbel-max theorem by integrating over the product of uniform measures (SimpleProps), induction over programs, finite tables for the discrete leaves, Chebyshev for the cut tail, explicit parameters for the counterexamples; SimpleCirc combines C73_program with C13 and C14 | partial: one-hot decisions, the law of the decisions, whole sampling programs, circuits (under the hypotheses of C14), Bernoulli, Categorical, Binomial (method simple), Hypergeometric and Histogram proved exactly; Poisson, Geometric and NegativeBinomial follow the law truncated at a cap, with the error bounded by the cut tail (C73_truncated_law, C73_truncated_error). FALSE: the default Binomial method is a rounded Normal (C73_binomial_normal_wrong), the caps 2048 and 1024 change the law for large means (C73_poisson_cap_wrong, C73_geometric_cap_wrong), and logits that are all minus infinity give NaN where ordinary sampling raises (C73_dead_is_nan). Idealised: real arithmetic, and the eps inside sample_gumbel is 0 |
| C74 | Latent statistics, objective and training of autoencoding circuits | Apc.lean: the differentiable parameter records of leaf.py (shapes, broadcasting, routed selection) and latent_stats_from_leaf_record; ApcTrain.lean: loss_components, evaluate_apc and fit_apc over an arbitrary encoder and an arbitrary optimiser step | Gaussian case against Mathlib klDiv through the Radon-Nikodym derivative, finite sums for the discrete families (mean of the binomial, ratio argument for its mode), Jensen for the comparison with the posterior; induction over batches and epochs for the loops; explicit parameters for the counterexamples | partial: divergence, mean, log-variance and mode of the routed components proved for Normal, Bernoulli, Binomial and Categorical leaves (probabilities moved into [eps, 1-eps]), objective, batching and history proved. FALSE: the documented exact posterior divergence is that of one routed component, an upper bound on average (C74_posterior_le, C74_not_posterior_kl); Categorical statistics raise when batch size, latent dimension and channels agree (C74_categorical_batch_size); with a temperature other than 1 the returned Normal latents have the wrong variance (C74_redraw); an empty batch makes the result NaN (C74_empty_batch_nan); an error leaves the model in evaluation mode (C74_error_leaves_eval_mode); a generator lasts one epoch (C74_generator_raises). Not modelled: gradients and the optimiser (an arbitrary step function), gradient clipping, float rounding |
| C75 | The Einet joint encoder samples posteriors and returns consistent likelihoods | ApcEnc.lean: constructor with leaf factories, flattening, evidence building, the likelihoods, encode, decode and sample_prior_z on top of the Einet model of C68 | C68_normalised and C68_sampling for the joint circuit, C73_program for the differentiable sampler; expectations of programs as sums over results (E_tsum), then the single completion with given blocks | partial: constructor, shapes, densities and laws proved; the laws are those of discrete leaves, for rows at which no leaf component is impossible (elsewhere NaN, see C68), the densities for leaves that are positive everywhere or depth 0. mpe=True and return_latent_stats=True (C74) are not part of it; the one-hot routing is that of C73 and C42 |
| C76 | learn_prometheus builds a valid circuit, a mixture over clusters and partitions | PromModel.lean: affinities, partitions, the memo of one cluster, products with channel adaptation, the weighted Sum, the recursion, argument checks; clustering, custom similarity, rdc, sampling and leaf fits are oracles | induction on the nesting depth (every group is a strict part of the scope), the constructor lemmas of BuildKit, C32 for the partitions | partial: proved for disjoint leaf templates of equal channel number that cover the scope; FALSE otherwise: unequal channel numbers raise (C76_unequal_channels_fail), uncovered variables raise or are dropped (C76_uncovered_fails, C76_uncovered_dropped). FALSE: clusters of one row and clusters whose affinities are all zero are left out and the weights renormalised; when that happens to all clusters the clustering is thrown away (C76_constant_columns) |
| C77 | ExpSOCS densities are normalised by exact triple products | Triple.lean: leaf triples, the recursion with its checks, the scalar version, ExpSOCS constructor, partition function, log-likelihood and marginalize; the memo is not modelled | simultaneous induction on the three circuits; Gaussian, geometric and finite sums at the leaves | partial: integrals, domain of definition, symmetry, constructor and normalisation proved for Bernoulli, (signed) Categorical, Uniform, Geometric, Normal and Binomial leaves (Hypergeometric and NegativeBinomial triples: see C90; Histogram and PiecewiseLinear triples are not modelled). FALSE: with missing entries log_likelihood is not the marginal (C77_missing_is_wrong) and marginalize does not give the marginal (C77_marginalize_is_wrong). |
| C78 | SOSModel and ExpSOSModel build normalised models over all variables | SosModel.lean: the six region graphs with a shuffle oracle, leaf, product and sum construction with the channel and scope checks of Cat, _finalize_scalar, argument validation and both constructors; random initial values are oracles | induction on the region trees (patch geometry for quadtrees, powers of two for balanced trees), then C35_socs_normalised and C77_normalised | partial: region trees, components, normalisation and sharing proved in full. FALSE: the documented arguments are not enough; with different numbers of input and sum units the constructors raise ValueError whenever a tree node has both a leaf and an inner child (exact characterisation in C78_sos_constructor and C78_exp_constructor): linear trees from three variables on, random binary trees unless n is a power of two (C78_default_region), 3x3 quadtrees. |
| C79 | Compatible components, build_socs and complex squared circuits | BuildSocs.lean: module trees with run-time types, _check_pair with its exceptions, _convert_sum and _transform_in_place with the random numbers of every node as an oracle, build_socs, build_complex_socs | induction over pairs of trees against an inductive skeleton, preservation of well-formedness by the conversion, then C35_socs_normalised | partial: proved in full for trees of Cat, Product, Sum, SignedSum and the twelve modelled leaf classes. FALSE for Gamma leaves: compatible components may lack inner products (C79_gamma). Not modelled: modules shared inside one circuit, RepetitionMixingLayer, CLTree. |
| C80 | train_gradient_descent performs and reports exactly the requested training | GradDesc.lean: the training and validation loops over arbitrary loss, update and scheduler functions, with modes, metrics, callback events and exceptions; the default milestones and the rule of MultiStepLR (torch semantics trusted); the two losses | induction over batches and epochs against a closed description of the trace; algebra of means for the losses | partial: updates, scheduler steps, callbacks, mode, schedule and losses proved in full for well-formed non-empty loaders. FALSE: an empty validation loader, or verbose with an empty training loader, raises UnboundLocalError (C80_empty_loaders); an exception in validation leaves the model in evaluation mode (C80_error_leaves_eval_mode); epochs=1 trains with lr/100 (C80_learning_rate); the list given to callback_epoch is emptied and refilled in the next epoch (C80_losses_are_shared). Not modelled: the accuracy counters, which are only logged. |
| C81 | SPFlowDensityEstimator scores a normalised density and samples from it | Sklearn.lean: array shapes, reductions, fit (given model or learners of LearnSpn/PromModel), score_samples over the circuit model, sample with the forked generator as explicit state | reductions are nonnegative combinations of channel densities; integrals through the product of the features (CircuitInt); C31/C76 for the learners, C14 for sampling | partial: scores, missing values, normalisation for first and logmeanexp, both learners, sampling law for one channel or first, and the generator proved. FALSE: logsumexp multiplies the mass by the number of channels and of repetitions (C81_normalised_partial, C81_logsumexp_not_normalised); with several channels samples follow the first channel, not the scored mixture (C81_samples_first_channel); without a seed a second sample call returns the same samples (C81_unseeded_repeats); a fit that raises because the model has no maximum likelihood estimation leaves the estimator fitted (C81_failed_fit_leaves_model); an unknown reduction is only rejected if there is something to reduce (C81_unknown_reduction). Assumed of the learners: what C31 and C76 assume of their callables. |
| C82 | The folded tensorised QPC evaluates the circuit of its region graph and is normalised | Qpc.lean: the constructor, _build_folded_layers (heights, offsets, padding, masks, mixing rows), InnerNet permutation and normalisation, log-space evaluation and the evaluation loop | loop invariant over heights: every region built so far has a location whose tensor is its circuit value (QpcLevel, QpcMix, QpcMain); induction on height for the integral (QpcInt) | partial: constructor, recursion over the region graph and normalisation proved for one class. FALSE: a configuration with num_classes other than 1 is accepted and then fails at every evaluation (C82_fails, C82_classes_never_work); a root without partitions fails unless the rule has one point (C82_fails); categorical leaves clamp, so impossible values get the probability of a category (C82_out_of_support). Networks are arbitrary functions (outputs before softplus); NaN, -inf leaf values and floating-point rounding are not modelled; quadrature weights must be positive. |
| C83 | An image wrapper is the wrapped circuit on images | Image.lean: constructor, flatten, to_image_format, log_likelihood, sample, sample_with_evidence and marginalize of the wrapper, over the circuit model of C10-C14 | index arithmetic of pixels (ImageProps), transfer of C07/C14 along the pixel bijection, and the relation of removed indices to removed variables (ImageMarg) | partial: constructor, formats, log-likelihood, normalisation and conditional sampling proved. FALSE: the wrapper returned by marginalize has the right sizes but its module still reads the columns of the large image, so every tensor raises IndexError unless the removed pixels are the last ones (C83_marginalize_unusable; C83_marginalize_last for the good case); with a scope in another order the wrong pixel is integrated out (C83_marginalize_wrong_pixel); sample accepts a tensor with height and width exchanged (C83_sample_accepts_transposed). The sampling laws are those of the circuit sampler (C14), in distribution. |
| C84 | Tensorized layers compute the documented sums of products in log space | TLayer.lean: log_func_exp with NaN and -inf, the three eval functions, forward and constructors of the five layers, the factory, einsum broadcasting | closed form of the max-shifted sum for arbitrary entries (TLayerProps.lfe), then algebra; Fubini for product measures (TLayerInt) | partial: values on every input of the documented shape, accepted shapes, constructors, integrals and relations proved. FALSE: a child whose units all have probability zero gives NaN, not -inf (C84_impossible_is_nan); in the uncollapsed layer a masked child that is impossible or NaN makes the output NaN (C84_masked_child, C84_uncollapsed); the shared layer drops the mask (C84_shared_drops_mask); a Tucker layer ignores children after the second (C84_tucker_ignores); sizes of one are repeated instead of rejected (C84_accepts); a new mixing layer with a mask is not normalised over the children that take part (C84_masked_mixing). Rounding and +inf are not modelled; values are given for inputs of the documented shape. |
| C85 | The joint Conv-PC encoder is one normalised model of data and latents; encode, decode and prior sample its conditionals | JEnc.lean: arguments, latent reduction, packing, permutation, fusion, Conv-PC above, repetition mixture, evidence flattening, encode/decode/prior, as Conv.Net cases pair, pack and fuse | induction over the network for densities and sampling (Conv.Net), mixture of repetitions as an outer sum; law of a block of columns from the complete law | partial: constructor, densities, marginal and total mass proved for all architectures. FALSE: with permute_latents=True and a latent stream that already has the fusion width, sampling ignores the permutation that log_likelihood applies, so encode/decode/prior sample a different model (C85_permutation_ignored, C85_samples_without_permutation). Only square one-channel images build; others raise ValueError (C85_rejects_shapes); a latent width that cannot be halved to the fusion width raises (C85_rejects_odd_width); latent_depth 0 with another number of leaf channels raises ShapeError, not InvalidParameterError (C85_rejects_channels). The sampling laws (C85_encode_partial, C85_decode_partial, C85_prior_partial) need tilings without padding, the permutation not ignored, and evidence that no leaf component excludes; MPE decoding is not covered. |
| C86 | Functional sharing: every unit of a group keeps its own positive function through any history | FnGroup.lean: Fourier features, MLP, heads, FunctionGroup as a state machine, N-dimensional broadcasting, group materialisation | invariant of the state machine by induction over histories; broadcasting characterised axis by axis by induction; comparison with the model of pic2qpc (Pic.lean) | partial: constructor, indices, values, shapes, stability over histories and materialisation of c groups proved. FALSE: an f group with two or more units cannot be materialised, the second unit raises an IndexError (C86_f_materialize); a unit added after the first evaluation has no function until finalize is called (C86_late_unit), and finalize then replaces the functions of all units by new random ones (C86_refinalize, Wit.C86_example); a group without units raises an AssertionError (C86_empty). Rounding is not modelled; activation is the default SiLU. |
| C87 | A cache changes no inner product | IpMemo.lean and IpMemo3.lean (triple products): circuits with identities, the memo, the recursion with look-ups of the pair and of the reversed pair, stores, failures that keep earlier stores, and sequences of calls | invariant: every stored tensor is the inner product of the modules at its two identities; the recursion preserves it and agrees with Inner.ip, by induction on the first circuit; the reversed look-up uses C35_symmetric; then induction over the calls | partial: C87_memo proves it for all histories on modules that keep identity and parameters, for well-formed circuits with leaf parameters in their domains and Laplace scales that are equal or clearly different. FALSE otherwise: the memo knows modules only by id(), so after a parameter update, or when Python reuses the identity of a deleted module, the old tensor is returned (Wit.C87_stale_is_wrong), even where an error is due (Wit.C87_stale_no_error); for Laplace scales at the border of torch.isclose, which is not symmetric, the answer depends on which order was asked first (Wit.C87_laplace_is_wrong). C87_triple_memo proves the same for triple products and ExpSOCS log-partitions. Rounding is not modelled. |
| C88 | Neural decoders return the configured shape, row by row | Decoder.lean: linear, convolution, transposed convolution, bilinear resize, batch norm, residual block, the three constructors and forward methods with their errors | run lemmas for each layer give the shape; row relations VRow/IRow are preserved by each layer and composed along the layer lists by induction | partial: Acceptance, shapes and ranges are proved for all three decoders (C88_*_accepts, C88_mlp, C88_conv, C88_neural), row independence for the first two and for NeuralDecoder2D outside training mode with batch norm (C88_*_rows). FALSE of NeuralDecoder2D in training mode with batch norm, its default: the rows are coupled (Wit.C88_rows_false_in_training; Wit.C88_training_couples shows how, at the batch-norm layer), and a single latent raises ValueError when the first feature map is one pixel (C88_single_row_training). Arguments are integers; dtypes, rounding and the update of the running statistics are not modelled. |
| C89 | Maximum-likelihood estimation of Gamma leaves | GammaFit.lean: the estimator with its NaN and infinite cases on the preparation of LeafFit | n*theta = sum w (x-m)(ln x - ln m) gives positivity; the moments of the Gamma density by integration by parts on (0, inf); the counterexample by the intermediate value theorem and the derivative of Gamma at 1 | partial: Proved: both parameters are always positive, possibly +inf (C89_positive); without bias correction the fitted distribution has the weighted mean and the weighted covariance of x and ln x of the rows (C89_moments, C89_distribution), and the fitted rate maximises the likelihood for the fitted concentration (C89_rate_maximises); the two moments determine the pair (C89_unique); the corrected pair (C89_corrected, without clamping from 3 F C R rows on: C89_corrected_unclamped). FALSE: the pair is not the maximum of the likelihood (C89_not_maximiser); the correction uses N / (F C R) for the number of rows, so with the default weights a leaf with F C R >= N gets the rate 1e-8 (C89_rate_collapses, Wit.C89_two_channels); equal rows give an infinite rate (C89_constant_rows); one row with the value 0 sets both parameters to 1e-8 (C89_zero_row). Exact reals; rounding is not modelled. |
| C90 | Hypergeometric and negative binomial leaves: likelihood and exact products | CountInner.lean: log_prob of the hypergeometric distribution, the two hypergeometric branches with their check, masks and max_k; NegBinInner.lean: the log terms and the loop of _series_logsumexp over all entries | lgamma at integers is a factorial; Vandermonde; the finite range covers the support; induction over the loop; ratio test and geometric series for the NegativeBinomial series | partial: Proved: the likelihood of Hypergeometric cells (C90_hyper_lik, C90_hyper_normalised) and its mode (C90_hyper_mode, C90_hyper_mode_support), their inner and triple products for one population size (C90_hyper_inner, C90_hyper_triple), the total mass of NegativeBinomial cells with a whole number of failures (C90_nb_normalised), what the truncated series of NegativeBinomial cells returns (C90_nb_truncated) and its error when it is left early and the terms decrease (C90_nb_error). FALSE: a leaf whose channels have different population sizes cannot be multiplied with itself (C90_hyper_self_raises, Wit.C90_example_raises); population sizes within 1e-5 are identified and the product can be 0 instead of 1 (Wit.C90_hyper_close_is_wrong); products of NegativeBinomial cells are always below the exact value (C90_nb_underestimates) and, with success probabilities near one, less than half of it, since at most 4097 terms are added (Wit.C90_nb_half). Clamped NegativeBinomial cells and rounding are not covered. |

## 3. Modules and the code they model

| file | content |
|------|---------|
| Apc.lean | Autoencoding probabilistic circuits: latent statistics, loss, evaluation and training (model for C74) Sources: `spflow/modules/leaves/leaf.py` (recording routed leaf parameters), `spflow/zoo/apc/encoders/latent_stats.py`, `spflow/zoo/apc/config.py`, … |
| ApcEnc.lean | Joint APC encoder over an Einet (model for C75) Sources: `spflow/zoo/apc/encoders/einet_joint_encoder.py`, `spflow/zoo/apc/encoders/joint_pc_base.py`. Variables are columns; `none` is NaN. The rows of a batch are sampled independently, so sampling is modelled … |
| ApcEncLaw.lean | C75: the laws of encode, decode and sample_prior_z |
| ApcEncProps.lean | C75: the joint APC encoder |
| ApcEncWit.lean | C75: a concrete encoder meets the hypotheses |
| ApcKl.lean | C74: the reported KL divergences are the Kullback-Leibler divergences |
| ApcMix.lean | C74: the divergence of the posterior against the divergence of one routed component; witnesses |
| ApcRecord.lean | Which parameter tensors can be recorded |
| ApcStats.lean | C74: latent statistics of the routed leaf components |
| ApcTrain.lean | The APC objective and the training loop (model for C74) Sources: `spflow/zoo/apc/config.py`, `spflow/zoo/apc/model.py`, `spflow/zoo/apc/train.py`. The random numbers of a row are part of the row, so the encoder acts row by row. `none` stands for NaN, which … |
| ApcTrainProps.lean | C74: the objective and the training loop |
| BuildKit.lean | Building blocks for structure learners Lemmas about the constructors (`mkLeaf`, `mkProd`, `mkCat`, `mkSum`): when they succeed and that the results are again well formed. Used by the learner models (LearnSpn, CNet, Prometheus learner, DSL). |
| BuildSocs.lean | Model of spflow/utils/compatibility.py and spflow/learn/build_socs.py Circuits are trees of leaf modules, `Cat`, `Product`, `Sum` and `SignedSum`, as in `Inner.lean`, with the run-time type of the sums kept: the compatibility check compares types and … |
| BuildSocsBuild.lean | C79: what `build_socs` returns, and its density |
| BuildSocsMain.lean | C79: inner products of compatible components, and the density of `build_socs` |
| BuildSocsProps.lean | C79: compatible components, `build_socs` and complex squared circuits |
| BuildSocsWit.lean | C79: examples, and the limits of the compatibility check |
| CLTree.lean | Model of the Chow-Liu tree leaf spflow/modules/leaves/cltree.py. Tree orders (50-78), likelihood of complete rows (340-354) and rows with missing values (356-398), sampling and MPE (489-611). One output channel and one repetition are modelled: the tensors … |
| CLTreeProps.lean | Chow-Liu trees: C23, C24, C25, C56 |
| CNet.lean | Model of `learn_cnet` spflow/learn/cnet.py:81-321. Rows are complete assignments of natural numbers (what `_validate_discrete_data` lets through, up to its 1e-5 rounding tolerance). Fitted leaves are an oracle: any circuit over the given variables (`fit`); a … |
| CNetProps.lean | Property C33: cutset networks |
| Cache.lean | Model of `spflow.utils.cache` (C06): the per-traversal cache and the `@cached` decorator, over an arbitrary graph of modules whose methods call each other. |
| CacheProps.lean | C06: the per-traversal cache is transparent, evaluates shared nodes once, keeps stored entries. |
| ChowLiu.lean | The Chow-Liu theorem: among all tree-structured distributions, the one built from the pairwise marginals of `P` on a spanning tree of maximal total mutual information has the largest expected log-likelihood under `P`. Pure mathematics, independent of the … |
| Circuit.lean | Model of the core modules: leaves, `Cat`, `Product`, `Sum` Files modelled: spflow/modules/leaves/leaf.py, ops/cat.py, products/product.py, sums/sum.py. * One batch row at a time: a row is `Var → Option ℝ`, `none` is NaN. (No modelled operation mixes rows.) * … |
| CircuitInt.lean | Helper lemmas: integrating circuit likelihoods one variable at a time. |
| CircuitLemmas.lean | Helper lemmas about `Circuit.lean`. |
| CircuitProps.lean | Properties C08-C11: weights, log_likelihood, normalisation, NaN = integrate out |
| Classify.lean | Model of the multi-class models spflow/utils/inference.py (`log_posterior`), `log_posterior` / `predict_proba` / `sample` of spflow/zoo/rat/rat_spn.py, spflow/zoo/einet/einet.py and spflow/zoo/naive_bayes.py, `predict` of spflow/interfaces/classifier.py, and … |
| ClassifyProps.lean | Multi-class models: posterior, prediction, sampling (C41, C45) |
| CltFit.lean | Model of learning Chow-Liu tree leaves File modelled: spflow/modules/leaves/cltree.py (`_compute_mutual_information`, `fit_structure`, `_prepare_mle_inputs`, `maximum_likelihood_estimation`), with `_resolve_scope_columns` of leaf.py. Simplifications: exact … |
| CltFitMain.lean | C57: main theorems about fitting Chow-Liu tree leaves. |
| CltFitProps.lean | C57: fitting Chow-Liu tree leaves: which data are accepted, and the conditional probability tables. |
| CltFitTree.lean | C57: the tree that a Chow-Liu tree leaf learns. |
| CltFitWit.lean | C57: worked examples, and where the learned tree is not the best one. |
| Cms.lean | Model of spflow/zoo/cms (continuous mixtures) The quadrature points (`rqmc.py`), the training objective (`_factorized_component_ll`, `_mixture_log_likelihood_from_component_ll`, `cltree_component_ll`), the compilation into SPFlow modules … |
| CmsNeg.lean | Property C64: where it fails |
| CmsProps.lean | Properties C64: the compiled continuous mixture is the trained one (factorized structure) |
| CmsSelect.lean | Property C65: early stopping returns the best evaluated epoch |
| CmsTree.lean | Property C64, Chow-Liu tree structure |
| Conv.lean | Model of the convolutional modules spflow/modules/conv/sum_conv.py, prod_conv.py, utils.py and spflow/zoo/conv/conv_pc.py. * A tensor `(features, channels, repetitions)` of one batch row is a function `Tens`; the number of features is passed separately. * … |
| ConvNet.lean | Helper lemmas for C61: families of likelihoods closed under the layers of a convolutional network. |
| ConvPcNeg.lean | C61: what fails, and witnesses |
| ConvPcProps.lean | C61: ConvPc |
| ConvProps.lean | C43: which pixels a ProdConv multiplies, reports and samples |
| ConvSample.lean | Helper lemmas for C61: the distribution of `_sample` of a convolutional network. |
| CountInner.lean | C90: hypergeometric and negative binomial leaves, and their inner and triple products spflow/modules/leaves/hypergeometric.py, negative_binomial.py and the two families' branches of spflow/utils/inner_product_core.py. Exact reals. |
| CountMode.lean | C90: the mode of a hypergeometric leaf |
| Decoder.lean | Model of the neural decoders of autoencoding circuits: spflow/zoo/apc/decoders.py Weights are arbitrary functions of the position of the layer in the network. Tensors are batches: a vector batch `[n, d]` or an image batch `[n, c, h, w]`. The torch operations … |
| DecoderMain.lean | C88: the theorems |
| DecoderProps.lean | C88: neural decoders return the configured shape, row by row, inside the range of the output activation |
| DecoderWit.lean | C88: an instance; batch norm in training mode couples the rows; the skip connection |
| Dsl.lean | Model of `spflow/dsl.py`: algebraic expressions for circuits and the `dsl()` context manager * Weights are exact numbers (`Num`); float rounding and overflow are not modelled. NaN and the infinities are the single value `nonfinite`. * The device checks … |
| DslAlgebra.lean | C39: grouping of `*` and `+`, normalisation, and the `dsl()` context manager |
| DslProps.lean | C39: DSL expressions denote what the algebra says Specification first (`val`, `WellFormed`), then the theorems. |
| Einet.lean | Model of Einet spflow/zoo/einet/einet.py on top of the layers of `Verif.Rat`. |
| EinetProps.lean | C68: Einet, end to end |
| EinetWit.lean | C68: counterexamples and witnesses. |
| Einsum.lean | Model of EinsumLayer and LinsumLayer spflow/modules/einsum/einsum_layer.py and linsum_layer.py. Everything is per row, output feature, output channel and repetition (the tensor axes `n d o r` are carried along pointwise by every einsum of the code). NaN is … |
| EinsumProps.lean | C21, C22, C55: EinsumLayer and LinsumLayer |
| ElemSum.lean | Model of `ElementwiseSum` (C66) spflow/modules/sums/elementwise_sum.py: a sum over a *list of modules*; output channel `(ci, co)` mixes channel `ci` of every input. Inputs are circuits of leaves, `Cat`, `Product` and `Sum`. Non-differentiable mode, one row at … |
| ElemSumEm.lean | C66: expectation maximisation on an `ElementwiseSum` |
| ElemSumLaw.lean | C66: an `ElementwiseSum` is a `Sum` over the channel concatenation of its inputs The embedding `emb` shows that every fact about circuits of leaves, `Cat`, `Product` and `Sum` (normalisation, missing values, sampling) applies to circuits that contain … |
| ElemSumMarg.lean | C66: `ElementwiseSum.marginalize` |
| ElemSumProps.lean | C66: `ElementwiseSum` - construction, weights, likelihood, normalisation |
| ElemSumRoot.lean | Sampling from an `ElementwiseSum` (C66) What `sample()` and `sample_with_evidence()` return, from the refinement `sample_emb`. |
| ElemSumSample.lean | C66: sampling from an `ElementwiseSum` |
| ElemSumWit.lean | C66: concrete `ElementwiseSum`s The hypotheses of the theorems are met, and the cases in which `marginalize` and `sample` fail. |
| Em.lean | Model of one expectation-maximisation step on a circuit spflow/learn/expectation_maximization.py:55-75 (forward pass, backward pass, recursive step), modules/sums/sum.py:387-434, products/product.py and ops/cat.py (default delegation, module.py:345-372), … |
| EmLoop.lean | Model of `spflow.learn.expectation_maximization` (C29): the EM drivers. |
| EmLoopProps.lean | C29: the EM driver terminates and reports the history it ran. |
| EmProps.lean | C28: an EM step never decreases the training likelihood |
| Factorize.lean | Model of Factorize (C20, C52): spflow/modules/rat/factorize.py. Randomness is a parameter: `sizes` is the outcome of `np.random.shuffle(group_sizes)` (any permutation) and `perm` the outcome of `torch.randperm` for one repetition (any permutation of the … |
| FactorizeProps.lean | C20: Factorize partitions the input features. |
| FnGroup.lean | Model of functional sharing (C86) spflow/zoo/pic/functional_sharing.py (FourierFeatures, SharedMLP, MultiHeadedMLP, FunctionGroup) and the materialisation of a group, `materialize_integral_group` in spflow/zoo/pic/pipeline.py:512-566. Simplifications: real … |
| FnGroupMat.lean | C86: functional sharing - materialisation of a group, and examples |
| FnGroupProps.lean | C86: functional sharing - the functions of a group, over all histories |
| GammaFit.lean | C89: the estimator of the Gamma leaf spflow/modules/leaves/gamma.py, `Gamma._compute_parameter_estimates`, on top of the preparation in `LeafFit`. Exact reals; the IEEE specials that zero denominators and `log` of a non-positive value produce are carried by … |
| GammaFitMore.lean | C89: the moments of the Gamma distribution, and why the estimate is not the maximum of the likelihood |
| GradDesc.lean | Model of spflow/learn/gradient_descent.py The parameters of the model together with the state of optimizer and scheduler are one value `s : σ`; the loss of a batch, the effect of `zero_grad`, `backward` and `optimizer.step`, and the effect of `scheduler.step` … |
| GradDescProps.lean | C80: gradient descent training |
| Graph.lean | Model of the graph traversals: spflow/meta/region_graph.py (C05) and spflow/utils/structure_stats.py (C49). Nodes are elements of a type `K` with decidable equality (the equality used by the Python `visited` set: `==`/hash for regions, `id` for modules); `ch` … |
| GraphProps.lean | C05 and C49: graph traversals. |
| Hclt.lean | Model of the hidden Chow-Liu tree learner Files modelled: spflow/zoo/hclt/learn.py (and, through `Verif.Mst`, topk_mst.py; the mutual information matrix of mi.py is a parameter here and the subject of C71). Simplifications. * Edges are pairs of `Fin n`, so … |
| HcltBuild.lean | C70: the constructor of a hidden Chow-Liu tree, the mixture of trees and the learner. |
| HcltIndep.lean | C70: normalisation, sampling and the effect of `init="random"` for hidden Chow-Liu trees. |
| HcltLearn.lean | C70: the mixture of hidden Chow-Liu trees and the learner. |
| HcltMain.lean | C70: hidden Chow-Liu trees, main theorems. |
| HcltProps.lean | C70: hidden Chow-Liu trees. |
| HcltTree.lean | Rooted trees: the rooted version of a spanning tree, and the exact elimination of hidden variables along it. Nothing here models code; used by C70. |
| HcltWit.lean | C70: witnesses. |
| Histogram.lean | Model of the Histogram leaf (spflow/modules/leaves/histogram.py) One channel and repetition: `B` bins, edges `e 0 .. e B`, logits `θ 0 .. θ (B-1)`, floor `minProb`. |
| HistogramProps.lean | C37: the Histogram density |
| Hypergeom.lean | Model of `spflow.modules.leaves.hypergeometric` (C47). |
| HypergeomProps.lean | C47: Hypergeometric samples and support. |
| Image.lean | Model of spflow/modules/wrapper/image_wrapper.py: `ImageWrapper`, which lets a circuit be used on image tensors `(batch, channels, height, width)`, on top of the circuit, marginalisation and sampling models. Tensors are a shape and a cell function; NaN is … |
| ImageMarg.lean | C83: marginalising rows, columns and channels of an `ImageWrapper`. |
| ImageProps.lean | C83: `ImageWrapper` is the wrapped circuit on images. |
| ImageWit.lean | C83: a two-pixel image model, and a scope in another order. |
| Inner.lean | Model of exact inner products: spflow/utils/inner_product_core.py, and of SOCS densities (modules/sos/socs.py) Circuits are trees of leaf modules, `Cat`, `Product` and (signed) `Sum`. Values are real numbers: this is what `log_likelihood` (C09) and … |
| InnerLeaves.lean | C35: the closed forms of `leaf_inner_product` are the integrals (sums) they stand for |
| InnerProps.lean | C35: inner products are integrals Specification: the function a circuit computes (`IC.value`), the variables of each feature (`IC.fs`), and the integral of a function over a finite set of variables (`intOn`). |
| Interval.lean | Model of interval evidence spflow/meta/data/interval_evidence.py, utils/range_inference.py, `_log_likelihood_interval` of modules/leaves/{leaf,bernoulli,categorical,uniform}.py. One batch row. A bound is `none` (NaN) or an extended real. The modules above the … |
| IntervalLeaves.lean | Interval probabilities of the leaf families (helper lemmas for C36). |
| IntervalProps.lean | C36: interval evidence gives the probability of the box Specification: `boxProb` - the integral of the point-evidence density over the box of allowed values. |
| IpMemo.lean | Model of the memo of exact inner products: `inner_product_matrix(a, b, cache=...)` and `log_self_inner_product_scalar(module, cache=...)` (spflow/utils/inner_product.py:42-69, spflow/utils/inner_product_core.py:460-608) `Inner.ip` is the computation without a … |
| IpMemo3.lean | The memo of exact triple products: `triple_product_tensor(a, b, c, cache=...)` and `triple_product_scalar` (spflow/utils/inner_product.py:71-103, spflow/utils/inner_product_core.py:611-1093), and the log-partition of ExpSOCS with a cache … |
| IpMemoProps.lean | C87: giving `inner_product_matrix` a cache changes no result |
| IpMemoWit.lean | C87: an instance, and where a cache does change the result |
| JEnc.lean | Model of `ConvPcJointEncoder`, spflow/zoo/apc/encoders/convpc_joint_encoder.py, on top of `Verif.Conv.Net` (the layers) and of `Verif.Apc` (columns, evidence, the shared base class joint_pc_base.py). Simplifications: a module with `R` repetitions is … |
| JEncLaw.lean | C85: likelihoods and sampling of a built `ConvPcJointEncoder`. |
| JEncMain.lean | C85: densities and sampling of `ConvPcJointEncoder`. |
| JEncNeg.lean | C85: what the constructor of `ConvPcJointEncoder` rejects, and a concrete encoder. |
| JEncPerm.lean | C85: sampling ignores the latent permutation when the latent stream already has the fusion width. |
| JEncProps.lean | C85, lemmas: construction of a `ConvPcJointEncoder`. |
| JEncTop.lean | C85, theorems: densities, encoding and the prior of `ConvPcJointEncoder`. |
| LeafFit.lean | Model of maximum likelihood estimation of the leaves spflow/modules/leaves/leaf.py (`_prepare_mle_data`, `maximum_likelihood_estimation`), spflow/utils/leaves.py (`apply_nan_strategy`, `_handle_mle_edge_cases`) and the `_compute_parameter_estimates` methods … |
| LeafFitMore.lean | C58: the other leaf families, and what bias correction does |
| LeafFitProps.lean | C48, C58: maximum likelihood estimates Specification: the weighted likelihood of the complete rows under a density, and the textbook densities. |
| LearnSpn.lean | Model of `learn_spn` spflow/learn/learn_spn.py:80-90 (`adapt_product_inputs`), 178-421 (`learn_spn`). The clustering method, the partitioning method, the leaves' maximum likelihood fit and the random initial weights of `Sum(inputs=m, out_channels=..)` are … |
| LearnSpnProps.lean | Property C31: `learn_spn` builds a valid circuit over the requested variables |
| Leaves.lean | Model of leaf log-densities (`dist.log_prob`) spflow/modules/leaves/*.py hand their parameters to `torch.distributions`; the formulas below are the documented `log_prob` of these classes. With `validate_args=True` torch raises outside the support; the model … |
| ListProd.lean | Model of `ElementwiseProduct` and `OuterProduct` over a list of modules Files modelled: spflow/modules/products/base_product.py, elementwise_product.py, outer_product.py with `inputs=[m₁, …, mₙ]`, freely nested with `Cat`, `Product`, `Sum` (ops/cat.py, … |
| ListProdMain.lean | C69: `ElementwiseProduct` and `OuterProduct` over a list of modules, nested with Cat, Product and Sum. |
| ListProdProps.lean | Helper lemmas for C69: the value of products over lists of modules is a family of normalised densities. |
| ListProdSample.lean | Helper lemmas for C69: the distribution of `_sample` of products over lists of modules. |
| ListProdWit.lean | C69: witnesses and counterexamples. |
| LogSpace.lean | Log-space arithmetic Log-likelihoods are `WithBot ℝ`: `⊥` is `-inf`, every other value is an exact real (floating point rounding and `+inf` are not modelled). `lse` mirrors `torch.logsumexp`, including the shift by the maximum and the replacement of an … |
| Marginalize.lean | Model of structural `marginalize` leaf.py:1074-1119 (base class), cat.py:180-223, product.py:141-186, sum.py:436-521. The list `marg_rvs` is `M`. Simplifications: the per-repetition feature mask of Sum (sum.py:473-512) is computed once because … |
| MarginalizeProps.lean | Property C12: structural `marginalize` agrees with NaN evaluation |
| Measures.lean | Model of the information measures spflow/measures/_utils.py, measures/information_theory.py (method "exact"), measures/weight_of_evidence.py. Batches are lists of rows; the evaluation of one row is `Circ.den`. |
| MeasuresEx.lean | C40/C59: concrete circuits A mixture over a Bernoulli and a three-valued Categorical variable meets the hypotheses of the theorems; a Bernoulli leaf with three channels shows that `channel_agg="logsumexp"` gives negative "entropies". |
| MeasuresInfo.lean | C40: laws of the exact information measures |
| MeasuresLaws.lean | C40: conditional mutual information, conditional probability, rejected calls, witnesses |
| MeasuresProps.lean | C40: exact entropy, mutual information and conditional probability Specification side: `avg` (what an aggregation name means), `P` (the probability of a partial assignment), `Asg`/`row` (all assignments of a set of variables), `HasSize` (the domain of a … |
| MeasuresWoe.lean | C59: weight of evidence; witnesses for C40 |
| Mi.lean | Model of the mutual information utilities of the Chow-Liu learners Files modelled: spflow/zoo/hclt/mi.py (all of it) and spflow/zoo/hclt/chow_liu.py. Simplifications: exact reals instead of floats; a data entry is a finite real or NaN (`none`), a sample … |
| MiBin.lean | C71: mutual information of binary data. |
| MiCat.lean | Lemmas for C71: categorical data. |
| MiEdge.lean | C71: which arguments are accepted, what does not matter, and a worked example. |
| MiMain.lean | C71: mutual information of categorical data. |
| MiProps.lean | Lemmas for C71: the tables of mi.py are the marginals of the smoothed empirical distribution. |
| MiTrees.lean | C71: the Chow-Liu trees learned from data are the most likely trees. |
| MpeGreedy.lean | C15: what `mpe` really maximises `greedy c` is the circuit in which every Sum unit puts all its weight on the first of its heaviest inputs. `mpe(data=y)` of `c` returns a completion of `y` that is most likely under `greedy c`, for every circuit. |
| MpeProps.lean | Property C15: `mpe` `mpe(data=y)` is `sample(data=y, is_mpe=True)` (module.py:262-295); `mpeRun` of the sampling programs. |
| Mst.lean | Model of the spanning tree algorithms spflow/zoo/hclt/topk_mst.py (union-find, Kruskal, constrained trees, top-k enumeration) and `_prim_maximum_spanning_tree`, spflow/modules/leaves/cltree.py:81-126. Weights are exact reals (NaN is rejected at … |
| MstProps.lean | Spanning tree algorithms: C26 (Kruskal, Prim) and C27 (top-k) |
| MstTopk.lean | Kruskal and top-k spanning trees: properties C26 and C27 |
| NaiveBayes.lean | Model of spflow/zoo/naive_bayes.py The constructor, the prior, and `maximum_likelihood_estimation` with class targets. |
| NaiveBayesFit.lean | NaiveBayes: fitting with class labels (C60) |
| NaiveBayesGamma.lean | NaiveBayes: fitting Gamma leaves with class labels (C60) |
| NaiveBayesProps.lean | NaiveBayes (C60) |
| NegBinInner.lean | C90: inner and triple products of negative binomial leaves (truncated series) spflow/utils/inner_product_core.py: `_series_logsumexp` and the two `NegativeBinomial` branches. |
| Outer.lean | Model of OuterProduct (C19): spflow/modules/products/outer_product.py. One batch row, one feature and one repetition at a time: the input is the list, over the inputs (or splits), of the vectors of channel values. |
| OuterProps.lean | C19: the channels of an OuterProduct. |
| Pic.lean | Model of probabilistic integral circuits and their materialisation (C63) spflow/zoo/pic/pipeline.py (rg2pic, _merge_units, pic2qpc in "expanded" mode) and spflow/zoo/pic/integral.py. Simplifications. * Materialised modules have one feature and one repetition … |
| PicEnd.lean | C63: region graph to QPC, end to end; marginals of a QPC; witnesses |
| PicGraph.lean | C63: region graphs to PICs, and end to end |
| PicProps.lean | C63: a materialised QPC computes the tensor-product quadrature of its PIC |
| PicWitness.lean | C63: normalisation, witnesses and the ordering counterexample |
| PrimProps.lean | `_prim_maximum_spanning_tree` (cltree.py:81-126) returns a maximum spanning tree: property C26 |
| Projections.lean | Model of `spflow.utils.projections` (C38). One element of the tensors; the softmax runs over the last dimension of length `n`. |
| ProjectionsProps.lean | C38: parameter projections are mutually inverse. |
| PromCorr.lean | Property C32, on matrices: the correlation affinity |
| PromForest.lean | Components, Kruskal's forest and the severed partitions |
| PromLearn.lean | Property C76: the learned circuit and its mixture weights |
| PromLink.lean | Property C32, on matrices continued: the partitions are single-linkage clusterings; sampled affinities |
| PromMain.lean | Property C76: `learn_prometheus` |
| PromModel.lean | Model of `learn_prometheus` spflow/learn/prometheus.py. Arbitrary oracles: the clustering method (k-means included), a custom similarity, the random dependence coefficient `rdc` (spflow/utils/rdc.py), the sampled neighbours, the leaves' maximum likelihood fit … |
| PromParts.lean | Property C32, on matrices: the variable partitions of Prometheus |
| PromProps.lean | Property C76: `learn_prometheus` builds a valid circuit over the requested variables |
| PromWit.lean | Concrete cases for C32 (matrices) and C76 |
| Prometheus.lean | Model of the variable partitions of Prometheus spflow/learn/prometheus.py:131-162 (`_mst_partitions_from_affinity`) and 254-285 (`_mst_partitions_from_sampled_edges`). networkx is modelled by what its functions are documented to do: `from_numpy_array` keeps … |
| PrometheusProps.lean | Property C32: the partitions Prometheus derives from a spanning tree |
| Prune.lean | Model of `prune_sums` (spflow/learn/learn_spn.py:22-80) The function rewrites the module tree in place; the model returns the rewritten tree. Out-shapes that the modules above the rewritten node recorded at construction are not modelled (they do not change … |
| PruneProps.lean | C30: `prune_sums` preserves the distribution |
| Pwl.lean | Model of the PiecewiseLinear leaf and of the histogram bin edges it uses Files modelled: spflow/modules/leaves/piecewise_linear.py, spflow/utils/histogram.py, spflow/utils/domain.py. Simplifications: exact reals instead of float32; training data holds no NaN … |
| PwlBins.lean | Bins, domains and clusters of `PiecewiseLinear`: exact statements |
| PwlFit.lean | C72: bin edges, histograms and the fitted curve |
| PwlLeaf.lean | C72: the leaf module, its states and its use in a circuit |
| PwlMain.lean | C72: the PiecewiseLinear leaf The theorems. `Fits dom data` (PwlFit) is the condition under which one cell can be fitted; `Good c` (PwlProps) is the shape of a curve. |
| PwlProps.lean | C72: the density of a piecewise linear curve |
| PwlSample.lean | C72: the sampler of a piecewise linear curve |
| PwlWit.lean | C72: counterexamples and an example |
| Qpc.lean | Model of spflow/zoo/pic/tensorized/qpc.py and utils.py: `TensorizedQPC`, the folded tensorised circuit of a region graph (C82). Regions are natural numbers, one per class of the dataclass equality of `Region` (the equality under which the dictionaries of the … |
| QpcBuild.lean | C82: one height of the region graph, partition layer and mixing layer together. |
| QpcHeight.lean | C82: the heights of the regions. |
| QpcInt.lean | C82: the density of a `TensorizedQPC` integrates to one. |
| QpcLevel.lean | C82, one height of the folded circuit: what the partition layer and the mixing layer compute. |
| QpcList.lean | C82, list lemmas about the folded layout: offsets, padding, masks, locations. |
| QpcMain.lean | C82: the folded circuit computes the circuit of the region graph. |
| QpcMix.lean | C82: the mixing layer of one height. |
| QpcNum.lean | C82, the numerical part: the log-space reductions compute the logarithm of the linear expressions, and the weights made by the inner networks and the mixing layers are positive and normalised. |
| QpcProps.lean | C82: which arguments `TensorizedQPC` accepts, and what `log_likelihood` returns. |
| QpcSem.lean | C82: `log_likelihood` is the logarithm of the circuit of the region graph; when it fails. |
| QpcWit.lean | C82: a region graph with partitions of different arity, meeting the hypotheses of all C82 theorems. |
| Rat.lean | Model of RatSPN spflow/zoo/rat/rat_spn.py, end to end, with the layers it is made of: Factorize (modules/rat/factorize.py), the two splits (modules/ops), ElementwiseProduct and OuterProduct over a split (modules/products), Sum and RepetitionMixingLayer … |
| RatBuild.lean | Helper lemmas for C67: what `RatSPN.__init__` builds, and special cases of the sampling law. |
| RatLL.lean | Helper lemmas for C67 and C68: `log_likelihood` of a layered network computes `den`, and `den` is a family of normalised densities. |
| RatLeaves.lean | Helper lemmas for C67 and C68: the leaf layer of a RatSPN or Einet. |
| RatModel.lean | Helper lemmas for C67 and C68: a network with its mixing layer over the repetitions and its root over the classes. |
| RatNaN.lean | Helper lemmas for C67 and C68: `log_likelihood` never raises on the constructed shapes, and one impossible leaf component turns the whole row into NaN. |
| RatProps.lean | Helper lemmas for C67 and C68: the value of `log_likelihood` of a layered network. |
| RatSample.lean | Helper lemmas for C67 and C68: the distribution of `_sample` of a layered network. |
| RatSound.lean | Helper lemmas for C67 and C68: what holds of every model built from leaves, whoever built it. |
| RatSpnProps.lean | C67: RatSPN, end to end |
| RatSpnWit.lean | C67: counterexamples and witnesses. |
| RepMixing.lean | Model of `spflow.modules.sums.repetition_mixing_layer.RepetitionMixingLayer` (C44, C51). |
| RepMixingProps.lean | C44 and C51: weights and repetition choice of RepetitionMixingLayer. |
| Replace.lean | Model of `spflow.utils.replace.replace` (C07): Python class dictionaries, attribute lookup along the MRO, and `with replace(...)` blocks nested arbitrarily in code that may raise. |
| ReplaceProps.lean | C07: `with replace(...)` restores every class attribute. |
| Routing.lean | Model of column resolution and one-hot routing spflow/modules/leaves/leaf.py:1011-1037 (`_resolve_scope_columns`), module.py:145-173 (`_prepare_sample_data`), utils/sampling_context.py:713-732 (differentiable `route_channel_offsets`), 958-1008 (`to_one_hot`), … |
| RoutingProps.lean | Properties C16, C42, C46: routing of sampling contexts |
| Sampling.lean | Model of sampling spflow/modules/module.py:145-329 (entry points), leaf.py:612-800, cat.py:108-178, product.py:84-121, sum.py:282-385, utils/sampling_context.py:493-735 (routing), 1147-1185 (`sample_from_logits`). A sampler for one row is a *program* `Prog` … |
| SamplingLaw.lean | Helper lemmas for `SamplingProps.lean`: the distribution of `_sample` with cached likelihoods. |
| SamplingLemmas.lean | Helper lemmas for `SamplingProps.lean`. |
| SamplingProps.lean | Properties C13, C14, C15, C16, C46: sampling |
| Scope.lean | Model of `spflow/meta/data/scope.py` `Scope` holds two tuples of integers. Python exceptions are values of `Exc`. Simplification: the constructor's argument normalisation (int / None / arbitrary iterable to list, scope.py:47-63) is modelled by the separate … |
| ScopeProps.lean | Properties C01-C04 of `Scope` |
| Signed.lean | Model of signed log-space evaluation (C34): spflow/utils/signed_semiring.py, modules/sums/signed_sum.py, zoo/sos/signed_categorical.py and `_signed_eval` in modules/sos/socs.py. A signed value is `(log|x|, sign)`. Reals are exact, `-inf` is `⊥`. One batch row … |
| SignedProps.lean | C34: signed log-space arithmetic refines real arithmetic. |
| Simple.lean | C73: SIMPLE, the differentiable sampler Model of `sample_gumbel`, `SIMPLE` and `sample_from_logits` (spflow/utils/sampling_context.py:942-955, 1011-1053, 1147-1183) and of the differentiable `rsample` of the leaf distributions that are built on it. … |
| SimpleCirc.lean | C73: differentiable sampling of accepted circuits `Sampling.lean` models sum.py:282-385 with categorical choices; with `is_differentiable` the same code takes every choice by `SIMPLE` (sampling_context.py:1147-1183). The theorems of C14 about the law of the … |
| SimpleLeaves.lean | C73: the leaf distributions with differentiable sampling Model of the `rsample` methods of the differentiable leaf distributions: bernoulli.py:203-221, categorical.py:249-259, binomial.py:201-223 (NORMAL, the default) and 237-273 (SIMPLE), poisson.py:132-154, … |
| SimpleProps.lean | C73: the Gumbel-max trick |
| SimpleTrunc.lean | C73: hypergeometric, truncated and approximated leaf samplers |
| SimpleWit.lean | C73: histograms, the Normal approximation, the caps, examples |
| Sklearn.lean | Model of spflow/interfaces/sklearn.py: `SPFlowDensityEstimator` Array-likes are a shape together with an indexed family of cells (`none` is NaN). The model behind the estimator is a circuit of `Circuit.lean`; devices and dtypes are not modelled, nor are numpy … |
| SklearnMain.lean | C81: fitting and sampling with `SPFlowDensityEstimator` |
| SklearnProps.lean | C81: `SPFlowDensityEstimator` scores and samples |
| Socs.lean | Model of SOCS: spflow/modules/sos/socs.py, learn/build_socs.py Log-space values are modelled by `LogV`; `_signed_eval` is represented by the real number it encodes (C34 proves that `(log|v|, sign v)` is what is computed as long as no weight is below the … |
| SocsMissing.lean | C35: counterexample for unsorted leaves and a worked example; C53: missing values in a SOCS |
| SocsProps.lean | C35: inner products, self inner products and SOCS densities; C53: missing values in a SOCS |
| SocsSampler.lean | C54: the SOCS sampler (socs.py:218-307) A finite state space `X` of complete rows. `comp i x` is the value of component `i`; the proposal of component `i` has log-likelihood `lq i x` and `proposal.sample()` draws `x` with probability `expL (lq i x)` (C11/C12). |
| SosBuild.lean | Circuits of `SOSModel` / `ExpSOSModel`: what `_build_component` returns |
| SosExp.lean | `ExpSOSModel` |
| SosMain.lean | `SOSModel` and `ExpSOSModel`: when the constructors succeed, and that the models are normalised |
| SosModel.lean | Model of spflow/zoo/sos/models.py: `SOSModel` and `ExpSOSModel` The two constructors draw a region tree over the variables, turn it into circuits (one leaf module per tree leaf, a `Product` followed by a `SignedSum` or a `Sum` per inner tree node), and wrap … |
| SosTree.lean | Region trees of `SOSModel` / `ExpSOSModel` |
| SosWit.lean | Examples for C78 |
| SpanTree.lean | Spanning trees: specification and the facts about connectivity used by C26, C27 and C32 Nothing here models code. Vertices are `Fin n`, an edge is an ordered pair, read undirected. |
| Splits.lean | Model of the Split operations (C17, C18): spflow/modules/ops/split.py, split_consecutive.py, split_interleaved.py, split_by_index.py, and of the routing of the products over a split (products/elementwise_product.py, products/outer_product.py). A tensor is … |
| SplitsProps.lean | C17 and C18: splitting, merging and routing of features. |
| StatsProps.lean | C49: structure statistics. |
| SumConvProps.lean | C50: SumConv |
| TLayer.lean | Model of spflow/zoo/pic/tensorized/{base,utils,tucker,cp,mixing}.py: the tensorized layers (C84). A tensor entry is a NaN (`none`), minus infinity or a real; rounding and overflow are not modelled, and no value becomes plus infinity. A layer acts on the … |
| TLayerInt.lean | C84: the layers on probabilities, integrals of their outputs, and the relations between the layers. |
| TLayerMain.lean | C84: values, shapes and constructors of the tensorized layers. |
| TLayerProps.lean | The log-space steps of the tensorized layers on arbitrary entries (C84). |
| TLayerShape.lean | C84: accepted shapes, repeated operands, constructors, relations between the layers. |
| TLayerWit.lean | C84: impossible children, masks, and a concrete layer. |
| Tightened.lean | Statements added after mutation tests (C81, C83, C84) |
| Triple.lean | Model of exact triple products (spflow/utils/inner_product_core.py:611-1093) and of `ExpSOCS` (zoo/sos/exp_socs.py) Circuits, leaf parameters and their values are those of `Verif.Inner`. The memo of `triple_product_tensor` (628-639) only stores results of … |
| TripleMain.lean | C77: triple products, when they are defined, and the density of an `ExpSOCS` |
| TripleProps.lean | C77: triple products are integrals |
| TripleWit.lean | C77: examples and counterexamples for `ExpSOCS` |
| WeightedSum.lean | Model of `WeightedSum` (C62) spflow/zoo/pic/weighted_sum.py: a sum module whose weights are used as they are (no softmax). The input module is abstract: its declared shape and its log-likelihood tensor as a function of the row. One row at a time; weights are … |
| WeightedSumProps.lean | C62: `WeightedSum` is the exact non-negative linear form of its inputs |

## 4. Trusted base

* Lean 4.33.0 kernel and the Mathlib theorems it checked. Every theorem in the manifest depends only on `propext`,
  `Classical.choice` and `Quot.sound` (a subset of them); no own axioms, nothing rests on compiled code.
* The reading of the Python code into Lean definitions: nothing is run here, the correspondence is by reading. The cited lines
  are the evidence.
* The documented meaning of PyTorch / numpy / einops primitives (`logsumexp`, `softmax`, `gather`, `scatter`, `cat`,
  `rearrange`, `conv2d`, `bucketize`, `median`, `lexsort`), of `torch.distributions` log-densities and samplers, and of autograd
  (the exact chain rule).

Modelled: `meta/` (scope, region graph), `utils/` (cache, replace, projections, sampling_context routing, signed_semiring,
inner_product_core, inference, leaves, structure_stats), `modules/sums`, `modules/products`, `modules/ops`, `modules/einsum`,
`modules/rat`, `modules/conv`, `modules/sos`, `modules/leaves` (base class, all families named in the table, cltree, histogram,
hypergeometric), `learn/` (EM, learn_spn, prune_sums, prometheus partitions, cnet, build_socs), `measures/` (exact methods),
`interfaces/` (classifier, sklearn label mapping), `dsl.py`, `zoo/` (naive_bayes, rat/einet classification and sampling, hclt
spanning trees, conv_pc, sos) and what section 3 lists beside that.

Not modelled: floating-point rounding, devices and dtypes, statistical quality of the generators, autograd's implementation,
k-means / RDC / networkx internals, visualisation, display and debugging helpers, pickling, gradient-descent trajectories,
neural networks inside `zoo/apc` and `zoo/pic`.

## 5. Testing the theorems

`seeded/LOG.jsonl` lists edits of the model that imitate realistic bugs, with the theorems that stopped proving. An edit counts
as caught when a theorem of the claim it breaks fails to build; theorems that survived were tightened and the edit repeated.

## 6. Findings (the code, as read, does not satisfy the property in these cases)

- C04: `Scope([0,1]) == Scope([1,0])` but their hashes differ.
- C05: a region may be its own partition, cycles are accepted.
- C06: only `log_likelihood` and `signed_logabs_and_sign` are cached; a stored None counts as a miss.
- C07: staticmethods/classmethods and overlapping non-nested blocks are not restored.
- C10: `Cat(dim=2)`/`Sum` compare only the total scope and the feature count, so inputs that order their variables differently
  are mixed feature by feature; the result is not normalised. `Sum` with `num_repetitions=1` over inputs with several repetitions
  broadcasts, but `out_shape` says 1.
- C12: `Sum.marginalize` raises InvalidWeights when a weight is zero.
- C13/C14: `sample()` from the root always uses repetition 0 and channel 0; a dead Sum unit makes the conditional sampler raise.
- C15: `mpe` follows the heaviest input of every Sum and ignores the evidence there.
- C17/C18: `feature_to_scope` of SplitConsecutive/SplitInterleaved reshapes instead of transposing; OuterProduct's
  `isinstance(self.inputs, Split)` is never true; an uneven interleaved merge raises; `SplitByIndex.marginalize` raises TypeError.
- C19: the `num_splits` default is overridden. C20: the einsum multiplies -inf by 0 (NaN).
- C21: one input all -inf gives NaN. C22: default consecutive split: the mask is interleaved and scope pairs are wrong.
- C23/C25: CLTree accepts a cycle beside the root; complete batches truncate values and use all nodes, batches with NaN round
  and use reachable nodes only; rounding up to K raises IndexError.
- C27: `topk_mst(minimize=False)` inverts the constraints and yields one tree. C32: zero affinities are dropped by networkx.
- C28: a dead unit becomes NaN; shared Sum nodes are updated once per parent with stale likelihoods; weights with one
  repetition over several raise ShapeError; the leaf EM adds 1e-12 to gradients.
- C29: the model is left one step beyond the last reported value; `max_steps` 0 or below -1 raises.
- C30: `prune_sums` indexes the outer weights by child number: wrong or raising when nested Sums have several channels.
- C31: one-cluster labelling recurses without end; different leaf channels raise; an uncovered scope raises or loses a variable;
  an explicit scope with a single (non-list) leaf_module raises TypeError.
- C33: a value that does not occur (with two that do) raises InvalidWeightsError; a terminal slice of one row with several
  variables leaves an unfitted CLTree; a CLTree leaf uses the largest cardinality for all variables; empty data raise RuntimeError.
- C34: weights below 1e-30 are clamped. C35: `inner_product` checks only set equality of scopes;
  `SignedCategorical.marginalize` returns None for any intersection; `isclose` in the Laplace case is asymmetric.
- C36: Exponential/LogNormal/Gamma with a missing or negative lower bound raise ValueError; impossible boxes get 1e-40, Uniform
  gives -inf; a lower bound of +inf is accepted.
- C37: the mode is the bin of maximal probability, not density; `Histogram.marginalize` drops min_prob; the floor adds mass.
- C39: mixtures of multi-feature terms mix each feature separately, not the joint; `a * (w * b)` for expression objects is accepted but
  cannot be built; overlapping non-nested `dsl()` blocks leave the operators installed.
- C40: exact entropy raises IndexError for non-contiguous variable ids; logsumexp aggregation is not normalised (negative
  entropy); the Monte-Carlo estimator samples channel 0, repetition 0 but evaluates the mean over channels.
- C41: an impossible row gives an all-NaN posterior and class 0; SPFlowClassifier maps the class index into `unique(y)`, wrong or
  IndexError when y lacks a class. C45: the class is drawn from the prior although evidence is given.
- C42: `index_one_hot` gives NaN for an unselected -inf. C46: `_prepare_sample_data` allocates len(scope.query) columns; the
  positional column fallback lets leaves collide.
- C43: ProdConv with padding keeps the first H*H cells of the padded grid instead of its centre (samples misrouted); an
  indivisible kernel without padding drops pixels from the likelihood and raises when sampling.
- C44: the constructor validates weights over channels but mixes over repetitions. C47: `Hypergeometric.sample` uses the maxima
  of N and n over channels. C51: sampling sums the logits over channels.
- C48/C58: the bias correction divides by N - F*C*R; the Laplace location ignores the weights; an estimate p = 1 is stored as logit
  +inf; `ignore` with every row incomplete fits 1e-8; Gamma is moment matching; Uniform/Hypergeometric are no-ops.
- C50: an image smaller than the kernel evaluates but cannot be sampled; EM averages log-weights over the kernel and ties all
  positions (may lower the likelihood); marginalize draws new random weights. C52: the same for Einsum/Linsum/Factorize.
- C53: SOCS evaluation with NaN and `SOCS.marginalize` are wrong; `_signed_eval` on a Sum that contains a SignedSum raises.
- C55: writing `logits.data` directly leaves the evaluation cache stale.
- C59: leave-one-out writes 0 where NaN is documented; the clamp is active when n + k > 1e6.
- C60: the Laplace location is the median of all rows, so classes are mixed.
- C61: odd total padding gives a network that can never be evaluated; even non-zero padding samples wrongly; a non-square image
  with a square number of pixels is treated as square.
- C62: WeightedSum sampling ignores child masses and cached evidence; the setter accepts negative weights (read as 0);
  out_shape.repetitions comes from the weights; marginalize with more weight repetitions than input repetitions is an IndexError.
- C63: rg2pic with CP raises StructureError on every region graph with a partition; AUTO/TUCKER rejects a non-root region with two
  partitions; with three or more children the channel order of OuterProduct disagrees with the sorted latents, so integral
  functions get exchanged arguments; functional sharing groups with two or more units raise IndexError.
- zoo/cms: `JointLogLikelihood` of a Sum of CLTrees samples a component for every feature separately, so features of one
  sample come from different trees and samples do not follow the likelihood (C64_cltree_sampling_wrong: 1/4 against 5/16).
- zoo/cms: the categorical objective accepts values within 1e-5 of an integer and truncates them (0.999999 is class 0);
  infinite entries are scored as missing in training while the compiled module rejects them or gives density 0.
- zoo/cms: if the first validation score is NaN no later epoch can replace it (`score > nan` is false); latent
  optimisation never scores the initial points, so it can return worse points than it started from.
- ElementwiseSum (C66): a one-channel input beside multi-channel inputs is repeated by `log_likelihood` but not by `_sample` (the
  selected input receives the un-broadcast channel index) nor by the EM step (`torch.stack` of tensors of different shape), so both
  raise. `marginalize` indexes the *feature* axis of the weights with a mask over the *variables* of the scope: IndexError when
  features are products, and the wrong features' weights when the feature order differs from the sorted scope
  (C66_marginalize_wrong_weights: P(X3=1) becomes 1/2 instead of 5/8).
- RatSPN (C67): Factorize multiplies log-likelihoods with a 0/1 indicator (`-inf * 0`), so one leaf component of density zero makes the
  whole model NaN (C67_nan_wrong: a row of positive probability), and `sample_with_evidence` then raises. With several roots the class
  is drawn from its prior even under evidence (C67_class_ignores_evidence: 6/10 instead of 10/16) and the repetition from the product
  over all classes of the mixing weights (C67_several_roots_wrong: 5/16 instead of 6/16). `Split.get_out_shapes` divides the channels
  instead of the features, so three leaf channels with depth 2 are rejected; a split into three or more parts can be constructed but
  never evaluated (Factorize always yields 2^depth features).
- Einet (C68) shares the Factorize NaN (C68_nan_wrong), the class drawn from its prior under evidence (C68_class_ignores_evidence:
  6/10 instead of 10/16) and the shared repetition distribution (C68_several_classes_wrong: 5/16 instead of 6/16). `num_leaves` is only
  checked to be positive, never compared with the leaves' channels; the bottom-up buffer `permutation` is never used; an empty leaf
  list raises OverflowError from the message of the depth check; whether a fully missing row is conditioned depends on the other rows
  of the batch (harmless with one class, C68_sample_data_partial).
- ElementwiseProduct over a list: the documented broadcasting of features does not work. As soon as one input has more than one channel no feature count is checked at all, and with different feature counts every `log_likelihood` raises in `torch.stack` (C69_elementwise_any_features, C69_elementwise_broadcast_raises). OuterProduct broadcasts a one-feature input in `log_likelihood`, but sampling then raises ShapeError (C69_broadcast_sampling_raises). `OuterProduct([m])` raises TypeError (`ocs ** None`) when `m` has several features (C69_outer_single_raises). Not modelled: `OuterProduct.feature_to_scope` of a list enumerates the Cartesian product of the inputs' features (F^n scopes for F features).
- learn_hclt_* with `init="random"`: `Sum(inputs=child)` without `weights` has one output channel, so the message of a child does not depend on the state of its parent. For every tree, all weights and all emissions, also after any training, the columns are independent and the learned tree has no effect on the density (C70_random_independent). With `init="uniform"` the transitions have H channels and columns can be dependent (C70_example), although the fresh model still makes them independent (C70_uniform_start). `build_subtree` recurses once per level: a deep tree raises RecursionError (C70_construction). learn_hclt_binary accepts values other than 0 and 1 (mi.py uses `!= 0`), negative sample weights are accepted. 
- learn_chow_liu_tree(s)_binary / pairwise_mi_binary count NaN and every value other than 0 as 1 (C71_binary_nonzero);
  pairwise_mi_categorical truncates values that are not integers (C71_truncates: 1.7 counts as 1, -0.5 as 0); both accept
  negative weights as long as the total mass is positive (C71_binary_accepts_iff, C71_categorical_accepts_iff); the
  pseudo-count is rescaled by the mean weight for categorical but not for binary data (C71_agree).
- CLTree.fit_structure gives every pair of values and every single value the same pseudo-count `alpha`, so its "mutual
  information" is the mutual information of the smoothed data plus a positive term per variable, largest for skewed variables:
  with 10 rows in which variable 0 is constant and 1, 2 are dependent it links both to 0 (C57_structure_wrong).
- CLTree.maximum_likelihood_estimation passes data that are already restricted to the scope to fit_structure, which resolves
  the scope once more: a leaf with scope (1, 2, 0) learns the tree of permuted variables (C57_scope_order_wrong).
- The weights are scaled so that the whole (N, F, C, R) tensor sums to N, so `alpha` acts as a pseudo-count of `alpha*F*C*R` (C57_effective_pseudocount).
- PiecewiseLinear (C72): `1e-10` is added to the density everywhere, so the exponentiated log-likelihood has infinite mass;
  domains with gaps between values give wrong masses; Laplace smoothing of continuous features adds `alpha * bin width`;
  sampling a discrete feature stores the class number, not the value; continuous samples are uniform within a segment;
  training data outside a discrete domain give NaN without an error; `domain.max or 1` turns an upper bound 0 into 1; a
  failed `initialize` replaces the domains but keeps the curves; the log-likelihood has shape (N, 1, F, L, R), so `Product`
  sums over the wrong dimension and `Sum` raises.
- Differentiable sampling (C73): the default method of `Binomial` rounds a Normal variable and has the wrong law (n = 1,
  p = 1/50 gives 1 with probability below 1/100); Poisson, Geometric and NegativeBinomial are cut at 2048, 1024 and 2048, so
  a rate of 4096 or p = 1e-6 can never produce typical values; if all logits are minus infinity the result is NaN where the
  ordinary sampler raises.
- APC encoders (C74): `kld_per_sample` is documented as the exact posterior KL but is the KL of the one component that was
  routed to; the posterior is a mixture and its KL can be 0 while the reported value is positive. For Categorical latents
  leaf.py:814 mistakes the feature axis for a batch axis when batch size = latent dimension = channels and raises
  ShapeError. With `tau` other than 1 the redrawn Normal latents have standard deviation tau times too large.
  `evaluate_apc` returns NaN if a batch is empty and leaves the model in evaluation mode if a batch raises. `fit_apc` with
  a generator raises in the second epoch. `_validate_leaf_scope` compares scopes as sets, so a leaf factory that permutes
  the scope passes the constructor, but its statistics are then never found.
- `learn_prometheus`: zero affinities are no edges (`from_numpy_array`), so the documented "first partition has two groups,
  the last d" fails; a cluster without partitions or with one row is skipped; if all are, the clustering is discarded and one
  product of leaves is fitted to all rows (perfectly dependent data included: two clusters of identical rows).
- `learn_prometheus`: templates of different channel numbers raise in `Product` (there is an adaptation step for the children of
  partitions, none for leaves); variables without a template are silently dropped from scopes of more than one variable.
- `ExpSOCS`: as for `SOCS`, a missing entry replaces every leaf by 1 before squaring, so rows with missing entries get neither
  the marginal nor a normalised density (a Bernoulli model with its only variable missing returns a density above 1), and
  `marginalize` marginalises the factors instead of their product.  Leaves without a triple product (Exponential, Laplace,
  LogNormal, Poisson, Gamma) are accepted by the constructor and raise in `log_likelihood`.
- `SOSModel` / `ExpSOSModel` raise `ValueError: All inputs must have the same number of channels` for `num_input_units !=
  num_sum_units` whenever a region-tree node has both a leaf and an inner child: with the default `region_graph="rnd-bt"` for
  every number of variables that is not a power of two (C78_default_region), with linear trees from three variables on.
- For more than two variables the "signed" weights and tables are initialised in `[0, 1)`: a fresh `SOSModel` contains no
  subtraction (C78_fresh_nonneg).
- `check_compatible_components` accepts two `Gamma` leaves whose SOCS cannot be evaluated (C79_gamma). Read off the code, not
  modelled: `build_socs` leaves the second occurrence of a module that is used twice in one `Cat` unconverted
  (`named_children` skips duplicates), and raises `ShapeError` for a template with a `RepetitionMixingLayer` (a subclass of `Sum`).
- `train_gradient_descent`: `epochs=1` with the default scheduler trains with `lr / 100` (milestones `[0, 0]`, C80_learning_rate); an
  empty validation loader raises `UnboundLocalError` (C80_empty_loaders); an exception during validation leaves the model in evaluation
  mode; `callback_epoch` receives the live list of losses, which the next epoch clears (C80_losses_are_shared).
- `SPFlowDensityEstimator.sample` without `random_state` runs inside `torch.random.fork_rng`, which restores the generator: calling it
  twice returns the same samples twice (C81_unseeded_repeats). With several output channels it samples the first channel, while
  `score_samples` averages over the channels (C81_samples_first_channel). A `fit` that raises for want of an MLE leaves `model_` set.
- `TensorizedQPC` accepts any positive `num_classes`, but with more than one class `log_likelihood` fails on every input:
  NotImplementedError if it equals the number of quadrature points, otherwise RuntimeError in `view` (C82_fails). A region graph
  of a single region also fails unless the rule has one point. Categorical leaves clamp values to the categories, so negative or too
  large values get positive probability (C82_out_of_support). `layer_cls="tucker"` silently uses CP at every height that has a
  partition that is not binary (C82_semantics).
- `ImageWrapper.marginalize` returns a wrapper for the smaller image, but the marginalised module keeps its variable numbers, so
  `log_likelihood` of the result raises IndexError on every tensor unless only the last pixels were removed
  (C83_marginalize_unusable). It looks pixels up by position in the scope, so for a scope that is not in increasing order it removes
  another pixel than the one asked for (C83_marginalize_wrong_pixel). An index given twice (or 0 and -n) raises StructureError.
  `flatten` checks only the number of channels: `sample` accepts a tensor with height and width exchanged and reads the pixels in the
  wrong order, where `log_likelihood` raises ShapeError (C83_sample_accepts_transposed). A module with the right number of variables
  that are not 0..n-1 is accepted, and every image then raises IndexError (C83_log_likelihood).
- Tensorized layers: `log_func_exp` subtracts the maximum also when it is `-inf`, so a child all of whose units have probability zero
  gives NaN instead of `-inf` in every layer (C84_impossible_is_nan). `UncollapsedCPLayer` masks by multiplying logarithms with 0, so
  a masked child that is impossible makes the output NaN; `CollapsedCPLayer` does not (C84_masked_child). `SharedCPLayer` and
  `CPLayer(shared=True)` drop the mask silently, `TuckerLayer` ignores children after the second, and einsum repeats operands of size
  one instead of rejecting them (C84_accepts). `MixingSumLayer.reset_parameters` normalises over all children, also masked ones.
- ConvPcJointEncoder: `_LatentFeaturePacking._sample` returns early when input and target width agree and then does not undo the
  permutation which `log_likelihood` applies (C85_permutation_ignored); every sample is drawn from the network without that permutation
  (C85_samples_without_permutation). The constructor lets non-square or RGB inputs through its own checks and fails with a ValueError
  of the Conv-PC layers (C85_rejects_shapes). `latent_depth = 0` works only if `x_leaf_channels = channels`.
- Functional sharing: `materialize_integral_group` (pipeline.py:556) indexes `vals_all` by `u.function_head_idx`, but an F-sharing group
  has one head, so `rg2pic` with an F-sharing factory and two integrals of the same depth and widths cannot be materialised: IndexError
  (C86_f_materialize; the ungrouped branch at pipeline.py:655 uses head 0). Units added after the first evaluation get no head
  (C86_late_unit); calling `finalize` to create it redraws the heads of all units (C86_refinalize).
- The inner-product memo (inner_product_core.py:476-486) keys tensors by `id()` alone: after an optimiser step, or for a new module at a
  reused identity, a cache that is kept returns old tensors, also where a ShapeError is due (C87_stale_is_wrong, C87_stale_no_error). The
  Laplace form branches on `torch.isclose(b1, b2)`, which is not symmetric, so a reversed hit can differ from the direct value by about 1e-7
  (C87_laplace_is_wrong).
- NeuralDecoder2D (decoders.py:268-396): batch norm is on by default, so in training mode a reconstruction depends on the other rows of the
  batch (C88_training_couples) and a batch of one latent raises ValueError when the image side is 2 ** num_scales (C88_single_row_training).
  The first ReLU of a residual block is in place, so the skip connection carries the rectified input (C88_skip_is_rectified). The
  comment in ConvDecoder2D "may overshoot/undershoot by one pixel" is wrong: by up to 2 ** num_upsamples - 1 (C88_conv_overshoot).
- Gamma leaves (gamma.py:121-159): the bias correction is on by default and takes the weight of one cell for the number of rows; weights are
  normalised over all cells, so with two channels and two rows the fitted rate is 1e-8 (C89_two_channels). The estimator is a moment estimator,
  not the maximum of the likelihood (C89_not_maximiser). One row with value 0, even of weight zero, sets both parameters to 1e-8
  (C89_zero_row); constant rows give the rate +inf (C89_constant_rows).
- Products of Hypergeometric leaves (inner_product_core.py:266, 783): the sizes N are compared between all pairs of channels, so a leaf whose
  channels have different N, which the constructor accepts, raises ShapeError with itself (C90_hyper_self_raises); `allclose` identifies
  N = 100000 and N = 100001 and then uses the first for both leaves (C90_hyper_close_is_wrong: 0 instead of 1).
- Products of NegativeBinomial leaves (inner_product_core.py:92-109) add at most 4097 terms without any error: with success probability 0.99995
  the inner product is less than half of its value and the squared density has mass above two (C90_nb_half).
- Categorical with K = 1 returns NaN at a missing entry (`_supported_value = 1` is outside the support).
