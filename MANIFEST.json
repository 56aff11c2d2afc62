{
 "claims": [
  {
   "property": "C01",
   "status": "proved",
   "theorems": [
    "Verif.Graph.C01_cover"
   ],
   "note": "For every graph, set of observations, discovered steps and NUTS order; modelled on a mutable heap with the clone map as a parameter."
  },
  {
   "property": "C02",
   "status": "proved",
   "theorems": [
    "Verif.Graph.C02_steps_closed"
   ],
   "note": "For every heap and every set of discovered steps, however they share nodes: no model variable is reachable from a returned step."
  },
  {
   "property": "C03",
   "status": "partial",
   "theorems": [
    "Verif.Graph.C03_scan_partial",
    "Verif.Graph.C03_violated"
   ],
   "note": "Proved when no node reading a model variable is shared between a step and an earlier step; violated otherwise, because the steps are rewritten in place (concrete witness)."
  },
  {
   "property": "C04",
   "status": "proved",
   "theorems": [
    "Verif.Track.C04_last_used",
    "Verif.Track.C04_once",
    "Verif.Track.C04_pick",
    "Verif.Track.C04_recorded"
   ],
   "note": "For every history of finder calls: what is recorded, at most once per finder and variable, and the last recorded step is the one returned by construct_sampler."
  },
  {
   "property": "C05",
   "status": "partial",
   "theorems": [
    "Verif.C05_bern_sibling_iff_partial",
    "Verif.C05_nbinom_sibling_iff_partial",
    "Verif.C05_two_bern_iff_partial",
    "Verif.C05_two_nbinom_iff_partial",
    "Verif.C05_two_nbinom_violated",
    "Verif.Track.C05_beta_binomial_iff_partial",
    "Verif.Track.C05_beta_mixed_iff_partial",
    "Verif.Track.C05_gamma_poisson_iff_partial",
    "Verif.Track.C05_mixed_violated",
    "Verif.Track.C05_poisson_violated",
    "Verif.Track.C05_sibling_iff_partial",
    "Verif.Track.C05_sibling_violated",
    "Verif.Track.C05_violated"
   ],
   "note": "Exact conditions: for a beta latent with any mixture of binomial and negative-binomial children, right iff every child but the last visited is a binomial of zero trials and a negative-binomial last child has its count equal to its parameter; for Poisson children of a gamma latent, right iff all other counts are zero and 1/b + 1 = b + number of children; with one beta-binomial child and any other observations, right iff their likelihood does not depend on the latent; for regression coefficients with other observed children, the exact form the remaining likelihood must have (with unit standard deviations: constant), and for two negative-binomial or two Bernoulli regressions on the same coefficients, right iff the other design matrix is zero (and the conditions of C21-C23). Violated by two informative children of every conjugate family, by mixtures, and by two negative-binomial observations of one coefficient."
  },
  {
   "property": "C06",
   "status": "proved",
   "theorems": [
    "Verif.Graph.C06_nuts"
   ],
   "note": "For every iteration order of the set of remaining variables."
  },
  {
   "property": "C07",
   "status": "partial",
   "theorems": [
    "Verif.Graph.C07_nuts_term_partial",
    "Verif.Graph.C07_violated"
   ],
   "note": "Proved when no step's graph contains a node of the term that reads a model variable; violated otherwise (concrete witness): the replacement also rewrites the model graph given to NUTS."
  },
  {
   "property": "C08",
   "status": "proved",
   "theorems": [
    "Verif.Graph.C08_user_graph_unchanged"
   ],
   "note": "Frame property over all in-place replacements."
  },
  {
   "property": "C09",
   "status": "proved",
   "theorems": [
    "Verif.Graph.C09_raises",
    "Verif.Graph.C09_stages",
    "Verif.Graph.C09_unique"
   ],
   "note": "For all sample_steps dicts; also the KeyError-free/raising cases."
  },
  {
   "property": "C10",
   "status": "partial",
   "theorems": [
    "Verif.Graph.C10_nuts_violated",
    "Verif.Graph.C10_scan_order_partial",
    "Verif.Graph.C10_violated"
   ],
   "note": "Proved for models whose steps are separate; violated by interleaved kernels and by NUTS variables listed first."
  },
  {
   "property": "C11",
   "status": "partial",
   "theorems": [
    "Verif.Track.C11_gibbs_iff_partial",
    "Verif.Track.C11_nuts_iff_partial",
    "Verif.Track.C11_stack_traversal_violated"
   ],
   "note": "Exact condition on the order in which the library lists shared inputs; violated by the library's stack traversal as soon as a kernel has two generators."
  },
  {
   "property": "C12",
   "status": "proved",
   "theorems": [
    "Verif.Conj.C12_beta_binomial_exact"
   ],
   "note": "Equality of measures for every accepted graph, all parameters and counts. Hypothesis: the number of trials does not read the latent."
  },
  {
   "property": "C13",
   "status": "partial",
   "theorems": [
    "Verif.Conj.C13_gamma_poisson_exact_iff_partial",
    "Verif.Conj.C13_gamma_poisson_violated"
   ],
   "note": "The code is wrong unless the prior rate is 1: exact iff theorem and a violating model. The node stores 1/rate, the relation adds 1 to it and passes it as a rate."
  },
  {
   "property": "C14",
   "status": "partial",
   "theorems": [
    "Verif.Conj.C14_beta_nbinom_exact_iff_partial",
    "Verif.Conj.C14_beta_nbinom_violated"
   ],
   "note": "The code is wrong unless y = n: exact iff theorem and a violating model. Posterior parameters are swapped for the NumPy/SciPy convention."
  },
  {
   "property": "C15",
   "status": "proved",
   "theorems": [
    "Verif.Conj.C15_beta_binomial_fires_iff",
    "Verif.Conj.C15_beta_binomial_none_iff",
    "Verif.Conj.C15_beta_nbinom_fires_iff",
    "Verif.Conj.C15_beta_nbinom_none_iff",
    "Verif.Conj.C15_gamma_poisson_fires_iff",
    "Verif.Conj.C15_gamma_poisson_none_iff"
   ],
   "note": "Soundness and completeness of the three finders over all expression trees."
  },
  {
   "property": "C16",
   "status": "partial",
   "theorems": [
    "Verif.Conj.C16_beta_binomial_iff_partial",
    "Verif.Conj.C16_beta_binomial_shape_partial",
    "Verif.Conj.C16_beta_nbinom_iff_partial",
    "Verif.Conj.C16_beta_nbinom_shape_partial",
    "Verif.Conj.C16_gamma_poisson_iff_partial",
    "Verif.Conj.C16_gamma_poisson_shape_partial",
    "Verif.Conj.C16_shape_violated",
    "Verif.Conj.C16_size_violated"
   ],
   "note": "Exactly: for all shapes, with or without an explicit size, the step has the latent's shape iff the observation has it (C16_*_iff_partial); otherwise it has the shape of the observation, or fails at run time when the latent has a size. Violated for a scalar latent with any vector observation and for a sized latent with a larger observation. Sizes that are not constants are not modelled."
  },
  {
   "property": "C17",
   "status": "proved",
   "theorems": [
    "Verif.C17_rue2005_law"
   ],
   "note": "Equality of laws for every dimension, positive definite Q, b, and every linear algebra library meeting the Cholesky/triangular-solve contract (a witness library is constructed)."
  },
  {
   "property": "C18",
   "status": "proved",
   "theorems": [
    "Verif.C18_cong2017_law"
   ],
   "note": "Equality of laws for all sizes, positive A and omega, all Phi and t."
  },
  {
   "property": "C19",
   "status": "proved",
   "theorems": [
    "Verif.C19_branches_agree"
   ],
   "note": "Both algorithms have the same law for every shape."
  },
  {
   "property": "C20",
   "status": "partial",
   "theorems": [
    "Verif.C20_regression_posterior_iff_partial",
    "Verif.C20_regression_posterior_precision_partial",
    "Verif.C20_regression_posterior_violated"
   ],
   "note": "The code is wrong unless every prior std is 1: exact iff theorem, a violating model, and exactness when precisions are passed instead."
  },
  {
   "property": "C21",
   "status": "partial",
   "theorems": [
    "Verif.C21_nbinom_step_iff_partial",
    "Verif.C21_nbinom_step_target_partial",
    "Verif.C21_nbinom_step_violated"
   ],
   "note": "Invariance holds exactly when every prior std is 1 (the code uses precision 1/std); the step's unique stationary law is characterised for all inputs; violating witness."
  },
  {
   "property": "C22",
   "status": "partial",
   "theorems": [
    "Verif.C22_bern_step_iff_partial",
    "Verif.C22_bern_step_target_partial",
    "Verif.C22_bern_step_violated"
   ],
   "note": "As C21, for the Bernoulli step: iff theorem, unique stationary law, violating witness."
  },
  {
   "property": "C23",
   "status": "partial",
   "theorems": [
    "Verif.C23_bern_finder_step_iff_partial",
    "Verif.C23_bern_finder_step_violated"
   ],
   "note": "The finder matches sigmoid(-X beta) but the step targets sigmoid(X beta): invariance for the matched model holds iff every std is 1 and X^T(2y-1)=0; violating witness."
  },
  {
   "property": "C24",
   "status": "partial",
   "theorems": [
    "Verif.Match.C24_bern_match_partial",
    "Verif.Match.C24_match_violated",
    "Verif.Match.C24_nbinom_match_partial",
    "Verif.Match.C24_vector_multiplier_partial"
   ],
   "note": "Exact for one-element array constants; vector constants are accepted iff some entry is -1; violated by [-1,3], by a 0-d -1 (TypeError) and by non-constants (AttributeError)."
  },
  {
   "property": "C25",
   "status": "partial",
   "theorems": [
    "Verif.C25_bern_mean_iff_partial",
    "Verif.C25_bern_prior_iff_partial",
    "Verif.C25_nbinom_mean_iff_partial",
    "Verif.C25_nbinom_prior_iff_partial",
    "Verif.C25_step_violated",
    "Verif.Match.C25_bern_finder_partial",
    "Verif.Match.C25_bern_finder_violated",
    "Verif.Match.C25_nbinom_finder_partial"
   ],
   "note": "The step uses input 4 of beta's owner; for a normal beta this is its scale, whatever the mean. Violated by a mean of 5 and by gamma coefficients. For every prior law of the coefficients: the negative-binomial step keeps the posterior iff the prior is independent normal with mean 0 and variance std (so for normal coefficients iff every mean is 0 and every std is 1); the Bernoulli step for the matched model iff it is independent normal with variance std and mean std * X'(2y-1)."
  },
  {
   "property": "C26",
   "status": "proved",
   "theorems": [
    "Verif.Match.C26_horseshoe_finder",
    "Verif.Match.C26_horseshoe_order",
    "Verif.Match.C26_horseshoe_reject"
   ],
   "note": "Both factor orders, every shape, and rejection with ValueError for every other graph that is the output of an operation."
  },
  {
   "property": "C27",
   "status": "partial",
   "theorems": [
    "Verif.Horseshoe.C27_any_prior_iff_partial",
    "Verif.Horseshoe.C27_scales_means_iff_partial",
    "Verif.Horseshoe.C27_step_violated",
    "Verif.Match.C27_horseshoe_accepts_partial",
    "Verif.Match.C27_horseshoe_accepts_violated"
   ],
   "note": "Accepted graphs are normals with a product of half-Cauchys as scale; violated for non-zero means and other half-Cauchy scales. What this costs: in the rate reading of C28 the step keeps the posterior iff the prior of the shrinkage parameters is the standard horseshoe (C27_any_prior_iff_partial, any prior), and for half-Cauchys of any scales and normals of any means iff all scales are 1 and every squared coefficient equals its squared distance from its mean (C27_scales_means_iff_partial)."
  },
  {
   "property": "C28",
   "status": "partial",
   "theorems": [
    "Verif.Horseshoe.C28_conditionals_violated",
    "Verif.Horseshoe.C28_mixture_is_halfCauchy",
    "Verif.Horseshoe.C28_rate_conditionals_partial",
    "Verif.Horseshoe.C28_rate_invariant_partial",
    "Verif.Horseshoe.C28_rate_step_invariant_partial",
    "Verif.Horseshoe.C28_step_violated",
    "Verif.Horseshoe.C28_violated"
   ],
   "note": "Rate reading of exponential's argument: invariance for every p, nonzero beta and sigma2 > 0, the three conditionals, and the mixture identity are proved. The library reads the argument as a scale: in that reading the step never keeps the posterior, for any number of nonzero coefficients and any sigma2 (C28_violated), and the auxiliary draw is wrong in every state."
  },
  {
   "property": "C29",
   "status": "proved",
   "theorems": [
    "Verif.Horseshoe.C29_result_scale"
   ],
   "note": "Both readings of exponential's argument; all positive inputs; almost surely over all draws."
  },
  {
   "property": "C30",
   "status": "proved",
   "theorems": [
    "Verif.CRT.C30_bernoulli_params_valid",
    "Verif.CRT.C30_sample_CRT_range"
   ],
   "note": "All integer arrays (including negative entries), all h, every outcome in the support of the draws."
  },
  {
   "property": "C31",
   "status": "proved",
   "theorems": [
    "Verif.CRT.C31_crt_independent",
    "Verif.CRT.C31_crt_law",
    "Verif.CRT.C31_crt_mean"
   ],
   "note": "Exact law with Stirling numbers and Gamma functions, independence of the entries, and the mean."
  },
  {
   "property": "C32",
   "status": "partial",
   "theorems": [
    "Verif.CRT.C32_dispersion_complement_partial",
    "Verif.CRT.C32_dispersion_iff_partial",
    "Verif.CRT.C32_finder_step_iff_partial",
    "Verif.CRT.C32_violated"
   ],
   "note": "Exact condition: invariant iff sum log p = sum log(1-p); for the finder's call iff the entries of X beta sum to zero. Exact for the complementary probability; concrete violation with p = 1/4. Scalar dispersion, vector of observations."
  },
  {
   "property": "C33",
   "status": "proved",
   "theorems": [
    "Verif.FFBS.C33_ffbs_broadcast",
    "Verif.FFBS.C33_ffbs_smoothing"
   ],
   "note": "All M, N >= 1, nonnegative initial weights and transition matrices, log-likelihoods including -inf, any precision bound, exact real arithmetic, no batch dimensions."
  },
  {
   "property": "C34",
   "status": "proved",
   "theorems": [
    "Verif.FFBS.C34_ffbs_rescaling"
   ],
   "note": "All three rescalings at once, for all nonnegative inputs including zero evidence."
  },
  {
   "property": "C35",
   "status": "proved",
   "theorems": [
    "Verif.FFBS.C35_ffbs_support",
    "Verif.FFBS.C35_ffbs_zero_evidence",
    "Verif.FFBS.C35_positive_weight_possible"
   ],
   "note": "Length, range and positive weight of every outcome in the support; zero evidence gives no sample."
  },
  {
   "property": "C36",
   "status": "proved",
   "theorems": [
    "Verif.Trans.C36_laws_standard",
    "Verif.Trans.C36_location_scale_law"
   ],
   "note": "All five families, all location and scale expressions, every environment with a positive scale; the densities are shown to be probability laws, and the normal and Cauchy ones to be Mathlib's."
  },
  {
   "property": "C37",
   "status": "partial",
   "theorems": [
    "Verif.Trans.C37_families_partial",
    "Verif.Trans.C37_t_never_rewritten_violated"
   ],
   "note": "Exact on the five two-parameter families, for all well-formed expressions; violated for the listed family t: no t variable of the library is ever rewritten, because it has three parameters."
  },
  {
   "property": "C38",
   "status": "partial",
   "theorems": [
    "Verif.Trans.C38_independent_partial",
    "Verif.Trans.C38_shared_noise_violated"
   ],
   "note": "Proved for every non-empty size; violated for every two-parameter family whenever no size was given and there are at least two components, because one noise draw is shared."
  },
  {
   "property": "C39",
   "status": "partial",
   "theorems": [
    "Verif.Trans.C39_invgamma_iff_partial",
    "Verif.Trans.C39_invgamma_only_partial",
    "Verif.Trans.C39_scale_violated"
   ],
   "note": "Right for all c > 0 if exponential takes a rate; the library's exponential takes a scale, and then the laws agree iff c = 1 (concrete violation c = 2)."
  },
  {
   "property": "C40",
   "status": "proved",
   "theorems": [
    "Verif.Subs.C40_inline_value",
    "Verif.Subs.C40_passes_value",
    "Verif.Subs.C40_roundtrip_value",
    "Verif.Subs.C40_subsume_value"
   ],
   "note": "All trees, ranks, orders (including dropped dimensions and negative slices), interpretations; node, inlined node, inlining after substitution, and the two whole-graph passes."
  },
  {
   "property": "C41",
   "status": "partial",
   "theorems": [
    "Verif.Subs.C41_drop_violated",
    "Verif.Subs.C41_exposes_partial",
    "Verif.Subs.C41_only_elemwise_partial"
   ],
   "note": "Exact (iff and what is exposed) when no input is a DimShuffle of a variable of higher rank than the node; violated for dropped dimensions, where a negative slice bound makes the rewrite fire without any padding (concrete witness)."
  },
  {
   "property": "C42",
   "status": "proved",
   "theorems": [
    "Verif.Subs.C42_kernel",
    "Verif.Subs.C42_remove_constants"
   ],
   "note": "All input lists; the kernel made from the result computes the graph and mentions no variable."
  },
  {
   "property": "C43",
   "status": "partial",
   "theorems": [
    "Verif.Info.C43_duplicate_violated",
    "Verif.Info.C43_exactly_once_partial",
    "Verif.Info.C43_split_partial"
   ],
   "note": "Everything but 'exactly once' for all arguments; exactly once iff no observed variable is given twice; violated by a duplicated observed variable, which is accepted."
  },
  {
   "property": "C44",
   "status": "proved",
   "theorems": [
    "Verif.Info.C44_accepts",
    "Verif.Info.C44_names_bijection"
   ],
   "note": "All dictionaries, name assignments and set iteration orders; the three error branches and the bijection."
  },
  {
   "property": "C45",
   "status": "partial",
   "theorems": [
    "Verif.Info.C45_inverse_iff_partial",
    "Verif.Info.C45_shared_value_violated"
   ],
   "note": "Inverse iff the value variables are distinct; violated by two variables sharing a value variable, which is accepted."
  },
  {
   "property": "C46",
   "status": "partial",
   "theorems": [
    "Verif.Prior.C46_exact_partial",
    "Verif.Prior.C46_nonshared_violated",
    "Verif.Prior.C46_shared_partial"
   ],
   "note": "Exact for all graphs and streams; violated for models in which an RNG ancestor is not a shared variable: AttributeError although no two updates differ."
  },
  {
   "property": "C47",
   "status": "partial",
   "theorems": [
    "Verif.Prior.C47_advanced_partial",
    "Verif.Prior.C47_no_update_violated",
    "Verif.Prior.C47_samples_partial"
   ],
   "note": "All graphs, numbers of samples and states; every RNG is advanced if it has an update; violated otherwise (e.g. variables created without a stream): all samples are identical."
  },
  {
   "property": "C48",
   "status": "partial",
   "theorems": [
    "Verif.Nuts.C48_fixed_partial",
    "Verif.Nuts.C48_support_partial",
    "Verif.Nuts.C48_support_violated",
    "Verif.Nuts.C48_wiring"
   ],
   "note": "Wiring exact for all variable sets, shapes, transforms and length-preserving kernels; AePPL's default transforms are shown lawful. Supports are kept if no parameter depends on a random variable; violated otherwise: Uniform(0, theta) with theta sampled uses theta's draw instead of its value (concrete witness)."
  },
  {
   "property": "C49",
   "status": "proved",
   "theorems": [
    "Verif.Nuts.C49_blocks",
    "Verif.Nuts.C49_roundtrip",
    "Verif.Nuts.C49_short"
   ],
   "note": "All lists of shapes including empty and scalar ones, both directions, every position, and the error for short vectors."
  },
  {
   "property": "C50",
   "status": "proved",
   "theorems": [
    "Verif.Nuts.C50_outputs",
    "Verif.Nuts.C50_step"
   ],
   "note": "All numbers of variables and updates; that the update outputs are also paired with the right generators is C11."
  },
  {
   "property": "C51",
   "status": "partial",
   "theorems": [
    "Verif.Ver.C51_dirty_shown",
    "Verif.Ver.C51_dirty_shown_violated",
    "Verif.Ver.C51_pep440_tagged",
    "Verif.Ver.C51_pep440_untagged",
    "Verif.Ver.C51_pre_partial",
    "Verif.Ver.C51_pre_violated",
    "Verif.Ver.C51_styles",
    "Verif.Ver.C51_total_partial"
   ],
   "note": "Exact for all tags, distances, hashes; every style but pep440-pre is total, and the tags on which pep440-pre raises ValueError are characterised (violated, e.g. tag 1.0.post1rc). With a release tag or none every pep440 style renders a PEP 440 identifier (separate grammar), and every style but pep440-pre shows uncommitted changes."
  },
  {
   "property": "C52",
   "status": "partial",
   "theorems": [
    "Verif.Ver.C52_bad_prefix",
    "Verif.Ver.C52_hash_violated",
    "Verif.Ver.C52_parse_tagged",
    "Verif.Ver.C52_parse_untagged",
    "Verif.Ver.C52_prefix_violated",
    "Verif.Ver.C52_render_back_partial",
    "Verif.Ver.C52_sound"
   ],
   "note": "Parsing is exact in both directions for all tags, prefixes, distances and hashes; rendering back gives git's text without the prefix, so it differs for the configured prefix v, and for untagged commits when git abbreviates to another length than seven."
  },
  {
   "property": "C53",
   "status": "partial",
   "theorems": [
    "Verif.Graph.C53_sweep_partial",
    "Verif.Graph.Sweep.C53_violated",
    "Verif.Whole.C53_horseshoe_violated"
   ],
   "note": "All models, laws, measurable steps and independent randomness, under the sharing hypothesis of C03; violated without it: in a hierarchical model whose steps share a node, two steps that each keep a two-valued law give a law that is not it (9/16 instead of 3/4). Also violated by the library's own horseshoe regressions (negative-binomial and Bernoulli, every design, data, order of visit): with both sampling nodes replaced by exact conditional draws, each returned value alone keeps the posterior and the returned state does not."
  },
  {
   "property": "C54",
   "status": "partial",
   "theorems": [
    "Verif.Nuts.C54_blocks_partial",
    "Verif.Nuts.C54_invariant_partial",
    "Verif.Nuts.C54_transforms",
    "Verif.Nuts.C54_violated"
   ],
   "note": "All variable sets, shapes, positive densities, realised values, draws and target-keeping kernels, for every default transform with parameters that are not random: none, log, log odds, interval, lower bound, circle, simplex (C54_transforms shows that each is a change of variables). For the circle the log density in the transformed space is periodic, so not that of a law; there the kernel must also keep measures with such densities and commute with translations. Violated when a bound is a random variable: with Uniform(0, theta), theta realised as 1 and drawn as 4, every x in (0,1) moves to 4 - x under a kernel that keeps every target."
  },
  {
   "property": "C55",
   "status": "partial",
   "theorems": [
    "Verif.Shapes.C55_bern_step_partial",
    "Verif.Shapes.C55_dispersion_step_partial",
    "Verif.Shapes.C55_horseshoe_step_partial",
    "Verif.Shapes.C55_nbinom_step_partial",
    "Verif.Shapes.C55_rue2005",
    "Verif.Shapes.C55_violated"
   ],
   "note": "Exact conditions (iff) for every shape of prior scale, shrinkage and dispersion parameters. Violated on accepted models: a scalar prior scale makes the step impossible to build, a length-one scale fails with fewer rows than columns, a shared lambda or a size-one dispersion changes shape, replicated responses never give the right shape."
  },
  {
   "property": "C56",
   "status": "partial",
   "theorems": [
    "Verif.Shapes.C56_batch_shape_partial",
    "Verif.Shapes.C56_forward_rows_partial",
    "Verif.Shapes.C56_forward_violated",
    "Verif.Shapes.C56_initial_violated",
    "Verif.Shapes.C56_single_sequence_partial",
    "Verif.Shapes.C56_violated"
   ],
   "note": "Documented base shapes give one state per time point; for batches the result has the right shape iff there are as many sequences as states. Violated: other batch sizes fail or return one column per state, and with as many sequences as states the sampling weights mix sequences and are not probabilities; the forward pass keeps the sequences apart, up to a factor each, as long as no total is below the bound, and otherwise the small total of one changes the weights of another."
  },
  {
   "property": "C57",
   "status": "partial",
   "theorems": [
    "Verif.Conj.C57_beta_binomial_array_iff_partial",
    "Verif.Conj.C57_beta_binomial_entry_iff_partial",
    "Verif.Conj.C57_beta_nbinom_array_iff_partial",
    "Verif.Conj.C57_gamma_poisson_array_iff_partial",
    "Verif.Conj.C57_repeated_violated"
   ],
   "note": "Exact conditions (iff) for arrays of any size and any broadcasting: the beta-binomial step is right iff no latent entry is observed twice; gamma-Poisson additionally needs every rate 1, beta-negative-binomial every y = n. One entry's draw is right iff the other observations of that latent entry have zero trials. Violated by a scalar uniform probability with two coin tosses."
  },
  {
   "property": "C58",
   "status": "partial",
   "theorems": [
    "Verif.Horseshoe.C58_global_draw_iff_partial",
    "Verif.Horseshoe.C58_step_iff_partial",
    "Verif.Horseshoe.C58_violated"
   ],
   "note": "Exact conditions (iff) for every shape with at least one entry: the global draw is right iff the trailing dimensions multiply to one, and the whole step iff moreover exponential reads its argument as a rate. Violated by a 2x2 coefficient matrix, because the gamma shape counts beta.shape[0] instead of all entries."
  },
  {
   "property": "C59",
   "status": "partial",
   "theorems": [
    "Verif.NbReg.C59_coef_step_iff_partial",
    "Verif.NbReg.C59_dispersion_step_iff_partial",
    "Verif.NbReg.C59_posterior_exists",
    "Verif.NbReg.C59_sweep_iff_partial",
    "Verif.NbReg.C59_violated",
    "Verif.Whole.C59_built_iff_partial"
   ],
   "note": "All design matrices, counts and priors. Exact conditions (iff): the coefficient step keeps the joint posterior iff every prior standard deviation is 1, the dispersion step iff every column of X sums to zero, and the whole call iff both hold. Violated by a single regressor 1. The same exact condition is proved of the sampler construct_sampler builds for this graph, in every order of visit, for one call and for convergence."
  },
  {
   "property": "C60",
   "status": "partial",
   "theorems": [
    "Verif.HsReg.C60_bern_coef_step_violated",
    "Verif.HsReg.C60_nbinom_coef_step_violated",
    "Verif.HsReg.C60_posterior_exists",
    "Verif.HsReg.C60_scale_any_coef_step_violated",
    "Verif.HsReg.C60_shrink_step_iff_partial",
    "Verif.HsReg.C60_shrink_step_scale_violated",
    "Verif.HsReg.C60_sweep_violated",
    "Verif.Whole.C60_built_violated"
   ],
   "note": "Proved part: for all data and at least one coefficient, the shrinkage step keeps the joint posterior iff exponential reads its argument as a rate (the library reads a scale). Everything else is refuted, for every data set, design and dispersion and at least one coefficient: the coefficient step of both regressions never keeps the joint posterior (it uses lambda*tau as a variance), and one call of the sampler never does, in either reading; in the library's reading no other coefficient step would repair the call. Proved also of the built sampler, in every order of visit, with no convergence from any start."
  },
  {
   "property": "C61",
   "status": "partial",
   "theorems": [
    "Verif.Shared.C61_first_group_ignored_partial",
    "Verif.Shared.C61_local_draw_partial",
    "Verif.Shared.C61_scale_violated",
    "Verif.Shared.C61_violated",
    "Verif.Whole.C61_built_violated"
   ],
   "note": "Violated for all nonempty groups, all nonzero coefficients, both orders of the steps and both readings of the argument of exponential: the joint posterior exists and the call never keeps it. Reason proved for both readings, every start and any number of calls: the law of tau and lambda2 is the one for the group visited last alone, the other coefficients have no influence. Right part: the draw of lambda1 keeps the joint posterior (rate reading). The violation is proved also of the sampler construct_sampler builds, in every order of visit."
  },
  {
   "property": "C62",
   "status": "partial",
   "theorems": [
    "Verif.Ver.C62_archive_partial",
    "Verif.Ver.C62_branch_violated",
    "Verif.Ver.C62_newest_violated",
    "Verif.Ver.C62_release_first",
    "Verif.Ver.C62_tag_partial",
    "Verif.Ver.C62_text_violated"
   ],
   "note": "Exact for all sets of references that the expanded text separates: the version is the first in code point order of the suitable names, with revision and date, whatever git or the path say; a release is preferred to its candidates. Violated: a branch named like a version is reported for every commit without tags; of v1.0 and v1.1 the older is reported; tags with a comma or with a parenthesis at the end of the list are cut."
  },
  {
   "property": "C63",
   "status": "partial",
   "theorems": [
    "Verif.Ver.C63_fallback_partial",
    "Verif.Ver.C63_foreign_violated",
    "Verif.Ver.C63_keywords",
    "Verif.Ver.C63_raises_violated",
    "Verif.Ver.C63_tagged_partial",
    "Verif.Ver.C63_untagged_partial"
   ],
   "note": "The fallback order is exact for all directories; when git describes the tree the result and the exact conditions (iff) for each exception are proved for tagged and untagged trees. Violated: a release unpacked inside any other repository with a version tag reports that repository's version; the import raises TypeError when git cannot count commits, AttributeError or IndexError when it gives no date. What the keywords of an archive do, and when they stop the import, is exact as well (C63_keywords). Output of git describe that git does not print is covered by C52 only."
  },
  {
   "property": "C64",
   "status": "partial",
   "theorems": [
    "Verif.Track.C64_integer_coefficient_violated",
    "Verif.Track.C64_integer_to_nuts_violated",
    "Verif.Track.C64_route_partial"
   ],
   "note": "Proved part: for all models and search histories (one-element link multipliers) NUTS is given exactly the unobserved variables that no supported form covers, and is not called when there is none. Violated for every model: an unobserved Poisson, binomial, negative-binomial or Bernoulli variable is handed to NUTS without an error; a binomial coefficient vector gets the step of normal coefficients, with its probability as the scale."
  },
  {
   "property": "C65",
   "status": "partial",
   "theorems": [
    "Verif.C65_bern_converges_iff_partial",
    "Verif.C65_bern_converges_partial",
    "Verif.C65_bern_finder_converges_iff_partial",
    "Verif.C65_dispersion_converges_iff_partial",
    "Verif.C65_dispersion_converges_partial",
    "Verif.C65_dispersion_violated",
    "Verif.C65_horseshoe_converges_partial",
    "Verif.C65_horseshoe_regression_violated",
    "Verif.C65_horseshoe_scale_violated",
    "Verif.C65_nbinom_converges_iff_partial",
    "Verif.C65_nbinom_converges_partial",
    "Verif.C65_nbinom_intercept_violated",
    "Verif.C65_nbinom_joint_converges_iff_partial",
    "Verif.C65_regression_violated",
    "Verif.C65_shared_limit_partial",
    "Verif.C65_shared_violated"
   ],
   "note": "Single steps: geometric convergence from every start, uniformly in start and event, for the coefficient steps of both regressions and for the dispersion step, to the law each really targets (prior standard deviations sqrt(std); complementary success probabilities); to the model's posterior exactly when (iff) every standard deviation is 1, for the finder's Bernoulli step moreover X'(2y-1)=0, and for the dispersion when sum log p = sum log(1-p). Horseshoe step: converges to the posterior from every positive start in the rate reading, from none in the library's. Negative-binomial regression with dispersion: from any one start, converges to the joint posterior iff every standard deviation is 1 and every column of X sums to 0. Horseshoe regressions and shared global parameters: from no start, whatever the data, in either reading; the shared call tends to the posterior given the last group alone (rate reading)."
  },
  {
   "property": "C66",
   "status": "partial",
   "theorems": [
    "Verif.HsDisp.C66_call_violated",
    "Verif.HsDisp.C66_coef_step_violated",
    "Verif.HsDisp.C66_dispersion_step_iff_partial",
    "Verif.HsDisp.C66_limit_violated",
    "Verif.HsDisp.C66_posterior_exists",
    "Verif.HsDisp.C66_shrink_step_iff_partial",
    "Verif.Whole.C66_built_violated"
   ],
   "note": "Proved part: the shrinkage step keeps the joint posterior iff exponential reads its argument as a rate (the library reads a scale), and the dispersion step iff every column of X sums to zero; the posterior exists for all data. Refuted for every data set, design and gamma prior and at least one coefficient: the coefficient step never keeps the joint posterior; one call never does, in either reading whichever of the old and the new lambda and tau the coefficients read (the library reads the old ones in every order of visit); and from no start with positive lambda, tau and dispersion do repeated calls converge to it. Proved also of the sampler construct_sampler builds for this graph, in every order of visit, with any nodes and independent random numbers that have these laws."
  },
  {
   "property": "C67",
   "status": "partial",
   "theorems": [
    "Verif.Whole.C67_dispersion_violated",
    "Verif.Whole.C67_horseshoe_violated",
    "Verif.Whole.C67_nbinom_partial",
    "Verif.Whole.C67_shared_partial"
   ],
   "note": "Proved part: for the negative-binomial regression with normal coefficients and gamma dispersion one call of the built sampler has exactly the law of the coefficient step followed by the dispersion step, and for two groups sharing tau that of the two shrinkage kernels in the order of visit. Refuted for every regression with a horseshoe prior and at least one coefficient (negative binomial with known and with unknown dispersion, Bernoulli): for every data set, in both readings, in every order of visit and from every state with positive lambda, tau and dispersion the law of the call differs from that of its steps run one after the other, in each of the two or six orders."
  },
  {
   "property": "C68",
   "status": "partial",
   "theorems": [
    "Verif.Graph.C68_lost",
    "Verif.Graph.C68_nuts_prior",
    "Verif.Graph.C68_target_partial",
    "Verif.Hier.C68_violated"
   ],
   "note": "Proved part: if no closed-form step's graph contains an argument node that reads a model variable, the joint density read off the graph NUTS gets is the model's at all values. Refuted otherwise. For every model graph and every iteration order: if a closed-form step's graph contains r (met before a variable that comes before s), the term of r on the graph NUTS gets does not depend on s. If this is so for all children of the only NUTS variable s, its new value is the one NUTS computes for its prior density. Beta-binomial model with a random first parameter, any prior density positive on the positive numbers, all b > 0, n >= 1, y <= n, ideal NUTS: the law of the parameter tends to its prior whatever the data, and the calls neither keep the joint posterior nor reach it from any start."
  },
  {
   "property": "C69",
   "status": "partial",
   "theorems": [
    "Verif.Hier.Reg.C69_any_step_violated",
    "Verif.Hier.Reg.C69_bern_violated",
    "Verif.Hier.Reg.C69_nb_violated",
    "Verif.Hier.Reg.C69_scales_iff_partial"
   ],
   "note": "Proved part: for every likelihood that is continuous, positive and bounded in the coefficients (both regressions), every prior density positive on the positive vectors and an ideal NUTS, the law of the standard deviations tends to their posterior law exactly when the probability of the data does not depend on them (true for a single binary observation). Refuted for the other data: negative-binomial regressions in which some positive count has a nonzero row of regressors, Bernoulli regressions with overlapping outcomes. The law of the standard deviations tends to their prior whatever the data, and the calls neither keep the joint posterior nor reach it from any start; this holds whatever law the step of the coefficients draws from."
  },
  {
   "property": "C70",
   "status": "proved",
   "theorems": [
    "Verif.Graph.C70_part",
    "Verif.Graph.C70_runs",
    "Verif.Track.C70_found"
   ],
   "note": "For every splitting of a model in which no step's graph meets variables of both parts, the sampler of the whole model and the sampler of the part return the same values for the part's closed-form variables, in one call (C70_part) and in every call of a run (C70_runs). The same variables of the part are found to have a closed-form step, whatever the order of the two searches (C70_found); which of several steps for one variable is used is taken to be the same in both runs. Variables left to NUTS are outside the claim: one NUTS call moves those of all parts together."
  },
  {
   "property": "C71",
   "status": "proved",
   "theorems": [
    "Verif.Parts.C71_joint"
   ],
   "note": "For the samplers built from the three models: the whole sampler moves the pair of states as the part samplers move theirs, and with independent random numbers it keeps (converges to) the joint posterior iff both part samplers keep (converge to) their posteriors."
  },
  {
   "property": "C72",
   "status": "proved",
   "theorems": [
    "Verif.C72_bern_observations",
    "Verif.C72_bern_outcomes",
    "Verif.C72_bern_regressors",
    "Verif.C72_nbinom_observations",
    "Verif.C72_nbinom_regressors",
    "Verif.CRT.C72_dispersion_observations",
    "Verif.CRT.C72_finder_dispersion_observations",
    "Verif.Horseshoe.C72_horseshoe_coefficients"
   ],
   "note": "For all inputs of the four step functions (positive standard deviations, dispersions, scales): observations reordered or stripped of all-zero rows, regressors reordered and negated, outcomes exchanged, coefficients of the shrinkage step reordered and negated."
  },
  {
   "property": "C73",
   "status": "partial",
   "theorems": [
    "Verif.C73_bern_units_iff_partial",
    "Verif.C73_nbinom_units_iff_partial",
    "Verif.C73_units_violated",
    "Verif.Horseshoe.C73_horseshoe_units_partial"
   ],
   "note": "Refuted for both regression steps: with the units of the regressors changed by factors c the draws are the old ones in new units iff every factor is 1, for all data. Proved part: the shrinkage step."
  },
  {
   "property": "C74",
   "status": "proved",
   "theorems": [
    "Verif.Prior.C74_independent_prior_draws",
    "Verif.Prior.C74_resume"
   ],
   "note": "The probability that each of n samples lies in a given event is the product of the prior probabilities of the events, the prior being the law of the values when every random variable is drawn with noise of its own; a second call continues the first. A generator is idealised as a stream of independent noises, one per draw. Models that share or chain generators, or use generators without updates, are not built with a stream in this sense (see C46, C47)."
  },
  {
   "property": "C75",
   "status": "partial",
   "theorems": [
    "Verif.C75_bern_averages_iff_partial",
    "Verif.C75_bern_averages_partial",
    "Verif.C75_bern_finder_averages_iff_partial",
    "Verif.C75_bern_strong_iff_partial",
    "Verif.C75_bern_strong_partial",
    "Verif.C75_beta_binomial_averages_partial",
    "Verif.C75_beta_binomial_strong_partial",
    "Verif.C75_beta_nbinom_average_iff_partial",
    "Verif.C75_beta_nbinom_strong_iff_partial",
    "Verif.C75_conjugate_violated",
    "Verif.C75_dispersion_averages_iff_partial",
    "Verif.C75_dispersion_averages_partial",
    "Verif.C75_dispersion_strong_iff_partial",
    "Verif.C75_dispersion_strong_violated",
    "Verif.C75_dispersion_violated",
    "Verif.C75_gamma_poisson_average_iff_partial",
    "Verif.C75_gamma_poisson_strong_iff_partial",
    "Verif.C75_horseshoe_averages_partial",
    "Verif.C75_horseshoe_regression_strong_violated",
    "Verif.C75_horseshoe_regression_violated",
    "Verif.C75_horseshoe_scale_strong_violated",
    "Verif.C75_horseshoe_scale_violated",
    "Verif.C75_horseshoe_strong_partial",
    "Verif.C75_nbinom_averages_iff_partial",
    "Verif.C75_nbinom_averages_partial",
    "Verif.C75_nbinom_intercept_strong_violated",
    "Verif.C75_nbinom_intercept_violated",
    "Verif.C75_nbinom_joint_averages_iff_partial",
    "Verif.C75_nbinom_joint_strong_iff_partial",
    "Verif.C75_nbinom_strong_iff_partial",
    "Verif.C75_nbinom_strong_partial",
    "Verif.C75_regression_strong_violated",
    "Verif.C75_regression_violated",
    "Verif.C75_shared_strong_violated",
    "Verif.C75_shared_violated"
   ],
   "note": "Convergence of averages in probability and along single runs with probability one. Proved part: with probability one the averages of every function with an expectation converge (in probability also those of bounded functions and of every coefficient and dispersion), from every start, to expectations under the law each step really targets (C65), and to posterior expectations exactly when (iff, from any one start) the conditions of C21-C23, C32 and C59 hold; horseshoe step in the rate reading; draws from the beta-binomial posterior. Violated from every start otherwise: regressions with standard deviation 2, dispersion with success probability below one half, the horseshoe step in the library's reading, designs with an intercept, horseshoe regressions, shared global parameters; the averages of gamma-Poisson and beta-negative-binomial draws converge to the posterior mean iff the prior rate is 1, resp. the count equals the number of successes."
  },
  {
   "property": "C76",
   "status": "partial",
   "theorems": [
    "Verif.Track.C76_beta_batches_iff_partial",
    "Verif.Track.C76_beta_binomial_batches",
    "Verif.Track.C76_beta_nbinom_violated",
    "Verif.Track.C76_gamma_batches_iff_partial",
    "Verif.Track.C76_gamma_violated"
   ],
   "note": "Proved for binomial batches. With negative-binomial batches among them the last step is right iff the counts of these batches add up to the sum of their numbers of successes. Gamma prior with rate b and Poisson batches: right iff there is no batch, or one batch and b = 1; with two or more batches never, because each step adds one to the scale instead of the rate. Violated by concrete batches of both kinds."
  },
  {
   "property": "C77",
   "status": "proved",
   "theorems": [
    "Verif.FFBS.C77_ffbs_forecast",
    "Verif.FFBS.C77_ffbs_merge",
    "Verif.FFBS.C77_ffbs_missing",
    "Verif.FFBS.C77_ffbs_relabel",
    "Verif.FFBS.C77_ffbs_reverse"
   ],
   "note": "For all nonnegative inputs, with and without evidence: renamed and merged states, a missing observation before the last time point, an uninformative last time point, reversed time under detailed balance."
  },
  {
   "property": "C78",
   "status": "partial",
   "theorems": [
    "Verif.C78_bern_finder_iff_partial",
    "Verif.C78_bern_iff_partial",
    "Verif.C78_beta_binomial_partial",
    "Verif.C78_beta_nbinom_violated",
    "Verif.C78_dispersion_iff_partial",
    "Verif.C78_dispersion_violated",
    "Verif.C78_gamma_poisson_iff_partial",
    "Verif.C78_horseshoe_dispersion_violated",
    "Verif.C78_horseshoe_violated",
    "Verif.C78_nbinom_iff_partial",
    "Verif.C78_nbinom_joint_iff_partial",
    "Verif.C78_regression_violated"
   ],
   "note": "Proved for beta-binomial models. Exact conditions otherwise: gamma-Poisson iff the prior rate is 1; negative-binomial and Bernoulli-logit regression steps iff every prior standard deviation is 1 (with the model the Bernoulli finder matches, sigmoid(-X b): iff also X = 0); dispersion iff the sums of log p and log(1-p) agree; coefficients and dispersion together iff all standard deviations are 1 and every column of the design sums to 0. Violated by every beta-negative-binomial model, by every horseshoe regression with a coefficient (dispersion known or not) and by the regressions and dispersions outside these conditions. Missing: samplers with No-U-Turn parts."
  },
  {
   "property": "C79",
   "status": "proved",
   "theorems": [
    "Verif.C79_bern_means",
    "Verif.C79_bern_successive_draws",
    "Verif.C79_dispersion_means",
    "Verif.C79_dispersion_successive_draws",
    "Verif.C79_nbinom_means",
    "Verif.C79_nbinom_successive_draws"
   ],
   "note": "For the negative-binomial and Bernoulli regression steps and the dispersion step, relative to whatever law the step keeps (which is the posterior only under the conditions of C21-C23 and C32). Reversible at every distance; covariances equal to the variance at distance 0, nonnegative, nonincreasing, convex; variance of the mean of N draws between variance/N and variance. The law kept by the dispersion step is taken to live on the positive numbers. Steps that alternate more than two draws (horseshoe, coefficients with dispersion) are not covered."
  },
  {
   "property": "C80",
   "status": "partial",
   "theorems": [
    "Verif.CRT.C80_rows_independent_partial",
    "Verif.CRT.C80_vector_equal_partial",
    "Verif.CRT.C80_vector_raises_violated",
    "Verif.CRT.C80_vector_returns_iff_partial",
    "Verif.CRT.C80_vector_tables_violated"
   ],
   "note": "Proved for one current dispersion, for counts in arrays of any number of dimensions. With a vector of two or more current dispersions the call returns only if every count is one more than their number (or 2, where vectors of length one are stretched), because the table probabilities are broadcast against the numbers 2, ..., y; otherwise it raises. Violated: it raises whenever a count is 0, and where it returns the tables of a row depend on the dispersions of the others. Where it returns and the dispersions are all equal the result is right (C80_vector_equal_partial)."
  },
  {
   "property": "C81",
   "status": "proved",
   "theorems": [
    "Verif.FFBS.C81_ffbs_known_state",
    "Verif.FFBS.C81_ffbs_monotone",
    "Verif.FFBS.C81_ffbs_small_changes"
   ],
   "note": "For exact real numbers and all nonnegative inputs, with and without evidence."
  },
  {
   "property": "C82",
   "status": "proved",
   "theorems": [
    "Verif.C82_bern_keep",
    "Verif.C82_dispersion_keep",
    "Verif.C82_horseshoe_thinning",
    "Verif.C82_nbinom_joint_thinning",
    "Verif.C82_nbinom_keep"
   ],
   "note": "Relative to whatever law the step keeps (for which laws these are see C21-C23, C28, C32 and C59); the law kept by the dispersion step is taken to live on the positive numbers."
  },
  {
   "property": "C83",
   "status": "proved",
   "theorems": [
    "Verif.C83_bern_separate",
    "Verif.C83_nbinom_separate",
    "Verif.FFBS.C83_ffbs_no_memory",
    "Verif.FFBS.C83_ffbs_separate"
   ],
   "note": "For exact real numbers, sound linear algebra and positive prior scales and dispersions. What is compared are laws of calls; which laws these are is the subject of C21, C22 and C33."
  },
  {
   "property": "C84",
   "status": "partial",
   "theorems": [
    "Verif.Track.C84_beta_iff_partial",
    "Verif.Track.C84_gamma_iff_partial",
    "Verif.Track.C84_order_violated",
    "Verif.Track.C84_step_iff_partial"
   ],
   "note": "Exact conditions: the step is the same in all orders exactly when all calls that answer for the variable end with the same step; its law is the same exactly when all children of the beta latent add the same to the parameters, or all counts under the gamma latent are equal. Violated otherwise, because the last step found is used and it knows one child only (C04, C05)."
  },
  {
   "property": "C85",
   "status": "partial",
   "theorems": [
    "Verif.FFBS.C85_backward_range_partial",
    "Verif.FFBS.C85_forward_range_partial",
    "Verif.FFBS.C85_underflow_violated"
   ],
   "note": "Proved when from every state each observation is at least lower_prec_bound times as likely as in its best state, in particular when all transition probabilities are at least the bound; then also the divisors of the backward pass are bounded below. Violated otherwise: weights that are too small are divided by the fixed bound instead of their sum, which does not keep up when each observation costs more than the bound."
  },
  {
   "property": "C86",
   "status": "partial",
   "theorems": [
    "Verif.Match.C86_bern_link_partial",
    "Verif.Match.C86_constant_factor_violated",
    "Verif.Match.C86_horseshoe_no_constant_partial",
    "Verif.Match.C86_horseshoe_scale_partial",
    "Verif.Match.C86_link_violated",
    "Verif.Match.C86_nbinom_link_partial"
   ],
   "note": "Proved part: for every graph without rewritten nodes, an accepted scale is a product of two half-Cauchy variables and constants (exactly these two when no factor is a constant), and an accepted link has its constant as a direct operand, so no other factor is ever lost. Violated: for every constant c the scale c*lambda*tau written as one product is prepared into the very graph of lambda*tau and gets its step, and the link -1*(X @ beta) with a broadcast number loses the -1 and is not recognised. Not modelled: the library's canonicalisation, which runs in the same database."
  },
  {
   "property": "C87",
   "status": "partial",
   "theorems": [
    "Verif.C87_bern_finder_violated",
    "Verif.C87_bern_outcome",
    "Verif.CRT.C87_dispersion_partial",
    "Verif.CRT.C87_dispersion_violated",
    "Verif.Conj.C87_beta_binomial",
    "Verif.Conj.C87_beta_nbinom_partial",
    "Verif.Conj.C87_beta_nbinom_violated",
    "Verif.Conj.C87_gamma_poisson_partial",
    "Verif.Conj.C87_gamma_poisson_violated",
    "Verif.Horseshoe.C87_horseshoe_global",
    "Verif.Horseshoe.C87_horseshoe_local_rate_partial",
    "Verif.Horseshoe.C87_horseshoe_local_violated"
   ],
   "note": "Proved for beta-binomial models, for the documented Bernoulli-logit model (an outcome turned from failure to success raises the predictor of its row), for the global scale of the horseshoe, for the dispersion in the counts, the current dispersion and both prior parameters, and for the prior parameters and counts of the gamma-Poisson and the prior parameters of the beta-negative-binomial model. Violated, strictly and for all inputs: the prior scale of a gamma-Poisson model, the observation of a beta-negative-binomial model, the success probability of the dispersion step, the model the Bernoulli finder matches (sigmoid(-X b)), and the local scales of the horseshoe with the library's reading of the exponential argument."
  },
  {
   "property": "C88",
   "status": "partial",
   "theorems": [
    "Verif.Ver.C88_fallback",
    "Verif.Ver.C88_tagged_partial",
    "Verif.Ver.C88_unreadable_only",
    "Verif.Ver.C88_unreadable_violated",
    "Verif.Ver.C88_untagged_partial"
   ],
   "note": "For every machine: tagged and untagged trees are reported as git prints them on both platforms, with any blanks around the bytes; a missing, unstartable or failing git leads to the name of the directory; and a UnicodeDecodeError leaves the import only if an answer is not UTF-8. Violated: an answer that is not UTF-8, such as a branch named in Latin-1, makes the import raise, though the version does not depend on the branch, and even if git reports failure. The pattern for tags that git gets on Windows is taken as it is; what git makes of it is not modelled."
  },
  {
   "property": "C89",
   "status": "partial",
   "theorems": [
    "Verif.Ver.C89_file_end",
    "Verif.Ver.C89_keyword_partial",
    "Verif.Ver.C89_no_file",
    "Verif.Ver.C89_same_keywords",
    "Verif.Ver.C89_signature_violated"
   ],
   "note": "Exact for every text between the quotes that has no line break, quotes included: the last assignment counts, other lines do not, and the keywords of an archive are those of C62; a file whose last line has no line end and a file that cannot be decoded are covered by C89_file_end. Violated: a date after lines about a signature is not read. That importing the file gives the texts between the quotes is Python's rule for string literals and is not modelled."
  },
  {
   "property": "C90",
   "status": "proved",
   "theorems": [
    "Verif.Fail.C90_bern",
    "Verif.Fail.C90_conditions_needed",
    "Verif.Fail.C90_dispersion",
    "Verif.Fail.C90_dispersion_needed",
    "Verif.Fail.C90_horseshoe",
    "Verif.Fail.C90_horseshoe_bern",
    "Verif.Fail.C90_horseshoe_dispersion",
    "Verif.Fail.C90_horseshoe_nb",
    "Verif.Fail.C90_nb",
    "Verif.Fail.C90_nb_known",
    "Verif.Fail.C90_scales_needed"
   ],
   "note": "Exact real arithmetic; overflow and underflow are not modelled. A scale or rate of zero counts as refused. That the conditions are needed is shown by C90_conditions_needed, C90_dispersion_needed and C90_scales_needed. The linear algebra routines are taken to meet their documentation. Hidden states, whose draw can fail when the data have no evidence, are in C33 to C35."
  },
  {
   "property": "C91",
   "status": "partial",
   "theorems": [
    "Verif.NoData.C91_bern_iff_partial",
    "Verif.NoData.C91_beta_binomial",
    "Verif.NoData.C91_dispersion",
    "Verif.NoData.C91_ffbs",
    "Verif.NoData.C91_nbinom_iff_partial",
    "Verif.NoData.C91_regression_violated"
   ],
   "note": "Holds for the dispersion, beta-binomial and hidden-state steps. Violated by both regression steps, which draw coefficients with variance std instead of std squared: the prior exactly if all standard deviations are one (C91_..._iff_partial, C91_regression_violated)."
  },
  {
   "property": "C92",
   "status": "proved",
   "theorems": [
    "Verif.Conj.C92_conjugate_finders",
    "Verif.Graph.C92_closed_form",
    "Verif.Graph.C92_preparation",
    "Verif.Graph.C92_same_sampler",
    "Verif.Graph.C92_same_values",
    "Verif.Match.C92_gibbs_finders"
   ],
   "note": "construct_sampler and the preparation are equivariant under every one-to-one correspondence of graph objects (C92_same_sampler, C92_preparation), without further assumptions when no variable is left to NUTS (C92_closed_form); the relations and finders under renaming of inputs (C92_gibbs_finders, C92_conjugate_finders); copies compute the same values (C92_same_values). NUTS itself is not modelled: it is assumed to treat copies as copies."
  },
  {
   "property": "C93",
   "status": "proved",
   "theorems": [
    "Verif.Graph.C93_data",
    "Verif.Graph.C93_data_nuts"
   ],
   "note": "C93_data for closed-form samplers, C93_data_nuts when variables are left to NUTS. Values are those of an evaluation relation over the graph that takes the meaning of the operations as a parameter."
  },
  {
   "property": "C94",
   "status": "partial",
   "theorems": [
    "Verif.C94_bern_iff_partial",
    "Verif.C94_bern_partial",
    "Verif.C94_beta_binomial",
    "Verif.C94_beta_nbinom_iff_partial",
    "Verif.C94_dispersion_iff_partial",
    "Verif.C94_dispersion_partial",
    "Verif.C94_dispersion_violated",
    "Verif.C94_gamma_poisson_iff_partial",
    "Verif.C94_nbinom_iff_partial",
    "Verif.C94_nbinom_partial",
    "Verif.C94_regression_violated"
   ],
   "note": "Exponential bound with one rate for all starts, for every bounded quantity, with respect to the law each step really targets (C94_nbinom_partial, C94_bern_partial, C94_dispersion_partial); with respect to the model's posterior exactly when (iff) the conditions of C21-C23, C32, C13 and C14 hold, always for beta-binomial models. Violated otherwise (standard deviation 2; success probability below one half). Missing: rates for the horseshoe step and for samplers of several unknowns, for which only convergence (C75) is proved."
  },
  {
   "property": "C95",
   "status": "partial",
   "theorems": [
    "Verif.C95_bern_iff_partial",
    "Verif.C95_bern_partial",
    "Verif.C95_beta_binomial",
    "Verif.C95_beta_nbinom_iff_partial",
    "Verif.C95_dispersion_iff_partial",
    "Verif.C95_dispersion_partial",
    "Verif.C95_dispersion_violated",
    "Verif.C95_gamma_poisson_iff_partial",
    "Verif.C95_horseshoe_partial",
    "Verif.C95_nbinom_iff_partial",
    "Verif.C95_nbinom_joint_partial",
    "Verif.C95_nbinom_partial",
    "Verif.C95_regression_violated"
   ],
   "note": "For every continuous quantity, with respect to the law each step really targets (C95_nbinom_partial, C95_bern_partial, C95_dispersion_partial); with respect to the model's posterior exactly when (iff, for all linear predictors, the dispersion, the rate or the probability) the conditions of C21-C23, C32, C13 and C14 hold, always for beta-binomial models, for the horseshoe step in the rate reading with nonzero coefficients, and for the negative-binomial regression with unknown dispersion when all standard deviations are one and the columns of the design sum to zero. Violated otherwise (standard deviation 2; success probability below one half). Missing: what the quantiles do for the horseshoe step in the library's reading and for joint samplers that keep no known law."
  },
  {
   "property": "C96",
   "status": "partial",
   "theorems": [
    "Verif.C96_bern_iff_partial",
    "Verif.C96_bern_partial",
    "Verif.C96_beta_binomial",
    "Verif.C96_beta_nbinom_iff_partial",
    "Verif.C96_dispersion_iff_partial",
    "Verif.C96_dispersion_partial",
    "Verif.C96_dispersion_violated",
    "Verif.C96_gamma_poisson_iff_partial",
    "Verif.C96_horseshoe_partial",
    "Verif.C96_horseshoe_scale_violated",
    "Verif.C96_nbinom_iff_partial",
    "Verif.C96_nbinom_joint_iff_partial",
    "Verif.C96_nbinom_partial",
    "Verif.C96_regression_violated"
   ],
   "note": "With respect to the law each step really targets, for all pairs of draws and all thinnings (C96_nbinom_partial, C96_bern_partial, C96_dispersion_partial, with limits of the estimated autocovariances that are nonnegative, decreasing and convex; C96_horseshoe_partial in the rate reading); with respect to the model's posterior exactly when (iff, for each single thinning and start) the conditions of C21-C23, C32, C13 and C14 hold, always for beta-binomial models, and for the negative-binomial regression with unknown dispersion when all standard deviations are one and the columns of the design sum to zero. Violated otherwise (standard deviation 2; success probability below one half; horseshoe step in the library's reading). Missing: what pairs of draws do in joint samplers that keep no known law."
  },
  {
   "property": "C97",
   "status": "proved",
   "theorems": [
    "Verif.FFBS.C97_ffbs_future_forgotten",
    "Verif.FFBS.C97_ffbs_past_forgotten",
    "Verif.FFBS.C97_ffbs_rigid_remembers",
    "Verif.FFBS.C97_ffbs_start_forgotten"
   ],
   "note": "For the modelled step with exact arithmetic: the start (C97_ffbs_start_forgotten), everything before a common stretch (C97_ffbs_past_forgotten), data that arrive later (C97_ffbs_future_forgotten), with rates in terms of the entries of the transition matrices, and the case with no forgetting at all (C97_ffbs_rigid_remembers)."
  },
  {
   "property": "C98",
   "status": "partial",
   "theorems": [
    "Verif.C98_normal_regression_settles",
    "Verif.Conj.C98_beta_binomial_settles",
    "Verif.Conj.C98_beta_nbinom_settles_iff_partial",
    "Verif.Conj.C98_beta_nbinom_settles_violated"
   ],
   "note": "Proportions (C98_beta_binomial_settles) and regression coefficients with normal observations (C98_normal_regression_settles, for every reading of the prior scales), with explicit bounds averaged over the data. The negative-binomial step settles on the complement of the true probability, hence on the truth exactly when it is one half (C98_beta_nbinom_settles_iff_partial); witness with true value 1/4 and draws settling on 3/4 (C98_beta_nbinom_settles_violated)."
  },
  {
   "property": "C99",
   "status": "partial",
   "theorems": [
    "Verif.C99_bern_merge_iff_partial",
    "Verif.C99_bern_rotation",
    "Verif.C99_merge_violated",
    "Verif.C99_nbinom_merge_iff_partial",
    "Verif.C99_nbinom_rotation",
    "Verif.C99_regression_merge_iff_partial",
    "Verif.C99_regression_rotation"
   ],
   "note": "Rotations proved for all three regressions (C99_nbinom_rotation, C99_bern_rotation, C99_regression_rotation). Repeated regressors refuted: for all data the sums are drawn as by the merged regression iff no regressor is repeated (C99_*_merge_iff_partial, C99_merge_violated), because the prior's standard deviations are used as variances."
  },
  {
   "property": "C100",
   "status": "proved",
   "theorems": [
    "Verif.C100_bern_failures",
    "Verif.C100_nbinom_pool",
    "Verif.C100_regression_pool"
   ],
   "note": "For the steps with the Polya-gamma generator taken to draw from its law and exact linear algebra: C100_nbinom_pool, C100_bern_failures, C100_regression_pool."
  },
  {
   "property": "C101",
   "status": "partial",
   "theorems": [
    "Verif.C101_bern",
    "Verif.C101_bern_scales",
    "Verif.C101_nbinom",
    "Verif.C101_nbinom_scales",
    "Verif.CRT.C101_dispersion",
    "Verif.Horseshoe.C101_horseshoe",
    "Verif.HsReg.C101_bern_horseshoe_old",
    "Verif.HsReg.C101_bern_horseshoe_partial",
    "Verif.HsReg.C101_bern_horseshoe_reads_partial",
    "Verif.HsReg.C101_nbinom_horseshoe_old",
    "Verif.HsReg.C101_nbinom_horseshoe_partial",
    "Verif.HsReg.C101_nbinom_horseshoe_reads_partial",
    "Verif.NbReg.C101_joint_partial"
   ],
   "note": "Proved with explicit factors for the coefficient steps (C101_nbinom, C101_bern), the dispersion step (C101_dispersion), the horseshoe step in both readings of the exponential draw (C101_horseshoe), for the coefficients in the sampler that draws coefficients and dispersion together (C101_joint_partial), and for the samplers that combine a regression with a horseshoe prior (C101_nbinom_horseshoe_partial, C101_bern_horseshoe_partial; where both old shrinkage parameters are read as prior scales, their changes are covered by C101_nbinom_horseshoe_old, C101_bern_horseshoe_old). Changes of the given prior scales are covered by C101_nbinom_scales, C101_bern_scales. Missing: changes of the dispersion in the coefficient step, where it is the shape of the Polya-Gamma draw, and a factor known in advance for changes of one old shrinkage parameter that is read together with a new one (that their effect vanishes with the change is C101_nbinom_horseshoe_reads_partial, C101_bern_horseshoe_reads_partial). Exact arithmetic inside the step; only the inputs are rounded."
  },
  {
   "property": "C102",
   "status": "proved",
   "theorems": [
    "Verif.C102_overdetermined",
    "Verif.C102_regression",
    "Verif.C102_underdetermined"
   ],
   "note": "Same random numbers: C102_overdetermined and C102_underdetermined for the two algorithms; laws of normal_regression_posterior: C102_regression. The fit is specified as the minimiser of the penalised sum of squares with the precisions and lmbdatau_inv as weights. Exact linear algebra."
  },
  {
   "property": "C103",
   "status": "proved",
   "theorems": [
    "Verif.C103_regression"
   ],
   "note": "C103_regression, for normal_regression_posterior with either algorithm, exact linear algebra; the strict decrease at an added observation is included. lmbdatau_inv is the prior weight."
  }
 ]
}