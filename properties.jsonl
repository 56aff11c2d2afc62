{"id": "C01", "title": "construct_sampler covers every unobserved random variable exactly once", "statement": "For every model graph and every dict of observed random variables, `construct_sampler` returns a `Sampler` whose `sample_steps` has exactly one entry for each random variable the observed variables depend on and that is not itself observed, and none for an observed variable; the returned initial-value dict has exactly the same keys, and each initial value is a distinct fresh variable.", "quantifier": "all model graphs, all observed subsets, all outcomes of the sampler search", "why_tests_cant": "tests build five fixed models; the claim ranges over all graphs and all combinations of found/not found samplers", "anchors": ["aemcmc/basic.py:construct_sampler", "aemcmc/rewriting.py:construct_ir_fgraph"]}
{"id": "C02", "title": "Sampling steps are closed: no model random variable survives in a returned step", "statement": "For every model, each step graph obtained from a discovered sampler depends only on user inputs, observed values, initial values and RNG state: none of the model's random variables is reachable from it, so compiling it never re-samples the prior.", "quantifier": "all graphs, all discovered sampler sets, all processing orders", "why_tests_cant": "needs an invariant over a loop that mutates a shared graph in place; tests look at a handful of graphs", "anchors": ["aemcmc/basic.py:construct_sampler (lines 59-102)"]}
{"id": "C03", "title": "Each step is computed from the most recent values (Gibbs scan semantics)", "statement": "When the steps are evaluated, the step for a variable sees, for every variable processed before it, that variable's newly sampled value, and for every variable processed after it (and itself) the initial value.", "quantifier": "all graphs, all sets of discovered steps, all environments", "why_tests_cant": "depends on aliasing between step graphs that are rewritten in place; a test shows one aliasing pattern", "anchors": ["aemcmc/basic.py:construct_sampler (lines 59-102)"]}
{"id": "C04", "title": "Sampler discovery records each finder's result once and the last one found is used", "statement": "However many times and in whatever order the rewriter visits nodes, a sampler finder contributes at most one batch of steps per random variable, a batch is recorded unless the finder returned nothing, and `construct_sampler` uses the most recently recorded step of each variable.", "quantifier": "all visit sequences (histories), all finders", "why_tests_cant": "histories are unbounded and chosen by the graph rewriter", "anchors": ["aemcmc/rewriting.py:sampler_finder", "aemcmc/rewriting.py:SamplerTracker", "aemcmc/basic.py:construct_sampler (lines 63-70)"]}
{"id": "C05", "title": "A closed-form step uses every observed child of the latent", "statement": "If a latent random variable has several observed children, the sampling step chosen for it targets its conditional distribution given all of them.", "quantifier": "all models in which a latent has one or more conjugate children", "why_tests_cant": "tests only use models with a single child per latent", "anchors": ["aemcmc/basic.py:construct_sampler (line 70)", "aemcmc/conjugates.py"]}
{"id": "C06", "title": "Variables without a sampler, and only those, go to NUTS, in any set order", "statement": "Every unobserved random variable for which no sampler was found is given to the NUTS kernel together with its initial value, all other random variables are passed as realized, and in the result each such variable is mapped to its own component of the NUTS output whatever the iteration order of the intermediate Python set.", "quantifier": "all models, all found/not-found splits, all set iteration orders", "why_tests_cant": "the set order is nondeterministic; tests see one order per run", "anchors": ["aemcmc/basic.py:construct_sampler (lines 57,105-120)", "aemcmc/nuts.py:construct_sampler"]}
{"id": "C07", "title": "The NUTS log-density still depends on every model term", "statement": "When some variables have closed-form steps and the others are given to NUTS, the log-density handed to NUTS contains, for each realized variable whose distribution depends on a NUTS variable, that dependence.", "quantifier": "all models mixing closed-form/Gibbs steps with NUTS", "why_tests_cant": "tests only check that a NUTS step exists in the mixed case, not its target", "anchors": ["aemcmc/basic.py:construct_sampler (lines 78-116)", "aemcmc/nuts.py:step"]}
{"id": "C08", "title": "construct_sampler does not modify the user's model graph", "statement": "For every model, after `construct_sampler` returns, every node of the graph the user passed in has the same inputs as before.", "quantifier": "all graphs and all discovered steps", "why_tests_cant": "requires a frame property over all in-place mutations", "anchors": ["aemcmc/rewriting.py:construct_ir_fgraph", "aemcmc/basic.py:construct_sampler"]}
{"id": "C09", "title": "Sampler.stages partitions the sampled variables by kernel", "statement": "For every `Sampler`, `stages` lists each sampled variable exactly once, under the kernel that produces its step, keeping insertion order inside a stage, and has no empty stage.", "quantifier": "all sample_steps dicts", "why_tests_cant": "unbounded dict sizes and kernel assignments", "anchors": ["aemcmc/types.py:Sampler.__post_init__"]}
{"id": "C10", "title": "Sampler.stages is in scan order", "statement": "The stages returned by `construct_sampler` are listed in the order in which they run: a stage that uses another variable's new value comes after the stage that produces it.", "quantifier": "all models", "why_tests_cant": "depends on interleavings of kernels and on NUTS variables; tests check only the number of stages", "anchors": ["aemcmc/types.py:Sampler", "aemcmc/basic.py:construct_sampler (lines 48-49,118)"]}
{"id": "C11", "title": "RNG updates pair each generator with its own successor state", "statement": "In `Sampler.updates` every shared RNG of a kernel is mapped to the state obtained by advancing that same RNG.", "quantifier": "all kernels, all orders in which the kernel op lists its shared inputs", "why_tests_cant": "depends on a graph traversal order; the tests' checker explicitly skips these placeholders", "anchors": ["aemcmc/gibbs.py:nbinom_logistic_finder (lines 632-646)", "aemcmc/nuts.py:construct_sampler (lines 165-172)"]}
{"id": "C12", "title": "Beta-binomial step samples the exact posterior", "statement": "For every model p ~ Beta(alpha, beta), Y ~ Binomial(n, p) with alpha, beta > 0 and every 0 <= y <= n, the step produced for p has exactly the Bayes posterior distribution of p given Y = y.", "quantifier": "all real alpha, beta > 0, all n, y", "why_tests_cant": "equality of continuous distributions for all parameters", "anchors": ["aemcmc/conjugates.py:beta_binomial_conjugateo", "aemcmc/conjugates.py:local_beta_binomial_posterior"]}
{"id": "C13", "title": "Gamma-Poisson step samples the exact posterior", "statement": "For every model l ~ Gamma(alpha, rate beta), Y ~ Poisson(l) and every y, the step produced for l has exactly the Bayes posterior distribution of l given Y = y.", "quantifier": "all real alpha, beta > 0, all y", "why_tests_cant": "equality of continuous distributions for all parameters; the test only checks the op type", "anchors": ["aemcmc/conjugates.py:gamma_poisson_conjugateo", "tests/test_gibbs.py:test_gamma_match"]}
{"id": "C14", "title": "Beta-negative-binomial step samples the exact posterior", "statement": "For every model p ~ Beta(alpha, beta), Y ~ NegBinomial(n, p) (Aesara/SciPy: number of failures before n successes, success probability p) and every y, the step produced for p has exactly the Bayes posterior distribution of p given Y = y.", "quantifier": "all real alpha, beta, n > 0, all y", "why_tests_cant": "equality of continuous distributions; the test encodes the opposite parameterization", "anchors": ["aemcmc/conjugates.py:beta_negative_binomial_conjugateo"]}
{"id": "C15", "title": "Conjugate finders fire exactly on their model shape", "statement": "Each conjugate finder produces a step if and only if the observed variable's graph is an application of its likelihood to a latent directly distributed according to its prior family, and the step is produced for that latent.", "quantifier": "all expression graphs", "why_tests_cant": "pattern matching soundness and completeness over all graphs", "anchors": ["aemcmc/conjugates.py"]}
{"id": "C16", "title": "Conjugate posterior has the latent's shape", "statement": "The step produced for a latent by a conjugate finder has the same shape as the latent, for every shape of the latent and of the observation.", "quantifier": "all tensor shapes of latent and observations", "why_tests_cant": "tests use scalars only", "anchors": ["aemcmc/conjugates.py:new_alpha_et/new_beta_et"]}
{"id": "C17", "title": "multivariate_normal_rue2005 has law N(Q^-1 b, Q^-1)", "statement": "For every dimension, every positive definite Q and every b, the value returned by `multivariate_normal_rue2005` from independent standard normals is distributed as N(Q^-1 b, Q^-1).", "quantifier": "all dimensions, all positive definite matrices, all vectors", "why_tests_cant": "distributional identity in all dimensions; the test uses one diagonal 3x3 matrix and tolerance 0.1", "anchors": ["aemcmc/dists.py:multivariate_normal_rue2005"]}
{"id": "C18", "title": "multivariate_normal_cong2017 has law N(L^-1 Phi' Omega t, L^-1), L = A + Phi' Omega Phi", "statement": "For all sizes, all positive diagonal A and omega, every Phi and t, the value returned by `multivariate_normal_cong2017` is distributed as N(L^-1 Phi^T Omega t, L^-1).", "quantifier": "all dimensions, all positive A, omega, all Phi, t", "why_tests_cant": "distributional identity in all dimensions", "anchors": ["aemcmc/dists.py:multivariate_normal_cong2017"]}
{"id": "C19", "title": "normal_regression_posterior does not depend on which algorithm the shape selects", "statement": "For every X (wide, square or tall), omega, prior precision vector and z, both branches of `normal_regression_posterior` have the same law, so the shape test affects cost only.", "quantifier": "all shapes and values", "why_tests_cant": "needs a Woodbury-type identity for all dimensions", "anchors": ["aemcmc/gibbs.py:normal_regression_posterior"]}
{"id": "C20", "title": "normal_regression_posterior is the conjugate posterior for a prior with the given standard deviations", "statement": "Given `lmbdatau_inv` = inverse prior standard deviations of beta (as documented and as its callers pass it), the returned value is distributed as beta | z under beta ~ N(0, diag(std^2)), z ~ N(X beta, diag(1/omega)).", "quantifier": "all shapes, omegas, prior standard deviations and z", "why_tests_cant": "tests use std = 1 or a nearly flat prior, where std and variance are indistinguishable", "anchors": ["aemcmc/gibbs.py:normal_regression_posterior", "aemcmc/gibbs.py:nbinom_normal_posterior (line 544)", "aemcmc/gibbs.py:bern_normal_posterior (line 727)"]}
{"id": "C21", "title": "nbinom_normal_posterior leaves the negative-binomial regression posterior invariant", "statement": "For every X, y, h, prior and any current beta, drawing a new beta with `nbinom_normal_posterior` leaves the posterior of beta given y (logistic negative-binomial regression with normal prior) invariant.", "quantifier": "all data, all sizes", "why_tests_cant": "Markov-kernel invariance is an integral identity over all states", "anchors": ["aemcmc/gibbs.py:nbinom_normal_posterior"]}
{"id": "C22", "title": "bern_normal_posterior leaves the logistic regression posterior invariant", "statement": "For every X, y in {0,1}^n and prior, drawing a new beta with `bern_normal_posterior` leaves the posterior of beta under Y ~ Bern(1/(1+exp(-X beta))) invariant.", "quantifier": "all data, all sizes", "why_tests_cant": "Markov-kernel invariance is an integral identity over all states", "anchors": ["aemcmc/gibbs.py:bern_normal_posterior"]}
{"id": "C23", "title": "The Bernoulli regression finder builds a step for the model it matched", "statement": "Whenever the Bernoulli regression finder accepts a graph Y ~ Bernoulli(p(X, beta)), the step it builds for beta targets the posterior under that same p.", "quantifier": "all accepted graphs", "why_tests_cant": "the test of the kernel uses a different sign than the test of the matcher", "anchors": ["aemcmc/gibbs.py:bern_logistic_finder", "aemcmc/gibbs.py:bern_sigmoid_dot_match", "aemcmc/gibbs.py:bern_normal_posterior"]}
{"id": "C24", "title": "Logistic-link matchers accept only minus-one times a dot product", "statement": "`nbinom_sigmoid_dot_match` / `bern_sigmoid_dot_match` return (X, [h,] beta) exactly when the graph is the observation distribution applied to sigmoid(-1 * dot(X, beta)), and raise ValueError otherwise.", "quantifier": "all expression graphs, all constants", "why_tests_cant": "all graphs and all constant tensors", "anchors": ["aemcmc/gibbs.py:nbinom_sigmoid_dot_match", "aemcmc/gibbs.py:bern_sigmoid_dot_match"]}
{"id": "C25", "title": "Regression finders apply only to zero-mean normal coefficients", "statement": "The negative-binomial/Bernoulli regression finders produce a step for beta only if beta is normally distributed with mean zero, as their kernels assume.", "quantifier": "all graphs matched by the logistic patterns", "why_tests_cant": "tests only use normal(0, .) coefficients", "anchors": ["aemcmc/gibbs.py:nbinom_logistic_finder (line 606)", "aemcmc/gibbs.py:bern_logistic_finder (line 754)"]}
{"id": "C26", "title": "horseshoe_match identifies local and global shrinkage whatever their order", "statement": "If a variable is normal with scale lambda*tau or tau*lambda, both half-Cauchy, with exactly one of them scalar or all-ones shaped, `horseshoe_match` returns (lambda, tau) with tau the scalar one; with no scalar factor, a non-half-Cauchy factor or a different graph it raises ValueError.", "quantifier": "all graphs, both factor orders, all shapes", "why_tests_cant": "decision logic over all graphs and shapes", "anchors": ["aemcmc/gibbs.py:horseshoe_match"]}
{"id": "C27", "title": "horseshoe_match accepts only genuine horseshoe priors", "statement": "A graph accepted by `horseshoe_match` is N(0, (lambda*tau)^2) with lambda, tau standard half-Cauchy C+(0,1).", "quantifier": "all accepted graphs", "why_tests_cant": "tests do not try non-zero means or other half-Cauchy parameters", "anchors": ["aemcmc/gibbs.py:horseshoe_pattern", "aemcmc/gibbs.py:horseshoe_match"]}
{"id": "C28", "title": "horseshoe_posterior draws from the exact conditionals and leaves the shrinkage posterior invariant", "statement": "For every beta and current (lambda^2, tau^2), the auxiliary draws, lambda and tau updates of `horseshoe_posterior` follow the conditional distributions of the half-Cauchy scale-mixture representation, and so leave the conditional posterior of (lambda, tau) given beta invariant.", "quantifier": "all beta, all current states, all dimensions", "why_tests_cant": "distributional identities over all states", "anchors": ["aemcmc/gibbs.py:horseshoe_posterior"]}
{"id": "C29", "title": "horseshoe_posterior returns lambda and tau (not squares), positive, of the right shape", "statement": "The values returned by `horseshoe_posterior` are positive, and are the standard-deviation-scale parameters lambda and tau: their squared reciprocals are the drawn precisions.", "quantifier": "all inputs and all random draws", "why_tests_cant": "all draws", "anchors": ["aemcmc/gibbs.py:horseshoe_posterior (lines 254-257)"]}
{"id": "C30", "title": "sample_CRT values are 0 for y<1 and between 1 and y otherwise", "statement": "For every count array y, every h > 0 and every outcome of the Bernoulli draws, `sample_CRT` returns an array of the same shape whose entry is 0 where y < 1 and lies in [1, y] elsewhere.", "quantifier": "all arrays y, all h, all random outcomes", "why_tests_cant": "all outcomes and sizes", "anchors": ["aemcmc/gibbs.py:sample_CRT"]}
{"id": "C31", "title": "sample_CRT has the Chinese-restaurant-table law", "statement": "For every y and h > 0 each entry of `sample_CRT` equals l with probability |s(y,l)| h^l Gamma(h)/Gamma(h+y) (unsigned Stirling numbers of the first kind), hence has mean sum_{n=1}^{y} h/(h+n-1).", "quantifier": "all y, l, all h > 0", "why_tests_cant": "an identity between distributions for all y; tests check five means within 10 percent", "anchors": ["aemcmc/gibbs.py:sample_CRT"]}
{"id": "C32", "title": "nbinom_dispersion_posterior draws h from its exact conditional", "statement": "For every y, p, Gamma(a, .) prior and the CRT draw, the h returned by `nbinom_dispersion_posterior` (as called by the negative-binomial finder, with p the success probability of Y) leaves the posterior of h given y invariant.", "quantifier": "all counts, probabilities and prior parameters", "why_tests_cant": "distributional identity; test data is symmetric in p and 1-p", "anchors": ["aemcmc/gibbs.py:nbinom_dispersion_posterior", "aemcmc/gibbs.py:nbinom_logistic_finder (line 627)"]}
{"id": "C33", "title": "FFBS samples state sequences from the exact smoothing posterior", "statement": "For every number of states, sequence length, initial distribution, (time-varying) transition matrices and log-likelihoods with positive evidence, the probability that `ffbs_step` returns a given state sequence equals its posterior probability given the observations.", "quantifier": "all N >= 1, M, gamma_0, Gammas, log-likelihoods, all sequences", "why_tests_cant": "identity over all lengths needs induction on forward and backward passes", "anchors": ["aemcmc/ffbs.py:ffbs_step"]}
{"id": "C34", "title": "FFBS is insensitive to rescaling", "statement": "The law of `ffbs_step` does not change if `lower_prec_bound` is changed to another positive number, if `gamma_0` is multiplied by a positive constant, or if a constant is added to all log-likelihoods of a time point.", "quantifier": "all inputs and all rescalings", "why_tests_cant": "all inputs", "anchors": ["aemcmc/ffbs.py:forward_step"]}
{"id": "C35", "title": "FFBS output has one state in range per time point and never uses an impossible transition", "statement": "`ffbs_step` returns exactly N states, each below M, and returns a sequence with zero prior or likelihood probability with probability zero.", "quantifier": "all inputs, all outcomes", "why_tests_cant": "all outcomes", "anchors": ["aemcmc/ffbs.py:ffbs_step"]}
{"id": "C36", "title": "location_scale_transform preserves the distribution", "statement": "For every location-scale family member with scalar parameters and positive scale, mu + sd * D(0, 1) has the same law as D(mu, sd).", "quantifier": "cauchy, gumbel, laplace, logistic, normal; all mu, all sd > 0", "why_tests_cant": "equality of continuous laws", "anchors": ["aemcmc/transforms.py:location_scale_transform"]}
{"id": "C37", "title": "location_scale_transform rewrites exactly the listed families", "statement": "The transform succeeds on a variable if and only if it is an application of one of cauchy, gumbel, laplace, logistic, normal, t to a location and a scale, and leaves every other expression alone.", "quantifier": "all expressions, each listed family", "why_tests_cant": "all expressions", "anchors": ["aemcmc/transforms.py:location_scale_family", "aemcmc/transforms.py:location_scale_transform"]}
{"id": "C38", "title": "location_scale_transform keeps independent components independent", "statement": "When the parameters are non-scalar and no size is given, the transformed expression still has independent noise per component.", "quantifier": "all parameter shapes and sizes", "why_tests_cant": "tests use scalars only", "anchors": ["aemcmc/transforms.py:location_scale_transform"]}
{"id": "C39", "title": "invgamma_exponential preserves the distribution", "statement": "InvGamma(1, c) and 1 / Exponential(c), as rewritten into one another by `invgamma_exponential`, have the same law for every c > 0.", "quantifier": "all c > 0", "why_tests_cant": "equality of continuous laws", "anchors": ["aemcmc/transforms.py:invgamma_exponential"]}
{"id": "C40", "title": "Subsuming and re-expanding DimShuffles preserves the computed value", "statement": "For every Elemwise node, every set of inputs and every DimShuffle pattern (broadcast, transpose, dropped dimensions, constants), the node produced by the subsumption rewrite denotes the same tensor, and expanding it again gives a node equal in value to the original.", "quantifier": "all ranks, all dimension orders, all input counts, all tensors", "why_tests_cant": "combinatorially many shuffle patterns", "anchors": ["aemcmc/rewriting.py:local_elemwise_dimshuffle_subsume", "aemcmc/rewriting.py:inline_SubsumingElemwise"]}
{"id": "C41", "title": "Subsumption exposes the un-broadcast input and fires only on left-padding broadcasts", "statement": "The subsumption rewrite replaces an input exactly when it is a DimShuffle that starts with the broadcast dimensions Elemwise adds on the left; the exposed input is then the shuffled variable itself when the rest of the order is the identity, otherwise the variable under the remaining shuffle; every other input is untouched and the rewrite is not applied to its own result.", "quantifier": "all nodes", "why_tests_cant": "combinatorially many shuffle patterns", "anchors": ["aemcmc/rewriting.py:local_elemwise_dimshuffle_subsume"]}
{"id": "C42", "title": "remove_constants keeps exactly the non-constant inputs in order", "statement": "`remove_constants` returns the inputs that are not constants, each as often and in the same order as given; it is idempotent and a kernel built on its result is still a function of the same variables.", "quantifier": "all input lists", "why_tests_cant": "all lists", "anchors": ["aemcmc/utils.py:remove_constants"]}
{"id": "C43", "title": "ModelInfo splits variables into observed and unobserved consistently", "statement": "For every accepted `ModelInfo`, `unobserved_rvs` are the keys of `rvs_to_values` that are not observed (in order), `observed_values`/`unobserved_values` are their values position by position, and together they account for every key exactly once.", "quantifier": "all constructor arguments", "why_tests_cant": "all dicts", "anchors": ["aemcmc/utils.py:ModelInfo.__post_init__"]}
{"id": "C44", "title": "ModelInfo accepts exactly uniquely and non-emptily named models", "statement": "`ModelInfo(...)` raises ValueError iff some involved variable has no name or two distinct involved variables share a name (KeyError if an observed variable has no value); otherwise `names_to_vars` is a bijection between names and involved variables.", "quantifier": "all constructor arguments", "why_tests_cant": "all dicts and names", "anchors": ["aemcmc/utils.py:ModelInfo.__post_init__"]}
{"id": "C45", "title": "ModelInfo.values_to_rvs inverts rvs_to_values", "statement": "For every accepted `ModelInfo`, `values_to_rvs[rvs_to_values[rv]] is rv` for every rv.", "quantifier": "all accepted constructor arguments", "why_tests_cant": "all dicts; tests use distinct value variables", "anchors": ["aemcmc/utils.py:ModelInfo.__post_init__ (line 38)"]}
{"id": "C46", "title": "get_rv_updates returns an update for exactly the RNGs the variables depend on", "statement": "For every model, `get_rv_updates(srng, *rvs)` has a key for exactly the shared/RNG ancestors of `rvs` that have a default update or an update recorded in `srng`, prefers the default update, fails if both exist and differ, and never mentions an RNG of an unrelated variable.", "quantifier": "all graphs, all streams", "why_tests_cant": "all graphs", "anchors": ["aemcmc/utils.py:get_rv_updates"]}
{"id": "C47", "title": "sample_prior draws successive samples with successive RNG states", "statement": "The i-th sample returned by `sample_prior` is the value of the variables when every RNG has been advanced i times; the final updates advance each RNG num_samples times; generators of unrelated variables are not advanced.", "quantifier": "all models, all num_samples", "why_tests_cant": "induction on the number of samples", "anchors": ["aemcmc/sample.py:sample_prior"]}
{"id": "C48", "title": "NUTS step returns each variable in its own support and space", "statement": "For every assignment of default transforms, the NUTS step applies each variable's own forward transform on the way in and its own backward transform on the way out, so a kernel that does not move returns exactly the current values, and results lie in the variables' supports.", "quantifier": "all variable sets, shapes, transforms, kernels", "why_tests_cant": "all shapes and transforms", "anchors": ["aemcmc/nuts.py:step", "aemcmc/nuts.py:transform_forward", "aemcmc/nuts.py:transform_backward"]}
{"id": "C49", "title": "NUTS step never mixes up parameters when flattening", "statement": "Flattening the transformed values into one vector and unflattening it gives each variable back its own block, for every list of shapes (including empty and scalar ones).", "quantifier": "all lists of shapes", "why_tests_cant": "all shapes", "anchors": ["aemcmc/nuts.py:step (lines 108-139)"]}
{"id": "C50", "title": "NUTS Sampler components are mapped to the right outputs", "statement": "In `nuts.construct_sampler`, variable i of `to_sample_rvs` is mapped to output i of the kernel and the remaining outputs are exactly the RNG updates.", "quantifier": "all numbers of variables and updates", "why_tests_cant": "all sizes", "anchors": ["aemcmc/nuts.py:construct_sampler"]}
{"id": "C51", "title": "Package version strings are well formed", "statement": "For every repository state, the version rendered in the configured pep440 style is the tag itself exactly when there is a tag, no distance and a clean tree, otherwise the tag followed by one local-version segment; the string contains exactly one '+' in the latter case unless the tag already has one, and every style of `render` is total.", "quantifier": "all describe outputs (tag, distance, hash, dirty)", "why_tests_cant": "all strings", "anchors": ["aemcmc/_version.py:render_pep440", "aemcmc/_version.py:plus_or_dot", "aemcmc/_version.py:render"]}
{"id": "C52", "title": "git-describe output is parsed back to what git printed", "statement": "For every tag (possibly containing hyphens), distance, hex hash and dirty flag, parsing the `git describe --long --dirty` output yields exactly that tag, distance, hash and flag, and the git-describe-long style renders it back to the same text.", "quantifier": "all tags, distances, hashes", "why_tests_cant": "all strings", "anchors": ["aemcmc/_version.py:git_pieces_from_vcs", "aemcmc/_version.py:render_git_describe_long"]}
{"id": "C53", "title": "One call of the constructed sampler keeps the posterior", "statement": "If every closed-form step on its own, and the NUTS step on its own, leaves the posterior of the unobserved variables invariant, then one call of the sampler returned by `construct_sampler` (all returned steps evaluated together) leaves it invariant too: started from a draw of the posterior, the returned values are jointly a draw of the posterior.", "quantifier": "all models, all observations, all laws, all steps", "why_tests_cant": "a statement about joint laws of a composed program; no finite number of draws distinguishes nearby laws", "anchors": ["aemcmc/basic.py:construct_sampler"]}
{"id": "C54", "title": "The NUTS step keeps the posterior in the original space", "statement": "If the HMC kernel leaves invariant every law whose log density it is given, and the log density handed to it is the model's log density at the back-transformed values plus the log Jacobian, then the NUTS step keeps the joint law of the realised and the sampled variables in their original space: started from that law, the realised values and the new values have it again.", "quantifier": "all variable sets, shapes, densities, realised values, kernels and random draws in the graph", "why_tests_cant": "a statement about laws on a continuous space for every model and kernel", "anchors": ["aemcmc/nuts.py:step", "aemcmc/nuts.py:transform_forward", "aemcmc/nuts.py:transform_backward"]}
{"id": "C55", "title": "A Gibbs step returns an array of the shape of the variable it updates", "statement": "For every model the Gibbs finders accept, the step they build can be built and run, and the new value of each variable has the shape of that variable: for every shape of prior scale that broadcasts to the coefficients (scalar, length one, one per coefficient), every shape of the shrinkage and dispersion parameters, and one or several responses per row of X.", "quantifier": "all shapes of coefficients, scales, shrinkage, dispersion, responses and regressors", "why_tests_cant": "a statement over all shapes; tests use one layout", "anchors": ["aemcmc/gibbs.py:normal_regression_posterior", "aemcmc/gibbs.py:horseshoe_posterior", "aemcmc/gibbs.py:nbinom_dispersion_posterior", "aemcmc/dists.py:multivariate_normal_cong2017"]}
{"id": "C56", "title": "FFBS treats leading dimensions as separate sequences", "statement": "`ffbs_step` documents the base shapes of its arguments; given B sequences through a leading dimension it returns one column of states per sequence, each sampled from that sequence's own smoothing probabilities.", "quantifier": "all numbers of sequences, states and time points", "why_tests_cant": "all shapes; tests have no leading dimension", "anchors": ["aemcmc/ffbs.py:ffbs_step"]}
{"id": "C57", "title": "Conjugate steps on arrays draw from the joint posterior given all observations", "statement": "For a latent array with independent entries and an observed array whose entries each read one latent entry (elementwise broadcasting), the conjugate step draws the latent entries from their joint posterior given the whole observed array; in particular, several observations of one latent entry all enter its draw, and every position showing that latent entry shows the same value.", "quantifier": "all array sizes, all index maps from observations to latent entries, all parameters and observations", "why_tests_cant": "a statement about joint laws over all broadcasting layouts", "anchors": ["aemcmc/conjugates.py:beta_binomial_conjugateo", "aemcmc/conjugates.py:gamma_poisson_conjugateo", "aemcmc/conjugates.py:beta_negative_binomial_conjugateo"]}
{"id": "C58", "title": "The horseshoe step is right for coefficient arrays of any shape", "statement": "For normal coefficients with a horseshoe prior of any array shape (the finder does not restrict the number of dimensions), the step leaves the posterior of local and global shrinkage invariant; in particular the global draw counts every coefficient.", "quantifier": "all shapes of coefficients, all coefficient values", "why_tests_cant": "a statement about laws for all shapes; tests use vectors", "anchors": ["aemcmc/gibbs.py:horseshoe_posterior", "aemcmc/gibbs.py:normal_horseshoe_finder"]}
{"id": "C59", "title": "One call of the negative-binomial regression sampler keeps the joint posterior of coefficients and dispersion", "statement": "For an observed negative-binomial regression whose centred normal coefficients and gamma dispersion are both sampled, one call of the built sampler (new coefficients given the old dispersion, new dispersion given the new coefficients) leaves the joint posterior of coefficients and dispersion given the data invariant.", "quantifier": "all numbers of observations and coefficients, regressors, counts, prior scales and gamma parameters", "why_tests_cant": "a statement about a joint law on a continuous space, for every design matrix and data set", "anchors": ["aemcmc/gibbs.py:nbinom_logistic_finder", "aemcmc/gibbs.py:nbinom_normal_posterior", "aemcmc/gibbs.py:nbinom_dispersion_posterior", "aemcmc/basic.py:construct_sampler"]}
{"id": "C60", "title": "One call of a horseshoe regression sampler keeps the joint posterior of coefficients and shrinkage", "statement": "For an observed negative-binomial or Bernoulli regression whose normal coefficients have standard deviation lambda * tau with half-Cauchy lambda and tau, each step of the built sampler, and one call of it, leaves the joint posterior of coefficients, lambda and tau given the data invariant.", "quantifier": "all numbers of observations and coefficients, regressors, data and dispersions", "why_tests_cant": "a statement about a joint law on a continuous space, for every design matrix and data set", "anchors": ["aemcmc/gibbs.py:normal_horseshoe_finder", "aemcmc/gibbs.py:nbinom_logistic_finder", "aemcmc/gibbs.py:bern_logistic_finder", "aemcmc/basic.py:construct_sampler"]}
{"id": "C61", "title": "Groups of horseshoe coefficients that share a global shrinkage parameter", "statement": "For two arrays of observed (or given) normal coefficients whose standard deviations are lambda1 * tau and lambda2 * tau with half-Cauchy lambda1, lambda2 and one shared half-Cauchy tau, one call of the built sampler leaves the joint posterior of lambda1, lambda2 and tau given both arrays of coefficients invariant; in particular both arrays inform tau.", "quantifier": "all sizes of the two groups, all nonzero coefficients, both orders of the steps, all starting laws", "why_tests_cant": "a statement about a joint law on a continuous space, for all coefficient values", "anchors": ["aemcmc/gibbs.py:normal_horseshoe_finder", "aemcmc/basic.py:construct_sampler", "aemcmc/rewriting.py:SamplerTracker"]}
{"id": "C62", "title": "A source archive reports the version its commit was tagged with", "statement": "In a source tree exported by git archive, importing the package gives as its version the newest version tag of the exported commit, without the prefix, together with its revision and date, whatever git or the directory names say; the version of a commit without a version tag is reported as unknown and marked as an error.", "quantifier": "all sets of references to the commit, revisions, dates (also after signature text), locations and states of git", "why_tests_cant": "needs all sets of tags and branches; tests have a single archive", "anchors": ["aemcmc/_version.py:git_versions_from_keywords", "aemcmc/_version.py:get_versions", "aemcmc/_version.py:get_keywords"]}
{"id": "C63", "title": "Importing always gives a version, and it is the one of the package", "statement": "Outside an exported archive, computing the version on import never raises; if git describes the tree, the version, revision and date are those git printed for the package's own tree; otherwise the version is the one in the name of the nearest of the tree's directory and the two above it; otherwise it is unknown and marked as an error.", "quantifier": "all directories, all outputs and failures of each git command, all tags, distances and hashes", "why_tests_cant": "needs every combination of git outputs and failures and of surrounding repositories", "anchors": ["aemcmc/_version.py:get_versions", "aemcmc/_version.py:git_pieces_from_vcs", "aemcmc/_version.py:versions_from_parentdir", "aemcmc/_version.py:run_command"]}
{"id": "C64", "title": "Only continuous variables are sampled with NUTS", "statement": "construct_sampler hands to the gradient-based NUTS sampler exactly the unobserved variables for which the model contains none of the supported forms (conjugate pairs, horseshoe priors, negative-binomial and Bernoulli regressions), and all of these are continuous: an unobserved integer-valued variable either gets another step that keeps it integer-valued or the model is refused.", "quantifier": "all models, all orders and repetitions of the sampler search, all sets of observed variables", "why_tests_cant": "needs every combination of distributions in a model and of orders of the search", "anchors": ["aemcmc/basic.py:construct_sampler", "aemcmc/rewriting.py:sampler_finder", "aemcmc/nuts.py:construct_sampler"]}
{"id": "C65", "title": "Repeated calls of a built sampler converge to the posterior", "statement": "Started anywhere, the law of the sampled values after k calls of the built sampler, each given the values of the call before, converges as k grows to the posterior of the model given the data: the probability of every event tends to its posterior probability.", "quantifier": "all starting values, events, numbers of calls, design matrices, data and prior parameters", "why_tests_cant": "a limit of laws on a continuous space; a test sees finitely many draws", "anchors": ["aemcmc/gibbs.py:nbinom_normal_posterior", "aemcmc/gibbs.py:bern_normal_posterior", "aemcmc/gibbs.py:nbinom_dispersion_posterior", "aemcmc/gibbs.py:horseshoe_posterior", "aemcmc/basic.py:construct_sampler"]}
{"id": "C66", "title": "The sampler of a horseshoe regression with an unknown dispersion keeps and reaches the joint posterior", "statement": "For an observed negative-binomial regression whose normal coefficients have standard deviation lambda * tau with half-Cauchy lambda and tau and whose gamma dispersion is sampled too, each step of the built sampler and one call of it leave the joint posterior of coefficients, lambda, tau and dispersion given the counts invariant, and repeated calls converge to it; this does not depend on the order in which the variables are visited.", "quantifier": "all numbers of observations and coefficients, regressors, counts, gamma parameters, orders of the search and starting values", "why_tests_cant": "a statement about a joint law on a continuous space, for every design matrix and data set", "anchors": ["aemcmc/gibbs.py:normal_horseshoe_finder", "aemcmc/gibbs.py:nbinom_logistic_finder", "aemcmc/gibbs.py:nbinom_dispersion_posterior", "aemcmc/basic.py:construct_sampler"]}
{"id": "C67", "title": "One call of the built sampler draws its variables one after the other", "statement": "The values one call of a built sampler returns are distributed as if the steps of its variables were run one after the other in some order, each given the newest values of all other variables: no step uses a value that another step of the same call has already replaced.", "quantifier": "all regression models, orders of the search, data, design matrices and current values", "why_tests_cant": "equality of two laws on a continuous space from every state; which of old and new value a step reads is not visible in a draw", "anchors": ["aemcmc/basic.py:construct_sampler", "aemcmc/gibbs.py:normal_horseshoe_finder", "aemcmc/gibbs.py:nbinom_logistic_finder", "aemcmc/gibbs.py:bern_sigmoid_finder"]}
{"id": "C68", "title": "A sampler that mixes closed-form steps and NUTS targets the joint posterior", "statement": "When construct_sampler gives a latent variable a closed-form step and leaves a parameter of its prior to NUTS, the new value of that parameter is drawn with the model's joint density as a function of the parameter; with an ideal NUTS the calls keep the joint posterior of all unobserved variables and converge to it.", "quantifier": "all models with a random parameter above a variable that has a closed-form step, all data, starting values, priors of the parameter and numbers of calls", "why_tests_cant": "the law of a chain on a continuous space; a test sees draws of the right shape whichever density NUTS is given", "anchors": ["aemcmc/basic.py:construct_sampler", "aemcmc/nuts.py:construct_sampler", "aemcmc/nuts.py:step", "aemcmc/conjugates.py:beta_binomial_conjugateo"]}
{"id": "C69", "title": "A regression learns the standard deviations of its coefficients", "statement": "For an observed negative-binomial or Bernoulli regression whose normal coefficients have unknown standard deviations (a random vector with the user's prior, left to NUTS), the values construct_sampler's steps return for standard deviations and coefficients, call after call, keep the joint posterior given the data and converge to it from every start, when NUTS is ideal.", "quantifier": "all prior densities on positive vectors, design matrices, data, dispersions, numbers of coefficients and observations, starting values, iteration orders and numbers of calls", "why_tests_cant": "a limit of laws on a continuous space for every prior and data set; the draws of a test have plausible values whichever law they converge to", "anchors": ["aemcmc/basic.py:construct_sampler", "aemcmc/nuts.py:construct_sampler", "aemcmc/gibbs.py:nbinom_logistic_finder", "aemcmc/gibbs.py:bern_logistic_finder"]}
{"id": "C70", "title": "Unrelated parts of a model do not influence each other", "statement": "When a model consists of two parts with no random variable in common, the values construct_sampler's closed-form steps return for the variables of one part are those of the sampler built for that part alone, given the same current values of that part and the same generator states, in every call of a run; neither the other part's data, nor its current values, nor its variables left to NUTS have any effect, whatever the order in which the variables of both parts are visited.", "quantifier": "all models and splittings into parts, sharing of nodes between steps, orders of the variables, numbers of calls, current values and interpretations of the operations", "why_tests_cant": "needs every pair of parts and every interleaving of their variables; tests build one model at a time", "anchors": ["aemcmc/basic.py:construct_sampler"]}
{"id": "C71", "title": "A model with two unrelated parts is sampled correctly exactly when both parts are", "statement": "For a model made of two parts with no random variable and no generator in common, all of whose unobserved variables have closed-form steps, repeated calls of the sampler construct_sampler builds keep the joint posterior given all data if and only if the samplers built for the parts alone keep the posteriors given their own data, and converge to the joint posterior if and only if both of these converge to theirs.", "quantifier": "all models and splittings into parts, orders of the variables, priors, likelihoods, laws of the steps, starting values and events", "why_tests_cant": "a statement about the limit of a joint law on a continuous space for every pair of models", "anchors": ["aemcmc/basic.py:construct_sampler"]}
{"id": "C72", "title": "The way the data are written down does not matter", "statement": "The values nbinom_normal_posterior, bern_normal_posterior, horseshoe_posterior and nbinom_dispersion_posterior draw do not depend on how the same data are written down: observations in another order, or without the observations all of whose regressors are zero, give the same law; regressors in another order or with other signs give the coefficients in that order with those signs; calling successes failures negates the coefficients of a Bernoulli regression; the shrinkage step does not see the signs of the coefficients.", "quantifier": "all sizes, designs, data, current values, standard deviations, orders, signs and sound linear algebra libraries, including rewritings that make the code choose its other algorithm", "why_tests_cant": "equality of laws of draws on a continuous space for every data set and every rewriting of it; with a fixed seed the draws themselves differ, so there is nothing a test could compare", "anchors": ["aemcmc/gibbs.py:nbinom_normal_posterior", "aemcmc/gibbs.py:bern_normal_posterior", "aemcmc/gibbs.py:horseshoe_posterior", "aemcmc/gibbs.py:nbinom_dispersion_posterior"]}
{"id": "C73", "title": "The units of measurement of a regressor do not matter", "statement": "When a regressor is recorded in a unit c times smaller, so that its values are multiplied by c and the prior standard deviation of its coefficient is divided by c, nbinom_normal_posterior and bern_normal_posterior draw the coefficient they drew before divided by c; the shrinkage step draws the same scales when coefficients and noise standard deviation are multiplied by c.", "quantifier": "all sizes, designs, data, standard deviations, current values and conversion factors", "why_tests_cant": "equality of laws for every data set and factor; a test that fixes the seed and uses unit standard deviations cannot see the difference", "anchors": ["aemcmc/gibbs.py:nbinom_normal_posterior", "aemcmc/gibbs.py:bern_normal_posterior", "aemcmc/gibbs.py:horseshoe_posterior"]}
{"id": "C74", "title": "Prior samples are independent draws from the joint prior", "statement": "For a model whose random variables were created with the given stream, sample_prior succeeds and the samples it returns are independent draws from the joint prior law of the variables asked for, also across several calls when the returned updates are applied, provided successive states of a generator and different generators give independent noise.", "quantifier": "all models built with a random stream, all functions the random variables and operations compute, noise laws, numbers of samples and calls, and events", "why_tests_cant": "independence is a statement about the joint law of all samples for every model graph; a finite number of draws cannot settle it", "anchors": ["aemcmc/sample.py:sample_prior", "aemcmc/utils.py:get_rv_updates"]}
{"id": "C75", "title": "Averages over the draws estimate posterior expectations", "statement": "When the steps the library builds are called over and over, the average of a function over the returned values converges to its posterior expectation, from every start and with probability one along every run: fractions of draws in an event tend to its posterior probability, averages of the drawn coefficients, dispersions and probabilities to their posterior means, and averages of every function that has a posterior expectation to that expectation.", "quantifier": "all data, designs, prior parameters, starting values, functions and tolerances, as the number of calls grows without bound", "why_tests_cant": "a limit over infinitely many dependent draws; an average over the finitely many draws of a test is off by an unknown amount either way", "anchors": ["aemcmc/gibbs.py:nbinom_normal_posterior", "aemcmc/gibbs.py:bern_normal_posterior", "aemcmc/gibbs.py:nbinom_dispersion_posterior", "aemcmc/gibbs.py:horseshoe_posterior", "aemcmc/conjugates.py:beta_binomial_conjugateo", "aemcmc/conjugates.py:gamma_poisson_conjugateo", "aemcmc/conjugates.py:beta_negative_binomial_conjugateo"]}
{"id": "C76", "title": "Data that arrive in batches can be used one batch after the other", "statement": "When the posterior step returned for one observed batch is used as the prior in the model for the next batch, the step returned for the last batch draws from the posterior given all batches together, for beta priors with binomial and negative-binomial batches and for gamma priors with Poisson batches.", "quantifier": "all numbers and orders of batches, kinds of batches, counts, prior parameters and random number generators", "why_tests_cant": "an equality of laws after any number of applications of the library; the steps of single batches look right one by one and a unit test rewrites one model at a time", "anchors": ["aemcmc/conjugates.py:beta_binomial_conjugateo", "aemcmc/conjugates.py:gamma_poisson_conjugateo", "aemcmc/conjugates.py:beta_negative_binomial_conjugateo"]}
{"id": "C77", "title": "Equivalent descriptions of a hidden Markov model give the same hidden states", "statement": "ffbs_step draws the same hidden states whichever of several equivalent descriptions of the model it is given: renaming the hidden states renames the drawn states; merging states that behave alike merges the drawn states; a time point whose observation says nothing can be left out, its two transitions made one, without changing the law of the other states, and an uninformative last time point can be dropped; for a chain in equilibrium that satisfies detailed balance, reversing the data reverses the drawn states.", "quantifier": "all numbers of states and time points, initial weights, time-varying transition matrices, log-likelihoods including minus infinity and data without evidence, and precision bounds", "why_tests_cant": "equality of laws of random sequences for every model and every rewriting of it; with a fixed seed the draws themselves differ", "anchors": ["aemcmc/ffbs.py:ffbs_step"]}
{"id": "C78", "title": "Samplers pass the simulation-based check", "statement": "When unknowns are drawn from the prior, data are simulated from them, and the sampler returned for the model is applied once with these data starting from these unknowns, then the new unknowns together with the data are distributed exactly like the original unknowns together with the data; in particular the new unknowns again follow the prior.", "quantifier": "all models with discrete data that are matched by the conjugate steps, the Bernoulli and negative-binomial regressions with normal or horseshoe priors, the dispersion step, and both together; all designs, prior parameters and data sizes", "why_tests_cant": "an equality of joint laws of unknowns and simulated data; a unit test runs with one data set and one starting point, and a simulation can only fail to reject", "anchors": ["aemcmc/conjugates.py:beta_binomial_conjugateo", "aemcmc/conjugates.py:gamma_poisson_conjugateo", "aemcmc/conjugates.py:beta_negative_binomial_conjugateo", "aemcmc/gibbs.py:nbinom_normal_posterior", "aemcmc/gibbs.py:bern_normal_posterior", "aemcmc/gibbs.py:nbinom_dispersion_posterior", "aemcmc/basic.py:construct_sampler"]}
{"id": "C79", "title": "Correlations between successive draws fade the way convergence diagnostics assume", "statement": "Once the values drawn by a regression or dispersion step are distributed according to the law the step keeps, successive draws look the same forwards and backwards in time; for every function of finite variance the covariances of values k calls apart start with the variance, are never negative, never grow with k and decrease ever more slowly; and a mean over N successive draws is never more precise than one over N independent draws nor less precise than a single draw.", "quantifier": "all data, designs, prior parameters, laws kept by the step, functions of finite variance, distances k and numbers N of draws", "why_tests_cant": "exact inequalities between covariances at all distances for all functions; estimated covariances are noisy and routinely negative", "anchors": ["aemcmc/gibbs.py:nbinom_normal_posterior", "aemcmc/gibbs.py:bern_normal_posterior", "aemcmc/gibbs.py:nbinom_dispersion_posterior"]}
{"id": "C80", "title": "Several sets of counts can be given at once", "statement": "For an array of counts whose rows are separate data sets, with probabilities of the same shape, nbinom_dispersion_posterior returns one dispersion for each row; the draws are independent and each has the law of a call on that row alone, whether the current dispersion is one number for all rows or one number for each row.", "quantifier": "all shapes, counts, probabilities, prior parameters and current dispersions", "why_tests_cant": "an equality of joint laws for every shape; with one fixed shape and seed a test sees numbers of plausible size and the right shape", "anchors": ["aemcmc/gibbs.py:nbinom_dispersion_posterior", "aemcmc/gibbs.py:sample_CRT"]}
{"id": "C81", "title": "Drawn hidden states react to the data in the way a posterior does", "statement": "When the log-likelihoods given to ffbs_step are off by at most c, the transition weights by a factor e^b and the initial weights by a factor e^a, the probability of every set of outcomes for n time points changes at most by the factor e^(2(a + n(b + c))); raising the log-likelihood of one state at one time point never makes sequences with that state there less probable nor other sequences more probable; when only one state is possible at a time point, the states before and after it are drawn independently, as two separate calls would draw them.", "quantifier": "all numbers of states and time points, initial weights, time-varying transition matrices, log-likelihoods including minus infinity and data without evidence, precision bounds, sets of outcomes and perturbations", "why_tests_cant": "inequalities between probabilities of all sets of sequences and a factorisation of a joint law; a test with one seed sees one sequence", "anchors": ["aemcmc/ffbs.py:ffbs_step"]}
{"id": "C82", "title": "Every draw is worth keeping", "statement": "In any law a step keeps, the mean of all of kN successive draws is at least as precise as the mean of every k-th of them, so thinning never helps; and for the regression and dispersion steps means of more successive draws are at least as precise as means of fewer.", "quantifier": "all data, designs, prior parameters, laws kept by the step, functions of finite variance, thinning intervals k and numbers of draws; thinning also for the shrinkage step of the horseshoe prior and for the sampler of a negative-binomial regression with unknown dispersion", "why_tests_cant": "inequalities between variances of means over random runs for all functions and lengths; estimates from finitely many runs are too noisy to show them", "anchors": ["aemcmc/gibbs.py:nbinom_normal_posterior", "aemcmc/gibbs.py:bern_normal_posterior", "aemcmc/gibbs.py:nbinom_dispersion_posterior", "aemcmc/gibbs.py:horseshoe_posterior"]}
{"id": "C83", "title": "Models that have nothing to do with each other can be sampled in one call", "statement": "When two regressions with observations and coefficients of their own are written as one (observations below each other, regressors side by side, zeros elsewhere), one call of nbinom_normal_posterior or bern_normal_posterior draws the two vectors of coefficients independently, each as the call for its own regression would. When two unrelated hidden Markov chains are written as one chain of pairs of states, or one after the other with a transition that forgets the state before, one call of ffbs_step draws the two sequences of states independently, each as the call for its own chain would.", "quantifier": "all numbers of observations, coefficients, states and time points, designs, prior scales, dispersions, counts, outcomes and current coefficients; all initial weights, time-varying transition matrices, log-likelihoods including minus infinity and data without evidence", "why_tests_cant": "independence and equality of joint laws; a test that compares draws with one seed cannot even line up the two programs, which use different numbers of random values", "anchors": ["aemcmc/gibbs.py:nbinom_normal_posterior", "aemcmc/gibbs.py:bern_normal_posterior", "aemcmc/ffbs.py:ffbs_step"]}
{"id": "C84", "title": "The order in which the observations are listed does not matter", "statement": "Listing the observed variables in another order, and so letting the search for closed-form steps come to them in another order, does not change which closed-form step a latent variable gets, nor the distribution that step draws from.", "quantifier": "all histories of the search in which no finder is called twice on the same variable and all orders of the same calls; for the laws, all beta latents with any number of observed binomial and negative-binomial children and all gamma latents with any number of observed Poisson children, in any order", "why_tests_cant": "the order is not visible in the model and a test uses one order; a difference shows only in the distribution of the draws", "anchors": ["aemcmc/basic.py:construct_sampler", "aemcmc/rewriting.py:construct_ir_fgraph", "aemcmc/rewriting.py:sampler_finder"]}
{"id": "C85", "title": "Hidden states can be drawn for sequences of any length without losing the weights", "statement": "The weights ffbs_step computes on its way through the data, whose sums it divides by, stay in a range that depends on the precision bound and the transition probabilities only, however many time points there are, so that they neither vanish nor overflow.", "quantifier": "all numbers of states and time points, initial weights, time-varying transition matrices whose rows add up to one, log-likelihoods including minus infinity and precision bounds between zero and one", "why_tests_cant": "a bound uniform in the length of the data; a test runs one length, and underflow shows as NaN only beyond some length", "anchors": ["aemcmc/ffbs.py:ffbs_step"]}
{"id": "C86", "title": "A constant factor of a model is neither dropped nor in the way", "statement": "construct_sampler gives the closed-form shrinkage step to coefficients whose scale is the product of two half-Cauchy variables, and not to coefficients whose scale has a further constant factor; and it recognises the logistic regressions whichever way the factor -1 of the linear predictor is written, as a number that broadcasts or as an array.", "quantifier": "all graphs a user can write as the scale of a normal variable or as the link of a Bernoulli or negative-binomial variable, with any number of factors, in any order and with any broadcasting", "why_tests_cant": "a test checks one spelling of a model; a dropped factor leaves a sampler that runs and returns plausible values for another model", "anchors": ["aemcmc/rewriting.py:local_elemwise_dimshuffle_subsume", "aemcmc/rewriting.py:SubsumingElemwise", "aemcmc/gibbs.py:horseshoe_match", "aemcmc/gibbs.py:bern_sigmoid_dot_match", "aemcmc/gibbs.py:nbinom_sigmoid_dot_match"]}
{"id": "C87", "title": "Evidence moves the draws in the right direction", "statement": "When data or prior settings change so that the posterior of a parameter rises (more successes, larger counts, a success instead of a failure, larger coefficients under a shrinkage prior, a larger prior parameter pulling up), the draws of the sampler rise as well and never fall: for every level, the probability that the draw exceeds it does not decrease.", "quantifier": "all data, current values, designs and prior parameters, for the beta-binomial, gamma-Poisson, beta-negative-binomial, dispersion, Bernoulli-logit and horseshoe samplers; the comparison holds at every level and so for all increasing functions of the draw", "why_tests_cant": "a comparison of two distributions at every level and for all inputs; a test compares two noisy averages at one setting, and a sampler whose direction is wrong in one argument returns plausible values", "anchors": ["aemcmc/conjugates.py:beta_binomial_conjugateo", "aemcmc/conjugates.py:gamma_poisson_conjugateo", "aemcmc/conjugates.py:beta_negative_binomial_conjugateo", "aemcmc/gibbs.py:nbinom_dispersion_posterior", "aemcmc/gibbs.py:bern_normal_posterior", "aemcmc/gibbs.py:bern_sigmoid_dot_match", "aemcmc/gibbs.py:horseshoe_posterior"]}
{"id": "C88", "title": "The version does not depend on how git is installed or what it prints around its answers", "statement": "Importing the package in a working tree reports the same version whichever of the command names of the platform git is installed under, whatever blanks and line ends surround its answers, and whatever language they are in; a git that is missing, cannot be started or fails makes the version come from the name of the directory; no answer of git makes the import fail.", "quantifier": "all machines, given as a function from directory, arguments and command to how starting it ends (missing, another system error, or any bytes with any return code), both platforms, all directories, tags, distances, hashes and dates", "why_tests_cant": "the outcome depends on the machine, on seven runs of another program and on arbitrary bytes; a test runs one git in one repository", "anchors": ["aemcmc/_version.py:run_command", "aemcmc/_version.py:git_pieces_from_vcs", "aemcmc/_version.py:get_versions"]}
{"id": "C89", "title": "A build tool reads from the version file what the package itself says", "statement": "The keywords that git_get_keywords reads from the text of the version file are those that the package has when it is imported from that file, so that both report the same version, and a file that cannot be read leads to the other ways of finding the version.", "quantifier": "all texts of references, revision and date that git can write, all other lines before and after them, all indentations, and files that end with a system error after any text", "why_tests_cant": "quantifies over every text git can put between the quotes, among them texts with quotes, equals signs and line breaks; a test uses the text of one archive", "anchors": ["aemcmc/_version.py:git_get_keywords", "aemcmc/_version.py:get_keywords", "aemcmc/_version.py:git_versions_from_keywords"]}
{"id": "C90", "title": "A run never fails in the middle", "statement": "However long a Gibbs sampler built from the regression, shrinkage and dispersion steps runs, no call divides by zero, takes the root or logarithm of a number outside its domain, factorises or solves with a matrix that is not positive definite, or asks a random generator for a draw with parameters it refuses, provided that the start, the prior parameters and the known dispersions are positive; and the state stays positive.", "quantifier": "all numbers of calls, observations and coefficients, designs including zero rows and collinear columns, counts and outcomes, prior parameters, positive starts, and all outcomes of the random draws outside a set of probability zero; both readings of the exponential's argument and all choices of which shrinkage parameters are read", "why_tests_cant": "the condition has to hold for the random state each earlier call left behind; a test runs one chain for some hundred calls", "anchors": ["aemcmc/gibbs.py:horseshoe_posterior", "aemcmc/gibbs.py:nbinom_normal_posterior", "aemcmc/gibbs.py:bern_normal_posterior", "aemcmc/gibbs.py:nbinom_dispersion_posterior", "aemcmc/gibbs.py:sample_CRT", "aemcmc/dists.py:multivariate_normal_rue2005", "aemcmc/dists.py:multivariate_normal_cong2017"]}
{"id": "C91", "title": "Without evidence the draws follow the prior", "statement": "When a step is given nothing to learn from (no observations, regressors that are all zero, no trials, or log-likelihoods that are the same for all hidden states), it draws its variable from the distribution the model states for it beforehand, whatever the current values are.", "quantifier": "all prior parameters, sizes, current values, designs whose entries are zero with any number of rows, and hidden Markov chains of any length with time-varying transitions", "why_tests_cant": "an equality of distributions for all prior settings; a test of the mean passes although the variance of the draws is wrong", "anchors": ["aemcmc/gibbs.py:nbinom_normal_posterior", "aemcmc/gibbs.py:bern_normal_posterior", "aemcmc/gibbs.py:nbinom_dispersion_posterior", "aemcmc/conjugates.py:local_beta_binomial_posterior", "aemcmc/ffbs.py:ffbs_step"]}
{"id": "C92", "title": "The same model gives the same sampler", "statement": "Build the same model twice, in the same process or in different ones, beside other graphs or not: the samplers are copies of each other. construct_sampler gives corresponding variables the same posterior steps, in the same order, with corresponding random-state updates and initial values, or raises in both cases; each conjugate or Gibbs relation that fires for one fires for the other, with the corresponding expression, and fails for both with the same error. Nothing depends on the identity, naming or creation order of the graph objects.", "quantifier": "for every model graph, every one-to-one correspondence between its variables and those of a second graph, every set of observations and every table of discovered steps; given that the set of variables left to NUTS is iterated in corresponding order, and unconditionally when all variables have closed-form steps", "why_tests_cant": "A test builds a model once or twice and compares a few keys; it cannot range over all graphs and all correspondences, and dependence on object identity shows only in some runs.", "anchors": ["aemcmc/basic.py:construct_sampler", "aemcmc/rewriting.py:construct_ir_fgraph", "aemcmc/gibbs.py:horseshoe_match", "aemcmc/gibbs.py:nbinom_logistic_finder", "aemcmc/conjugates.py:local_gamma_poisson_posterior"]}
{"id": "C93", "title": "The data may be given when the sampler is built or when it is run", "statement": "construct_sampler takes for every observed variable a graph variable holding its value. Whether that is a placeholder filled in when the compiled sampler is called, a constant, or another variable not used in the model makes no difference: the calls succeed or raise together, and from the same data the two samplers compute the same new value of every variable and the same new state of every random number generator.", "quantifier": "for every model graph, every set of observed variables, every choice of variables for their values that do not occur in the model, every meaning of the graph's operations and all values; with NUTS if it too does not look at which variables hold the data", "why_tests_cant": "A test runs one model with one data set, and usually only one of the two ways; the claim compares two graphs for all data and all operations.", "anchors": ["aemcmc/basic.py:construct_sampler"]}
{"id": "C94", "title": "Enough draws give any accuracy with any certainty, wherever the chain starts", "statement": "For every accuracy and every certainty short of complete there is a number of draws after which the average of a bounded quantity over the draws of a step is that close to its posterior expectation with that certainty, and the chance of a larger error falls exponentially with the number of draws. The number depends neither on the starting value nor on which quantity with the given bound is averaged, so no burn-in is needed for it.", "quantifier": "for all starting values, all measurable quantities with a common bound, all accuracies and all numbers of draws; all designs, data, sizes and prior parameters of the negative-binomial and Bernoulli regression steps, the dispersion step and the conjugate steps", "why_tests_cant": "A test looks at the error of one run from one start; it can neither see a probability below the reciprocal of the number of runs nor range over all starts.", "anchors": ["aemcmc/gibbs.py:nbinom_normal_posterior", "aemcmc/gibbs.py:bern_normal_posterior", "aemcmc/gibbs.py:nbinom_dispersion_posterior", "aemcmc/conjugates.py:local_beta_binomial_posterior", "aemcmc/conjugates.py:local_gamma_poisson_posterior", "aemcmc/conjugates.py:local_beta_negative_binomial_posterior"]}
{"id": "C95", "title": "Credible limits computed from the draws become those of the posterior", "statement": "The median, the limits of a credible interval and every other quantile of a quantity, computed from the values a sampler has returned so far, converge with probability one to the quantile of that quantity under the posterior as the number of draws grows, whatever the start and however ties in the sample are broken; and that posterior quantile is unique.", "quantifier": "for all levels strictly between 0 and 1, all quantities that depend continuously on the unknowns, all starting values, all runs on any probability space and all choices of sample quantiles; all designs, data, sizes and prior parameters of the regression, dispersion, shrinkage and conjugate steps and of the negative-binomial regression with unknown dispersion", "why_tests_cant": "A limit over infinite runs that holds with probability one; a test computes one interval from one run and must allow for its random error, which hides a wrong limit that is close.", "anchors": ["aemcmc/gibbs.py:nbinom_normal_posterior", "aemcmc/gibbs.py:bern_normal_posterior", "aemcmc/gibbs.py:nbinom_dispersion_posterior", "aemcmc/gibbs.py:horseshoe_posterior", "aemcmc/conjugates.py:local_beta_binomial_posterior", "aemcmc/conjugates.py:local_gamma_poisson_posterior", "aemcmc/conjugates.py:local_beta_negative_binomial_posterior"]}
{"id": "C96", "title": "Thinned runs and estimated autocorrelations are right", "statement": "Keeping only every k-th draw of a sampler, after throwing away any number of draws at the beginning, does not change what averages converge to: with probability one the posterior expectations. Statistics of pairs of draws a fixed number of calls apart converge to what they are for a sampler started in the posterior; in particular the autocovariances estimated from one run, on which effective sample sizes are based, converge to the true ones. For the regression and dispersion steps these are nonnegative and decrease with the distance; for conjugate steps they are zero.", "quantifier": "for all starting values, all runs on any probability space, all k, all numbers of discarded draws, all distances, all measurable quantities with an expectation (a variance, for autocovariances); all designs, data, sizes and prior parameters of the regression, dispersion, shrinkage and conjugate steps and of the negative-binomial regression with unknown dispersion", "why_tests_cant": "Limits over infinite runs that hold with probability one, for every thinning: a chain with a hidden period passes every test on its full run and fails only for some k.", "anchors": ["aemcmc/gibbs.py:nbinom_normal_posterior", "aemcmc/gibbs.py:bern_normal_posterior", "aemcmc/gibbs.py:nbinom_dispersion_posterior", "aemcmc/gibbs.py:horseshoe_posterior", "aemcmc/conjugates.py:local_beta_binomial_posterior", "aemcmc/conjugates.py:local_gamma_poisson_posterior", "aemcmc/conjugates.py:local_beta_negative_binomial_posterior"]}
{"id": "C97", "title": "Hidden states drawn by forward filtering and backward sampling hardly depend on what lies far away", "statement": "Drawing the hidden states of a series needs initial weights the user often has to guess, and a window of the data. If every transition has at least some minimal relative weight, the guess does not matter away from the start: the law of the drawn states from a position on changes by at most a geometric factor in the number of transitions before it, whatever the initial weights. Likewise for everything before a stretch of the series (data, transitions, length), and, looking back, for data that arrive later: the law of early states changes by at most a geometric factor in the distance to the end of the series. If transitions are impossible this may fail completely.", "quantifier": "for all numbers of states and time points, all nonnegative transition matrices (also different at each time point, rows need not sum to one), all log-likelihoods including minus infinity, all initial weights and all sets of outcomes about the states concerned, as long as the series has positive probability", "why_tests_cant": "The bound is uniform over all data and all pairs of initial weights or pasts; a test sees a few series, and whether a remote wrong contribution decays or only happens to be small cannot be told from samples.", "anchors": ["aemcmc/ffbs.py:ffbs_step"]}
{"id": "C98", "title": "With enough data the draws settle on the true value", "statement": "When the data really come from the model with some true value of the unknown, more data make the draws concentrate around that value, whatever the prior: the probability drawn by the beta-binomial step as the number of trials grows, the probability drawn by the beta-negative-binomial step as the number of successes grows, and the coefficients drawn by normal_regression_posterior as the information in the design grows. The probability of a draw far from the truth has an explicit bound that tends to zero.", "quantifier": "for all true values, all prior parameters, all distances, all numbers of trials, all designs and observation precisions with a given minimal information; averaged over the data (for the negative-binomial step along any data with the right limiting frequency)", "why_tests_cant": "A limit over growing data sets, for every true value and with an explicit rate: a test uses one data set and one tolerance, and for some true values a step that settles on the wrong value is indistinguishable from a right one.", "anchors": ["aemcmc/conjugates.py:beta_binomial_conjugateo", "aemcmc/conjugates.py:beta_negative_binomial_conjugateo", "aemcmc/gibbs.py:normal_regression_posterior"]}
{"id": "C99", "title": "Equivalent sets of regressors give the same fitted regression", "statement": "The same regression can be written with different regressors. If the regressors are combined with orthonormal weights, mixing only coefficients with the same prior standard deviation, a step of the negative-binomial, Bernoulli or normal regression draws the same fitted regression: the recombined new coefficients have the law of the step of the other regression from the recombined current ones; in particular a regressor that is always zero does not affect the others. If a regressor is listed several times, only the sum of its coefficients matters, and it is drawn as by the regression that lists it once with the prior variance of the sum.", "quantifier": "for all designs, data, current coefficients, prior standard deviations, numbers of regressors, all orthonormal recombinations and all ways of listing regressors repeatedly", "why_tests_cant": "The statement equates laws of draws from two different models for all inputs; the difference for repeated regressors is one of spread and does not raise any error.", "anchors": ["aemcmc/gibbs.py"]}
{"id": "C100", "title": "Counts observed under the same conditions can be added up", "statement": "If several counts of a negative-binomial regression are observed with the same regressors, it makes no difference whether they are given one by one or as their total, with the total of their dispersion parameters: for the same current coefficients the step draws the new coefficients from the same law. Likewise observations of a normal regression with the same regressors can be given as their weighted average with the total precision, and trials of a Bernoulli regression that all fail as counts of zero of a negative-binomial regression with the numbers of trials as dispersion parameters.", "quantifier": "for all numbers of observations and regressors, all designs, counts, positive dispersion parameters, prior standard deviations, current coefficients and all groupings of the observations", "why_tests_cant": "Both programs draw different auxiliary variables in different numbers; that the resulting laws are equal for all inputs cannot be seen from samples.", "anchors": ["aemcmc/gibbs.py", "aemcmc/dists.py"]}
{"id": "C101", "title": "Rounding the current values hardly changes the next draws", "statement": "If the current values given to a posterior step are changed slightly, for instance because they are stored in lower precision, the probabilities of all events for the new draws, in this call and in all later ones, change only slightly, by an amount proportional to the change with a factor known in advance: for the coefficients of a negative-binomial or logistic regression, also when the dispersion parameter or the shrinkage parameters of a horseshoe prior are drawn in the same call, for the dispersion parameter, and for the coefficients, noise variance and shrinkage parameters of the horseshoe step, whatever their sizes. The same holds for small changes of the prior scales of the coefficients of a regression, with a factor that also depends on the data and grows with the number of calls.", "quantifier": "for all data, designs, priors, current values, changes of the current values, events and numbers of later calls", "why_tests_cant": "The bound concerns the difference of two laws for every event and every change; sampling cannot measure differences of probabilities of the order of rounding errors.", "anchors": ["aemcmc/gibbs.py", "aemcmc/dists.py"]}
{"id": "C102", "title": "A change of the observations moves every draw by the change of the fit", "statement": "Calling the normal regression step with the same design, precisions, prior and random numbers but other observations changes the draw by exactly the difference of the two penalised least-squares fits, whatever the random numbers; opposite random numbers give draws symmetric about the fit; and the spread of the draws does not depend on the observations. This holds for the algorithms for few and for many regressors alike.", "quantifier": "for all designs, positive precisions and prior weights, all pairs of observation vectors, all numbers of observations and regressors and all random numbers", "why_tests_cant": "Comparing runs with the same seed shows the difference for a few inputs up to rounding only; that it is the difference of the fits for every seed and every shape is a statement about all inputs.", "anchors": ["aemcmc/dists.py", "aemcmc/gibbs.py"]}
{"id": "C103", "title": "More evidence never makes regression draws more spread out", "statement": "Adding observations to a normal regression, making observations more precise or the prior tighter never increases the variance with which the regression step draws any coefficient, difference of coefficients or other linear combination, whatever values are observed; at the regressors of an added observation, if not all zero, the fitted value is drawn with a strictly smaller variance.", "quantifier": "for all designs, positive precisions and prior weights, observed values, numbers of observations, added observations and regressors, and all linear combinations", "why_tests_cant": "Variances estimated from samples carry errors, and the comparison is claimed for all linear combinations of all pairs of nested data sets, including those for which a different algorithm is selected.", "anchors": ["aemcmc/gibbs.py", "aemcmc/dists.py"]}
