# Formal model of aemcmc: design

The properties are in `properties.jsonl` (C01, C02, ...).  This file says, for each property, what is
modelled and how it is proved, and what was found.  The Lean sources are under `lean/Verif`, one directory per
area.  In a directory:

* `Model.lean`: the model of the code.  Every definition cites the file and lines in `/repo` and says
  what is simplified.
* `Spec.lean` (or a section of `Props.lean`): the specification, written without the model's helpers.
* `Lemmas.lean` and others: helper lemmas.
* `Props.lean`: the property theorems `Cxx_...`, and beside each an `example` that meets its hypotheses.

Name conventions for theorems:

* `Cxx_...`: the property, or a named part of it, at full strength.
* `Cxx_..._partial`: a part of the property that holds.  The comment says what is missing.
* `Cxx_..._violated`: the code does not have the property.  The theorem proves the negation with a witness.

`MANIFEST.json` lists the theorems of each property.  `seeded/LOG.jsonl` lists the wrong programs the theorems
were tested against.

## Trusted base

* The Lean 4.33.0 kernel.  The axioms `propext`, `Classical.choice`, `Quot.sound` (table below).  No other axiom,
  no `sorry`, no `native_decide`, no `bv_decide`.
* Mathlib, as a library of definitions (measures, Gaussian, gamma, beta, ... distributions).
* The reading of the Python source into Lean.  Nothing was run.  Reals stand for floats.
* The behaviour of the libraries the code calls (Aesara, AeHMC, AePPL, kanren, unification), as far
  as the model uses it.  It is listed under "Library conventions" and in the comments of the definitions.

## Library conventions used by the model

| Library object | Convention in the model | Evidence in /repo |
|---|---|---|
| `at.random.gamma(a, b)` called by user | `b` is the rate, the node stores `1/b` | `tests/test_gibbs.py` 283-300 (`b_exp = 1.0 / b`) |
| `at.random.exponential(x)` | both readings are modelled: `x` as scale (NumPy, Aesara) and `x` as rate | none; each theorem names the reading |
| `at.random.invgamma(a, b)` | shape and scale | docstring in `transforms.py` 76-101 |
| `at.random.nbinom(n, p)` | pmf proportional to `p^n (1-p)^y` | none; NumPy/SciPy convention |
| `at.random.t` | three parameters | none; the pattern in `transforms.py` 50 has two |
| `at.random.categorical(p)` | index `i` with probability `p_i` | `ffbs.py` 108-115 normalises the vector before the call |
| Polya-Gamma | characterised by its Laplace transform; a law with that transform is constructed | `dists.py` 11-29 calls the `polyagamma` package |
| Cholesky, triangular solves | contract `LinAlg.Sound`; a library meeting it is constructed | `dists.py` 32-110 |
| `FunctionGraph(clone=False)` + `replace_all` | edits the input lists of the existing `Apply` nodes in place | `basic.py` 78-86 passes `clone=False` |
| `FunctionGraph(clone=True)` | copies every node | `construct_ir_fgraph` 83-93 relies on `memo` |
| RV `Apply` inputs | `[rng, size, dtype, *params]`, output 1 is the variable | `rewriting.py` 153, `gibbs.py` 606 |
| `OpFromGraph` | shared variables of the inner graph are appended to the inputs; duplicate inputs: the last one wins | appending: `gibbs.py` 642-646, `nuts.py` 168-172; duplicates: none |
| `graph_inputs` | walks from the outputs with a stack (used for the violation of C11 only) | none |
| kanren `run`, `unify` | one-way matching of a ground graph; operators compared without their properties | `conjugates.py`, `transforms.py` |
| `aesara.scan` | the steps one after the other; updates are applied between steps | `sample.py`, `ffbs.py` |
| broadcasting, `matmul`, indexing | NumPy; Aesara may in addition refuse a dimension of size one that is not declared so | `dists.py`, `gibbs.py` |
| `RaveledParamsMap`, AeHMC kernel, AePPL transforms | written down in `Nuts/Model.lean`, `Nuts/Transforms.lean`; the kernel is an arbitrary function | `nuts.py` |

## Plan and result per property

### Sampler construction (`Verif/Graph`)

Graphs are a heap.  Variables and apply nodes are numbers.  Each apply node has a
mutable list of inputs.  `replace_all` is an in-place edit of the nodes reachable from the outputs of the
sub-`FunctionGraph`.  The steps found by the search are a parameter, so the theorems hold for every set of finders.

* **C01** (proved) construct_sampler covers every unobserved random variable exactly once.  Model of the two loops of `construct_sampler` on dictionaries; the key sets by induction over the outputs.
  Result: For every graph, set of observations, discovered steps and NUTS order; modelled on a mutable heap with the clone map as a parameter.
  Theorems: `C01_cover`.
* **C02** (proved) Sampling steps are closed: no model random variable survives in a returned step.  Invariant of the loop: nothing reachable from a processed step is a model variable.
  Result: For every heap and every set of discovered steps, however they share nodes: no model variable is reachable from a returned step.
  Theorems: `C02_steps_closed`.
* **C03** (partial) Each step is computed from the most recent values (Gibbs scan semantics).  Graphs are evaluated under an environment; substitution lemma for in-place replacement.
  Result: Proved when no node reading a model variable is shared between a step and an earlier step; violated otherwise, because the steps are rewritten in place (concrete witness).
  Theorems: `C03_scan_partial`, `C03_violated`.
* **C06** (proved) Variables without a sampler, and only those, go to NUTS, in any set order.  Quantified over all iteration orders of the set of remaining variables.
  Result: For every iteration order of the set of remaining variables.
  Theorems: `C06_nuts`.
* **C07** (partial) The NUTS log-density still depends on every model term.  The terms of the log density are graphs of the same heap; the replacements of the closed-form steps may edit them.
  Result: Proved when no step's graph contains a node of the term that reads a model variable; violated otherwise (concrete witness): the replacement also rewrites the model graph given to NUTS.
  Theorems: `C07_nuts_term_partial`, `C07_violated`.
* **C08** (proved) construct_sampler does not modify the user's model graph.  Frame lemma: the construction only writes to nodes it cloned.
  Result: Frame property over all in-place replacements.
  Theorems: `C08_user_graph_unchanged`.
* **C10** (partial) Sampler.stages is in scan order.  Scan order against the order in which `stages` lists the kernels (`Graph/Order.lean`).
  Result: Proved for models whose steps are separate; violated by interleaved kernels and by NUTS variables listed first.
  Theorems: `C10_nuts_violated`, `C10_scan_order_partial`, `C10_violated`.
* **C53** (partial) One call of the constructed sampler keeps the posterior.  The returned steps are shown to compute one systematic sweep (`sweep`) followed by the NUTS block; invariance of the law by induction over the sweep, with independent randomness (`Graph/Sweep.lean`). For the horseshoe regressions (`Whole/ExactProps.lean`) the graph is the one of C60 with exact nodes: both draws read the old values, which keeps a law only if the conditional of the coefficients does not depend on the shrinkage (`Prob/Parallel.lean`, an L2 argument), but it concentrates at zero with them.
  Result: All models, laws, measurable steps and independent randomness, under the sharing hypothesis of C03; violated without it: in a hierarchical model whose steps share a node, two steps that each keep a two-valued law give a law that is not it (9/16 instead of 3/4). Also violated by the library's own horseshoe regressions (negative-binomial and Bernoulli, every design, data, order of visit): with both sampling nodes replaced by exact conditional draws, each returned value alone keeps the posterior and the returned state does not.
  Theorems: `C53_sweep_partial`, `C53_violated`, `C53_horseshoe_violated`.

### Search bookkeeping (`Verif/Track`)

The tracker as a state machine; a history is a list of finder calls with what they returned.

* **C04** (proved) Sampler discovery records each finder's result once and the last one found is used.  Induction over the history.
  Result: For every history of finder calls: what is recorded, at most once per finder and variable, and the last recorded step is the one returned by construct_sampler.
  Theorems: `C04_last_used`, `C04_once`, `C04_pick`, `C04_recorded`.
* **C05** (partial) A closed-form step uses every observed child of the latent.  The last found step is used (C04); the step built from one child is compared with the posterior given all children. For regressions the comparison is of stationary laws (unique by C21/C22), turned into an almost-everywhere equation between likelihoods.
  Result: Exact conditions: for a beta latent with any mixture of binomial and negative-binomial children, right iff every child but the last visited is a binomial of zero trials and a negative-binomial last child has its count equal to its parameter; for Poisson children of a gamma latent, right iff all other counts are zero and 1/b + 1 = b + number of children; with one beta-binomial child and any other observations, right iff their likelihood does not depend on the latent; for regression coefficients with other observed children, the exact form the remaining likelihood must have (with unit standard deviations: constant), and for two negative-binomial or two Bernoulli regressions on the same coefficients, right iff the other design matrix is zero (and the conditions of C21-C23). Violated by two informative children of every conjugate family, by mixtures, and by two negative-binomial observations of one coefficient.
  Theorems: `C05_bern_sibling_iff_partial`, `C05_nbinom_sibling_iff_partial`, `C05_two_bern_iff_partial`, `C05_two_nbinom_iff_partial`, `C05_two_nbinom_violated`, `C05_beta_binomial_iff_partial`, `C05_beta_mixed_iff_partial`, `C05_gamma_poisson_iff_partial`, `C05_mixed_violated`, `C05_poisson_violated`, `C05_sibling_iff_partial`, `C05_sibling_violated`, `C05_violated`.
* **C09** (proved) Sampler.stages partitions the sampled variables by kernel.  `stages` as grouping of a dictionary; partition theorem.
  Result: For all sample_steps dicts; also the KeyError-free/raising cases.
  Theorems: `C09_raises`, `C09_stages`, `C09_unique`.
* **C64** (partial) Only continuous variables are sampled with NUTS.  The registered finders as one family; each finder's answer is characterised by the form of the graph (C15, C24-C26), then C04 and C06 give the whole call (`Track/Route.lean`, `Track/RouteProps.lean`).
  Result: Proved part: for all models and search histories (one-element link multipliers) NUTS is given exactly the unobserved variables that no supported form covers, and is not called when there is none. Violated for every model: an unobserved Poisson, binomial, negative-binomial or Bernoulli variable is handed to NUTS without an error; a binomial coefficient vector gets the step of normal coefficients, with its probability as the scale.
  Theorems: `C64_integer_coefficient_violated`, `C64_integer_to_nuts_violated`, `C64_route_partial`.
* **C11** (partial) RNG updates pair each generator with its own successor state.  The order of the shared inputs of the kernel is a parameter; right iff that order is the order of the update outputs.
  Result: Exact condition on the order in which the library lists shared inputs; violated by the library's stack traversal as soon as a kernel has two generators.
  Theorems: `C11_gibbs_iff_partial`, `C11_nuts_iff_partial`, `C11_stack_traversal_violated`.

### Conjugates (`Verif/Expr, Verif/Conj, Verif/Prob`)

Expressions are trees, patterns have logic variables, the law of an expression is a Mathlib measure.

* **C12** (proved) Beta-binomial step samples the exact posterior.  Bayes posterior as a measure with density; equality of measures for all parameters.
  Result: Equality of measures for every accepted graph, all parameters and counts. Hypothesis: the number of trials does not read the latent.
  Theorems: `C12_beta_binomial_exact`.
* **C13** (partial) Gamma-Poisson step samples the exact posterior.  As C12; exact condition under which the code is right.
  Result: The code is wrong unless the prior rate is 1: exact iff theorem and a violating model. The node stores 1/rate, the relation adds 1 to it and passes it as a rate.
  Theorems: `C13_gamma_poisson_exact_iff_partial`, `C13_gamma_poisson_violated`.
* **C14** (partial) Beta-negative-binomial step samples the exact posterior.  As C12; exact condition under which the code is right.
  Result: The code is wrong unless y = n: exact iff theorem and a violating model. Posterior parameters are swapped for the NumPy/SciPy convention.
  Theorems: `C14_beta_nbinom_exact_iff_partial`, `C14_beta_nbinom_violated`.
* **C15** (proved) Conjugate finders fire exactly on their model shape.  Soundness and completeness of matching.
  Result: Soundness and completeness of the three finders over all expression trees.
  Theorems: `C15_beta_binomial_fires_iff`, `C15_beta_binomial_none_iff`, `C15_beta_nbinom_fires_iff`, `C15_beta_nbinom_none_iff`, `C15_gamma_poisson_fires_iff`, `C15_gamma_poisson_none_iff`.
* **C16** (partial) Conjugate posterior has the latent's shape.  Shapes of the result by broadcasting.
  Result: Exactly: for all shapes, with or without an explicit size, the step has the latent's shape iff the observation has it (C16_*_iff_partial); otherwise it has the shape of the observation, or fails at run time when the latent has a size. Violated for a scalar latent with any vector observation and for a sized latent with a larger observation. Sizes that are not constants are not modelled.
  Theorems: `C16_beta_binomial_iff_partial`, `C16_beta_binomial_shape_partial`, `C16_beta_nbinom_iff_partial`, `C16_beta_nbinom_shape_partial`, `C16_gamma_poisson_iff_partial`, `C16_gamma_poisson_shape_partial`, `C16_shape_violated`, `C16_size_violated`.
* **C57** (partial) Conjugate steps on arrays draw from the joint posterior given all observations.  Product priors and an index map from observed to latent entries; Bayes factorises over the entries, and a law on a diagonal is not a product (`Prob/PiBayes.lean`).
  Result: Exact conditions (iff) for arrays of any size and any broadcasting: the beta-binomial step is right iff no latent entry is observed twice; gamma-Poisson additionally needs every rate 1, beta-negative-binomial every y = n. One entry's draw is right iff the other observations of that latent entry have zero trials. Violated by a scalar uniform probability with two coin tosses.
  Theorems: `C57_beta_binomial_array_iff_partial`, `C57_beta_binomial_entry_iff_partial`, `C57_beta_nbinom_array_iff_partial`, `C57_gamma_poisson_array_iff_partial`, `C57_repeated_violated`.

### Gaussian samplers and regressions (`Verif/Mvn, Verif/PG`)

The code is a deterministic function of standard normals; its law is a push-forward.  The Polya-Gamma law is
constructed and described by its Laplace transform; two-block Gibbs invariance by Tonelli.

* **C17** (proved) multivariate_normal_rue2005 has law N(Q^-1 b, Q^-1).  Mean and covariance of the push-forward of the standard Gaussian.
  Result: Equality of laws for every dimension, positive definite Q, b, and every linear algebra library meeting the Cholesky/triangular-solve contract (a witness library is constructed).
  Theorems: `C17_rue2005_law`.
* **C18** (proved) multivariate_normal_cong2017 has law N(L^-1 Phi' Omega t, L^-1), L = A + Phi' Omega Phi.  As C17, with the matrix inversion identity.
  Result: Equality of laws for all sizes, positive A and omega, all Phi and t.
  Theorems: `C18_cong2017_law`.
* **C19** (proved) normal_regression_posterior does not depend on which algorithm the shape selects.  Corollary of C17 and C18.
  Result: Both algorithms have the same law for every shape.
  Theorems: `C19_branches_agree`.
* **C20** (partial) normal_regression_posterior is the conjugate posterior for a prior with the given standard deviations.  Gaussian conditioning; exact condition.
  Result: The code is wrong unless every prior std is 1: exact iff theorem, a violating model, and exactness when precisions are passed instead.
  Theorems: `C20_regression_posterior_iff_partial`, `C20_regression_posterior_precision_partial`, `C20_regression_posterior_violated`.
* **C21** (partial) nbinom_normal_posterior leaves the negative-binomial regression posterior invariant.  Data augmentation: joint law of coefficients and Polya-Gamma variables; the stationary law is unique, so the condition is exact.
  Result: Invariance holds exactly when every prior std is 1 (the code uses precision 1/std); the step's unique stationary law is characterised for all inputs; violating witness.
  Theorems: `C21_nbinom_step_iff_partial`, `C21_nbinom_step_target_partial`, `C21_nbinom_step_violated`.
* **C22** (partial) bern_normal_posterior leaves the logistic regression posterior invariant.  As C21.
  Result: As C21, for the Bernoulli step: iff theorem, unique stationary law, violating witness.
  Theorems: `C22_bern_step_iff_partial`, `C22_bern_step_target_partial`, `C22_bern_step_violated`.
* **C72** (proved) The way the data are written down does not matter.  The step is a mixture over the Polya-gamma variables of posteriors with a Gaussian likelihood (`PG/Symm.lean`). A selection of the coordinates of independent variables is independent; rows of zeros contribute the factor 1. A linear change of the coefficients carries prior and likelihood along (`bayes_map`, `map_affine_iidNormal`). The horseshoe step: the same for its exponential draws, given the law of the precisions (C29). The dispersion step: the total of the table counts does not depend on the order (`PMF.bind_comm`).
  Result: For all inputs of the four step functions (positive standard deviations, dispersions, scales): observations reordered or stripped of all-zero rows, regressors reordered and negated, outcomes exchanged, coefficients of the shrinkage step reordered and negated.
  Theorems: `C72_bern_observations`, `C72_bern_outcomes`, `C72_bern_regressors`, `C72_nbinom_observations`, `C72_nbinom_regressors`, `C72_dispersion_observations`, `C72_finder_dispersion_observations`, `C72_horseshoe_coefficients`.
* **C73** (partial) The units of measurement of a regressor do not matter.  By the same change of coordinates the draws in new units are those of the step with `std / c^2`. The step determines the prior it is right for (C25), so this is the step with `std / c` only if `c = 1`.
  Result: Refuted for both regression steps: with the units of the regressors changed by factors c the draws are the old ones in new units iff every factor is 1, for all data. Proved part: the shrinkage step.
  Theorems: `C73_bern_units_iff_partial`, `C73_nbinom_units_iff_partial`, `C73_units_violated`, `C73_horseshoe_units_partial`.
* **C23** (partial) The Bernoulli regression finder builds a step for the model it matched.  As C22 for the likelihood the finder matched.
  Result: The finder matches sigmoid(-X beta) but the step targets sigmoid(X beta): invariance for the matched model holds iff every std is 1 and X^T(2y-1)=0; violating witness.
  Theorems: `C23_bern_finder_step_iff_partial`, `C23_bern_finder_step_violated`.

### Matchers and finders (`Verif/Match`)

Matchers as functions on expression trees, exceptions as values.

* **C24** (partial) Logistic-link matchers accept only minus-one times a dot product.  Case analysis on the constant.
  Result: Exact for one-element array constants; vector constants are accepted iff some entry is -1; violated by [-1,3], by a 0-d -1 (TypeError) and by non-constants (AttributeError).
  Theorems: `C24_bern_match_partial`, `C24_match_violated`, `C24_nbinom_match_partial`, `C24_vector_multiplier_partial`.
* **C25** (partial) Regression finders apply only to zero-mean normal coefficients.  What the finder puts into the step, for every graph.
  Result: The step uses input 4 of beta's owner; for a normal beta this is its scale, whatever the mean. Violated by a mean of 5 and by gamma coefficients. For every prior law of the coefficients: the negative-binomial step keeps the posterior iff the prior is independent normal with mean 0 and variance std (so for normal coefficients iff every mean is 0 and every std is 1); the Bernoulli step for the matched model iff it is independent normal with variance std and mean std * X'(2y-1).
  Theorems: `C25_bern_mean_iff_partial`, `C25_bern_prior_iff_partial`, `C25_nbinom_mean_iff_partial`, `C25_nbinom_prior_iff_partial`, `C25_step_violated`, `C25_bern_finder_partial`, `C25_bern_finder_violated`, `C25_nbinom_finder_partial`.
* **C26** (proved) horseshoe_match identifies local and global shrinkage whatever their order.  Decision function, both orders.
  Result: Both factor orders, every shape, and rejection with ValueError for every other graph that is the output of an operation.
  Theorems: `C26_horseshoe_finder`, `C26_horseshoe_order`, `C26_horseshoe_reject`.
* **C27** (partial) horseshoe_match accepts only genuine horseshoe priors.  What an accepted graph looks like; and, from uniqueness of the invariant law of the step (C65), for exactly which priors, scales and means the step samples the posterior.
  Result: Accepted graphs are normals with a product of half-Cauchys as scale; violated for non-zero means and other half-Cauchy scales. What this costs: in the rate reading of C28 the step keeps the posterior iff the prior of the shrinkage parameters is the standard horseshoe (C27_any_prior_iff_partial, any prior), and for half-Cauchys of any scales and normals of any means iff all scales are 1 and every squared coefficient equals its squared distance from its mean (C27_scales_means_iff_partial).
  Theorems: `C27_any_prior_iff_partial`, `C27_scales_means_iff_partial`, `C27_step_violated`, `C27_horseshoe_accepts_partial`, `C27_horseshoe_accepts_violated`.

### Horseshoe (`Verif/Horseshoe, Verif/HsReg, Verif/HsDisp, Verif/Shared, Verif/Whole`)

The draws are kernels on the half line; both readings of the exponential's argument. The built samplers of the regression models: `Graph/Regression.lean` writes each model as a graph, runs the model of `construct_sampler` on it for every order of visit and evaluates the returned steps; `Verif/Whole` gives the sampling nodes their laws (`Meaning`: independent random sources, one law for each node, existence proved) and shows that the state returned by one call (`Calls`) has the law of the step the C59, C60, C61 and C66 theorems speak of. A new value is substituted in place into nodes that already exist, so which values a step reads comes out of the graph and is not assumed.

* **C28** (partial) horseshoe_posterior draws from the exact conditionals and leaves the shrinkage posterior invariant.  Conditionals as measures; three-block Gibbs invariance by Tonelli; the mixture identity of the half-Cauchy. Scale reading: the mean of a power of a local precision is finite under the posterior and grows under the step (by Gamma(9/4)^2 for two or more coefficients, by a factor tending to 1 + beta^2/(2 sigma^2) for one).
  Result: Rate reading of exponential's argument: invariance for every p, nonzero beta and sigma2 > 0, the three conditionals, and the mixture identity are proved. The library reads the argument as a scale: in that reading the step never keeps the posterior, for any number of nonzero coefficients and any sigma2 (C28_violated), and the auxiliary draw is wrong in every state.
  Theorems: `C28_conditionals_violated`, `C28_mixture_is_halfCauchy`, `C28_rate_conditionals_partial`, `C28_rate_invariant_partial`, `C28_rate_step_invariant_partial`, `C28_step_violated`, `C28_violated`.
* **C29** (proved) horseshoe_posterior returns lambda and tau (not squares), positive, of the right shape.  Almost sure positivity and shape.
  Result: Both readings of exponential's argument; all positive inputs; almost surely over all draws.
  Theorems: `C29_result_scale`.
* **C58** (partial) The horseshoe step is right for coefficient arrays of any shape.  The step with `beta.shape[0]` and the number of entries kept apart; a test function whose mean is stationary only if they agree (`Horseshoe/Array.lean`).
  Result: Exact conditions (iff) for every shape with at least one entry: the global draw is right iff the trailing dimensions multiply to one, and the whole step iff moreover exponential reads its argument as a rate. Violated by a 2x2 coefficient matrix, because the gamma shape counts beta.shape[0] instead of all entries.
  Theorems: `C58_global_draw_iff_partial`, `C58_step_iff_partial`, `C58_violated`.
* **C60** (partial) One call of a horseshoe regression sampler keeps the joint posterior of coefficients and shrinkage.  The joint law has a density over a product measure, so a step keeps it iff it keeps almost every conditional (`Prob/JointStep.lean`); C21, C23 and C28 decide the conditionals; `lambda_j tau = 1` has probability zero. Whole call, scale reading: the mean of `(1/lambda_j^2)^s`, cut at large tau, satisfies a drift inequality with factor 9/10 whatever the coefficients are, but under the posterior it is unbounded as `s` tends to 1/2 (`Horseshoe/Tail.lean`, `Horseshoe/Drift.lean`). Whole call in both readings, whatever shrinkage parameters the coefficients read: the argument of C66 (`HsReg/Reads.lean`). The built sampler: see below, `Whole`.
  Result: Proved part: for all data and at least one coefficient, the shrinkage step keeps the joint posterior iff exponential reads its argument as a rate (the library reads a scale). Everything else is refuted, for every data set, design and dispersion and at least one coefficient: the coefficient step of both regressions never keeps the joint posterior (it uses lambda*tau as a variance), and one call of the sampler never does, in either reading; in the library's reading no other coefficient step would repair the call. Proved also of the built sampler, in every order of visit, with no convergence from any start.
  Theorems: `C60_bern_coef_step_violated`, `C60_nbinom_coef_step_violated`, `C60_posterior_exists`, `C60_scale_any_coef_step_violated`, `C60_shrink_step_iff_partial`, `C60_shrink_step_scale_violated`, `C60_sweep_violated`, `C60_built_violated`.
* **C66** (partial) The sampler of a horseshoe regression with an unknown dispersion keeps and reaches the joint posterior.  Steps as in C60 and C59, conditionally on the dispersion or on the rest. Whole call, uniformly in the reading and in which of the old and new shrinkage parameters the coefficients read: given everything drawn before them the new coefficients are normal with precision at most a data part plus `1/(lambda_j tau)`, so the mean of `|beta_j|^(-2s)` grows at most like the square of `1/(1-2s)` as `s` tends to 1/2, but under the posterior like its cube, since the horseshoe density at zero is a logarithm squared there (`Prob/SmallBall.lean`, `PG/Mean.lean`, `HsDisp/Moments.lean`). The built sampler: see below, `Whole`.
  Result: Proved part: the shrinkage step keeps the joint posterior iff exponential reads its argument as a rate (the library reads a scale), and the dispersion step iff every column of X sums to zero; the posterior exists for all data. Refuted for every data set, design and gamma prior and at least one coefficient: the coefficient step never keeps the joint posterior; one call never does, in either reading whichever of the old and the new lambda and tau the coefficients read (the library reads the old ones in every order of visit); and from no start with positive lambda, tau and dispersion do repeated calls converge to it. Proved also of the sampler construct_sampler builds for this graph, in every order of visit, with any nodes and independent random numbers that have these laws.
  Theorems: `C66_call_violated`, `C66_coef_step_violated`, `C66_dispersion_step_iff_partial`, `C66_limit_violated`, `C66_posterior_exists`, `C66_shrink_step_iff_partial`, `C66_built_violated`.
* **C67** (partial) One call of the built sampler draws its variables one after the other.  Spec: `runAll`, the steps composed (`Whole/SeqSpec.lean`). Where it holds: the call and the composition are the same measure, for `lambda_1` before `tau` by exchanging two integrals (`Whole/SeqPair.lean`). Where it fails: in the call the new coefficients and the new shrinkage parameters are independent given the old state. If the coefficients come first they are not, because the probability that `lambda_j` is at least one depends strictly on the coefficient read (`coef_first_differs`); if the shrinkage parameters come first they are not, because the coefficients concentrate at zero as `lambda tau` tends to zero (`shrink_first_differs`, `Whole/Conc.lean`, `Whole/Order.lean`). The dispersion is integrated out of the six orders (`Whole/Seq.lean`).
  Result: Proved part: for the negative-binomial regression with normal coefficients and gamma dispersion one call of the built sampler has exactly the law of the coefficient step followed by the dispersion step, and for two groups sharing tau that of the two shrinkage kernels in the order of visit. Refuted for every regression with a horseshoe prior and at least one coefficient (negative binomial with known and with unknown dispersion, Bernoulli): for every data set, in both readings, in every order of visit and from every state with positive lambda, tau and dispersion the law of the call differs from that of its steps run one after the other, in each of the two or six orders.
  Theorems: `C67_dispersion_violated`, `C67_horseshoe_violated`, `C67_nbinom_partial`, `C67_shared_partial`.
* **C61** (partial) Groups of horseshoe coefficients that share a global shrinkage parameter.  The kernel of the group visited last is a chain of its own; all its results have the same null sets, so it has one stationary law of positive values, the posterior given that group; the other group's density tends to zero as tau grows, so the joint posterior has another marginal. Scale reading: the mean of the 9/8 power of a local precision of the second group is finite and grows by Gamma(17/8)^2 (`Shared/Scale.lean`).
  Result: Violated for all nonempty groups, all nonzero coefficients, both orders of the steps and both readings of the argument of exponential: the joint posterior exists and the call never keeps it. Reason proved for both readings, every start and any number of calls: the law of tau and lambda2 is the one for the group visited last alone, the other coefficients have no influence. Right part: the draw of lambda1 keeps the joint posterior (rate reading). The violation is proved also of the sampler construct_sampler builds, in every order of visit.
  Theorems: `C61_first_group_ignored_partial`, `C61_local_draw_partial`, `C61_scale_violated`, `C61_violated`, `C61_built_violated`.

### Hierarchical models (`Verif/Hier`)

A parameter left to NUTS above a variable with a closed-form step. The conjugate finders' steps read the model's observed variable, so the graph of the step contains the model's own nodes of the latent and of its prior, and `replace_all` puts the initial value of the parameter into them in place.

* **C68** (partial) A sampler that mixes closed-form steps and NUTS targets the joint posterior.  `Hier/Lost.lean`: one replacement at a time, every variable met in the step's graph before the variable `s` is replaced keeps being met or no longer reads `s`; `Hier/Target.lean`: a density none of whose other terms reads `s` is the density of `s` times a constant. The beta-binomial model: the graph is run in the kernel (`Hier/BetaGraph.lean`), NUTS is a contract (`NutsFor`, `OneNuts`: same value for proportional densities, convergence for every density; existence proved with exact draws), `theta` then is a chain of its own (`Hier/Law.lean`) with its prior as limit, and the posterior of `theta` differs from its prior because the evidence `m(theta)` satisfies `m(theta + 1) = m(theta)` for at most one `theta` (`Hier/BetaLaw.lean`).
  Result: Proved part: if no closed-form step's graph contains an argument node that reads a model variable, the joint density read off the graph NUTS gets is the model's at all values. Refuted otherwise. For every model graph and every iteration order: if a closed-form step's graph contains r (met before a variable that comes before s), the term of r on the graph NUTS gets does not depend on s. If this is so for all children of the only NUTS variable s, its new value is the one NUTS computes for its prior density. Beta-binomial model with a random first parameter, any prior density positive on the positive numbers, all b > 0, n >= 1, y <= n, ideal NUTS: the law of the parameter tends to its prior whatever the data, and the calls neither keep the joint posterior nor reach it from any start.
  Theorems: `C68_lost`, `C68_nuts_prior`, `C68_target_partial`, `C68_violated`.
* **C69** (partial) A regression learns the standard deviations of its coefficients.  The graph (`Hier/RegGraph.lean`) meets the hypotheses of `C68_nuts_prior`: the step of the coefficients reads the model's coefficients and counts, so the standard deviations in the coefficients' own distribution are replaced in place. The posterior law of the standard deviations is their prior exactly when the probability of the data `m(sigma)` is constant (`Hier/Marginal.lean`, `Hier/RegLaw.lean`); `m` is continuous, tends to the likelihood at zero as all standard deviations tend to zero, and to zero as they grow when the likelihood does so along almost every line, which positive counts or overlapping outcomes ensure (`Hier/RegLik.lean`). The law of the coefficients' step is arbitrary in `C69_any_step_violated`. The standard deviations are a vector: a number fails earlier (C55).
  Result: Proved part: for every likelihood that is continuous, positive and bounded in the coefficients (both regressions), every prior density positive on the positive vectors and an ideal NUTS, the law of the standard deviations tends to their posterior law exactly when the probability of the data does not depend on them (true for a single binary observation). Refuted for the other data: negative-binomial regressions in which some positive count has a nonzero row of regressors, Bernoulli regressions with overlapping outcomes. The law of the standard deviations tends to their prior whatever the data, and the calls neither keep the joint posterior nor reach it from any start; this holds whatever law the step of the coefficients draws from.
  Theorems: `C69_any_step_violated`, `C69_bern_violated`, `C69_nb_violated`, `C69_scales_iff_partial`.

### Parts of a model (`Verif/Parts`)

A model with two parts is run through the loop of `construct_sampler` beside one part alone. The values of the steps are those of the returned graph (`Ev`), as in C03.

* **C70** (proved) Unrelated parts of a model do not influence each other.  Variables are coloured by the part they belong to; a variable is coloured with a part if everything it reaches is free of the other part's model variables. The loop keeps the colouring and, up to the renaming of initial values (they are numbered in the order of the outputs), the heap below the part's colour in both runs (`Parts/Color.lean`, `Parts/Lock.lean`): a replacement for a variable of the other part leaves coloured nodes alone, one for a variable of the part is done in both runs or in neither. `Parts/Marks.lean` carries values along the renaming. The run of several calls is induction with determinism of evaluation. The search (`Parts/Found.lean`): a form for which a finder answers contains the variable, so it lies in the same part; C64 says which variables are answered for.
  Result: For every splitting of a model in which no step's graph meets variables of both parts, the sampler of the whole model and the sampler of the part return the same values for the part's closed-form variables, in one call (C70_part) and in every call of a run (C70_runs). The same variables of the part are found to have a closed-form step, whatever the order of the two searches (C70_found); which of several steps for one variable is used is taken to be the same in both runs. Variables left to NUTS are outside the claim: one NUTS call moves those of all parts together.
  Theorems: `C70_part`, `C70_runs`, `C70_found`.
* **C71** (proved) A model with two unrelated parts is sampled correctly exactly when both parts are.  The values by C70, applied to either part. The kernel is the product of the two kernels; its iterates are products (`Parts/Law.lean`). The limit: setwise convergence of the factors gives setwise convergence of the product, by a Fatou lemma for setwise converging laws (layer-cake formula, infima and suprema of the tails). The joint posterior is the product of the posteriors (`bayes_prod`).
  Result: For the samplers built from the three models: the whole sampler moves the pair of states as the part samplers move theirs, and with independent random numbers it keeps (converges to) the joint posterior iff both part samplers keep (converge to) their posteriors.
  Theorems: `C71_joint`.

### CRT and dispersion (`Verif/CRT, Verif/NbReg`)

Tables are sums of Bernoulli draws; `PMF`.

* **C30** (proved) sample_CRT values are 0 for y<1 and between 1 and y otherwise.  Induction on the count.
  Result: All integer arrays (including negative entries), all h, every outcome in the support of the draws.
  Theorems: `C30_bernoulli_params_valid`, `C30_sample_CRT_range`.
* **C31** (proved) sample_CRT has the Chinese-restaurant-table law.  Law with Stirling numbers of the first kind, by generating functions.
  Result: Exact law with Stirling numbers and Gamma functions, independence of the entries, and the mean.
  Theorems: `C31_crt_independent`, `C31_crt_law`, `C31_crt_mean`.
* **C32** (partial) nbinom_dispersion_posterior draws h from its exact conditional.  The conditional of the dispersion given the tables; invariance and its exact condition by uniqueness of moments.
  Result: Exact condition: invariant iff sum log p = sum log(1-p); for the finder's call iff the entries of X beta sum to zero. Exact for the complementary probability; concrete violation with p = 1/4. Scalar dispersion, vector of observations.
  Theorems: `C32_dispersion_complement_partial`, `C32_dispersion_iff_partial`, `C32_finder_step_iff_partial`, `C32_violated`.
* **C59** (partial) One call of the negative-binomial regression sampler keeps the joint posterior of coefficients and dispersion.  A step for one coordinate keeps a joint law iff almost every conditional is kept (`Prob/JointStep.lean`); C21 and C32 give the conditionals, a proper hyperplane is a null set; joint measurability of the Polya-Gamma law in its parameters (`Prob/PGParam.lean`). Whole call with a standard deviation other than one: given the auxiliary variables the step redraws the coefficients from a law whose density the true one multiplies by `u`; `u/(1+u)` is positively correlated with `u` (`Prob/Assoc.lean`), so its mean drops for every dispersion, and the second step keeps the coefficients (`NbReg/Sweep.lean`).
  Result: All design matrices, counts and priors. Exact conditions (iff): the coefficient step keeps the joint posterior iff every prior standard deviation is 1, the dispersion step iff every column of X sums to zero, and the whole call iff both hold. Violated by a single regressor 1. The same exact condition is proved of the sampler construct_sampler builds for this graph, in every order of visit, for one call and for convergence.
  Theorems: `C59_coef_step_iff_partial`, `C59_dispersion_step_iff_partial`, `C59_posterior_exists`, `C59_sweep_iff_partial`, `C59_violated`, `C59_built_iff_partial`.
* **C65** (partial) Repeated calls of a built sampler converge to the posterior.  Doeblin's theorem (`Prob/Doeblin.lean`). Polya-Gamma step: the mean weight of new coefficients given any old ones is at least a fixed multiple of their likelihood, since `cosh sqrt(x^2+y^2) <= 2 cosh x cosh y` (`PG/Minor.lean`). Dispersion: finitely many gamma densities have a common lower bound (`CRT/Minor.lean`). The limit is unique, so the conditions of C21-C23 and C32 carry over (`Iter/Props.lean`). Samplers with several unknowns: a step all of whose laws have the same null sets converges from every start to the law it keeps (`Prob/Harris.lean`, by the transition operator on square integrable functions), and conversely a limit reached from a single start is kept; so C28, C59, C60 and C61 decide convergence (`Iter/JointProps.lean`).
  Result: Single steps: geometric convergence from every start, uniformly in start and event, for the coefficient steps of both regressions and for the dispersion step, to the law each really targets (prior standard deviations sqrt(std); complementary success probabilities); to the model's posterior exactly when (iff) every standard deviation is 1, for the finder's Bernoulli step moreover X'(2y-1)=0, and for the dispersion when sum log p = sum log(1-p). Horseshoe step: converges to the posterior from every positive start in the rate reading, from none in the library's. Negative-binomial regression with dispersion: from any one start, converges to the joint posterior iff every standard deviation is 1 and every column of X sums to 0. Horseshoe regressions and shared global parameters: from no start, whatever the data, in either reading; the shared call tends to the posterior given the last group alone (rate reading).
  Theorems: `C65_bern_converges_iff_partial`, `C65_bern_converges_partial`, `C65_bern_finder_converges_iff_partial`, `C65_dispersion_converges_iff_partial`, `C65_dispersion_converges_partial`, `C65_dispersion_violated`, `C65_horseshoe_converges_partial`, `C65_horseshoe_regression_violated`, `C65_horseshoe_scale_violated`, `C65_nbinom_converges_iff_partial`, `C65_nbinom_converges_partial`, `C65_nbinom_intercept_violated`, `C65_nbinom_joint_converges_iff_partial`, `C65_regression_violated`, `C65_shared_limit_partial`, `C65_shared_violated`.
* **C77** (proved) Equivalent descriptions of a hidden Markov model give the same hidden states.  By C33 the law of the draws is given by the joint weights of the state sequences; it is enough that the weights of one description are, up to a constant, the image of those of the other (`ffbs_map`). The weights are split after the first state (`weight_cons`) and compared by induction on the number of time points (`FFBS/Maps.lean`, `FFBS/Symm.lean`).
  Result: For all nonnegative inputs, with and without evidence: renamed and merged states, a missing observation before the last time point, an uninformative last time point, reversed time under detailed balance.
  Theorems: `C77_ffbs_forecast`, `C77_ffbs_merge`, `C77_ffbs_missing`, `C77_ffbs_relabel`, `C77_ffbs_reverse`.
* **C78** (partial) Samplers pass the simulation-based check.  For countable data the check is equivalent to invariance of the posterior for every data set of positive evidence (`calibrated_iff` in `Calib/Lemmas.lean`): compare the joint laws on sets {y} x A. The exact conditions of C12-C14, C21-C23, C32 and C59 then carry over; the data laws are independently defined product measures (`Calib/Props.lean`) or the law the graph gives to the observed variable (`Calib/Conj.lean`).
  Result: Proved for beta-binomial models. Exact conditions otherwise: gamma-Poisson iff the prior rate is 1; negative-binomial and Bernoulli-logit regression steps iff every prior standard deviation is 1 (with the model the Bernoulli finder matches, sigmoid(-X b): iff also X = 0); dispersion iff the sums of log p and log(1-p) agree; coefficients and dispersion together iff all standard deviations are 1 and every column of the design sums to 0. Violated by every beta-negative-binomial model, by every horseshoe regression with a coefficient (dispersion known or not) and by the regressions and dispersions outside these conditions. Missing: samplers with No-U-Turn parts.
  Theorems: `C78_bern_finder_iff_partial`, `C78_bern_iff_partial`, `C78_beta_binomial_partial`, `C78_beta_nbinom_violated`, `C78_dispersion_iff_partial`, `C78_dispersion_violated`, `C78_gamma_poisson_iff_partial`, `C78_horseshoe_dispersion_violated`, `C78_horseshoe_violated`, `C78_nbinom_iff_partial`, `C78_nbinom_joint_iff_partial`, `C78_regression_violated`.
* **C79** (proved) Correlations between successive draws fade the way convergence diagnostics assume.  Specification in `Rev/Spec.lean`: joint law of two draws k calls apart, covariances by Mathlib's `cov`, runs started in equilibrium. `Rev/Lemmas.lean` treats any step that draws an auxiliary value given the state and then the state given the auxiliary value: the two conditional expectations are adjoint contractions of L2, so the covariance at distance 2j is the square norm of F_j, that at 2j+1 of G_j, and differences give convexity. `Rev/DataAug.lean` shows that two conditionals of one joint density are of this kind (Tonelli on rectangles); the joint densities are those of C21, C22 (Polya-gamma) and C32 (CRT).
  Result: For the negative-binomial and Bernoulli regression steps and the dispersion step, relative to whatever law the step keeps (which is the posterior only under the conditions of C21-C23 and C32). Reversible at every distance; covariances equal to the variance at distance 0, nonnegative, nonincreasing, convex; variance of the mean of N draws between variance/N and variance. The law kept by the dispersion step is taken to live on the positive numbers. Steps that alternate more than two draws (horseshoe, coefficients with dispersion) are not covered.
  Theorems: `C79_bern_means`, `C79_bern_successive_draws`, `C79_dispersion_means`, `C79_dispersion_successive_draws`, `C79_nbinom_means`, `C79_nbinom_successive_draws`.
* **C81** (proved) Drawn hidden states react to the data in the way a posterior does.  `FFBS/Stable.lean` gives the probability of any set of outcomes as a quotient of sums of the specified weights, and the weight of a concatenated sequence; `FFBS/StableProps.lean` bounds the weights factor by factor for the perturbation bound, splits the evidence by the state at the changed time point for monotonicity, and multiplies the evidences of the two stretches when the state between them is known.
  Result: For exact real numbers and all nonnegative inputs, with and without evidence.
  Theorems: `C81_ffbs_known_state`, `C81_ffbs_monotone`, `C81_ffbs_small_changes`.
* **C82** (proved) Every draw is worth keeping.  `Rev/Keep.lean`: the pairs of values at a given distance have the same law everywhere in a run, so the k interleaved thinned means have equal variance and their mean, the mean of all draws, has no larger one. For longer runs, the sum of the entries of the covariance matrix of N + 1 values exceeds that of N values by a window sum, and window averages of nonincreasing covariances (C79) do not increase.
  Result: Relative to whatever law the step keeps (for which laws these are see C21-C23, C28, C32 and C59); the law kept by the dispersion step is taken to live on the positive numbers.
  Theorems: `C82_bern_keep`, `C82_dispersion_keep`, `C82_horseshoe_thinning`, `C82_nbinom_joint_thinning`, `C82_nbinom_keep`.
* **C83** (proved) Models that have nothing to do with each other can be sampled in one call.  `PG/Blocks.lean` splits the Polya-gamma draws, the Gaussian prior and the weight of a block-diagonal regression and joins the two conditional draws (independent draws from kernels that are defined almost everywhere); `PG/BlocksProps.lean` states the result for both regression steps. `FFBS/Stable.lean` shows that factorising weights give independent sequences, `FFBS/Product.lean` applies it to chains of pairs and to chains that forget their state.
  Result: For exact real numbers, sound linear algebra and positive prior scales and dispersions. What is compared are laws of calls; which laws these are is the subject of C21, C22 and C33.
  Theorems: `C83_bern_separate`, `C83_nbinom_separate`, `C83_ffbs_no_memory`, `C83_ffbs_separate`.
* **C84** (partial) The order in which the observations are listed does not matter.  `Track/OrderProps.lean` compares all permutations of a history of the search (the model of C04): a condition for the step, and with the laws of the conjugate steps (C05) conditions for its distribution. Violated for two observations of one latent.
  Result: Exact conditions: the step is the same in all orders exactly when all calls that answer for the variable end with the same step; its law is the same exactly when all children of the beta latent add the same to the parameters, or all counts under the gamma latent are equal. Violated otherwise, because the last step found is used and it knows one child only (C04, C05).
  Theorems: `C84_beta_iff_partial`, `C84_gamma_iff_partial`, `C84_order_violated`, `C84_step_iff_partial`.
* **C85** (partial) Hidden states can be drawn for sequences of any length without losing the weights.  `FFBS/RangeProps.lean`: an invariant of the model of the forward pass (exact real numbers, so it says in which range a floating-point computation has to work, not how it rounds), and a family of data for which the weights shrink geometrically.
  Result: Proved when from every state each observation is at least lower_prec_bound times as likely as in its best state, in particular when all transition probabilities are at least the bound; then also the divisors of the backward pass are bounded below. Violated otherwise: weights that are too small are divided by the fixed bound instead of their sum, which does not keep up when each observation costs more than the bound.
  Theorems: `C85_backward_range_partial`, `C85_forward_range_partial`, `C85_underflow_violated`.
* **C86** (partial) A constant factor of a model is neither dropped nor in the way.  `Match/Prepare.lean` models the subsumption rewrite on the trees the matchers see and composes the two; the value of a product is a separate specification. The library's canonicalisation is not modelled.
  Result: Proved part: for every graph without rewritten nodes, an accepted scale is a product of two half-Cauchy variables and constants (exactly these two when no factor is a constant), and an accepted link has its constant as a direct operand, so no other factor is ever lost. Violated: for every constant c the scale c*lambda*tau written as one product is prepared into the very graph of lambda*tau and gets its step, and the link -1*(X @ beta) with a broadcast number loses the -1 and is not recognised. Not modelled: the library's canonicalisation, which runs in the same database.
  Theorems: `C86_bern_link_partial`, `C86_constant_factor_violated`, `C86_horseshoe_no_constant_partial`, `C86_horseshoe_scale_partial`, `C86_link_violated`, `C86_nbinom_link_partial`.
* **C87** (partial) Evidence moves the draws in the right direction.  `Prob/Order.lean` defines the stochastic order (probability of exceeding each level) and proves its rules: increasing maps, mixtures over a kernel that rises, products, beta and gamma laws; `Prob/Tilt.lean` shows that multiplying a likelihood by an increasing function raises the posterior. `Conj/OrderProps.lean`, `CRT/OrderProps.lean`, `PG/OrderProps.lean` and `Horseshoe/OrderProps.lean` state the property for each sampler, as an order between the laws of the draws at two settings; where the code moves the other way the theorem has both orders, posterior and draws, and that the laws differ.
  Result: Proved for beta-binomial models, for the documented Bernoulli-logit model (an outcome turned from failure to success raises the predictor of its row), for the global scale of the horseshoe, for the dispersion in the counts, the current dispersion and both prior parameters, and for the prior parameters and counts of the gamma-Poisson and the prior parameters of the beta-negative-binomial model. Violated, strictly and for all inputs: the prior scale of a gamma-Poisson model, the observation of a beta-negative-binomial model, the success probability of the dispersion step, the model the Bernoulli finder matches (sigmoid(-X b)), and the local scales of the horseshoe with the library's reading of the exponential argument.
  Theorems: `C87_bern_finder_violated`, `C87_bern_outcome`, `C87_dispersion_partial`, `C87_dispersion_violated`, `C87_beta_binomial`, `C87_beta_nbinom_partial`, `C87_beta_nbinom_violated`, `C87_gamma_poisson_partial`, `C87_gamma_poisson_violated`, `C87_horseshoe_global`, `C87_horseshoe_local_rate_partial`, `C87_horseshoe_local_violated`.
* **C90** (proved) A run never fails in the middle.  `Fail/Prog.lean` is a small language in which every operation states when it is defined and every generator which parameters it accepts; `Fail/Model.lean` writes the samplers in it, `Fail/Laws.lean` proves that each program draws from the law of the model used everywhere else. Proof: a rule for sequences of programs and an invariant (positive state) for runs of any length. `C90_conditions_needed` shows that the language does see failures.
  Result: Exact real arithmetic; overflow and underflow are not modelled. A scale or rate of zero counts as refused. That the conditions are needed is shown by C90_conditions_needed, C90_dispersion_needed and C90_scales_needed. The linear algebra routines are taken to meet their documentation. Hidden states, whose draw can fail when the data have no evidence, are in C33 to C35.
  Theorems: `C90_bern`, `C90_conditions_needed`, `C90_dispersion`, `C90_dispersion_needed`, `C90_horseshoe`, `C90_horseshoe_bern`, `C90_horseshoe_dispersion`, `C90_horseshoe_nb`, `C90_nb`, `C90_nb_known`, `C90_scales_needed`.
* **C92** (proved) The same model gives the same sampler.  No new model. `Graph/Rename.lean` relates two object graphs by injections of variables and nodes (`CopyOf`) and shows that every helper of `construct_sampler` commutes with them, by induction over the loop and the dictionaries; `Graph/RenameProps.lean` has the theorems. `Match/Rename.lean` does the same for pattern matching by structural induction over patterns and expressions, and then for each matcher and finder. Iteration order of the Python set of variables left to NUTS and NUTS itself are hypotheses of C92_same_sampler; C92_closed_form needs neither.
  Result: construct_sampler and the preparation are equivariant under every one-to-one correspondence of graph objects (C92_same_sampler, C92_preparation), without further assumptions when no variable is left to NUTS (C92_closed_form); the relations and finders under renaming of inputs (C92_gibbs_finders, C92_conjugate_finders); copies compute the same values (C92_same_values). NUTS itself is not modelled: it is assumed to treat copies as copies.
  Theorems: `C92_conjugate_finders`, `C92_closed_form`, `C92_preparation`, `C92_same_sampler`, `C92_same_values`, `C92_gibbs_finders`.
* **C93** (proved) The data may be given when the sampler is built or when it is run.  No new model. `Graph/Data.lean` shows by induction over evaluations that a variable and its copy have the same values, and applies C92 to the correspondence that exchanges two choices of variables for the data and fixes everything that occurs in the model. Compiling the graph is not modelled; `Ev` of `Graph/Eval.lean` stands for it.
  Result: C93_data for closed-form samplers, C93_data_nuts when variables are left to NUTS. Values are those of an evaluation relation over the graph that takes the meaning of the operations as a parameter.
  Theorems: `C93_data`, `C93_data_nuts`.
* **C94** (partial) Enough draws give any accuracy with any certainty, wherever the chain starts.  No new model. `Prob/ErrorBound.lean` bounds the exponential moments of the running total of C75 by induction over the calls, with Hoeffding's lemma for one call and sums of expectations ahead, which the geometric rate of C65 bounds uniformly; `Iter/ErrorProps.lean` applies it to the steps.
  Result: Exponential bound with one rate for all starts, for every bounded quantity, with respect to the law each step really targets (C94_nbinom_partial, C94_bern_partial, C94_dispersion_partial); with respect to the model's posterior exactly when (iff) the conditions of C21-C23, C32, C13 and C14 hold, always for beta-binomial models. Violated otherwise (standard deviation 2; success probability below one half). Missing: rates for the horseshoe step and for samplers of several unknowns, for which only convergence (C75) is proved.
  Theorems: `C94_bern_iff_partial`, `C94_bern_partial`, `C94_beta_binomial`, `C94_beta_nbinom_iff_partial`, `C94_dispersion_iff_partial`, `C94_dispersion_partial`, `C94_dispersion_violated`, `C94_gamma_poisson_iff_partial`, `C94_nbinom_iff_partial`, `C94_nbinom_partial`, `C94_regression_violated`.
* **C95** (partial) Credible limits computed from the draws become those of the posterior.  No new model. `Prob/Quantiles.lean`: quantiles exist, and are unique for a law without gaps; counting the draws below each rational number (C75) squeezes the sample quantiles. A quantity continuous on a connected open set over which the posterior spreads its mass leaves no gap (intermediate value theorem). Quantiles determine the law, and the laws of all linear predictors determine the law of the coefficients (characteristic functions), which gives the exact conditions in `Iter/QuantileProps.lean`.
  Result: For every continuous quantity, with respect to the law each step really targets (C95_nbinom_partial, C95_bern_partial, C95_dispersion_partial); with respect to the model's posterior exactly when (iff, for all linear predictors, the dispersion, the rate or the probability) the conditions of C21-C23, C32, C13 and C14 hold, always for beta-binomial models, for the horseshoe step in the rate reading with nonzero coefficients, and for the negative-binomial regression with unknown dispersion when all standard deviations are one and the columns of the design sum to zero. Violated otherwise (standard deviation 2; success probability below one half). Missing: what the quantiles do for the horseshoe step in the library's reading and for joint samplers that keep no known law.
  Theorems: `C95_bern_iff_partial`, `C95_bern_partial`, `C95_beta_binomial`, `C95_beta_nbinom_iff_partial`, `C95_dispersion_iff_partial`, `C95_dispersion_partial`, `C95_dispersion_violated`, `C95_gamma_poisson_iff_partial`, `C95_horseshoe_partial`, `C95_nbinom_iff_partial`, `C95_nbinom_joint_partial`, `C95_nbinom_partial`, `C95_regression_violated`.
* **C96** (partial) Thinned runs and estimated autocorrelations are right.  No new model. `Prob/LagRuns.lean`: since the laws of repeated calls converge (C65), an event about the whole run that does not change when k draws are dropped has the same probability from every start, hence is independent of any number of first draws, hence has probability 0 or 1. So dropping k draws is ergodic for the run in equilibrium, Birkhoff's theorem (`Prob/Birkhoff.lean`) applies to every k-th pair of draws, and the event that the averages converge has probability one from every start. Estimated autocovariances follow by algebra; their shape is C79. Limits from one run identify the law, which gives the iff conditions.
  Result: With respect to the law each step really targets, for all pairs of draws and all thinnings (C96_nbinom_partial, C96_bern_partial, C96_dispersion_partial, with limits of the estimated autocovariances that are nonnegative, decreasing and convex; C96_horseshoe_partial in the rate reading); with respect to the model's posterior exactly when (iff, for each single thinning and start) the conditions of C21-C23, C32, C13 and C14 hold, always for beta-binomial models, and for the negative-binomial regression with unknown dispersion when all standard deviations are one and the columns of the design sum to zero. Violated otherwise (standard deviation 2; success probability below one half; horseshoe step in the library's reading). Missing: what pairs of draws do in joint samplers that keep no known law.
  Theorems: `C96_bern_iff_partial`, `C96_bern_partial`, `C96_beta_binomial`, `C96_beta_nbinom_iff_partial`, `C96_dispersion_iff_partial`, `C96_dispersion_partial`, `C96_dispersion_violated`, `C96_gamma_poisson_iff_partial`, `C96_horseshoe_partial`, `C96_horseshoe_scale_violated`, `C96_nbinom_iff_partial`, `C96_nbinom_joint_iff_partial`, `C96_nbinom_partial`, `C96_regression_violated`.
* **C97** (proved) Hidden states drawn by forward filtering and backward sampling hardly depend on what lies far away.  No new model. `FFBS/Forget.lean`: with the state before the first time point fixed, the probabilities of a set of later states are averages of those one step on, with weights proportional to transition weights times what is common to all starts; when the transition weights are within a factor of each other (column by column) these averages share a part of mass at least delta, so they are closer by the factor 1 - delta (`contract`, free of division so that impossible data need no case). Induction over the positions, forwards from the start and backwards from the end; initial weights are mixtures of fixed states (`mix_le`). `FFBS/ForgetProps.lean` states this for the laws returned by the step.
  Result: For the modelled step with exact arithmetic: the start (C97_ffbs_start_forgotten), everything before a common stretch (C97_ffbs_past_forgotten), data that arrive later (C97_ffbs_future_forgotten), with rates in terms of the entries of the transition matrices, and the case with no forgetting at all (C97_ffbs_rigid_remembers).
  Theorems: `C97_ffbs_future_forgotten`, `C97_ffbs_past_forgotten`, `C97_ffbs_rigid_remembers`, `C97_ffbs_start_forgotten`.
* **C98** (partial) With enough data the draws settle on the true value.  No new model. `Prob/Settle.lean`: second moments of beta and normal laws around any point, Chebyshev, and the mean and variance of the binomial law (from Bernstein polynomials). `Conj/SettleProps.lean` applies them to the laws of the conjugate steps; `Mvn/SettleProps.lean` writes the mean of the draws as an affine function of the noise in the data and bounds bias and both variances by the diagonal of the inverse of the total information.
  Result: Proportions (C98_beta_binomial_settles) and regression coefficients with normal observations (C98_normal_regression_settles, for every reading of the prior scales), with explicit bounds averaged over the data. The negative-binomial step settles on the complement of the true probability, hence on the truth exactly when it is one half (C98_beta_nbinom_settles_iff_partial); witness with true value 1/4 and draws settling on 3/4 (C98_beta_nbinom_settles_violated).
  Theorems: `C98_normal_regression_settles`, `C98_beta_binomial_settles`, `C98_beta_nbinom_settles_iff_partial`, `C98_beta_nbinom_settles_violated`.
* **C99** (partial) Equivalent sets of regressors give the same fitted regression.  No new model. The step is Bayes rule under the prior N(0, diag(std)) given auxiliary weights that depend on the coefficients only through the fitted values; a linear map S of the coefficients carries it to the step for the other design when S diag(std) S^T is the other prior covariance (`pgStep_linear'`, rectangular S). Orthonormal S within groups of equal std: holds. Adding the coefficients of repeated regressors gives the step with std the *sums* of the stds, which by C25 and injectivity of the normal laws differs from the wanted one unless no regressor is repeated.
  Result: Rotations proved for all three regressions (C99_nbinom_rotation, C99_bern_rotation, C99_regression_rotation). Repeated regressors refuted: for all data the sums are drawn as by the merged regression iff no regressor is repeated (C99_*_merge_iff_partial, C99_merge_violated), because the prior's standard deviations are used as variances.
  Theorems: `C99_bern_merge_iff_partial`, `C99_bern_rotation`, `C99_merge_violated`, `C99_nbinom_merge_iff_partial`, `C99_nbinom_rotation`, `C99_regression_merge_iff_partial`, `C99_regression_rotation`.
* **C100** (proved) Counts observed under the same conditions can be added up.  No new model. Given the auxiliary weights the step is Bayes rule with a density that depends on the weights of observations with equal regressors only through their sum; the sums of independent PG(b_i, c) are independent PG(sum b_i, c), proved from the Laplace transform cosh(c/2)^b / cosh(sqrt(c^2+2s)/2)^b and the fact, proved in `Prob/Laplace.lean`, that laws of nonnegative vectors are determined by their Laplace transforms at whole arguments.
  Result: For the steps with the Polya-gamma generator taken to draw from its law and exact linear algebra: C100_nbinom_pool, C100_bern_failures, C100_regression_pool.
  Theorems: `C100_bern_failures`, `C100_nbinom_pool`, `C100_regression_pool`.
* **C101** (partial) Rounding the current values hardly changes the next draws.  No new model. `Prob/Near.lean` defines the distance of two laws as the largest difference of the expectations of functions with values in [0,1] and shows that it does not grow under further draws, adds up over independent draws and over the stages of a step. For two Polya-Gamma draws with tilts c, c' the ratio of the densities is at least exp(-b|c-c'|/2) (ratio of the cosh terms), for two gamma draws it is at least (r/r')^a, for two table counts at least (h/h')^(sum y); each gives the distance. For prior scales (`PG/ScaleProps.lean`) two normal draws with the same solved vector are compared: a precision matrix larger by at most the factor e^eta has a normalising constant larger by at most e^(p eta/2), and the exponents differ by at most eta times the quadratic form of the inverse, which is at most that of the prior alone. The steps combine these.
  Result: Proved with explicit factors for the coefficient steps (C101_nbinom, C101_bern), the dispersion step (C101_dispersion), the horseshoe step in both readings of the exponential draw (C101_horseshoe), for the coefficients in the sampler that draws coefficients and dispersion together (C101_joint_partial), and for the samplers that combine a regression with a horseshoe prior (C101_nbinom_horseshoe_partial, C101_bern_horseshoe_partial; where both old shrinkage parameters are read as prior scales, their changes are covered by C101_nbinom_horseshoe_old, C101_bern_horseshoe_old). Changes of the given prior scales are covered by C101_nbinom_scales, C101_bern_scales. Missing: changes of the dispersion in the coefficient step, where it is the shape of the Polya-Gamma draw, and a factor known in advance for changes of one old shrinkage parameter that is read together with a new one (that their effect vanishes with the change is C101_nbinom_horseshoe_reads_partial, C101_bern_horseshoe_reads_partial). Exact arithmetic inside the step; only the inputs are rounded.
  Theorems: `C101_bern`, `C101_bern_scales`, `C101_nbinom`, `C101_nbinom_scales`, `C101_dispersion`, `C101_horseshoe`, `C101_bern_horseshoe_old`, `C101_bern_horseshoe_partial`, `C101_bern_horseshoe_reads_partial`, `C101_nbinom_horseshoe_old`, `C101_nbinom_horseshoe_partial`, `C101_nbinom_horseshoe_reads_partial`, `C101_joint_partial`.
* **C102** (proved) A change of the observations moves every draw by the change of the fit.  No new model. Both algorithms are affine in the random numbers with a linear part that does not contain the observations, and with all random numbers zero they return the mean of C17 and C18. That this mean is the only minimiser of the penalised sum of squares is proved by completing the square (`Mvn/FitProps.lean`).
  Result: Same random numbers: C102_overdetermined and C102_underdetermined for the two algorithms; laws of normal_regression_posterior: C102_regression. The fit is specified as the minimiser of the penalised sum of squares with the precisions and lmbdatau_inv as weights. Exact linear algebra.
  Theorems: `C102_overdetermined`, `C102_regression`, `C102_underdetermined`.
* **C103** (proved) More evidence never makes regression draws more spread out.  No new model. The variance of c.beta under N(m, Q^-1) is c.Q^-1 c; with u = Q'^-1 c, expanding (Q^-1 c - u).Q(Q^-1 c - u) >= 0 bounds c.Q'^-1 c + u.(Q'-Q)u by c.Q^-1 c, and the quadratic form of Q'-Q is a sum of squares with nonnegative weights, one of them that of the added observation (`Mvn/SpreadProps.lean`).
  Result: C103_regression, for normal_regression_posterior with either algorithm, exact linear algebra; the strict decrease at an added observation is included. lmbdatau_inv is the prior weight.
  Theorems: `C103_regression`.
* **C91** (partial) Without evidence the draws follow the prior.  No new model. `NoData/Props.lean`: the regression steps with zero regressors reduce to no observations by C72, and the multivariate normal law is then compared with the prior (equal exactly if all standard deviations are one); the dispersion step without counts and the beta-binomial step are computed; for hidden states, `C33` with constant log-likelihoods, the total of the chain's probabilities being one by induction on the length.
  Result: Holds for the dispersion, beta-binomial and hidden-state steps. Violated by both regression steps, which draw coefficients with variance std instead of std squared: the prior exactly if all standard deviations are one (C91_..._iff_partial, C91_regression_violated).
  Theorems: `C91_bern_iff_partial`, `C91_beta_binomial`, `C91_dispersion`, `C91_ffbs`, `C91_nbinom_iff_partial`, `C91_regression_violated`.
* **C80** (partial) Several sets of counts can be given at once.  `CRT/BatchModel.lean` models ravel, scan, reshape, the sum over the last axis, the gamma draws entry by entry, and NumPy broadcasting with an exception as `none`. Proof: the scan over concatenated rows is the independent combination of the scans over the rows (`expect_rows`, by induction on the rows), so the law agrees with the product on rectangles.
  Result: Proved for one current dispersion, for counts in arrays of any number of dimensions. With a vector of two or more current dispersions the call returns only if every count is one more than their number (or 2, where vectors of length one are stretched), because the table probabilities are broadcast against the numbers 2, ..., y; otherwise it raises. Violated: it raises whenever a count is 0, and where it returns the tables of a row depend on the dispersions of the others. Where it returns and the dispersions are all equal the result is right (C80_vector_equal_partial).
  Theorems: `C80_rows_independent_partial`, `C80_vector_equal_partial`, `C80_vector_raises_violated`, `C80_vector_returns_iff_partial`, `C80_vector_tables_violated`.
* **C76** (partial) Data that arrive in batches can be used one batch after the other.  Induction over the batches: the step found for a batch is again a beta (gamma) node with known parameters (Conj, C13-C16), so the finder applies to the next batch; the parameters after all batches are compared with those of the exact posterior, which determine the law (`Track/Batches.lean`). For gamma priors the scale goes through c -> 1/(c+1), whose values stay below 1 while the exact rate grows.
  Result: Proved for binomial batches. With negative-binomial batches among them the last step is right iff the counts of these batches add up to the sum of their numbers of successes. Gamma prior with rate b and Poisson batches: right iff there is no batch, or one batch and b = 1; with two or more batches never, because each step adds one to the scale instead of the rate. Violated by concrete batches of both kinds.
  Theorems: `C76_beta_batches_iff_partial`, `C76_beta_binomial_batches`, `C76_beta_nbinom_violated`, `C76_gamma_batches_iff_partial`, `C76_gamma_violated`.
* **C75** (partial) Averages over the draws estimate posterior expectations.  Law of large numbers for dependent draws (`Prob/Averages.lean`): the second moment of the running total is computed by recursion, and the mixed terms are small on average because the laws of the later values converge event by event (C65). Needs only a bound on the second moment of one draw, which holds for normal, gamma and beta draws (`Prob/Moments.lean`). Conversely, if averages from one start converge to expectations under a law, the step keeps that law (`Prob/AveragesConv.lean`), so the conditions of C21-C23, C28, C32, C59-C61 decide (`Iter/AverageProps.lean`). Strong form: a run is any random sequence whose next value given the previous ones is a draw of the step from the last one (`Prob/Paths.lean`, with existence by Ionescu-Tulcea and uniqueness of the law). The shift is ergodic because the laws converge, so a maximal-inequality proof of Birkhoff's theorem (`Prob/Birkhoff.lean`) and a zero-one law carry the averages over to every start (`Prob/StrongLaw.lean`, `Prob/StrongRuns.lean`, `Iter/StrongProps.lean`).
  Result: Convergence of averages in probability and along single runs with probability one. Proved part: with probability one the averages of every function with an expectation converge (in probability also those of bounded functions and of every coefficient and dispersion), from every start, to expectations under the law each step really targets (C65), and to posterior expectations exactly when (iff, from any one start) the conditions of C21-C23, C32 and C59 hold; horseshoe step in the rate reading; draws from the beta-binomial posterior. Violated from every start otherwise: regressions with standard deviation 2, dispersion with success probability below one half, the horseshoe step in the library's reading, designs with an intercept, horseshoe regressions, shared global parameters; the averages of gamma-Poisson and beta-negative-binomial draws converge to the posterior mean iff the prior rate is 1, resp. the count equals the number of successes.
  Theorems: `C75_bern_averages_iff_partial`, `C75_bern_averages_partial`, `C75_bern_finder_averages_iff_partial`, `C75_bern_strong_iff_partial`, `C75_bern_strong_partial`, `C75_beta_binomial_averages_partial`, `C75_beta_binomial_strong_partial`, `C75_beta_nbinom_average_iff_partial`, `C75_beta_nbinom_strong_iff_partial`, `C75_conjugate_violated`, `C75_dispersion_averages_iff_partial`, `C75_dispersion_averages_partial`, `C75_dispersion_strong_iff_partial`, `C75_dispersion_strong_violated`, `C75_dispersion_violated`, `C75_gamma_poisson_average_iff_partial`, `C75_gamma_poisson_strong_iff_partial`, `C75_horseshoe_averages_partial`, `C75_horseshoe_regression_strong_violated`, `C75_horseshoe_regression_violated`, `C75_horseshoe_scale_strong_violated`, `C75_horseshoe_scale_violated`, `C75_horseshoe_strong_partial`, `C75_nbinom_averages_iff_partial`, `C75_nbinom_averages_partial`, `C75_nbinom_intercept_strong_violated`, `C75_nbinom_intercept_violated`, `C75_nbinom_joint_averages_iff_partial`, `C75_nbinom_joint_strong_iff_partial`, `C75_nbinom_strong_iff_partial`, `C75_nbinom_strong_partial`, `C75_regression_strong_violated`, `C75_regression_violated`, `C75_shared_strong_violated`, `C75_shared_violated`.

### FFBS (`Verif/FFBS`)

Forward recursion and backward recursion over lists, exact reals, `nan` is `none`, no batch dimensions.

* **C33** (proved) FFBS samples state sequences from the exact smoothing posterior.  Induction on the length: filtering weights, then the law of the backward draws.
  Result: All M, N >= 1, nonnegative initial weights and transition matrices, log-likelihoods including -inf, any precision bound, exact real arithmetic, no batch dimensions.
  Theorems: `C33_ffbs_broadcast`, `C33_ffbs_smoothing`.
* **C34** (proved) FFBS is insensitive to rescaling.  Invariance of each normalised vector.
  Result: All three rescalings at once, for all nonnegative inputs including zero evidence.
  Theorems: `C34_ffbs_rescaling`.
* **C35** (proved) FFBS output has one state in range per time point and never uses an impossible transition.  Support of the law.
  Result: Length, range and positive weight of every outcome in the support; zero evidence gives no sample.
  Theorems: `C35_ffbs_support`, `C35_ffbs_zero_evidence`, `C35_positive_weight_possible`.

### Transforms (`Verif/Trans`)

Relations as functions on expressions (forward direction; Elemwise inserts no DimShuffles, dtypes of constants ignored).

* **C36** (proved) location_scale_transform preserves the distribution.  Push-forward of the standard law under an affine map, for each family.
  Result: All five families, all location and scale expressions, every environment with a positive scale; the densities are shown to be probability laws, and the normal and Cauchy ones to be Mathlib's.
  Theorems: `C36_laws_standard`, `C36_location_scale_law`.
* **C37** (partial) location_scale_transform rewrites exactly the listed families.  The relation is a function on expressions; iff.
  Result: Exact on the five two-parameter families, for all well-formed expressions; violated for the listed family t: no t variable of the library is ever rewritten, because it has three parameters.
  Theorems: `C37_families_partial`, `C37_t_never_rewritten_violated`.
* **C38** (partial) location_scale_transform keeps independent components independent.  Joint law of the components.
  Result: Proved for every non-empty size; violated for every two-parameter family whenever no size was given and there are at least two components, because one noise draw is shared.
  Theorems: `C38_independent_partial`, `C38_shared_noise_violated`.
* **C39** (partial) invgamma_exponential preserves the distribution.  Both readings of `exponential`.
  Result: Right for all c > 0 if exponential takes a rate; the library's exponential takes a scale, and then the laws agree iff c = 1 (concrete violation c = 2).
  Theorems: `C39_invgamma_iff_partial`, `C39_invgamma_only_partial`, `C39_scale_violated`.

### Rewriting (`Verif/Subs`)

Tensors are functions from index tuples; variables are trees; shared-variable inputs of inner graphs are not modelled.

* **C40** (proved) Subsuming and re-expanding DimShuffles preserves the computed value.  Splitting a dimension order; evaluation of the inner graph.
  Result: All trees, ranks, orders (including dropped dimensions and negative slices), interpretations; node, inlined node, inlining after substitution, and the two whole-graph passes.
  Theorems: `C40_inline_value`, `C40_passes_value`, `C40_roundtrip_value`, `C40_subsume_value`.
* **C41** (partial) Subsumption exposes the un-broadcast input and fires only on left-padding broadcasts.  iff, with the exposed input.
  Result: Exact (iff and what is exposed) when no input is a DimShuffle of a variable of higher rank than the node; violated for dropped dimensions, where a negative slice bound makes the rewrite fire without any padding (concrete witness).
  Theorems: `C41_drop_violated`, `C41_exposes_partial`, `C41_only_elemwise_partial`.
* **C42** (proved) remove_constants keeps exactly the non-constant inputs in order.  Lists.
  Result: All input lists; the kernel made from the result computes the graph and mentions no variable.
  Theorems: `C42_kernel`, `C42_remove_constants`.

### Utilities (`Verif/Info, Verif/Prior`)

Dictionaries with errors as values; variables compared by identity; sets iterate in any order.  The ancestors list and
the meaning of `scan` are the library's; the `updates` field of `ModelInfo` is left out.

* **C43** (partial) ModelInfo splits variables into observed and unobserved consistently.  Case analysis of `__post_init__`.
  Result: Everything but 'exactly once' for all arguments; exactly once iff no observed variable is given twice; violated by a duplicated observed variable, which is accepted.
  Theorems: `C43_duplicate_violated`, `C43_exactly_once_partial`, `C43_split_partial`.
* **C44** (proved) ModelInfo accepts exactly uniquely and non-emptily named models.  iff, and the bijection between names and variables.
  Result: All dictionaries, name assignments and set iteration orders; the three error branches and the bijection.
  Theorems: `C44_accepts`, `C44_names_bijection`.
* **C45** (partial) ModelInfo.values_to_rvs inverts rvs_to_values.  iff.
  Result: Inverse iff the value variables are distinct; violated by two variables sharing a value variable, which is accepted.
  Theorems: `C45_inverse_iff_partial`, `C45_shared_value_violated`.
* **C46** (partial) get_rv_updates returns an update for exactly the RNGs the variables depend on.  Loop invariant over the ancestors.
  Result: Exact for all graphs and streams; violated for models in which an RNG ancestor is not a shared variable: AttributeError although no two updates differ.
  Theorems: `C46_exact_partial`, `C46_nonshared_violated`, `C46_shared_partial`.
* **C47** (partial) sample_prior draws successive samples with successive RNG states.  Induction on the number of samples.
  Result: All graphs, numbers of samples and states; every RNG is advanced if it has an update; violated otherwise (e.g. variables created without a stream): all samples are identical.
  Theorems: `C47_advanced_partial`, `C47_no_update_violated`, `C47_samples_partial`.
* **C74** (proved) Prior samples are independent draws from the joint prior.  By C47 sample `i` is computed with the `i`-th generator states; by induction on the number of steps those are the tails of the streams, so sample `i` is one fixed function of the `i`-th noises. Every random variable has its own generator, so its noises are independent; the rest is the product measure (`Prior/Law.lean`).
  Result: The probability that each of n samples lies in a given event is the product of the prior probabilities of the events, the prior being the law of the values when every random variable is drawn with noise of its own; a second call continues the first. A generator is idealised as a stream of independent noises, one per draw. Models that share or chain generators, or use generators without updates, are not built with a stream in this sense (see C46, C47).
  Theorems: `C74_independent_prior_draws`, `C74_resume`.

### Shapes (`Verif/Shapes`)

Every array replaced by its shape.  Broadcasting and `matmul` as in NumPy.  A failure happens either while the graph is
built (wrong number of dimensions) or when it runs (wrong sizes).

* **C55** (partial) A Gibbs step returns an array of the shape of the variable it updates.  Each posterior function line by line on shapes; the exact conditions under which it returns, and returns the right shape; witnesses on graphs the finders accept.
  Result: Exact conditions (iff) for every shape of prior scale, shrinkage and dispersion parameters. Violated on accepted models: a scalar prior scale makes the step impossible to build, a length-one scale fails with fewer rows than columns, a shared lambda or a size-one dispersion changes shape, replicated responses never give the right shape.
  Theorems: `C55_bern_step_partial`, `C55_dispersion_step_partial`, `C55_horseshoe_step_partial`, `C55_nbinom_step_partial`, `C55_rue2005`, `C55_violated`.
* **C56** (partial) FFBS treats leading dimensions as separate sequences.  The same for `ffbs_step`; for as many sequences as states, the values of the weights too.
  Result: Documented base shapes give one state per time point; for batches the result has the right shape iff there are as many sequences as states. Violated: other batch sizes fail or return one column per state, and with as many sequences as states the sampling weights mix sequences and are not probabilities; the forward pass keeps the sequences apart, up to a factor each, as long as no total is below the bound, and otherwise the small total of one changes the weights of another.
  Theorems: `C56_batch_shape_partial`, `C56_forward_rows_partial`, `C56_forward_violated`, `C56_initial_violated`, `C56_single_sequence_partial`, `C56_violated`.

### NUTS wiring (`Verif/Nuts`)

The kernel and the log density are arbitrary functions; a variable of the graph has a value, that of a random variable
being its draw.  AePPL's transforms are instances of the lawful transforms.

* **C48** (partial) NUTS step returns each variable in its own support and space.  Every variable's own transforms and block; supports by the laws of the transforms.
  Result: Wiring exact for all variable sets, shapes, transforms and length-preserving kernels; AePPL's default transforms are shown lawful. Supports are kept if no parameter depends on a random variable; violated otherwise: Uniform(0, theta) with theta sampled uses theta's draw instead of its value (concrete witness).
  Theorems: `C48_fixed_partial`, `C48_support_partial`, `C48_support_violated`, `C48_wiring`.
* **C49** (proved) NUTS step never mixes up parameters when flattening.  Lists of blocks.
  Result: All lists of shapes including empty and scalar ones, both directions, every position, and the error for short vectors.
  Theorems: `C49_blocks`, `C49_roundtrip`, `C49_short`.
* **C50** (proved) NUTS Sampler components are mapped to the right outputs.  Indices of outputs.
  Result: All numbers of variables and updates; that the update outputs are also paired with the right generators is C11.
  Theorems: `C50_outputs`, `C50_step`.
* **C54** (partial) The NUTS step keeps the posterior in the original space.  The step on flat vectors, then the change of variables: one-dimensional by Jacobian, products by induction, joint with the realised values by Tonelli. Then once more for transforms of whole variables (`BlockSpec.lean`): the simplex by the determinant of its Jacobian (`Prob/Simplex.lean`), the circle by folding the transformed space by a countable group of translations (`Prob/Quotient.lean`), and any mix of variables by a measure preserving split of the flat position (`Prob/Blocks.lean`). The kernel and AePPL's log density enter as contracts (`KeepsTargets`, `KeepsShifts`, `transformedLog`, `blockLog`).
  Result: All variable sets, shapes, positive densities, realised values, draws and target-keeping kernels, for every default transform with parameters that are not random: none, log, log odds, interval, lower bound, circle, simplex (C54_transforms shows that each is a change of variables). For the circle the log density in the transformed space is periodic, so not that of a law; there the kernel must also keep measures with such densities and commute with translations. Violated when a bound is a random variable: with Uniform(0, theta), theta realised as 1 and drawn as 4, every x in (0,1) moves to 4 - x under a kernel that keeps every target.
  Theorems: `C54_blocks_partial`, `C54_invariant_partial`, `C54_transforms`, `C54_violated`.

### Version (`Verif/Ver`)

Strings are lists of characters, ASCII digits; in the lookup model git is represented by what `run_command`
returns for each call, as a function of the directory it is called in; `Run` adds `run_command` itself on bytes. The pieces model (C51, C52) strips nothing, the lookup model does.

* **C51** (partial) Package version strings are well formed.  Case analysis of the pieces; digits by `Nat.toDigits`. `Ver/Styles.lean` has a grammar of version identifiers as a separate spec (no epochs, no pre-releases) and derives every pep440 style from it when the tag is a release.
  Result: Exact for all tags, distances, hashes; every style but pep440-pre is total, and the tags on which pep440-pre raises ValueError are characterised (violated, e.g. tag 1.0.post1rc). With a release tag or none every pep440 style renders a PEP 440 identifier (separate grammar), and every style but pep440-pre shows uncommitted changes.
  Theorems: `C51_dirty_shown`, `C51_dirty_shown_violated`, `C51_pep440_tagged`, `C51_pep440_untagged`, `C51_pre_partial`, `C51_pre_violated`, `C51_styles`, `C51_total_partial`.
* **C52** (partial) git-describe output is parsed back to what git printed.  The regular expression as a greedy matcher; soundness and completeness.
  Result: Parsing is exact in both directions for all tags, prefixes, distances and hashes; rendering back gives git's text without the prefix, so it differs for the configured prefix v, and for untagged commits when git abbreviates to another length than seven.
  Theorems: `C52_bad_prefix`, `C52_hash_violated`, `C52_parse_tagged`, `C52_parse_untagged`, `C52_prefix_violated`, `C52_render_back_partial`, `C52_sound`.
* **C62** (partial) A source archive reports the version its commit was tagged with.  The text `git archive` writes is stated by a spec printer; splitting inverts it, merge sort gives the least name.
  Result: Exact for all sets of references that the expanded text separates: the version is the first in code point order of the suitable names, with revision and date, whatever git or the path say; a release is preferred to its candidates. Violated: a branch named like a version is reported for every commit without tags; of v1.0 and v1.1 the older is reported; tags with a comma or with a parenthesis at the end of the list are cut.
  Theorems: `C62_archive_partial`, `C62_branch_violated`, `C62_newest_violated`, `C62_release_first`, `C62_tag_partial`, `C62_text_violated`.
* **C63** (partial) Importing always gives a version, and it is the one of the package.  Exceptions are values; paths are stated by their components, git by what each call returns; case analysis of the chain.
  Result: The fallback order is exact for all directories; when git describes the tree the result and the exact conditions (iff) for each exception are proved for tagged and untagged trees. Violated: a release unpacked inside any other repository with a version tag reports that repository's version; the import raises TypeError when git cannot count commits, AttributeError or IndexError when it gives no date. What the keywords of an archive do, and when they stop the import, is exact as well (C63_keywords). Output of git describe that git does not print is covered by C52 only.
  Theorems: `C63_fallback_partial`, `C63_foreign_violated`, `C63_keywords`, `C63_raises_violated`, `C63_tagged_partial`, `C63_untagged_partial`.
* **C88** (partial) The version does not depend on how git is installed or what it prints around its answers.  `Run`: starting a command is a function of directory, arguments and command; bytes are decoded as UTF-8; the calls in their order. Refinement to the model of C63 when every call is answered; lemmas on the encoding for the blanks.
  Result: For every machine: tagged and untagged trees are reported as git prints them on both platforms, with any blanks around the bytes; a missing, unstartable or failing git leads to the name of the directory; and a UnicodeDecodeError leaves the import only if an answer is not UTF-8. Violated: an answer that is not UTF-8, such as a branch named in Latin-1, makes the import raise, though the version does not depend on the branch, and even if git reports failure. The pattern for tags that git gets on Windows is taken as it is; what git makes of it is not modelled.
  Theorems: `C88_fallback`, `C88_tagged_partial`, `C88_unreadable_only`, `C88_unreadable_violated`, `C88_untagged_partial`.
* **C89** (partial) A build tool reads from the version file what the package itself says.  `KeywordFile`: the regular expression and the loop over the lines of the text of the file; induction on lines and characters.
  Result: Exact for every text between the quotes that has no line break, quotes included: the last assignment counts, other lines do not, and the keywords of an archive are those of C62; a file whose last line has no line end and a file that cannot be decoded are covered by C89_file_end. Violated: a date after lines about a signature is not read. That importing the file gives the texts between the quotes is Python's rule for string literals and is not modelled.
  Theorems: `C89_file_end`, `C89_keyword_partial`, `C89_no_file`, `C89_same_keywords`, `C89_signature_violated`.

## Where the code and the properties disagree

Each item has a theorem ending in `_violated` or an exact `iff` theorem.

* C03, C07: steps that share a node are edited in place by later replacements, so a step can read new values where it
  should read old ones, and a term can drop out of the density given to NUTS.
* C53: with such a shared node, steps that each keep a law can together change it; the library's own horseshoe regressions are such a case, even with exact steps.
* C05: with two observed children only the child visited last enters the closed-form step; a child without a finder never does. Likewise coefficients shared by two regressions are updated from one of them only (PG/Siblings.lean).
* C10: kernels found interleaved, and NUTS variables listed first, are not in scan order.
* C11: generators and update outputs are paired by position; the library's traversal lists them in another order.
* C13: the gamma node stores `1/rate`; the relation adds 1 to it and passes it as a rate.
* C14: posterior parameters of the beta are swapped.
* C16: a scalar latent with vector data gets a vector posterior.
* C20-C22: standard deviations are used as variances.
* C23: the finder matches `sigmoid(-X beta)`, the step targets `sigmoid(X beta)`.
* C24: vector constants with some entry -1 are accepted; a 0-d constant raises `TypeError`, a non-constant `AttributeError`.
* C25, C27: means and half-Cauchy scales are not checked. The steps built are right exactly for the zero mean normal of C25_*_prior_iff_partial and the standard horseshoe of C27_any_prior_iff_partial, so any other accepted prior is sampled wrongly.
* C28, C39: `exponential` is given a rate where the library takes a scale.
* C32: the dispersion step uses the probability where its complement is needed.
* C37: `t` has three parameters and never matches.
* C38: without a size one noise draw is shared by all components.
* C41: a negative slice bound makes the rewrite fire for dropped dimensions.
* C43, C45: duplicated observed variables and shared value variables are accepted.
* C46, C47: non-shared generators raise `AttributeError`; generators without update give identical samples.
* C48, C54: the default transforms use the draws of parent variables instead of their values.
* C55: a scalar prior scale makes the regression steps impossible to build (`A.shape[0]`, `A_inv[:, None]`); a length-one
  scale fails for `n < p` (`phi @ y1`); `horseshoe_posterior` changes the shape of a shared `lambda`; the dispersion step
  changes the shape of a non-scalar dispersion; replicated responses are not supported although the finders accept them.
* C84: with two observed children of one latent, the one listed later decides what the latent's step draws from.
* C85: forward weights below the precision bound are divided by the bound, not by their sum; when each observation is less
  likely than the bound in the states that are possible, relative to its best state, they vanish after enough time points.
* C86: preparing the graph removes constant operands of broadcasting products, and the matchers look at the operands that are
  left: coefficients with the scale `c * lambda * tau`, written as one product of three, get the step for `lambda * tau`, and
  the link `-1 * (X @ beta)` is not recognised although `-(X @ beta)` is.
* C87: draws move against the evidence in five places: gamma-Poisson in the prior scale (conjugates.py adds one to the scale), beta-negative-binomial in the observation (the two updates are exchanged), the dispersion step in the success probability, the Bernoulli regression the finder matches (a success lowers the drawn probability of success), and the local scales of the horseshoe (the library reads the argument of `exponential` as a scale).
* C88: `run_command` decodes before it looks at the return code and nothing catches the error; a branch name that is not
  UTF-8 makes the import fail.
* C91: without observations the regression steps draw coefficients with variance `std` instead of `std ** 2` (the cause is that
  of C20).
* C94: the averages of coefficients with prior standard deviation other than 1, of the step of the Bernoulli finder, of dispersions with success probabilities off balance and of gamma-Poisson and beta-negative-binomial draws have exponentially small errors with respect to another law than the posterior, and none with respect to the posterior (C94_regression_violated, C94_dispersion_violated, C94_*_iff_partial).
* C95: credible limits of a coefficient with prior standard deviation other than 1 and of dispersions with success probabilities off balance converge to those of another posterior.
* C96: thinned averages have the same wrong limits as those of the whole run in the cases of C75; no thinning repairs them.
* C98: the negative-binomial step settles on one minus the true probability.
* C99: a regressor listed twice is not drawn like the same regressor listed once with the prior variance of the sum (prior standard deviations are used as variances).
* C89: the date of a signed commit, which has line breaks before it, is missed by the search line by line.
* C56: leading dimensions fail or mix the sequences (`.T` reverses all dimensions, sums are aligned with the wrong one).
* C57: a latent entry with several observations (a scalar latent, vector data) gets one independent draw per observation,
  each using that observation only.
* C58: the gamma shape of the global draw counts `beta.shape[0]`, not the entries of `beta`.
* C59: the joint sampler inherits C21 and C32; the sign error of C32 cancels only for centred regressors.
* C60: with a horseshoe prior the standard deviations are almost surely not one, so by C20-C22 the coefficient step is
  wrong for every data set; the whole call is wrong too, also when `exponential` is given its argument as a rate.
* C60, C66: moreover the step of `lambda` reads the coefficients, so putting it together edits the node `lambda * tau` that
  the coefficients and their step share: in every order of visit the coefficients are drawn with the old `lambda` and `tau`
  (`Graph/Regression.lean`), also when the dispersion is unknown.
* C67: for that reason the call of a sampler with a horseshoe prior is no order of its steps at all; it updates the
  coefficients and the shrinkage parameters at the same time, each from the old values of the other.
* C68: a parameter left to NUTS above a variable with a conjugate step is updated towards its prior and ignores the
  data, since the step's substitutions cut it off from the density NUTS gets (the general form of C07).
* C69: in a regression the same happens to unknown standard deviations of the coefficients: they follow their prior.
* C73: because 1/std is used as a precision, the regression steps give another answer when a regressor is
  recorded in other units.
* C65: the errors of C21-C23, C32, C28, C59-C61 do not fade with more calls: from no start is the posterior approached.
* C75: for the same models averages over the draws do not tend to posterior expectations, however many draws; averages of gamma-Poisson draws with prior rate 2 tend to twice the posterior mean.
* C78: the same wrong steps fail the simulation-based check: any gamma-Poisson model with prior rate other than 1, every beta-negative-binomial model, regressions with a prior standard deviation other than 1.
* C76: two Poisson batches in sequence never give the posterior given both, whatever the prior; a negative-binomial batch with count different from its number of successes neither.
* C80: `nbinom_dispersion_posterior` and `sample_CRT` with one dispersion per row raise for almost all counts: the vector is broadcast against `arange(2, y + 1)`.
* C64: no part of the search or of `nuts.py` asks whether a variable is continuous.
* C51: style `pep440-pre` raises `ValueError` for some tags.
* C52: the tag prefix is lost when rendering back; hashes of untagged commits are cut to seven characters.
* C62: without tags, branches named like versions count as tags; the alphabetically first tag is not the newest; the text
  of `%d` is split at commas and stripped of all parentheses at its ends, which git allows in names.
* C63: the directory git prints is not compared with the tree, so a surrounding repository's version is reported; failures
  of the calls for the number of commits and the date are not handled and leave the import as exceptions.

Hypotheses that are not checked by the code and are needed: in C12 the number of trials must not read the latent.

## Axioms of each theorem

Output of `#print axioms`.  "all three" is `propext`, `Classical.choice`, `Quot.sound`.

| Theorem | Axioms |
|---|---|
| `Verif.Graph.C01_cover` | all three |
| `Verif.Graph.C02_steps_closed` | all three |
| `Verif.Graph.C03_scan_partial` | all three |
| `Verif.Graph.C03_violated` | all three |
| `Verif.Track.C04_last_used` | all three |
| `Verif.Track.C04_once` | propext, Quot.sound |
| `Verif.Track.C04_pick` | propext, Quot.sound |
| `Verif.Track.C04_recorded` | propext, Quot.sound |
| `Verif.C05_bern_sibling_iff_partial` | all three |
| `Verif.C05_nbinom_sibling_iff_partial` | all three |
| `Verif.C05_two_bern_iff_partial` | all three |
| `Verif.C05_two_nbinom_iff_partial` | all three |
| `Verif.C05_two_nbinom_violated` | all three |
| `Verif.Track.C05_beta_binomial_iff_partial` | all three |
| `Verif.Track.C05_beta_mixed_iff_partial` | all three |
| `Verif.Track.C05_gamma_poisson_iff_partial` | all three |
| `Verif.Track.C05_mixed_violated` | all three |
| `Verif.Track.C05_poisson_violated` | all three |
| `Verif.Track.C05_sibling_iff_partial` | all three |
| `Verif.Track.C05_sibling_violated` | all three |
| `Verif.Track.C05_violated` | all three |
| `Verif.Graph.C06_nuts` | all three |
| `Verif.Graph.C07_nuts_term_partial` | all three |
| `Verif.Graph.C07_violated` | all three |
| `Verif.Graph.C08_user_graph_unchanged` | all three |
| `Verif.Graph.C09_raises` | propext, Quot.sound |
| `Verif.Graph.C09_stages` | propext, Quot.sound |
| `Verif.Graph.C09_unique` | propext, Quot.sound |
| `Verif.Graph.C10_nuts_violated` | all three |
| `Verif.Graph.C10_scan_order_partial` | all three |
| `Verif.Graph.C10_violated` | all three |
| `Verif.Track.C11_gibbs_iff_partial` | all three |
| `Verif.Track.C11_nuts_iff_partial` | all three |
| `Verif.Track.C11_stack_traversal_violated` | all three |
| `Verif.Conj.C12_beta_binomial_exact` | all three |
| `Verif.Conj.C13_gamma_poisson_exact_iff_partial` | all three |
| `Verif.Conj.C13_gamma_poisson_violated` | all three |
| `Verif.Conj.C14_beta_nbinom_exact_iff_partial` | all three |
| `Verif.Conj.C14_beta_nbinom_violated` | all three |
| `Verif.Conj.C15_beta_binomial_fires_iff` | all three |
| `Verif.Conj.C15_beta_binomial_none_iff` | all three |
| `Verif.Conj.C15_beta_nbinom_fires_iff` | all three |
| `Verif.Conj.C15_beta_nbinom_none_iff` | all three |
| `Verif.Conj.C15_gamma_poisson_fires_iff` | all three |
| `Verif.Conj.C15_gamma_poisson_none_iff` | all three |
| `Verif.Conj.C16_beta_binomial_iff_partial` | propext, Quot.sound |
| `Verif.Conj.C16_beta_binomial_shape_partial` | propext, Quot.sound |
| `Verif.Conj.C16_beta_nbinom_iff_partial` | propext, Quot.sound |
| `Verif.Conj.C16_beta_nbinom_shape_partial` | propext, Quot.sound |
| `Verif.Conj.C16_gamma_poisson_iff_partial` | propext, Quot.sound |
| `Verif.Conj.C16_gamma_poisson_shape_partial` | propext, Quot.sound |
| `Verif.Conj.C16_shape_violated` | propext, Quot.sound |
| `Verif.Conj.C16_size_violated` | propext, Quot.sound |
| `Verif.C17_rue2005_law` | all three |
| `Verif.C18_cong2017_law` | all three |
| `Verif.C19_branches_agree` | all three |
| `Verif.C20_regression_posterior_iff_partial` | all three |
| `Verif.C20_regression_posterior_precision_partial` | all three |
| `Verif.C20_regression_posterior_violated` | all three |
| `Verif.C21_nbinom_step_iff_partial` | all three |
| `Verif.C21_nbinom_step_target_partial` | all three |
| `Verif.C21_nbinom_step_violated` | all three |
| `Verif.C22_bern_step_iff_partial` | all three |
| `Verif.C22_bern_step_target_partial` | all three |
| `Verif.C22_bern_step_violated` | all three |
| `Verif.C23_bern_finder_step_iff_partial` | all three |
| `Verif.C23_bern_finder_step_violated` | all three |
| `Verif.Match.C24_bern_match_partial` | all three |
| `Verif.Match.C24_match_violated` | all three |
| `Verif.Match.C24_nbinom_match_partial` | all three |
| `Verif.Match.C24_vector_multiplier_partial` | all three |
| `Verif.C25_bern_mean_iff_partial` | all three |
| `Verif.C25_bern_prior_iff_partial` | all three |
| `Verif.C25_nbinom_mean_iff_partial` | all three |
| `Verif.C25_nbinom_prior_iff_partial` | all three |
| `Verif.C25_step_violated` | all three |
| `Verif.Match.C25_bern_finder_partial` | all three |
| `Verif.Match.C25_bern_finder_violated` | all three |
| `Verif.Match.C25_nbinom_finder_partial` | all three |
| `Verif.Match.C26_horseshoe_finder` | propext, Quot.sound |
| `Verif.Match.C26_horseshoe_order` | all three |
| `Verif.Match.C26_horseshoe_reject` | all three |
| `Verif.Horseshoe.C27_any_prior_iff_partial` | all three |
| `Verif.Horseshoe.C27_scales_means_iff_partial` | all three |
| `Verif.Horseshoe.C27_step_violated` | all three |
| `Verif.Match.C27_horseshoe_accepts_partial` | all three |
| `Verif.Match.C27_horseshoe_accepts_violated` | all three |
| `Verif.Horseshoe.C28_conditionals_violated` | all three |
| `Verif.Horseshoe.C28_mixture_is_halfCauchy` | all three |
| `Verif.Horseshoe.C28_rate_conditionals_partial` | all three |
| `Verif.Horseshoe.C28_rate_invariant_partial` | all three |
| `Verif.Horseshoe.C28_rate_step_invariant_partial` | all three |
| `Verif.Horseshoe.C28_step_violated` | all three |
| `Verif.Horseshoe.C28_violated` | all three |
| `Verif.Horseshoe.C29_result_scale` | all three |
| `Verif.CRT.C30_bernoulli_params_valid` | all three |
| `Verif.CRT.C30_sample_CRT_range` | all three |
| `Verif.CRT.C31_crt_independent` | all three |
| `Verif.CRT.C31_crt_law` | all three |
| `Verif.CRT.C31_crt_mean` | all three |
| `Verif.CRT.C32_dispersion_complement_partial` | all three |
| `Verif.CRT.C32_dispersion_iff_partial` | all three |
| `Verif.CRT.C32_finder_step_iff_partial` | all three |
| `Verif.CRT.C32_violated` | all three |
| `Verif.FFBS.C33_ffbs_broadcast` | all three |
| `Verif.FFBS.C33_ffbs_smoothing` | all three |
| `Verif.FFBS.C34_ffbs_rescaling` | all three |
| `Verif.FFBS.C35_ffbs_support` | all three |
| `Verif.FFBS.C35_ffbs_zero_evidence` | all three |
| `Verif.FFBS.C35_positive_weight_possible` | all three |
| `Verif.Trans.C36_laws_standard` | all three |
| `Verif.Trans.C36_location_scale_law` | all three |
| `Verif.Trans.C37_families_partial` | all three |
| `Verif.Trans.C37_t_never_rewritten_violated` | all three |
| `Verif.Trans.C38_independent_partial` | all three |
| `Verif.Trans.C38_shared_noise_violated` | all three |
| `Verif.Trans.C39_invgamma_iff_partial` | all three |
| `Verif.Trans.C39_invgamma_only_partial` | all three |
| `Verif.Trans.C39_scale_violated` | all three |
| `Verif.Subs.C40_inline_value` | all three |
| `Verif.Subs.C40_passes_value` | all three |
| `Verif.Subs.C40_roundtrip_value` | all three |
| `Verif.Subs.C40_subsume_value` | all three |
| `Verif.Subs.C41_drop_violated` | all three |
| `Verif.Subs.C41_exposes_partial` | all three |
| `Verif.Subs.C41_only_elemwise_partial` | propext, Quot.sound |
| `Verif.Subs.C42_kernel` | all three |
| `Verif.Subs.C42_remove_constants` | all three |
| `Verif.Info.C43_duplicate_violated` | all three |
| `Verif.Info.C43_exactly_once_partial` | all three |
| `Verif.Info.C43_split_partial` | all three |
| `Verif.Info.C44_accepts` | all three |
| `Verif.Info.C44_names_bijection` | all three |
| `Verif.Info.C45_inverse_iff_partial` | all three |
| `Verif.Info.C45_shared_value_violated` | all three |
| `Verif.Prior.C46_exact_partial` | all three |
| `Verif.Prior.C46_nonshared_violated` | propext, Quot.sound |
| `Verif.Prior.C46_shared_partial` | all three |
| `Verif.Prior.C47_advanced_partial` | all three |
| `Verif.Prior.C47_no_update_violated` | all three |
| `Verif.Prior.C47_samples_partial` | all three |
| `Verif.Nuts.C48_fixed_partial` | all three |
| `Verif.Nuts.C48_support_partial` | all three |
| `Verif.Nuts.C48_support_violated` | all three |
| `Verif.Nuts.C48_wiring` | all three |
| `Verif.Nuts.C49_blocks` | all three |
| `Verif.Nuts.C49_roundtrip` | all three |
| `Verif.Nuts.C49_short` | all three |
| `Verif.Nuts.C50_outputs` | propext, Quot.sound |
| `Verif.Nuts.C50_step` | all three |
| `Verif.Ver.C51_dirty_shown` | all three |
| `Verif.Ver.C51_dirty_shown_violated` | all three |
| `Verif.Ver.C51_pep440_tagged` | all three |
| `Verif.Ver.C51_pep440_untagged` | all three |
| `Verif.Ver.C51_pre_partial` | all three |
| `Verif.Ver.C51_pre_violated` | all three |
| `Verif.Ver.C51_styles` | all three |
| `Verif.Ver.C51_total_partial` | all three |
| `Verif.Ver.C52_bad_prefix` | all three |
| `Verif.Ver.C52_hash_violated` | all three |
| `Verif.Ver.C52_parse_tagged` | all three |
| `Verif.Ver.C52_parse_untagged` | all three |
| `Verif.Ver.C52_prefix_violated` | all three |
| `Verif.Ver.C52_render_back_partial` | all three |
| `Verif.Ver.C52_sound` | all three |
| `Verif.Graph.C53_sweep_partial` | all three |
| `Verif.Graph.Sweep.C53_violated` | all three |
| `Verif.Whole.C53_horseshoe_violated` | all three |
| `Verif.Nuts.C54_blocks_partial` | all three |
| `Verif.Nuts.C54_invariant_partial` | all three |
| `Verif.Nuts.C54_transforms` | all three |
| `Verif.Nuts.C54_violated` | all three |
| `Verif.Shapes.C55_bern_step_partial` | all three |
| `Verif.Shapes.C55_dispersion_step_partial` | propext, Quot.sound |
| `Verif.Shapes.C55_horseshoe_step_partial` | all three |
| `Verif.Shapes.C55_nbinom_step_partial` | all three |
| `Verif.Shapes.C55_rue2005` | propext |
| `Verif.Shapes.C55_violated` | all three |
| `Verif.Shapes.C56_batch_shape_partial` | propext, Quot.sound |
| `Verif.Shapes.C56_forward_rows_partial` | all three |
| `Verif.Shapes.C56_forward_violated` | all three |
| `Verif.Shapes.C56_initial_violated` | all three |
| `Verif.Shapes.C56_single_sequence_partial` | propext, Quot.sound |
| `Verif.Shapes.C56_violated` | all three |
| `Verif.Conj.C57_beta_binomial_array_iff_partial` | all three |
| `Verif.Conj.C57_beta_binomial_entry_iff_partial` | all three |
| `Verif.Conj.C57_beta_nbinom_array_iff_partial` | all three |
| `Verif.Conj.C57_gamma_poisson_array_iff_partial` | all three |
| `Verif.Conj.C57_repeated_violated` | all three |
| `Verif.Horseshoe.C58_global_draw_iff_partial` | all three |
| `Verif.Horseshoe.C58_step_iff_partial` | all three |
| `Verif.Horseshoe.C58_violated` | all three |
| `Verif.NbReg.C59_coef_step_iff_partial` | all three |
| `Verif.NbReg.C59_dispersion_step_iff_partial` | all three |
| `Verif.NbReg.C59_posterior_exists` | all three |
| `Verif.NbReg.C59_sweep_iff_partial` | all three |
| `Verif.NbReg.C59_violated` | all three |
| `Verif.Whole.C59_built_iff_partial` | all three |
| `Verif.HsReg.C60_bern_coef_step_violated` | all three |
| `Verif.HsReg.C60_nbinom_coef_step_violated` | all three |
| `Verif.HsReg.C60_posterior_exists` | all three |
| `Verif.HsReg.C60_scale_any_coef_step_violated` | all three |
| `Verif.HsReg.C60_shrink_step_iff_partial` | all three |
| `Verif.HsReg.C60_shrink_step_scale_violated` | all three |
| `Verif.HsReg.C60_sweep_violated` | all three |
| `Verif.Whole.C60_built_violated` | all three |
| `Verif.Shared.C61_first_group_ignored_partial` | all three |
| `Verif.Shared.C61_local_draw_partial` | all three |
| `Verif.Shared.C61_scale_violated` | all three |
| `Verif.Shared.C61_violated` | all three |
| `Verif.Whole.C61_built_violated` | all three |
| `Verif.Ver.C62_archive_partial` | all three |
| `Verif.Ver.C62_branch_violated` | all three |
| `Verif.Ver.C62_newest_violated` | all three |
| `Verif.Ver.C62_release_first` | all three |
| `Verif.Ver.C62_tag_partial` | all three |
| `Verif.Ver.C62_text_violated` | all three |
| `Verif.Ver.C63_fallback_partial` | all three |
| `Verif.Ver.C63_foreign_violated` | all three |
| `Verif.Ver.C63_keywords` | all three |
| `Verif.Ver.C63_raises_violated` | all three |
| `Verif.Ver.C63_tagged_partial` | all three |
| `Verif.Ver.C63_untagged_partial` | all three |
| `Verif.Track.C64_integer_coefficient_violated` | all three |
| `Verif.Track.C64_integer_to_nuts_violated` | all three |
| `Verif.Track.C64_route_partial` | all three |
| `Verif.C65_bern_converges_iff_partial` | all three |
| `Verif.C65_bern_converges_partial` | all three |
| `Verif.C65_bern_finder_converges_iff_partial` | all three |
| `Verif.C65_dispersion_converges_iff_partial` | all three |
| `Verif.C65_dispersion_converges_partial` | all three |
| `Verif.C65_dispersion_violated` | all three |
| `Verif.C65_horseshoe_converges_partial` | all three |
| `Verif.C65_horseshoe_regression_violated` | all three |
| `Verif.C65_horseshoe_scale_violated` | all three |
| `Verif.C65_nbinom_converges_iff_partial` | all three |
| `Verif.C65_nbinom_converges_partial` | all three |
| `Verif.C65_nbinom_intercept_violated` | all three |
| `Verif.C65_nbinom_joint_converges_iff_partial` | all three |
| `Verif.C65_regression_violated` | all three |
| `Verif.C65_shared_limit_partial` | all three |
| `Verif.C65_shared_violated` | all three |
| `Verif.HsDisp.C66_call_violated` | all three |
| `Verif.HsDisp.C66_coef_step_violated` | all three |
| `Verif.HsDisp.C66_dispersion_step_iff_partial` | all three |
| `Verif.HsDisp.C66_limit_violated` | all three |
| `Verif.HsDisp.C66_posterior_exists` | all three |
| `Verif.HsDisp.C66_shrink_step_iff_partial` | all three |
| `Verif.Whole.C66_built_violated` | all three |
| `Verif.Whole.C67_dispersion_violated` | all three |
| `Verif.Whole.C67_horseshoe_violated` | all three |
| `Verif.Whole.C67_nbinom_partial` | all three |
| `Verif.Whole.C67_shared_partial` | all three |
| `Verif.Graph.C68_lost` | all three |
| `Verif.Graph.C68_nuts_prior` | all three |
| `Verif.Graph.C68_target_partial` | all three |
| `Verif.Hier.C68_violated` | all three |
| `Verif.Hier.Reg.C69_any_step_violated` | all three |
| `Verif.Hier.Reg.C69_bern_violated` | all three |
| `Verif.Hier.Reg.C69_nb_violated` | all three |
| `Verif.Hier.Reg.C69_scales_iff_partial` | all three |
| `Verif.Graph.C70_part` | all three |
| `Verif.Graph.C70_runs` | all three |
| `Verif.Track.C70_found` | all three |
| `Verif.Parts.C71_joint` | all three |
| `Verif.C72_bern_observations` | all three |
| `Verif.C72_bern_outcomes` | all three |
| `Verif.C72_bern_regressors` | all three |
| `Verif.C72_nbinom_observations` | all three |
| `Verif.C72_nbinom_regressors` | all three |
| `Verif.CRT.C72_dispersion_observations` | all three |
| `Verif.CRT.C72_finder_dispersion_observations` | all three |
| `Verif.Horseshoe.C72_horseshoe_coefficients` | all three |
| `Verif.C73_bern_units_iff_partial` | all three |
| `Verif.C73_nbinom_units_iff_partial` | all three |
| `Verif.C73_units_violated` | all three |
| `Verif.Horseshoe.C73_horseshoe_units_partial` | all three |
| `Verif.Prior.C74_independent_prior_draws` | all three |
| `Verif.Prior.C74_resume` | propext, Quot.sound |
| `Verif.C75_bern_averages_iff_partial` | all three |
| `Verif.C75_bern_averages_partial` | all three |
| `Verif.C75_bern_finder_averages_iff_partial` | all three |
| `Verif.C75_bern_strong_iff_partial` | all three |
| `Verif.C75_bern_strong_partial` | all three |
| `Verif.C75_beta_binomial_averages_partial` | all three |
| `Verif.C75_beta_binomial_strong_partial` | all three |
| `Verif.C75_beta_nbinom_average_iff_partial` | all three |
| `Verif.C75_beta_nbinom_strong_iff_partial` | all three |
| `Verif.C75_conjugate_violated` | all three |
| `Verif.C75_dispersion_averages_iff_partial` | all three |
| `Verif.C75_dispersion_averages_partial` | all three |
| `Verif.C75_dispersion_strong_iff_partial` | all three |
| `Verif.C75_dispersion_strong_violated` | all three |
| `Verif.C75_dispersion_violated` | all three |
| `Verif.C75_gamma_poisson_average_iff_partial` | all three |
| `Verif.C75_gamma_poisson_strong_iff_partial` | all three |
| `Verif.C75_horseshoe_averages_partial` | all three |
| `Verif.C75_horseshoe_regression_strong_violated` | all three |
| `Verif.C75_horseshoe_regression_violated` | all three |
| `Verif.C75_horseshoe_scale_strong_violated` | all three |
| `Verif.C75_horseshoe_scale_violated` | all three |
| `Verif.C75_horseshoe_strong_partial` | all three |
| `Verif.C75_nbinom_averages_iff_partial` | all three |
| `Verif.C75_nbinom_averages_partial` | all three |
| `Verif.C75_nbinom_intercept_strong_violated` | all three |
| `Verif.C75_nbinom_intercept_violated` | all three |
| `Verif.C75_nbinom_joint_averages_iff_partial` | all three |
| `Verif.C75_nbinom_joint_strong_iff_partial` | all three |
| `Verif.C75_nbinom_strong_iff_partial` | all three |
| `Verif.C75_nbinom_strong_partial` | all three |
| `Verif.C75_regression_strong_violated` | all three |
| `Verif.C75_regression_violated` | all three |
| `Verif.C75_shared_strong_violated` | all three |
| `Verif.C75_shared_violated` | all three |
| `Verif.Track.C76_beta_batches_iff_partial` | all three |
| `Verif.Track.C76_beta_binomial_batches` | all three |
| `Verif.Track.C76_beta_nbinom_violated` | all three |
| `Verif.Track.C76_gamma_batches_iff_partial` | all three |
| `Verif.Track.C76_gamma_violated` | all three |
| `Verif.FFBS.C77_ffbs_forecast` | all three |
| `Verif.FFBS.C77_ffbs_merge` | all three |
| `Verif.FFBS.C77_ffbs_missing` | all three |
| `Verif.FFBS.C77_ffbs_relabel` | all three |
| `Verif.FFBS.C77_ffbs_reverse` | all three |
| `Verif.C78_bern_finder_iff_partial` | all three |
| `Verif.C78_bern_iff_partial` | all three |
| `Verif.C78_beta_binomial_partial` | all three |
| `Verif.C78_beta_nbinom_violated` | all three |
| `Verif.C78_dispersion_iff_partial` | all three |
| `Verif.C78_dispersion_violated` | all three |
| `Verif.C78_gamma_poisson_iff_partial` | all three |
| `Verif.C78_horseshoe_dispersion_violated` | all three |
| `Verif.C78_horseshoe_violated` | all three |
| `Verif.C78_nbinom_iff_partial` | all three |
| `Verif.C78_nbinom_joint_iff_partial` | all three |
| `Verif.C78_regression_violated` | all three |
| `Verif.C79_bern_means` | all three |
| `Verif.C79_bern_successive_draws` | all three |
| `Verif.C79_dispersion_means` | all three |
| `Verif.C79_dispersion_successive_draws` | all three |
| `Verif.C79_nbinom_means` | all three |
| `Verif.C79_nbinom_successive_draws` | all three |
| `Verif.CRT.C80_rows_independent_partial` | all three |
| `Verif.CRT.C80_vector_equal_partial` | all three |
| `Verif.CRT.C80_vector_raises_violated` | all three |
| `Verif.CRT.C80_vector_returns_iff_partial` | all three |
| `Verif.CRT.C80_vector_tables_violated` | all three |
| `Verif.FFBS.C81_ffbs_known_state` | all three |
| `Verif.FFBS.C81_ffbs_monotone` | all three |
| `Verif.FFBS.C81_ffbs_small_changes` | all three |
| `Verif.C82_bern_keep` | all three |
| `Verif.C82_dispersion_keep` | all three |
| `Verif.C82_horseshoe_thinning` | all three |
| `Verif.C82_nbinom_joint_thinning` | all three |
| `Verif.C82_nbinom_keep` | all three |
| `Verif.C83_bern_separate` | all three |
| `Verif.C83_nbinom_separate` | all three |
| `Verif.FFBS.C83_ffbs_no_memory` | all three |
| `Verif.FFBS.C83_ffbs_separate` | all three |
| `Verif.Track.C84_beta_iff_partial` | all three |
| `Verif.Track.C84_gamma_iff_partial` | all three |
| `Verif.Track.C84_order_violated` | all three |
| `Verif.Track.C84_step_iff_partial` | all three |
| `Verif.FFBS.C85_backward_range_partial` | all three |
| `Verif.FFBS.C85_forward_range_partial` | all three |
| `Verif.FFBS.C85_underflow_violated` | all three |
| `Verif.Match.C86_bern_link_partial` | all three |
| `Verif.Match.C86_constant_factor_violated` | all three |
| `Verif.Match.C86_horseshoe_no_constant_partial` | all three |
| `Verif.Match.C86_horseshoe_scale_partial` | all three |
| `Verif.Match.C86_link_violated` | propext, Quot.sound |
| `Verif.Match.C86_nbinom_link_partial` | all three |
| `Verif.C87_bern_finder_violated` | all three |
| `Verif.C87_bern_outcome` | all three |
| `Verif.CRT.C87_dispersion_partial` | all three |
| `Verif.CRT.C87_dispersion_violated` | all three |
| `Verif.Conj.C87_beta_binomial` | all three |
| `Verif.Conj.C87_beta_nbinom_partial` | all three |
| `Verif.Conj.C87_beta_nbinom_violated` | all three |
| `Verif.Conj.C87_gamma_poisson_partial` | all three |
| `Verif.Conj.C87_gamma_poisson_violated` | all three |
| `Verif.Horseshoe.C87_horseshoe_global` | all three |
| `Verif.Horseshoe.C87_horseshoe_local_rate_partial` | all three |
| `Verif.Horseshoe.C87_horseshoe_local_violated` | all three |
| `Verif.Ver.C88_fallback` | all three |
| `Verif.Ver.C88_tagged_partial` | all three |
| `Verif.Ver.C88_unreadable_only` | all three |
| `Verif.Ver.C88_unreadable_violated` | all three |
| `Verif.Ver.C88_untagged_partial` | all three |
| `Verif.Ver.C89_file_end` | all three |
| `Verif.Ver.C89_keyword_partial` | all three |
| `Verif.Ver.C89_no_file` | all three |
| `Verif.Ver.C89_same_keywords` | all three |
| `Verif.Ver.C89_signature_violated` | all three |
| `Verif.Fail.C90_bern` | all three |
| `Verif.Fail.C90_conditions_needed` | all three |
| `Verif.Fail.C90_dispersion` | all three |
| `Verif.Fail.C90_dispersion_needed` | all three |
| `Verif.Fail.C90_horseshoe` | all three |
| `Verif.Fail.C90_horseshoe_bern` | all three |
| `Verif.Fail.C90_horseshoe_dispersion` | all three |
| `Verif.Fail.C90_horseshoe_nb` | all three |
| `Verif.Fail.C90_nb` | all three |
| `Verif.Fail.C90_nb_known` | all three |
| `Verif.Fail.C90_scales_needed` | all three |
| `Verif.NoData.C91_bern_iff_partial` | all three |
| `Verif.NoData.C91_beta_binomial` | all three |
| `Verif.NoData.C91_dispersion` | all three |
| `Verif.NoData.C91_ffbs` | all three |
| `Verif.NoData.C91_nbinom_iff_partial` | all three |
| `Verif.NoData.C91_regression_violated` | all three |
| `Verif.Conj.C92_conjugate_finders` | propext, Quot.sound |
| `Verif.Graph.C92_closed_form` | all three |
| `Verif.Graph.C92_preparation` | propext, Quot.sound |
| `Verif.Graph.C92_same_sampler` | all three |
| `Verif.Graph.C92_same_values` | propext, Quot.sound |
| `Verif.Match.C92_gibbs_finders` | propext, Quot.sound |
| `Verif.Graph.C93_data` | all three |
| `Verif.Graph.C93_data_nuts` | all three |
| `Verif.C94_bern_iff_partial` | all three |
| `Verif.C94_bern_partial` | all three |
| `Verif.C94_beta_binomial` | all three |
| `Verif.C94_beta_nbinom_iff_partial` | all three |
| `Verif.C94_dispersion_iff_partial` | all three |
| `Verif.C94_dispersion_partial` | all three |
| `Verif.C94_dispersion_violated` | all three |
| `Verif.C94_gamma_poisson_iff_partial` | all three |
| `Verif.C94_nbinom_iff_partial` | all three |
| `Verif.C94_nbinom_partial` | all three |
| `Verif.C94_regression_violated` | all three |
| `Verif.C95_bern_iff_partial` | all three |
| `Verif.C95_bern_partial` | all three |
| `Verif.C95_beta_binomial` | all three |
| `Verif.C95_beta_nbinom_iff_partial` | all three |
| `Verif.C95_dispersion_iff_partial` | all three |
| `Verif.C95_dispersion_partial` | all three |
| `Verif.C95_dispersion_violated` | all three |
| `Verif.C95_gamma_poisson_iff_partial` | all three |
| `Verif.C95_horseshoe_partial` | all three |
| `Verif.C95_nbinom_iff_partial` | all three |
| `Verif.C95_nbinom_joint_partial` | all three |
| `Verif.C95_nbinom_partial` | all three |
| `Verif.C95_regression_violated` | all three |
| `Verif.C96_bern_iff_partial` | all three |
| `Verif.C96_bern_partial` | all three |
| `Verif.C96_beta_binomial` | all three |
| `Verif.C96_beta_nbinom_iff_partial` | all three |
| `Verif.C96_dispersion_iff_partial` | all three |
| `Verif.C96_dispersion_partial` | all three |
| `Verif.C96_dispersion_violated` | all three |
| `Verif.C96_gamma_poisson_iff_partial` | all three |
| `Verif.C96_horseshoe_partial` | all three |
| `Verif.C96_horseshoe_scale_violated` | all three |
| `Verif.C96_nbinom_iff_partial` | all three |
| `Verif.C96_nbinom_joint_iff_partial` | all three |
| `Verif.C96_nbinom_partial` | all three |
| `Verif.C96_regression_violated` | all three |
| `Verif.FFBS.C97_ffbs_future_forgotten` | all three |
| `Verif.FFBS.C97_ffbs_past_forgotten` | all three |
| `Verif.FFBS.C97_ffbs_rigid_remembers` | all three |
| `Verif.FFBS.C97_ffbs_start_forgotten` | all three |
| `Verif.C98_normal_regression_settles` | all three |
| `Verif.Conj.C98_beta_binomial_settles` | all three |
| `Verif.Conj.C98_beta_nbinom_settles_iff_partial` | all three |
| `Verif.Conj.C98_beta_nbinom_settles_violated` | all three |
| `Verif.C99_bern_merge_iff_partial` | all three |
| `Verif.C99_bern_rotation` | all three |
| `Verif.C99_merge_violated` | all three |
| `Verif.C99_nbinom_merge_iff_partial` | all three |
| `Verif.C99_nbinom_rotation` | all three |
| `Verif.C99_regression_merge_iff_partial` | all three |
| `Verif.C99_regression_rotation` | all three |
| `Verif.C100_bern_failures` | all three |
| `Verif.C100_nbinom_pool` | all three |
| `Verif.C100_regression_pool` | all three |
| `Verif.C101_bern` | all three |
| `Verif.C101_bern_scales` | all three |
| `Verif.C101_nbinom` | all three |
| `Verif.C101_nbinom_scales` | all three |
| `Verif.CRT.C101_dispersion` | all three |
| `Verif.Horseshoe.C101_horseshoe` | all three |
| `Verif.HsReg.C101_bern_horseshoe_old` | all three |
| `Verif.HsReg.C101_bern_horseshoe_partial` | all three |
| `Verif.HsReg.C101_bern_horseshoe_reads_partial` | all three |
| `Verif.HsReg.C101_nbinom_horseshoe_old` | all three |
| `Verif.HsReg.C101_nbinom_horseshoe_partial` | all three |
| `Verif.HsReg.C101_nbinom_horseshoe_reads_partial` | all three |
| `Verif.NbReg.C101_joint_partial` | all three |
| `Verif.C102_overdetermined` | all three |
| `Verif.C102_regression` | all three |
| `Verif.C102_underdetermined` | all three |
| `Verif.C103_regression` | all three |

## Not modelled

Float rounding and dtypes, the internals of Aesara compilation, AeHMC's NUTS transition itself, AePPL's
derivation of log densities, performance, warnings, printing, `versioneer.py`, what git itself computes.
