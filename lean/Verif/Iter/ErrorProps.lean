import Verif.Iter.StrongProps
import Verif.Prob.ErrorBound

/-!
# C94: enough draws give any accuracy, whatever the start
-/

open MeasureTheory ProbabilityTheory Matrix Filter
open scoped ENNReal Topology

namespace Verif

variable {p n : ℕ}

/-! ### Regressions -/

/-- **C94 (partial).** Averages over the draws of `nbinom_normal_posterior`: the probability of an error `ε` falls
exponentially with the number of draws, with one rate for all starts; the expectation is that under the posterior
for prior standard deviations `sqrt std`. -/
theorem C94_nbinom_partial {la : LinAlg} (hla : la.Sound) {std : Fin p → ℝ} (hs : ∀ j, 0 < std j)
    (X : Matrix (Fin n) (Fin p) ℝ) {h : Fin n → ℝ} (hh : ∀ i, 0 < h i) (y : Fin n → ℕ) :
    ErrorBound Set.univ (bayes (normalPrior fun j => Real.sqrt (std j)) (nbRegLik X h y))
      (nbinomNormalPosterior la std X h y) := by
  have hp := isProbabilityMeasure_bayes
    (bayesDefined_nbRegLik X hh y (normalPrior fun j => Real.sqrt (std j)))
  exact (nbinom_runs hla hs X hh y).errorBound (C65_nbinom_converges_partial hla hs X hh y).1

/-- **C94 (partial).** The error is that of posterior expectations exactly when every prior standard deviation is 1. -/
theorem C94_nbinom_iff_partial {la : LinAlg} (hla : la.Sound) {std : Fin p → ℝ} (hs : ∀ j, 0 < std j)
    (X : Matrix (Fin n) (Fin p) ℝ) {h : Fin n → ℝ} (hh : ∀ i, 0 < h i) (y : Fin n → ℕ) :
    ErrorBound Set.univ (bayes (normalPrior std) (nbRegLik X h y)) (nbinomNormalPosterior la std X h y) ↔
      ∀ j, std j = 1 := by
  constructor
  · exact fun h1 => (C75_nbinom_averages_iff_partial hla hs X hh y 0).1 (h1.averagesConverge.mono (Set.subset_univ _))
  · intro h1
    have e : (fun j => Real.sqrt (std j)) = std := funext fun j => by rw [h1 j, Real.sqrt_one]
    have := C94_nbinom_partial hla hs X hh y
    rwa [e] at this

/-- Prior standard deviation 1: there is a number of draws after which, from every start, the fraction of draws with
a positive first coefficient is within 0.01 of its posterior probability, with 99 percent certainty. -/
example (X : Matrix (Fin 3) (Fin 2) ℝ) (y : Fin 3 → ℕ) : ∃ N : ℕ, ∀ k ≥ N, ∀ β : Fin 2 → ℝ,
    averageLaw (nbinomNormalPosterior stdLinAlg (fun _ => 1) X (fun _ => 2) y)
      (fun β => if 0 < β 0 then 1 else 0) k β {a | 0.01 ≤ |a - ∫ β, (if 0 < β 0 then (1 : ℝ) else 0)
        ∂bayes (normalPrior fun _ => 1) (nbRegLik X (fun _ => 2) y)|} ≤ ENNReal.ofReal 0.01 := by
  obtain ⟨N, hN⟩ := ((C94_nbinom_iff_partial stdLinAlg_sound (fun _ => one_pos) X (fun _ => two_pos) y).2
    fun _ => rfl).enough one_pos (ε := 0.01) (by norm_num) (δ := ENNReal.ofReal 0.01)
    (ENNReal.ofReal_pos.2 (by norm_num))
  exact ⟨N, fun k hk β => hN k hk _ (Measurable.ite (measurableSet_lt measurable_const (measurable_pi_apply 0))
    measurable_const measurable_const) (fun β => by split_ifs <;> norm_num) β (Set.mem_univ _)⟩

/-- Prior standard deviation 4: exponentially small errors, but for standard deviation 2. -/
example (X : Matrix (Fin 3) (Fin 1) ℝ) (y : Fin 3 → ℕ) :
    ErrorBound Set.univ (bayes (normalPrior fun _ => Real.sqrt 4) (nbRegLik X (fun _ => 2) y))
      (nbinomNormalPosterior stdLinAlg (fun _ => 4) X (fun _ => 2) y) ∧
    ¬ ErrorBound Set.univ (bayes (normalPrior fun _ => 4) (nbRegLik X (fun _ => 2) y))
      (nbinomNormalPosterior stdLinAlg (fun _ => 4) X (fun _ => 2) y) := by
  refine ⟨C94_nbinom_partial stdLinAlg_sound (fun _ => by norm_num) X (fun _ => two_pos) y, ?_⟩
  rw [C94_nbinom_iff_partial stdLinAlg_sound (fun _ => by norm_num) X (fun _ => two_pos) y]
  intro h
  have := h 0
  norm_num at this

/-- **C94 (partial).** The same for `bern_normal_posterior`, with success probability `sigmoid (X β)`. -/
theorem C94_bern_partial {la : LinAlg} (hla : la.Sound) {std : Fin p → ℝ} (hs : ∀ j, 0 < std j)
    (X : Matrix (Fin n) (Fin p) ℝ) (y : Fin n → Bool) :
    ErrorBound Set.univ (bayes (normalPrior fun j => Real.sqrt (std j)) (bernRegLik sigmoid X y))
      (bernNormalPosterior la std X y) := by
  have hp := isProbabilityMeasure_bayes
    (bayesDefined_bernRegLik X y (normalPrior fun j => Real.sqrt (std j)))
  exact (bern_runs hla hs X y).errorBound (C65_bern_converges_partial hla hs X y).1

/-- **C94 (partial).** Posterior expectations of the documented model exactly when every prior standard deviation
is 1; of the model the finder matches exactly when moreover `Xᵀ (2 y - 1) = 0`. -/
theorem C94_bern_iff_partial {la : LinAlg} (hla : la.Sound) {std : Fin p → ℝ} (hs : ∀ j, 0 < std j)
    (X : Matrix (Fin n) (Fin p) ℝ) (y : Fin n → Bool) :
    (ErrorBound Set.univ (bayes (normalPrior std) (bernRegLik sigmoid X y)) (bernNormalPosterior la std X y) ↔
      ∀ j, std j = 1) ∧
    (ErrorBound Set.univ (bayes (normalPrior std) (bernRegLik (fun ψ => sigmoid (-ψ)) X y))
        (bernNormalPosterior la std X y) ↔
      (∀ j, std j = 1) ∧ (Xᵀ *ᵥ fun i => 2 * boolVal (y i) - 1) = 0) := by
  have hb := C94_bern_partial hla hs X y
  have hp := isProbabilityMeasure_bayes (bayesDefined_bernRegLik X y (normalPrior std))
  have hd : BayesDefined (normalPrior std) (bernRegLik (fun ψ => sigmoid (-ψ)) X y) := by
    rw [funext (bernRegLik_neg X y)]
    exact bayesDefined_bernRegLik (-X) y _
  have hp' := isProbabilityMeasure_bayes hd
  refine ⟨⟨fun h1 => (C75_bern_averages_iff_partial hla hs X y 0).1 (h1.averagesConverge.mono (Set.subset_univ _)),
    fun h1 => ?_⟩, fun h1 => (C75_bern_finder_averages_iff_partial hla hs X y 0).1
      (h1.averagesConverge.mono (Set.subset_univ _)), fun h1 => ?_⟩
  · rw [← C22_bern_step_iff_partial hla hs X y] at h1
    rwa [(C22_bern_step_target_partial hla hs X y _).1 h1]
  · rw [← C23_bern_finder_step_iff_partial hla hs X y] at h1
    rwa [(C22_bern_step_target_partial hla hs X y _).1 h1]

/-- Prior standard deviation 1: right for the documented model, wrong for the matched one with one success. -/
example : ErrorBound Set.univ (bayes (normalPrior fun _ => 1) (bernRegLik sigmoid !![3] ![true]))
      (bernNormalPosterior stdLinAlg (fun _ => 1) !![3] ![true]) ∧
    ErrorBound Set.univ (bayes (normalPrior fun _ => Real.sqrt 1) (bernRegLik sigmoid !![3] ![true]))
      (bernNormalPosterior stdLinAlg (fun _ => 1) !![3] ![true]) ∧
    ¬ ErrorBound Set.univ (bayes (normalPrior fun _ => 1) (bernRegLik (fun ψ => sigmoid (-ψ)) !![3] ![true]))
      (bernNormalPosterior stdLinAlg (fun _ => 1) !![3] ![true]) := by
  obtain ⟨h1, h2⟩ := C94_bern_iff_partial stdLinAlg_sound (std := fun _ => 1) (fun _ => one_pos) !![3] ![true]
  refine ⟨h1.2 fun _ => rfl, C94_bern_partial stdLinAlg_sound (fun _ => one_pos) _ _, ?_⟩
  rw [h2]
  rintro ⟨-, h⟩
  have := congrFun h 0
  simp [Matrix.mulVec, dotProduct, boolVal] at this
  norm_num at this

/-- **C94 is violated**: prior standard deviation 2.  Whatever the design and the data, the errors of averages with
respect to posterior expectations have no such bound, for neither regression. -/
theorem C94_regression_violated {la : LinAlg} (hla : la.Sound) (hp : 0 < p) (X : Matrix (Fin n) (Fin p) ℝ)
    {h : Fin n → ℝ} (hh : ∀ i, 0 < h i) (y : Fin n → ℕ) (z : Fin n → Bool) :
    ¬ ErrorBound Set.univ (bayes (normalPrior fun _ => 2) (nbRegLik X h y))
      (nbinomNormalPosterior la (fun _ => 2) X h y) ∧
    ¬ ErrorBound Set.univ (bayes (normalPrior fun _ => 2) (bernRegLik sigmoid X z))
      (bernNormalPosterior la (fun _ => 2) X z) := by
  rw [C94_nbinom_iff_partial hla (fun _ => two_pos) X hh y, (C94_bern_iff_partial hla (fun _ => two_pos) X z).1]
  refine ⟨fun h => ?_, fun h => ?_⟩
  all_goals
    have := h ⟨0, hp⟩
    norm_num at this

example (y : Fin 2 → ℕ) : ¬ ErrorBound Set.univ (bayes (normalPrior fun _ => 2) (nbRegLik !![1, 2; 0, 1] (fun _ => 3) y))
      (nbinomNormalPosterior stdLinAlg (fun _ => 2) !![1, 2; 0, 1] (fun _ => 3) y) :=
  (C94_regression_violated stdLinAlg_sound two_pos _ (fun _ => by norm_num) y fun _ => true).1

/-! ### Dispersion -/

section
open CRT

/-- **C94 (partial).** The same for `nbinom_dispersion_posterior` from positive starts, with the posterior for success
probabilities `1 - p`. -/
theorem C94_dispersion_partial {a b : ℝ} (ha : 0 < a) (hb : 0 < b) {p : Fin n → ℝ}
    (hp0 : ∀ i, 0 < p i) (hp1 : ∀ i, p i < 1) (y : Fin n → ℕ) :
    ErrorBound (Set.Ioi 0) (bayes (gammaMeasure a b⁻¹) (nbDispLik (fun i => 1 - p i) y))
      (dispersionPosterior (List.ofFn p) a b (List.ofFn fun i => (y i : ℤ))) := by
  have h0 : ∀ i, 0 < 1 - p i := fun i => by have := hp1 i; linarith
  have h1 : ∀ i, 1 - p i < 1 := fun i => by have := hp0 i; linarith
  have hpr := isProbabilityMeasure_bayes (posterior_defined ha (inv_pos.2 hb) h0 h1 y)
  exact (dispersion_runs ha hb hp0 hp1 y).2.errorBound (C65_dispersion_converges_partial ha hb hp0 hp1 y).1

/-- **C94 (partial).** Expectations under the posterior for success probabilities `p` exactly when
`∑ log p = ∑ log (1 - p)`. -/
theorem C94_dispersion_iff_partial {a b : ℝ} (ha : 0 < a) (hb : 0 < b) {p : Fin n → ℝ}
    (hp0 : ∀ i, 0 < p i) (hp1 : ∀ i, p i < 1) (y : Fin n → ℕ) :
    ErrorBound (Set.Ioi 0) (bayes (gammaMeasure a b⁻¹) (nbDispLik p y))
      (dispersionPosterior (List.ofFn p) a b (List.ofFn fun i => (y i : ℤ))) ↔
      ∑ i, Real.log (p i) = ∑ i, Real.log (1 - p i) := by
  constructor
  · exact fun h1 => (C75_dispersion_averages_iff_partial ha hb hp0 hp1 y one_pos).1
      (h1.averagesConverge.mono (Set.singleton_subset_iff.2 (Set.mem_Ioi.2 one_pos)))
  · intro h1
    rw [posterior_eq hp0 hp1, h1, ← posterior_eq (fun i => by have := hp1 i; linarith)
      (fun i => by have := hp0 i; linarith)]
    exact C94_dispersion_partial ha hb hp0 hp1 y

/-- **C94 is violated**: counts with a common success probability below one half. -/
theorem C94_dispersion_violated {a b : ℝ} (ha : 0 < a) (hb : 0 < b) (hn : 0 < n) {q : ℝ} (hq0 : 0 < q)
    (hq1 : q < 1 / 2) (y : Fin n → ℕ) :
    ¬ ErrorBound (Set.Ioi 0) (bayes (gammaMeasure a b⁻¹) (nbDispLik (fun _ => q) y))
      (dispersionPosterior (List.ofFn fun _ : Fin n => q) a b (List.ofFn fun i => (y i : ℤ))) := fun h =>
  C75_dispersion_violated ha hb hn hq0 hq1 y one_pos
    (h.averagesConverge.mono (Set.singleton_subset_iff.2 (Set.mem_Ioi.2 one_pos)))

/-- Success probabilities 1/4 and 3/4: right; 1/4 and 1/4: exponentially small errors, but for 3/4 and 3/4. -/
example (y : Fin 2 → ℕ) :
    ErrorBound (Set.Ioi 0) (bayes (gammaMeasure 2 1⁻¹) (nbDispLik ![1 / 4, 3 / 4] y))
      (dispersionPosterior (List.ofFn ![1 / 4, 3 / 4]) 2 1 (List.ofFn fun i => (y i : ℤ))) ∧
    ErrorBound (Set.Ioi 0) (bayes (gammaMeasure 2 1⁻¹) (nbDispLik (fun _ => 1 - 1 / 4) y))
      (dispersionPosterior (List.ofFn fun _ : Fin 2 => 1 / 4) 2 1 (List.ofFn fun i => (y i : ℤ))) ∧
    ¬ ErrorBound (Set.Ioi 0) (bayes (gammaMeasure 2 1⁻¹) (nbDispLik (fun _ => 1 / 4) y))
      (dispersionPosterior (List.ofFn fun _ : Fin 2 => 1 / 4) 2 1 (List.ofFn fun i => (y i : ℤ))) := by
  refine ⟨(C94_dispersion_iff_partial two_pos one_pos (fun i => ?_) (fun i => ?_) y).2 ?_,
    C94_dispersion_partial two_pos one_pos (p := fun _ => 1 / 4) (fun _ => by norm_num) (fun _ => by norm_num) y,
    C94_dispersion_violated two_pos one_pos (by norm_num) (by norm_num) (by norm_num) y⟩
  · fin_cases i <;> norm_num
  · fin_cases i <;> norm_num
  · rw [Fin.sum_univ_two, Fin.sum_univ_two]
    norm_num
    ring

end

/-! ### Conjugate steps -/

section
open Conj

theorem freshDraw_geom (law : Measure ℝ) [IsProbabilityMeasure law] : ConvergesGeom Set.univ law (freshDraw law) := by
  refine ⟨0, le_rfl, zero_lt_one, fun θ _ k S hS => ?_⟩
  have := prob_calls (freshDraw_runs law).meas (freshDraw_runs law).prob k θ
  cases k with
  | zero =>
    rw [pow_zero, abs_le]
    have h1 : (calls (freshDraw law) 0 θ).real S ≤ 1 := measureReal_le_one
    have h2 : law.real S ≤ 1 := measureReal_le_one
    have h3 : 0 ≤ (calls (freshDraw law) 0 θ).real S := measureReal_nonneg
    have h4 : 0 ≤ law.real S := measureReal_nonneg
    constructor <;> linarith
  | succ k =>
    have := prob_calls (freshDraw_runs law).meas (freshDraw_runs law).prob k θ
    have e : (calls (freshDraw law) k θ).bind (freshDraw law) = law :=
      (Measure.bind_const (m := calls (freshDraw law) k θ) (ν := law)).trans (by
        rw [measure_univ, one_smul])
    rw [calls, e, sub_self, abs_zero]
    positivity

theorem freshDraw_errorBound_iff (law π : Measure ℝ) [IsProbabilityMeasure law] [IsProbabilityMeasure π] :
    ErrorBound Set.univ π (freshDraw law) ↔ law = π := by
  constructor
  · intro h
    have h1 := (freshDraw_runs law).stationary_of_averages (Set.mem_univ 0)
      (h.averagesConverge.mono (Set.subset_univ _))
    have e : π.bind (freshDraw law) = law :=
      (Measure.bind_const (m := π) (ν := law)).trans (by rw [measure_univ, one_smul])
    exact e.symm.trans h1.2
  · rintro rfl
    exact (freshDraw_runs law).errorBound (freshDraw_geom law)

/-- **C94, beta-binomial.** Averages over draws from the beta-binomial step have exponentially small errors. -/
theorem C94_beta_binomial {rng Y latent post : Expr}
    (h : betaBinomialFinder rng Y = some [(latent, post)])
    {sh : SShape} {rY sY dY nE pE : Expr} (hY : Y = .app (.rv .binomial) sh [rY, sY, dY, nE, pE])
    (ρ : Env) {n y : ℕ} (hn : evalE ρ nE = some (n : ℝ)) (hread : ¬ Reads latent nE)
    (hy : ρ Y = y) (hyn : y ≤ n) {prior : Measure ℝ} (hprior : lawAt ρ latent = some prior) :
    ∃ law, lawAt ρ post = some law ∧
      ErrorBound Set.univ (bayes prior (likAt ρ latent Y y)) (freshDraw law) := by
  obtain ⟨hd, hl⟩ := C12_beta_binomial_exact h hY ρ hn hread hy hyn hprior
  have hpr := isProbabilityMeasure_bayes hd
  exact ⟨_, hl, (freshDraw_errorBound_iff _ _).2 rfl⟩

/-- Five trials, three successes, prior `Beta(2, 1)`. -/
example : ∃ (ρ : Env) (post : Expr) (law : Measure ℝ),
    betaBinomialFinder (exRng 0) (exBinomial 5 (exBeta 2 1)) = some [(exBeta 2 1, post)] ∧
    lawAt ρ post = some law ∧ ErrorBound Set.univ
      (bayes (betaMeasure 2 1) (likAt ρ (exBeta 2 1) (exBinomial 5 (exBeta 2 1)) (3 : ℕ)))
      (freshDraw law) := by
  obtain ⟨law, h1, h2⟩ := C94_beta_binomial (rng := exRng 0)
    (Y := exBinomial 5 (exBeta 2 1)) (latent := exBeta 2 1) rfl rfl (fun _ => 3) (n := 5) (y := 3)
    (by simp [exNum, evalE]) (by intro h; cases h) (by norm_num) (by norm_num)
    (prior := betaMeasure 2 1) (by simp [exBeta, lawAt, exNum, evalE, rvLaw])
  exact ⟨_, _, law, rfl, h1, h2⟩

/-- **C94 (partial).** Gamma-Poisson step: exactly when the rate of the prior is 1. -/
theorem C94_gamma_poisson_iff_partial {rng Y latent post : Expr}
    (h : gammaPoissonFinder rng Y = some [(latent, post)]) (ρ : Env) {y : ℕ} (hy : ρ Y = y)
    {sh : SShape} {r sz d aE bE : Expr} (hL : latent = .app (.rv .gamma) sh [r, sz, d, aE, bE])
    {a b : ℝ} (ha : evalE ρ aE = some a) (hb : evalE ρ bE = some (1 / b)) (ha0 : 0 < a) (hb0 : 0 < b) :
    ∃ prior law, lawAt ρ latent = some prior ∧ prior = gammaMeasure a b ∧ lawAt ρ post = some law ∧
      (ErrorBound Set.univ (bayes prior (likAt ρ latent Y y)) (freshDraw law) ↔ b = 1) := by
  have hs : 0 < 1 / b := by positivity
  obtain ⟨-, h2, -⟩ := gamma_poisson_step_law h ρ hy hL ha hb ha0 hs
  obtain ⟨prior, h3, h4, h5, h6⟩ := C13_gamma_poisson_exact_iff_partial h ρ hy hL ha hb ha0 hb0
  have := isProbabilityMeasure_gammaMeasure (a := a + y) (r := 1 / b + 1) (by positivity) (by positivity)
  have := isProbabilityMeasure_bayes h5
  refine ⟨prior, _, h3, h4, h2, ?_⟩
  rw [freshDraw_errorBound_iff, ← h6, h2, Option.some.injEq]

/-- Prior `Gamma(1, rate 2)`: never. -/
example : ∃ (ρ : Env) (post : Expr) (law : Measure ℝ),
    gammaPoissonFinder (exRng 0) (exPoisson (exGamma 1 (1 / 2))) = some [(exGamma 1 (1 / 2), post)] ∧
    lawAt ρ post = some law ∧
    ¬ ErrorBound Set.univ (bayes (gammaMeasure 1 2)
      (likAt ρ (exGamma 1 (1 / 2)) (exPoisson (exGamma 1 (1 / 2))) (7 : ℕ))) (freshDraw law) := by
  obtain ⟨-, law, -, rfl, h3, h4⟩ := C94_gamma_poisson_iff_partial (rng := exRng 0)
    (Y := exPoisson (exGamma 1 (1 / 2))) rfl (fun _ => 7) (y := 7) (by norm_num)
    (latent := exGamma 1 (1 / 2)) rfl (a := 1) (b := 2) (by simp [exNum, evalE])
    (by simp [exNum, evalE]) (by norm_num) (by norm_num)
  exact ⟨_, _, law, rfl, h3, fun hc => by have := h4.1 hc; norm_num at this⟩

/-- **C94 (partial).** Beta-negative-binomial step: exactly when the count equals the number of successes. -/
theorem C94_beta_nbinom_iff_partial {rng Y latent post : Expr}
    (h : betaNegBinomialFinder rng Y = some [(latent, post)])
    {shY : SShape} {rY sY dY nE pE : Expr} (hY : Y = .app (.rv .nbinom) shY [rY, sY, dY, nE, pE])
    (ρ : Env) {n : ℝ} (hn : evalE ρ nE = some n) (hn0 : 0 < n) (hread : ¬ Reads latent nE)
    {y : ℕ} (hy : ρ Y = y) {prior : Measure ℝ} (hprior : lawAt ρ latent = some prior) :
    ∃ law, lawAt ρ post = some law ∧
      (ErrorBound Set.univ (bayes prior (likAt ρ latent Y y)) (freshDraw law) ↔ (y : ℝ) = n) := by
  obtain ⟨a, b, ha, hb, hp, hd, hl, -, h6⟩ :=
    C14_beta_nbinom_exact_iff_partial h hY ρ hn hn0 hread hy hprior
  have := isProbabilityMeasureBeta (α := a + y) (β := b + n) (by positivity) (by positivity)
  have := isProbabilityMeasure_bayes hd
  refine ⟨_, hl, ?_⟩
  rw [freshDraw_errorBound_iff, ← h6, hl, Option.some.injEq]

/-- Ten required successes and a count of 0. -/
example : ∃ (ρ : Env) (post : Expr) (law : Measure ℝ),
    betaNegBinomialFinder (exRng 0) (exNbinom 10 (exBeta 1 1)) = some [(exBeta 1 1, post)] ∧
    lawAt ρ post = some law ∧
    ¬ ErrorBound Set.univ (bayes (betaMeasure 1 1)
      (likAt ρ (exBeta 1 1) (exNbinom 10 (exBeta 1 1)) (0 : ℕ))) (freshDraw law) := by
  obtain ⟨law, h1, h2⟩ := C94_beta_nbinom_iff_partial (rng := exRng 0)
    (Y := exNbinom 10 (exBeta 1 1)) (latent := exBeta 1 1) rfl rfl (fun _ => 0) (n := 10) (y := 0)
    (by simp [exNum, evalE]) (by norm_num) (by intro h; cases h) (by norm_num)
    (prior := betaMeasure 1 1) (by simp [exBeta, lawAt, exNum, evalE, rvLaw])
  exact ⟨_, _, law, rfl, h1, fun hc => by have := h2.1 hc; norm_num at this⟩

end

end Verif
