import Verif.Horseshoe.Scale

/-!
# C28, C29: `horseshoe_posterior`
-/

open MeasureTheory ProbabilityTheory Real
open scoped ENNReal

namespace Verif.Horseshoe

variable {p : ℕ}

/-- **C28 (part).**  If `srng.exponential` reads its argument as a rate, the step leaves the posterior of
`(λ, τ)` given `β` invariant, for every number of coefficients, every nonzero `β` and every `σ² > 0`;
the posterior is well defined.  Missing: the scale reading, where the claim is false (see
`C28_violated`). -/
theorem C28_rate_invariant_partial {β : Fin p → ℝ} (hβ : ∀ j, β j ≠ 0) {sigma2 : ℝ}
    (hs : 0 < sigma2) :
    BayesDefined (prior p) (lik β sigma2) ∧
    Stationary (posterior β sigma2)
      fun q => horseshoePosterior .rate β sigma2 (fun j => q.1 j ^ 2) (q.2 ^ 2) :=
  ⟨bayesDefined_posterior hβ hs, stationary_rate β hs⟩

example : BayesDefined (prior 2) (lik ![1, -3] 4) ∧
    Stationary (posterior ![1, -3] 4)
      fun q => horseshoePosterior .rate ![1, -3] 4 (fun j => q.1 j ^ 2) (q.2 ^ 2) :=
  C28_rate_invariant_partial (fun j => by fin_cases j <;> norm_num) (by norm_num)

/-- **C28 (part).**  The step that `normal_horseshoe_finder` builds (`σ² = 1`), rate reading. -/
theorem C28_rate_step_invariant_partial {β : Fin p → ℝ} (hβ : ∀ j, β j ≠ 0) :
    BayesDefined (prior p) (lik β 1) ∧ Stationary (posterior β 1) (horseshoeStep .rate β) :=
  ⟨bayesDefined_posterior hβ one_pos, stationary_rate β one_pos⟩

example : Stationary (posterior ![2] 1) (horseshoeStep .rate ![2]) :=
  (C28_rate_step_invariant_partial (fun j => by fin_cases j; norm_num)).2

/-- Spec.  Density of `N(0, v)` at `b`. -/
noncomputable def normalDens (v b : ℝ) : ℝ := (√(2 * π * v))⁻¹ * exp (-(b ^ 2 / (2 * v)))

/-- **C28 (part).**  The three draws follow the conditionals of the scale-mixture representation, rate
reading.  With `w = 1/λ²` and `u` the auxiliary precision: `u ~ Gamma(1/2, 1)`,
`w | u ~ Gamma(1/2, u)`, `β | w, t ~ N(0, σ² / (w t))`. -/
theorem C28_rate_conditionals_partial {p : ℕ} {β : Fin p → ℝ} {sigma2 : ℝ} (hs : 0 < sigma2) :
    -- the auxiliary of a local or of the global precision given that precision
    (∀ w, 0 < w → bayes (gammaMeasure (1 / 2) 1) (fun u => gammaPDF (1 / 2) u w) =
      expDraw .rate (1 + w)) ∧
    (∀ (lambda2 : Fin p → ℝ) (tau2 : ℝ), auxDraw .rate lambda2 tau2 =
      (Measure.pi fun j => expDraw .rate (1 + 1 / lambda2 j)).prod (expDraw .rate (1 + 1 / tau2))) ∧
    -- the local precisions
    (∀ (u : Fin p → ℝ) (t : ℝ), (∀ j, 0 < u j) → 0 < t →
      lambdaDraw .rate β sigma2 t⁻¹ u = Measure.pi fun j =>
        bayes (gammaMeasure (1 / 2) (u j)) fun w =>
          ENNReal.ofReal (normalDens (sigma2 / (w * t)) (β j))) ∧
    -- the global precision
    (∀ (z : ℝ) (w : Fin p → ℝ), 0 < z → (∀ j, 0 < w j) →
      tauDraw p β sigma2 z w = bayes (gammaMeasure (1 / 2) z) fun t =>
        ENNReal.ofReal (∏ j, normalDens (sigma2 / (w j * t)) (β j))) := by
  have hpi := pi_pos
  refine ⟨fun w hw => ?_, fun lambda2 tau2 => ?_, fun u t hu ht => ?_, fun z w hz hw => ?_⟩
  · have hG := Gamma_pos_of_pos (show (0 : ℝ) < 1 / 2 by norm_num)
    have hm : Measurable fun u => gammaPDF (1 / 2) u w := by
      unfold gammaPDF gammaPDFReal
      refine Measurable.ennreal_ofReal ?_
      simp only [if_pos hw.le]
      fun_prop
    have := (bayes_gamma (a := 1 / 2) (r := 1) (s := 1 / 2) (t := w)
      (k := w ^ (1 / 2 - 1 : ℝ) / Gamma (1 / 2)) (by norm_num) one_pos (by norm_num)
      (by positivity) (by positivity) hm ?_).2
    · rw [this]
      norm_num [expDraw, expMeasure_eq]
    · intro u hu
      rw [gammaPDF_of_nonneg hw.le]
      congr 1
      rw [mul_comm u w]
      ring
  · simp [auxDraw, one_div]
  · unfold lambdaDraw
    congr 1
    ext1 j
    have hm : Measurable fun w => ENNReal.ofReal (normalDens (sigma2 / (w * t)) (β j)) := by
      unfold normalDens; fun_prop
    have := (bayes_gamma (a := 1 / 2) (r := u j) (s := 1 / 2) (t := β j ^ 2 * t / (2 * sigma2))
      (k := √(t / (2 * π * sigma2))) (by norm_num) (hu j) (by norm_num)
      (add_pos_of_pos_of_nonneg (hu j) (by positivity)) (by positivity) hm ?_).2
    · rw [this]
      norm_num [expDraw, expMeasure_eq]
      congr 1
      field_simp
    · intro w hw
      congr 1
      rw [normalDens, ← sqrt_inv, ← sqrt_eq_rpow, ← sqrt_mul (by positivity)]
      congr 2
      · field_simp
      · field_simp
  · have hm : Measurable fun t => ENNReal.ofReal (∏ j, normalDens (sigma2 / (w j * t)) (β j)) := by
      unfold normalDens; fun_prop
    have hpos : 0 < ∏ j, √(w j / (2 * π * sigma2)) :=
      Finset.prod_pos fun j _ => by have := hw j; positivity
    have hsum : 0 ≤ ∑ j, β j ^ 2 * w j / (2 * sigma2) :=
      Finset.sum_nonneg fun j _ => by have := hw j; positivity
    have := (bayes_gamma (a := 1 / 2) (r := z) (s := (p : ℝ) / 2)
      (t := ∑ j, β j ^ 2 * w j / (2 * sigma2)) (k := ∏ j, √(w j / (2 * π * sigma2))) (by norm_num) hz
      (by positivity) (by linarith) hpos hm ?_).2
    · rw [this, tauDraw]
      congr 1
      · ring
      · rw [Finset.mul_sum, Finset.sum_div]
        congr 1
        refine Finset.sum_congr rfl fun j _ => ?_
        field_simp
        ring
    · intro t ht
      congr 1
      have e : ∀ j, normalDens (sigma2 / (w j * t)) (β j) =
          √(w j / (2 * π * sigma2)) * √t * exp (-(β j ^ 2 * w j / (2 * sigma2) * t)) := fun j => by
        have := hw j
        rw [normalDens, ← sqrt_inv, ← sqrt_mul (by positivity)]
        congr 2
        · field_simp
        · field_simp
      rw [Finset.prod_congr rfl fun j _ => e j, Finset.prod_mul_distrib, Finset.prod_mul_distrib,
        Finset.prod_const, Finset.card_fin, ← exp_sum, Finset.sum_neg_distrib, ← Finset.sum_mul,
        sqrt_eq_rpow, ← rpow_natCast, ← rpow_mul ht.le]
      congr 3
      ring

/-- Local precisions of two coefficients, noise variance 4, global scale 1/2. -/
example : lambdaDraw .rate ![1, -3] 4 (2 : ℝ)⁻¹ ![1, 5] = Measure.pi fun j =>
    bayes (gammaMeasure (1 / 2) ((![1, 5] : Fin 2 → ℝ) j)) fun w =>
      ENNReal.ofReal (normalDens (4 / (w * 2)) ((![1, -3] : Fin 2 → ℝ) j)) :=
  (C28_rate_conditionals_partial (by norm_num)).2.2.1 _ _ (fun j => by fin_cases j <;> norm_num)
    (by norm_num)

/-- **C28, mixture.**  The scale-mixture representation used above is the half-Cauchy law: drawing
`u ~ Gamma(1/2, 1)` and `w ~ Gamma(1/2, u)` gives the law of `1/λ²` for a half-Cauchy `λ`. -/
theorem C28_mixture_is_halfCauchy :
    (gammaMeasure (1 / 2) 1).bind (fun u => gammaMeasure (1 / 2) u) =
      halfCauchy.map fun x => (x ^ 2)⁻¹ := by
  rw [halfCauchy_map]
  refine Measure.ext_of_lintegral _ fun φ hφ => ?_
  have hK := measurable_gammaMeasure_rate (1 / 2)
  rw [Measure.lintegral_bind hK.aemeasurable hφ.aemeasurable,
    lintegral_withDensity_eq_lintegral_mul _ measurable_precDens.ennreal_ofReal hφ]
  have hpi := pi_pos
  have hd : ∀ r : ℝ, Measurable fun x => ENNReal.ofReal (gammaPDFReal (1 / 2) r x) :=
    fun r => (measurable_gammaPDFReal _ _).ennreal_ofReal
  have hj : Measurable fun q : ℝ × ℝ => ENNReal.ofReal (gammaPDFReal (1 / 2) q.1 q.2) := by
    refine Measurable.ennreal_ofReal ?_
    refine Measurable.ite (measurableSet_le measurable_const measurable_snd) ?_ measurable_const
    fun_prop
  have e1 : ∫⁻ u, ∫⁻ x, φ x ∂gammaMeasure (1 / 2) u ∂gammaMeasure (1 / 2) 1 =
      ∫⁻ u, ∫⁻ w, ENNReal.ofReal (gammaPDFReal (1 / 2) 1 u) *
        (ENNReal.ofReal (gammaPDFReal (1 / 2) u w) * φ w) ∂volPos ∂volPos := by
    have hin : Measurable fun u => ∫⁻ x, φ x ∂gammaMeasure (1 / 2) u :=
      (Measure.measurable_lintegral hφ).comp hK
    rw [gammaMeasure_eq_volPos (1 / 2) 1, lintegral_withDensity_eq_lintegral_mul _ (hd 1) hin]
    refine lintegral_congr fun u => ?_
    rw [Pi.mul_apply, gammaMeasure_eq_volPos, lintegral_withDensity_eq_lintegral_mul _ (hd u) hφ,
      ← lintegral_const_mul _ ((hd u).mul hφ)]
    rfl
  rw [e1, lintegral_lintegral_swap]
  · refine lintegral_congr_ae ?_
    filter_upwards [ae_volPos] with w hw
    have hm : Measurable fun u => ENNReal.ofReal (gammaPDFReal (1 / 2) 1 u) *
        ENNReal.ofReal (gammaPDFReal (1 / 2) u w) :=
      (hd 1).mul (hj.comp (measurable_id.prodMk measurable_const))
    have e2 : ∀ u, ENNReal.ofReal (gammaPDFReal (1 / 2) 1 u) *
        (ENNReal.ofReal (gammaPDFReal (1 / 2) u w) * φ w) =
        ENNReal.ofReal (gammaPDFReal (1 / 2) 1 u) * ENNReal.ofReal (gammaPDFReal (1 / 2) u w) * φ w :=
      fun u => (mul_assoc _ _ _).symm
    simp only [e2]
    rw [lintegral_mul_const _ hm, Pi.mul_apply]
    congr 1
    have h1w : 0 < 1 + w := by positivity
    have e3 : ∫⁻ u, ENNReal.ofReal (gammaPDFReal (1 / 2) 1 u) *
        ENNReal.ofReal (gammaPDFReal (1 / 2) u w) ∂volPos =
        ∫⁻ u, ENNReal.ofReal (precDens w) * ENNReal.ofReal (gammaPDFReal 1 (1 + w) u) ∂volPos := by
      refine lintegral_congr_ae ?_
      filter_upwards [ae_volPos] with u hu
      have hpd : 0 ≤ precDens w := by unfold precDens; positivity
      rw [← ENNReal.ofReal_mul (gammaPDFReal_nonneg (by norm_num) one_pos _),
        ← ENNReal.ofReal_mul hpd, gammaPDFReal_one hu]
      congr 1
      rw [gammaPDFReal, gammaPDFReal, if_pos hu.le, if_pos hw.le, precDens, Gamma_one_half_eq,
        show (1 / 2 - 1 : ℝ) = -(1 / 2) by norm_num, rpow_neg hu.le, one_rpow,
        show -((1 + w) * u) = -(1 * u) + -(u * w) by ring, exp_add]
      have := rpow_pos_of_pos hu (1 / 2)
      have hsq : √π * √π = π := mul_self_sqrt hpi.le
      have hsp := sqrt_pos.2 hpi
      generalize √π = s at hsq hsp
      rw [← hsq]
      field_simp
    have ip := isProbabilityMeasure_gammaMeasure one_pos h1w
    have hone : ∫⁻ u, ENNReal.ofReal (gammaPDFReal 1 (1 + w) u) ∂volPos = 1 := by
      have := measure_univ (μ := gammaMeasure 1 (1 + w))
      rwa [gammaMeasure_eq_volPos, withDensity_apply _ MeasurableSet.univ, Measure.restrict_univ]
        at this
    rw [e3, lintegral_const_mul _ (measurable_gammaPDFReal _ _).ennreal_ofReal, hone, mul_one]
  · exact (Measurable.mul ((hd 1).comp measurable_fst)
      (hj.mul (hφ.comp measurable_snd))).aemeasurable

/-- **C28 violated.**  In the scale reading, which is the one of NumPy and Aesara, the step never leaves
the posterior invariant: for every number of coefficients, all of them nonzero, the posterior is well
defined and not stationary. -/
theorem C28_violated (hp : 0 < p) {β : Fin p → ℝ} (hβ : ∀ j, β j ≠ 0) {sigma2 : ℝ} (hs : 0 < sigma2) :
    BayesDefined (prior p) (lik β sigma2) ∧
    ¬Stationary (posterior β sigma2)
      fun q => horseshoePosterior .scale β sigma2 (fun j => q.1 j ^ 2) (q.2 ^ 2) :=
  ⟨bayesDefined_posterior hβ hs, not_stationary_scale hp p hβ hs⟩

example : ¬Stationary (posterior ![1, -3] 4)
    fun q => horseshoePosterior .scale ![1, -3] 4 (fun j => q.1 j ^ 2) (q.2 ^ 2) :=
  (C28_violated (by norm_num) (fun j => by fin_cases j <;> norm_num) (by norm_num)).2

/-- **C28 violated**, for the step that `normal_horseshoe_finder` builds (`σ² = 1`). -/
theorem C28_step_violated (hp : 0 < p) {β : Fin p → ℝ} (hβ : ∀ j, β j ≠ 0) :
    BayesDefined (prior p) (lik β 1) ∧ ¬Stationary (posterior β 1) (horseshoeStep .scale β) :=
  C28_violated hp hβ one_pos

example : ¬Stationary (posterior ![0.1] 1) (horseshoeStep .scale ![0.1]) :=
  (C28_step_violated (by norm_num) (fun j => by fin_cases j; norm_num)).2

/-- **C28 violated, draw by draw.**  In the scale reading the auxiliary draw differs from the
conditional in every state: it is exponential with mean `1 + 1/λ²` instead of rate `1 + 1/λ²`. -/
theorem C28_conditionals_violated {w : ℝ} (hw : 0 < w) :
    bayes (gammaMeasure (1 / 2) 1) (fun u => gammaPDF (1 / 2) u w) ≠ expDraw .scale (1 + w) := by
  rw [(C28_rate_conditionals_partial (p := 0) (β := 0) (sigma2 := 1) one_pos).1 w hw]
  intro h
  have h1 : 0 < 1 + w := by positivity
  have := gammaMeasure_rate_inj one_pos h1 (inv_pos.2 h1) h
  have h2 : (1 + w)⁻¹ < 1 := inv_lt_one_of_one_lt₀ (by linarith)
  linarith

example : bayes (gammaMeasure (1 / 2) 1) (fun u => gammaPDF (1 / 2) u 3) ≠ expDraw .scale (1 + 3) :=
  C28_conditionals_violated (by norm_num)

/-- **C29.**  In both readings, for positive inputs, the result is a probability law on positive
vectors `(λ, τ)`, and `(1/λ², 1/τ²)` has the law of the drawn precisions. -/
theorem C29_result_scale (conv : ExpArg) (β : Fin p → ℝ) {sigma2 : ℝ} (hs : 0 < sigma2)
    {lambda2 : Fin p → ℝ} (hl : ∀ j, 0 < lambda2 j) {tau2 : ℝ} (ht : 0 < tau2) :
    IsProbabilityMeasure (horseshoePosterior conv β sigma2 lambda2 tau2) ∧
    (∀ᵐ q ∂horseshoePosterior conv β sigma2 lambda2 tau2, (∀ j, 0 < q.1 j) ∧ 0 < q.2) ∧
    (horseshoePosterior conv β sigma2 lambda2 tau2).map
      (fun q => ((fun j => 1 / q.1 j ^ 2 : Fin p → ℝ), 1 / q.2 ^ 2)) =
        precisionScan (expDraw conv) β sigma2 lambda2 tau2 := by
  have hprob := precisionScan_isProb conv β hs hl ht
  have hpos := precisionScan_pos conv β hs hl ht
  rw [horseshoePosterior_eq conv β hs hl ht]
  refine ⟨Measure.isProbabilityMeasure_map measurable_ofPrec.aemeasurable, ?_, ?_⟩
  · refine (ae_map_iff (p := AllPos) measurable_ofPrec.aemeasurable measurableSet_allPos).2 ?_
    filter_upwards [hpos] with q hq
    exact ⟨fun j => inv_pos.2 (sqrt_pos.2 (hq.1 j)), inv_pos.2 (sqrt_pos.2 hq.2)⟩
  · have e : (fun q : (Fin p → ℝ) × ℝ => ((fun j => 1 / q.1 j ^ 2 : Fin p → ℝ), 1 / q.2 ^ 2)) =
        toPrec := by
      ext1 q
      simp [toPrec, one_div]
    rw [e, Measure.map_map measurable_toPrec measurable_ofPrec]
    conv_rhs => rw [← Measure.map_id (μ := precisionScan (expDraw conv) β sigma2 lambda2 tau2)]
    refine Measure.map_congr ?_
    filter_upwards [hpos] with q hq using toPrec_ofPrec hq.1 hq.2

example : ∀ᵐ q ∂horseshoePosterior .scale ![1, 0] 2 ![1, 3] 5, (∀ j, 0 < q.1 j) ∧ 0 < q.2 :=
  (C29_result_scale .scale ![1, 0] (by norm_num) (fun j => by fin_cases j <;> norm_num)
    (by norm_num)).2.1

end Verif.Horseshoe
