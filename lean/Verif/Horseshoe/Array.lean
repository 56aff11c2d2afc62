import Verif.Horseshoe.Prec

/-!
# The horseshoe step on arrays of coefficients: helper lemmas
-/

open MeasureTheory ProbabilityTheory Real
open scoped ENNReal

namespace Verif.Horseshoe

variable {p : ℕ}

/-- Mean of a gamma variable. -/
theorem lintegral_id_gammaMeasure {a r : ℝ} (ha : 0 < a) (hr : 0 < r) :
    ∫⁻ t, ENNReal.ofReal t ∂gammaMeasure a r = ENNReal.ofReal (a / r) := by
  have hm : ∀ b, Measurable fun x => ENNReal.ofReal (gammaPDFReal b r x) := fun b =>
    (measurable_gammaPDFReal _ _).ennreal_ofReal
  have h1 : ∫⁻ t, ENNReal.ofReal t ∂gammaMeasure a r =
      ∫⁻ t, ENNReal.ofReal (a / r) * ENNReal.ofReal (gammaPDFReal (a + 1) r t) ∂volPos := by
    rw [gammaMeasure_eq_volPos, lintegral_withDensity_eq_lintegral_mul _ (hm a) (by fun_prop)]
    refine lintegral_congr_ae ?_
    filter_upwards [ae_volPos] with t ht
    rw [Pi.mul_apply, ← ENNReal.ofReal_mul (gammaPDFReal_nonneg ha hr _),
      ← ENNReal.ofReal_mul (by positivity)]
    congr 1
    have hG := Gamma_pos_of_pos ha
    have hta : t ^ a = t ^ (a - 1) * t := by rw [← rpow_add_one ht.ne', sub_add_cancel]
    rw [gammaPDFReal, gammaPDFReal, if_pos ht.le, if_pos ht.le, Gamma_add_one ha.ne',
      rpow_add_one hr.ne', add_sub_cancel_right, hta]
    field_simp
  have ip := isProbabilityMeasure_gammaMeasure (show 0 < a + 1 by positivity) hr
  have h2 : ∫⁻ t, ENNReal.ofReal (gammaPDFReal (a + 1) r t) ∂volPos = 1 := by
    have := measure_univ (μ := gammaMeasure (a + 1) r)
    rwa [gammaMeasure_eq_volPos, withDensity_apply _ MeasurableSet.univ, Measure.restrict_univ] at this
  rw [h1, lintegral_const_mul _ (hm _), h2, mul_one]

/-- The law of the precisions after one step. -/
theorem horseshoeArray_map_toPrec (conv : ExpArg) (rows : ℕ) (β : Fin p → ℝ) {sigma2 : ℝ}
    (hs : 0 < sigma2) {lambda2 : Fin p → ℝ} (hl : ∀ j, 0 < lambda2 j) {tau2 : ℝ} (ht : 0 < tau2) :
    (horseshoeArray conv rows β sigma2 lambda2 tau2).map toPrec =
      ((Measure.pi fun j => expDraw conv (1 + 1 / lambda2 j)).prod
        (expDraw conv (1 + 1 / tau2))).bind (lastTwo conv rows β sigma2 tau2) := by
  rw [horseshoeArray_eq conv rows β hs hl ht, Measure.map_map measurable_toPrec measurable_ofPrec]
  conv_rhs => rw [← Measure.map_id (μ := Measure.bind _ _)]
  refine Measure.map_congr ?_
  have hpos : ∀ᵐ q ∂((Measure.pi fun j => expDraw conv (1 + 1 / lambda2 j)).prod
      (expDraw conv (1 + 1 / tau2))).bind (lastTwo conv rows β sigma2 tau2), AllPos q :=
    ae_bind (measurable_lastTwo conv rows β sigma2 tau2).aemeasurable measurableSet_allPos
      (ae_of_all _ fun x => ae_pos_lastTwo conv rows β sigma2 tau2 x)
  filter_upwards [hpos] with q hq using toPrec_ofPrec hq.1 hq.2

/-- `∑ⱼ βⱼ² wⱼ / (2 σ²)` -/
noncomputable def energy (β : Fin p → ℝ) (sigma2 : ℝ) (w : Fin p → ℝ) : ℝ :=
  ∑ j, β j ^ 2 * w j / (2 * sigma2)

theorem measurable_energy (β : Fin p → ℝ) (sigma2 : ℝ) : Measurable (energy β sigma2) := by
  unfold energy
  fun_prop

/-- Global precision times energy. -/
noncomputable def testFn (β : Fin p → ℝ) (sigma2 : ℝ) (r : (Fin p → ℝ) × ℝ) : ℝ≥0∞ :=
  ENNReal.ofReal r.2 * ENNReal.ofReal (energy β sigma2 r.1)

theorem measurable_testFn (β : Fin p → ℝ) (sigma2 : ℝ) : Measurable (testFn β sigma2) :=
  Measurable.mul (by fun_prop)
    ((measurable_energy β sigma2).comp measurable_fst).ennreal_ofReal

/-- The part of the mean of `testFn` after one step that does not depend on the number of rows. -/
noncomputable def scanPart (conv : ExpArg) (β : Fin p → ℝ) (sigma2 : ℝ) (q : (Fin p → ℝ) × ℝ) : ℝ≥0∞ :=
  ∫⁻ x, ∫⁻ w, ENNReal.ofReal (energy β sigma2 w / posOr1 (x.2 + energy β sigma2 w))
    ∂(Measure.pi fun j =>
      gammaMeasure 1 (posOr1 (eRate conv (x.1 j + β j ^ 2 / (2 * sigma2 * q.2 ^ 2)))))
    ∂((Measure.pi fun j => expDraw conv (1 + 1 / q.1 j ^ 2)).prod (expDraw conv (1 + 1 / q.2 ^ 2)))

theorem testFn_mean (conv : ExpArg) (rows : ℕ) (β : Fin p → ℝ) {sigma2 : ℝ} (hs : 0 < sigma2)
    {q : (Fin p → ℝ) × ℝ} (hq : AllPos q) :
    ∫⁻ r, testFn β sigma2 (toPrec r) ∂horseshoeArray conv rows β sigma2 (fun j => q.1 j ^ 2) (q.2 ^ 2) =
      ENNReal.ofReal (((rows : ℝ) + 1) / 2) * scanPart conv β sigma2 q := by
  have hl : ∀ j, 0 < q.1 j ^ 2 := fun j => pow_pos (hq.1 j) 2
  have ht : 0 < q.2 ^ 2 := pow_pos hq.2 2
  have hm := measurable_testFn β sigma2
  rw [← lintegral_map hm measurable_toPrec, horseshoeArray_map_toPrec conv rows β hs hl ht,
    Measure.lintegral_bind (measurable_lastTwo conv rows β sigma2 (q.2 ^ 2)).aemeasurable
      hm.aemeasurable, scanPart, ← lintegral_const_mul' _ _ ENNReal.ofReal_ne_top]
  refine lintegral_congr fun x => ?_
  unfold lastTwo
  rw [Measure.lintegral_bind (measurable_lastDraw_right rows β sigma2 x).aemeasurable
    hm.aemeasurable, ← lintegral_const_mul' _ _ ENNReal.ofReal_ne_top]
  refine lintegral_congr fun w => ?_
  have hpair : Measurable fun s : ℝ => (w, s) := measurable_const.prodMk measurable_id
  have hR := posOr1_pos (x.2 + energy β sigma2 w)
  rw [lastDraw, lintegral_map hm hpair]
  simp only [testFn]
  rw [lintegral_mul_const' _ _ ENNReal.ofReal_ne_top]
  show (∫⁻ t, ENNReal.ofReal t ∂gammaMeasure (((rows : ℝ) + 1) / 2)
    (posOr1 (x.2 + energy β sigma2 w))) * _ = _
  rw [lintegral_id_gammaMeasure (half_pos' rows) hR, ← ENNReal.ofReal_mul (by positivity),
    ← ENNReal.ofReal_mul (by positivity)]
  congr 1
  field_simp

theorem scanPart_le_one (conv : ExpArg) (β : Fin p → ℝ) {sigma2 : ℝ} (hs : 0 < sigma2)
    {q : (Fin p → ℝ) × ℝ} (hq : AllPos q) : scanPart conv β sigma2 q ≤ 1 := by
  have hl : ∀ j, 0 < q.1 j ^ 2 := fun j => pow_pos (hq.1 j) 2
  have ht : 0 < q.2 ^ 2 := pow_pos hq.2 2
  have i1 := isProbabilityMeasure_auxLaw conv hl ht
  have h1 : ∀ x : (Fin p → ℝ) × ℝ, AllPos x →
      ∫⁻ w, ENNReal.ofReal (energy β sigma2 w / posOr1 (x.2 + energy β sigma2 w))
        ∂(Measure.pi fun j =>
          gammaMeasure 1 (posOr1 (eRate conv (x.1 j + β j ^ 2 / (2 * sigma2 * q.2 ^ 2))))) ≤ 1 := by
    intro x hx
    have i2 : IsProbabilityMeasure (Measure.pi fun j =>
        gammaMeasure 1 (posOr1 (eRate conv (x.1 j + β j ^ 2 / (2 * sigma2 * q.2 ^ 2))))) :=
      isProbabilityMeasure_pi_gamma (fun _ => one_pos) fun _ => posOr1_pos _
    refine (lintegral_mono_ae (g := fun _ => 1) ?_).trans (by simp)
    filter_upwards [ae_pos_pi_gamma one_pos fun j => posOr1_pos _] with w hw
    have he : 0 ≤ energy β sigma2 w := Finset.sum_nonneg fun j _ => by
      have := hw j
      positivity
    have hx2 := hx.2
    rw [posOr1_of_pos (by positivity), ← ENNReal.ofReal_one]
    exact ENNReal.ofReal_le_ofReal ((div_le_one (by positivity)).2 (by linarith))
  unfold scanPart
  refine (lintegral_mono_ae (g := fun _ => 1) ?_).trans
    (by rw [lintegral_const, measure_univ, mul_one])
  filter_upwards [ae_pos_auxLaw conv hl ht] with x hx using h1 x hx

/-- In the rate reading the posterior is stationary only if the number of rows is the number of
entries. -/
theorem rows_eq_of_stationary {rows : ℕ} (hp : 0 < p) {β : Fin p → ℝ} (hβ : ∀ j, β j ≠ 0)
    {sigma2 : ℝ} (hs : 0 < sigma2)
    (h : Stationary (posterior β sigma2)
      fun q => horseshoeArray .rate rows β sigma2 (fun j => q.1 j ^ 2) (q.2 ^ 2)) : rows = p := by
  have hprob : IsProbabilityMeasure (posterior β sigma2) :=
    isProbabilityMeasure_bayes (bayesDefined_posterior hβ hs)
  have hm : Measurable fun r : (Fin p → ℝ) × ℝ => testFn β sigma2 (toPrec r) :=
    (measurable_testFn β sigma2).comp measurable_toPrec
  have key : ∀ n : ℕ, Stationary (posterior β sigma2)
      (fun q => horseshoeArray .rate n β sigma2 (fun j => q.1 j ^ 2) (q.2 ^ 2)) →
      ∫⁻ r, testFn β sigma2 (toPrec r) ∂posterior β sigma2 =
        ENNReal.ofReal (((n : ℝ) + 1) / 2) * ∫⁻ q, scanPart .rate β sigma2 q ∂posterior β sigma2 := by
    intro n hn
    conv_lhs => rw [← hn.2, Measure.lintegral_bind hn.1 hm.aemeasurable]
    rw [← lintegral_const_mul' _ _ ENNReal.ofReal_ne_top]
    refine lintegral_congr_ae ?_
    filter_upwards [ae_posterior_pos β sigma2] with q hq using testFn_mean .rate n β hs hq
  have h1 := key rows h
  have h2 := key p (stationary_rate β hs)
  have hfin : ∫⁻ q, scanPart .rate β sigma2 q ∂posterior β sigma2 ≠ ∞ := by
    refine ne_top_of_le_ne_top ENNReal.one_ne_top
      ((lintegral_mono_ae (g := fun _ => 1) ?_).trans (by simp))
    filter_upwards [ae_posterior_pos β sigma2] with q hq using scanPart_le_one .rate β hs hq
  have hne : ∫⁻ q, scanPart .rate β sigma2 q ∂posterior β sigma2 ≠ 0 := by
    intro h0
    rw [h0, mul_zero, lintegral_eq_zero_iff hm] at h2
    obtain ⟨q, hq, hq0⟩ := ((ae_posterior_pos β sigma2).and h2).exists
    have h3 : testFn β sigma2 (toPrec q) = 0 := hq0
    have hpos2 : 0 < (toPrec q).2 := by
      have := hq.2
      simp only [toPrec]
      positivity
    have hposE : 0 < energy β sigma2 (toPrec q).1 := by
      have : Nonempty (Fin p) := ⟨⟨0, hp⟩⟩
      refine Finset.sum_pos (fun j _ => ?_) Finset.univ_nonempty
      have h4 := hq.1 j
      have h5 := hβ j
      simp only [toPrec]
      positivity
    rw [testFn, mul_eq_zero, ENNReal.ofReal_eq_zero, ENNReal.ofReal_eq_zero] at h3
    rcases h3 with h3 | h3 <;> linarith
  rw [h1, ENNReal.mul_left_inj hne hfin, ENNReal.ofReal_eq_ofReal_iff (half_pos' _).le
    (half_pos' _).le] at h2
  have : (rows : ℝ) = p := by linarith
  exact_mod_cast this

end Verif.Horseshoe
