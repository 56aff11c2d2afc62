import Verif.Horseshoe.Tail

/-!
# Scale reading: no law with half-Cauchy tails is kept, whatever the coefficients do

`m` is a law of `(λ, τ)` that is at most a multiple of the prior and whose `λⱼ` has, near zero, at least a
multiple of the prior mass.  Then the horseshoe step in the scale reading cannot give `m` again, from
any joint law of coefficients and `(λ, τ)` with marginal `m`.
-/

open MeasureTheory ProbabilityTheory Real
open scoped ENNReal

namespace Verif.Horseshoe

variable {p : ℕ}

/-- Mean of a power of the precision under the prior. -/
noncomputable def hcPow (s : ℝ) : ℝ≥0∞ := ∫⁻ t, ENNReal.ofReal ((t ^ 2)⁻¹ ^ s) ∂halfCauchy

theorem hcPow_lt_top {s : ℝ} (h0 : 0 < s) (h1 : s < 1 / 2) : hcPow s < ∞ := by
  have hg : Measurable fun x : ℝ => (x ^ 2)⁻¹ := by fun_prop
  have hm : Measurable fun w : ℝ => ENNReal.ofReal (w ^ s) := by fun_prop
  have e : hcPow s = ∫⁻ w, ENNReal.ofReal (w ^ s) ∂halfCauchy.map fun x => (x ^ 2)⁻¹ :=
    (lintegral_map hm hg).symm
  rw [e, halfCauchy_map, lintegral_withDensity_eq_lintegral_mul _ measurable_precDens.ennreal_ofReal hm]
  refine lt_of_le_of_lt (lintegral_mono_ae ?_)
    (lintegral_rpow_div_lt_top (s := s - 1 / 2) (by linarith) (by linarith))
  filter_upwards [ae_volPos] with w hw
  have hpi : 1 ≤ π := by linarith [pi_gt_three]
  rw [Pi.mul_apply, precDens, ← ENNReal.ofReal_mul (by positivity)]
  refine ENNReal.ofReal_le_ofReal ?_
  have h2 : w ^ (s - 1 / 2) = w ^ (-(1 / 2) : ℝ) * w ^ s := by
    rw [← rpow_add hw]
    congr 1
    ring
  rw [h2, div_mul_eq_mul_div]
  refine div_le_div_of_nonneg_left (by positivity) (by positivity) ?_
  nlinarith

/-- The part of the mean with `t ≤ 1`. -/
noncomputable def hcPow1 (s : ℝ) : ℝ≥0∞ :=
  ∫⁻ t in Set.Ioc 0 1, ENNReal.ofReal ((t ^ 2)⁻¹ ^ s) ∂halfCauchy

theorem hcPow_le {s : ℝ} (h0 : 0 < s) : hcPow s ≤ hcPow1 s + 1 := by
  have hs : ∀ᵐ t ∂halfCauchy, ENNReal.ofReal ((t ^ 2)⁻¹ ^ s) ≤
      (Set.Ioc (0 : ℝ) 1).indicator (fun t => ENNReal.ofReal ((t ^ 2)⁻¹ ^ s)) t + 1 := by
    filter_upwards [ae_pos_halfCauchy] with t ht
    by_cases h : t ≤ 1
    · rw [Set.indicator_of_mem (show t ∈ Set.Ioc (0 : ℝ) 1 from ⟨ht, h⟩)]
      exact le_self_add
    · push Not at h
      refine le_add_left ?_
      rw [ENNReal.ofReal_le_one]
      refine rpow_le_one (by positivity) ?_ h0.le
      exact inv_le_one_of_one_le₀ (by nlinarith)
  refine (lintegral_mono_ae hs).trans ?_
  rw [lintegral_add_right _ measurable_const, lintegral_indicator measurableSet_Ioc]
  simp [hcPow1]

theorem hcPow1_ge {s : ℝ} (h0 : 0 < s) (h1 : s < 1 / 2) :
    ENNReal.ofReal (π⁻¹ * (1 - 2 * s)⁻¹) ≤ hcPow1 s := by
  have hpi := pi_pos
  have hi : IntegrableOn (fun t : ℝ => t ^ (-(2 * s))) (Set.Ioc 0 1) :=
    (intervalIntegrable_iff_integrableOn_Ioc_of_le zero_le_one).1
      (intervalIntegral.intervalIntegrable_rpow' (by linarith))
  have e : ENNReal.ofReal (π⁻¹ * (1 - 2 * s)⁻¹) =
      ENNReal.ofReal π⁻¹ * ∫⁻ t in Set.Ioc 0 1, ENNReal.ofReal (t ^ (-(2 * s))) := by
    rw [← ofReal_integral_eq_lintegral_ofReal hi, ENNReal.ofReal_mul (by positivity),
      ← intervalIntegral.integral_of_le zero_le_one, integral_rpow (Or.inl (by linarith)), one_rpow,
      zero_rpow (by linarith), sub_zero, one_div]
    · congr 3
      ring
    · filter_upwards [ae_restrict_mem measurableSet_Ioc] with t ht using rpow_nonneg ht.1.le _
  have hmf : Measurable fun t : ℝ => ENNReal.ofReal ((t ^ 2)⁻¹ ^ s) := by fun_prop
  rw [e, hcPow1, halfCauchy, restrict_withDensity measurableSet_Ioc,
    Measure.restrict_restrict measurableSet_Ioc,
    show Set.Ioc (0 : ℝ) 1 ∩ Set.Ioi 0 = Set.Ioc 0 1 from
      Set.inter_eq_left.2 fun x hx => hx.1,
    lintegral_withDensity_eq_lintegral_mul _ (by fun_prop) hmf,
    ← lintegral_const_mul' _ _ ENNReal.ofReal_ne_top]
  refine setLIntegral_mono_ae (Measurable.mul (by fun_prop) hmf).aemeasurable (ae_of_all _ fun t ht => ?_)
  have ht0 : 0 < t := ht.1
  have ht1 : t ≤ 1 := ht.2
  rw [Pi.mul_apply, ← ENNReal.ofReal_mul (by positivity), ← ENNReal.ofReal_mul (by positivity)]
  refine ENNReal.ofReal_le_ofReal ?_
  have e2 : (t ^ 2)⁻¹ ^ s = t ^ (-(2 * s)) := by
    rw [inv_rpow (by positivity), ← rpow_natCast, ← rpow_mul ht0.le, rpow_neg ht0.le]
    norm_num
  rw [e2]
  refine mul_le_mul_of_nonneg_right ?_ (by positivity)
  rw [inv_eq_one_div, div_le_div_iff₀ hpi (by positivity)]
  nlinarith [sq_nonneg t, mul_le_mul ht1 ht1 ht0.le zero_le_one]

theorem exists_tail {ε : ℝ≥0∞} (hε : 0 < ε) : ∃ T : ℝ, 0 < T ∧ halfCauchy (Set.Ici T) ≤ ε := by
  have h := tendsto_measure_iInter_atTop (μ := halfCauchy) (s := fun n : ℕ => Set.Ici (n : ℝ))
    (fun n => measurableSet_Ici.nullMeasurableSet)
    (fun a b hab => Set.Ici_subset_Ici.2 (by exact_mod_cast hab)) ⟨0, measure_ne_top _ _⟩
  have he : (⋂ n : ℕ, Set.Ici (n : ℝ)) = ∅ := by
    ext x
    simp only [Set.mem_iInter, Set.mem_Ici, Set.mem_empty_iff_false, iff_false, not_forall, not_le]
    exact exists_nat_gt x
  rw [he, measure_empty] at h
  obtain ⟨n, hn, h1⟩ := ((h.eventually_le_const hε).and (Filter.eventually_gt_atTop 0)).exists
  exact ⟨n, by exact_mod_cast h1, hn⟩

theorem Gamma_near_half : ∃ s₀ < (1 / 2 : ℝ), 0 < s₀ ∧ ∀ s, s₀ < s → s < 1 / 2 →
    Gamma (1 + s) * Gamma (1 + s) ≤ 4 / 5 := by
  have hGc : ContinuousAt (fun s : ℝ => Gamma (1 + s) * Gamma (1 + s)) (1 / 2) := by
    have : ContinuousAt (fun s : ℝ => Gamma (1 + s)) (1 / 2) := by
      refine ContinuousAt.comp (g := Gamma) ?_ (by fun_prop)
      refine (differentiableAt_Gamma fun m => ?_).continuousAt
      have : (0 : ℝ) ≤ m := by positivity
      intro h
      linarith
    exact this.mul this
  have hv : Gamma (1 + 1 / 2) * Gamma (1 + 1 / 2) < 4 / 5 := by
    have h1 : Gamma (1 + 1 / 2) = √π / 2 := by
      rw [add_comm, Gamma_add_one (by norm_num), Gamma_one_half_eq]
      ring
    rw [h1]
    have := mul_self_sqrt pi_pos.le
    have := pi_lt_d2
    nlinarith
  have hev := hGc.tendsto.eventually_lt_const hv
  obtain ⟨l, hl, hl2⟩ := (mem_nhdsLT_iff_exists_Ioo_subset' (show (0 : ℝ) < 1 / 2 by norm_num)).1
    (nhdsWithin_le_nhds (s := Set.Iio (1 / 2)) hev)
  refine ⟨max l (1 / 4), max_lt hl (by norm_num), lt_max_of_lt_right (by norm_num), fun s h1 h2 => ?_⟩
  exact le_of_lt (hl2 ⟨(le_max_left _ _).trans_lt h1, h2⟩)

theorem prior_pow_tail (j : Fin p) (s T : ℝ) :
    ∫⁻ q, ENNReal.ofReal ((toPrec q).1 j ^ s) * (Set.Ici T).indicator 1 q.2 ∂prior p =
      hcPow s * halfCauchy (Set.Ici T) := by
  have h1 : Measurable fun t : ℝ => ENNReal.ofReal ((t ^ 2)⁻¹ ^ s) := by fun_prop
  have hi : Measurable ((Set.Ici T).indicator (1 : ℝ → ℝ≥0∞)) :=
    measurable_const.indicator measurableSet_Ici
  have hc : Measurable fun x : Fin p → ℝ => ENNReal.ofReal ((x j ^ 2)⁻¹ ^ s) :=
    h1.comp (measurable_pi_apply j)
  unfold prior
  rw [show (fun q : (Fin p → ℝ) × ℝ => ENNReal.ofReal ((toPrec q).1 j ^ s) *
      (Set.Ici T).indicator 1 q.2) = fun q => (fun x : Fin p → ℝ => ENNReal.ofReal ((x j ^ 2)⁻¹ ^ s)) q.1 *
        ((Set.Ici T).indicator (1 : ℝ → ℝ≥0∞)) q.2 from rfl,
    lintegral_prod_mul hc.aemeasurable hi.aemeasurable, lintegral_indicator_one measurableSet_Ici]
  congr 1
  exact lintegral_pi_coord (fun _ => inferInstance) j h1

theorem prior_pow_snd (s : ℝ) :
    ∫⁻ q, ENNReal.ofReal ((toPrec q).2 ^ s) ∂prior p = hcPow s := by
  have h1 : Measurable fun t : ℝ => ENNReal.ofReal ((t ^ 2)⁻¹ ^ s) := by fun_prop
  exact (measurePreserving_snd (μ := Measure.pi fun _ : Fin p => halfCauchy)
    (ν := halfCauchy)).lintegral_comp h1

theorem prior_pow_fst (j : Fin p) (s : ℝ) :
    ∫⁻ q, ENNReal.ofReal ((toPrec q).1 j ^ s) ∂prior p = hcPow s := by
  have h1 : Measurable fun t : ℝ => ENNReal.ofReal ((t ^ 2)⁻¹ ^ s) := by fun_prop
  exact ((measurePreserving_fst (μ := Measure.pi fun _ : Fin p => halfCauchy)
    (ν := halfCauchy)).lintegral_comp (h1.comp (measurable_pi_apply j))).trans
      (lintegral_pi_coord (fun _ => inferInstance) j h1)

/-- Splitting a power of `1/λⱼ²` at `τ = T`. -/
theorem pow_le_split {q : (Fin p → ℝ) × ℝ} (hq : AllPos q) (j : Fin p) (s T : ℝ) :
    ENNReal.ofReal ((toPrec q).1 j ^ s) ≤
      ENNReal.ofReal ((toPrec q).1 j ^ s) * cut T (toPrec q).2 +
        ENNReal.ofReal ((toPrec q).1 j ^ s) * (Set.Ici T).indicator 1 q.2 := by
  by_cases h : T ≤ q.2
  · rw [Set.indicator_of_mem (show q.2 ∈ Set.Ici T from h), Pi.one_apply, mul_one]
    exact le_add_self
  · push Not at h
    have h2 := hq.2
    have h1 : cut T (toPrec q).2 = 1 := by
      unfold cut
      refine min_eq_left ?_
      rw [ENNReal.one_le_ofReal]
      have e : (toPrec q).2 ^ (1 / 4 : ℝ) = (√q.2)⁻¹ := by
        simp only [toPrec]
        rw [inv_rpow (by positivity), ← rpow_natCast, ← rpow_mul h2.le, sqrt_eq_rpow]
        norm_num
      rw [e, ← div_eq_mul_inv, one_le_div (sqrt_pos.2 h2)]
      exact sqrt_le_sqrt h.le
    rw [h1, mul_one]
    exact le_self_add

/-- No law with these tails is given again by the step in the scale reading. -/
theorem scale_drift (rows : ℕ) (j : Fin p) {m : Measure ((Fin p → ℝ) × ℝ)} [IsProbabilityMeasure m]
    {ρ : Measure ((Fin p → ℝ) × (Fin p → ℝ) × ℝ)} (hρ : ρ.map Prod.snd = m)
    {C c : ℝ≥0∞} (hC : C ≠ ∞) (hup : m ≤ C • prior p) (hc0 : c ≠ 0) (hcT : c ≠ ∞)
    (hlow : ∀ f : ℝ → ℝ≥0∞, Measurable f →
      c * ∫⁻ t in Set.Ioc 0 1, f t ∂halfCauchy ≤ ∫⁻ q, f (q.1 j) ∂m)
    (hstep : ∀ f : (Fin p → ℝ) × ℝ → ℝ≥0∞, Measurable f → ∫⁻ q, f q ∂m ≤
      ∫⁻ r, ∫⁻ q', f q' ∂horseshoeArray .scale rows r.1 1 (fun j => r.2.1 j ^ 2) (r.2.2 ^ 2) ∂ρ) :
    False := by
  have hac : m ≪ prior p := (Measure.absolutelyContinuous_of_le hup).trans
    (Measure.smul_absolutelyContinuous)
  have hpos : ∀ᵐ q ∂m, AllPos q := hac.ae_le (ae_prior_pos p)
  have hρpos : ∀ᵐ r ∂ρ, AllPos r.2 := by
    rw [← hρ] at hpos
    exact ae_of_ae_map measurable_snd.aemeasurable hpos
  have hρ1 : IsProbabilityMeasure ρ := by
    have : IsProbabilityMeasure (ρ.map Prod.snd) := hρ ▸ inferInstance
    exact Measure.isProbabilityMeasure_of_map Prod.snd
  have upper : ∀ f : (Fin p → ℝ) × ℝ → ℝ≥0∞, ∫⁻ q, f q ∂m ≤ C * ∫⁻ q, f q ∂prior p := fun f =>
    (lintegral_mono' hup le_rfl).trans_eq (lintegral_smul_measure _ _)
  obtain ⟨s₀, hs₀, hs₀0, hG⟩ := Gamma_near_half
  -- the cut
  obtain ⟨T, hT, hη⟩ := exists_tail (ε := c / (10 * (C + 1))) (ENNReal.div_pos hc0 (by finiteness))
  have hη2 : C * halfCauchy (Set.Ici T) ≤ c / 10 := by
    calc C * halfCauchy (Set.Ici T) ≤ (C + 1) * (c / (10 * (C + 1))) := by gcongr; exact le_self_add
      _ = c / 10 := by
        rw [ENNReal.div_eq_inv_mul, ENNReal.div_eq_inv_mul,
          ENNReal.mul_inv (by simp) (by simp), mul_comm (10 : ℝ≥0∞)⁻¹, ← mul_assoc, ← mul_assoc,
          ENNReal.mul_inv_cancel (by simp) (by finiteness), one_mul]
  let D : ℝ≥0∞ := ENNReal.ofReal (cutC rows T * Gamma (1 + 1 / 4))
  let W : ℝ≥0∞ := ∫⁻ q, ENNReal.ofReal ((toPrec q).2 ^ (1 / 4 : ℝ)) ∂m
  have hW : W ≠ ∞ := by
    refine ne_of_lt ((upper _).trans_lt ?_)
    rw [prior_pow_snd]
    exact ENNReal.mul_lt_top hC.lt_top (hcPow_lt_top (by norm_num) (by norm_num))
  let B : ℝ≥0∞ := 2 + D * W + c
  have hB : B ≠ ∞ := by
    have hD : D ≠ ∞ := ENNReal.ofReal_ne_top
    finiteness
  have key : ∀ s, s₀ < s → s < 1 / 2 → c * ENNReal.ofReal (π⁻¹ * (1 - 2 * s)⁻¹) ≤ 10 * B := by
    intro s h1 h2
    have hs0 : 0 < s := hs₀0.trans h1
    have hXm : Measurable fun q : (Fin p → ℝ) × ℝ => ENNReal.ofReal ((toPrec q).1 j ^ s) := by
      have : Measurable fun q : (Fin p → ℝ) × ℝ => (toPrec q).1 j :=
        (measurable_pi_apply j).comp (measurable_fst.comp measurable_toPrec)
      fun_prop
    have hWm : Measurable fun q : (Fin p → ℝ) × ℝ => ENNReal.ofReal ((toPrec q).2 ^ (1 / 4 : ℝ)) := by
      have : Measurable fun q : (Fin p → ℝ) × ℝ => (toPrec q).2 := measurable_snd.comp measurable_toPrec
      fun_prop
    have hcm : Measurable fun q : (Fin p → ℝ) × ℝ => cut T (toPrec q).2 :=
      (measurable_cut T).comp (measurable_snd.comp measurable_toPrec)
    let M : ℝ≥0∞ := ∫⁻ q, ENNReal.ofReal ((toPrec q).1 j ^ s) ∂m
    have hM : M ≠ ∞ := by
      refine ne_of_lt ((upper _).trans_lt ?_)
      rw [prior_pow_fst]
      exact ENNReal.mul_lt_top hC.lt_top (hcPow_lt_top hs0 h2)
    have hQ1 : c * hcPow1 s ≤ M := hlow (fun t => ENNReal.ofReal ((t ^ 2)⁻¹ ^ s)) (by fun_prop)
    have hcut : ∫⁻ q, ENNReal.ofReal ((toPrec q).1 j ^ s) * cut T (toPrec q).2 ∂m ≤
        ENNReal.ofReal (4 / 5) * (1 + M) + 1 + D * W := by
      refine (hstep _ (hXm.mul hcm)).trans ?_
      have hb : ∀ᵐ r ∂ρ, ∫⁻ q', ENNReal.ofReal ((toPrec q').1 j ^ s) * cut T (toPrec q').2
            ∂horseshoeArray .scale rows r.1 1 (fun j => r.2.1 j ^ 2) (r.2.2 ^ 2) ≤
          ENNReal.ofReal (4 / 5) * (1 + ENNReal.ofReal ((toPrec r.2).1 j ^ s)) + 1 +
            D * ENNReal.ofReal ((toPrec r.2).2 ^ (1 / 4 : ℝ)) := by
        filter_upwards [hρpos] with r hr
        refine (cut_step rows r.1 hr j hs0 h2.le T).trans ?_
        gcongr
        exact hG s h1 h2
      refine (lintegral_mono_ae hb).trans (le_of_eq ?_)
      have e := lintegral_map (μ := ρ) (f := fun q : (Fin p → ℝ) × ℝ =>
        ENNReal.ofReal (4 / 5) * (1 + ENNReal.ofReal ((toPrec q).1 j ^ s)) + 1 +
            D * ENNReal.ofReal ((toPrec q).2 ^ (1 / 4 : ℝ))) (by fun_prop) measurable_snd
      rw [← e, hρ, lintegral_add_right _ (hWm.const_mul _), lintegral_add_right _ measurable_const,
        lintegral_const_mul' _ _ ENNReal.ofReal_ne_top, lintegral_const_mul' _ _ ENNReal.ofReal_ne_top,
        lintegral_add_left measurable_const]
      simp [M, W, D]
    have htail : ∫⁻ q, ENNReal.ofReal ((toPrec q).1 j ^ s) * (Set.Ici T).indicator 1 q.2 ∂m ≤
        ENNReal.ofReal (1 / 10) * M + c := by
      refine (upper _).trans ?_
      rw [prior_pow_tail]
      calc C * (hcPow s * halfCauchy (Set.Ici T)) = (C * halfCauchy (Set.Ici T)) * hcPow s := by ring
        _ ≤ c / 10 * (hcPow1 s + 1) := mul_le_mul' hη2 (hcPow_le hs0)
        _ = 10⁻¹ * (c * hcPow1 s) + c / 10 := by
          rw [mul_add, mul_one, ENNReal.div_eq_inv_mul, mul_assoc]
        _ ≤ ENNReal.ofReal (1 / 10) * M + c := by
          refine add_le_add (mul_le_mul' ?_ hQ1) ?_
          · rw [one_div, ENNReal.ofReal_inv_of_pos (by norm_num), ENNReal.ofReal_ofNat]
          · exact ENNReal.div_le_of_le_mul (le_mul_of_one_le_right' (by norm_num))
    have hfin : M ≤ ENNReal.ofReal (9 / 10) * M + B := by
      have h3 : M ≤ (ENNReal.ofReal (4 / 5) * (1 + M) + 1 + D * W) + (ENNReal.ofReal (1 / 10) * M + c) := by
        refine le_trans ?_ (add_le_add hcut htail)
        rw [← lintegral_add_left (f := fun q : (Fin p → ℝ) × ℝ =>
          ENNReal.ofReal ((toPrec q).1 j ^ s) * cut T (toPrec q).2) (hXm.mul hcm)]
        refine lintegral_mono_ae ?_
        filter_upwards [hpos] with q hq using pow_le_split hq j s T
      refine h3.trans ?_
      have h4 : ENNReal.ofReal (9 / 10) = ENNReal.ofReal (4 / 5) + ENNReal.ofReal (1 / 10) := by
        rw [← ENNReal.ofReal_add (by norm_num) (by norm_num)]
        norm_num
      have h5 : ENNReal.ofReal (4 / 5) ≤ 1 := ENNReal.ofReal_le_one.2 (by norm_num)
      calc _ = (ENNReal.ofReal (4 / 5) + ENNReal.ofReal (1 / 10)) * M +
            (ENNReal.ofReal (4 / 5) + 1 + D * W + c) := by ring
        _ ≤ _ := by
          rw [h4]
          refine add_le_add le_rfl ?_
          have h12 : ENNReal.ofReal (4 / 5) + 1 ≤ 2 :=
            (add_le_add h5 le_rfl).trans_eq one_add_one_eq_two
          exact add_le_add (add_le_add h12 le_rfl) le_rfl
    have hMB : M ≤ 10 * B := by
      have h6 := ENNReal.toReal_mono (by finiteness) hfin
      rw [ENNReal.toReal_add (by finiteness) hB, ENNReal.toReal_mul, ENNReal.toReal_ofReal (by norm_num)] at h6
      rw [← ENNReal.toReal_le_toReal hM (by finiteness), ENNReal.toReal_mul]
      norm_num
      linarith
    exact ((mul_le_mul' le_rfl (hcPow1_ge hs0 h2)).trans hQ1).trans hMB
  -- the bound fails close to one half
  have hcr : 0 < c.toReal := ENNReal.toReal_pos hc0 hcT
  have hBr : 0 ≤ B.toReal := ENNReal.toReal_nonneg
  have hpi := pi_pos
  let K : ℝ := 10 * B.toReal / c.toReal * π + 1
  have hK : 0 < K := by positivity
  let δ : ℝ := min ((1 / 2 - s₀) / 2) (1 / (4 * K))
  have hδ : 0 < δ := lt_min (by linarith) (by positivity)
  have hδ1 : δ ≤ (1 / 2 - s₀) / 2 := min_le_left _ _
  have hδ2 : δ ≤ 1 / (4 * K) := min_le_right _ _
  have h7 := key (1 / 2 - δ) (by linarith) (by linarith)
  have h8 := ENNReal.toReal_mono (by finiteness) h7
  rw [show 1 - 2 * (1 / 2 - δ) = 2 * δ by ring, ENNReal.toReal_mul, ENNReal.toReal_mul,
    ENNReal.toReal_ofReal (by positivity)] at h8
  have h9 : K ≤ (2 * δ)⁻¹ := by
    rw [le_inv_comm₀ hK (by positivity)]
    calc 2 * δ ≤ 2 * (1 / (4 * K)) := by linarith
      _ = K⁻¹ * (1 / 2) := by field_simp; norm_num
      _ ≤ K⁻¹ := by
        have := inv_pos.2 hK
        linarith
  have h10 : c.toReal * (π⁻¹ * K) ≤ 10 * B.toReal := by
    refine le_trans ?_ (h8.trans_eq (by norm_num))
    gcongr
  have h11 : c.toReal * (π⁻¹ * K) = 10 * B.toReal + c.toReal * π⁻¹ := by
    simp only [K]
    field_simp
  have : 0 < c.toReal * π⁻¹ := by positivity
  linarith

end Verif.Horseshoe
