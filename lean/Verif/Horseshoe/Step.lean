import Verif.Horseshoe.Joint

/-!
# The step as a scan, stationarity in the rate reading, positivity in both readings
-/

open MeasureTheory ProbabilityTheory Real
open scoped ENNReal

namespace Verif.Horseshoe

variable {p : ℕ}

theorem expMeasure_eq (r : ℝ) : expMeasure r = gammaMeasure 1 r := rfl

theorem ae_pos_aux {r1 : Fin p → ℝ} {r2 : ℝ} (h1 : ∀ j, 0 < r1 j) (h2 : 0 < r2) :
    ∀ᵐ x ∂(Measure.pi fun j => gammaMeasure 1 (r1 j)).prod (gammaMeasure 1 r2), AllPos x := by
  have i1 : IsProbabilityMeasure (Measure.pi fun j => gammaMeasure 1 (r1 j)) :=
    isProbabilityMeasure_pi_gamma (fun _ => one_pos) h1
  have i2 := isProbabilityMeasure_gammaMeasure one_pos h2
  have a := Measure.quasiMeasurePreserving_fst (μ := Measure.pi fun j => gammaMeasure 1 (r1 j))
    (ν := gammaMeasure 1 r2) |>.ae (ae_pos_pi_gamma one_pos h1)
  have b := Measure.quasiMeasurePreserving_snd (μ := Measure.pi fun j => gammaMeasure 1 (r1 j))
    (ν := gammaMeasure 1 r2) |>.ae ae_pos_gammaMeasure
  filter_upwards [a, b] with x a b using ⟨a, b⟩

/-- The step in the rate reading is the exact scan, in precision coordinates. -/
theorem horseshoePosterior_rate_eq (β : Fin p → ℝ) {sigma2 : ℝ} (hs : 0 < sigma2)
    {lambda2 : Fin p → ℝ} (hl : ∀ j, 0 < lambda2 j) {tau2 : ℝ} (ht : 0 < tau2) :
    horseshoePosterior .rate β sigma2 lambda2 tau2 =
      (scan3 (refM p) (Measure.pi fun _ : Fin p => volPos) volPos
        (fun x w t => ENNReal.ofReal (joint (fun j => β j ^ 2 / (2 * sigma2)) x w t))
        (fun j => (lambda2 j)⁻¹, tau2⁻¹)).map ofPrec := by
  have hc : ∀ j, 0 ≤ β j ^ 2 / (2 * sigma2) := fun j => by positivity
  have hr : AllPos (fun j => (lambda2 j)⁻¹, tau2⁻¹) :=
    ⟨fun j => inv_pos.2 (hl j), inv_pos.2 ht⟩
  have hmj := measurable_joint (fun j => β j ^ 2 / (2 * sigma2))
  rw [scan3, map_bind (measurable_scan_mid (b := Measure.pi fun _ : Fin p => volPos) (c := volPos)
    (f := fun x w t =>
      ENNReal.ofReal (joint (fun j => β j ^ 2 / (2 * sigma2)) x w t))
    hmj _).aemeasurable measurable_ofPrec, (joint_aux _ hr).2.1]
  refine Measure.bind_congr_right ?_
  filter_upwards [ae_pos_aux (fun j => add_pos one_pos (hr.1 j)) (add_pos one_pos hr.2)] with x hx
  have ht' : 0 < tau2⁻¹ := inv_pos.2 ht
  have hpos : ∀ j, 0 < x.1 j + β j ^ 2 / (2 * sigma2) * tau2⁻¹ := fun j =>
    add_pos_of_pos_of_nonneg (hx.1 j) (mul_nonneg (hc j) ht'.le)
  rw [map_bind (measurable_scan_last (c := volPos) (f := fun x w t =>
      ENNReal.ofReal (joint (fun j => β j ^ 2 / (2 * sigma2)) x w t))
      hmj x).aemeasurable measurable_ofPrec,
    (joint_local hc hx ht').2]
  have e : lambdaDraw .rate β sigma2 tau2 x.1 =
      Measure.pi fun j => gammaMeasure 1 (x.1 j + β j ^ 2 / (2 * sigma2) * tau2⁻¹) := by
    unfold lambdaDraw
    congr 1
    ext1 j
    simp only [expDraw, expMeasure_eq]
    congr 1
    field_simp
    ring
  rw [e]
  refine Measure.bind_congr_right ?_
  filter_upwards [ae_pos_pi_gamma one_pos hpos] with w hw
  have hpair : Measurable fun s : ℝ => (w, s) := measurable_const.prodMk measurable_id
  rw [(joint_global hc hx hw).2, Measure.map_map measurable_ofPrec hpair]
  have e2 : tauDraw p β sigma2 x.2 w =
      gammaMeasure (((p : ℝ) + 1) / 2) (x.2 + ∑ j, β j ^ 2 / (2 * sigma2) * w j) := by
    unfold tauDraw
    congr 1
    · ring
    · rw [Finset.mul_sum, Finset.sum_div]
      congr 1
      refine Finset.sum_congr rfl fun j _ => ?_
      field_simp
      ring
  rw [e2]
  rfl

theorem ae_posterior_pos (β : Fin p → ℝ) (sigma2 : ℝ) :
    ∀ᵐ q ∂posterior β sigma2, AllPos q :=
  (bayes_absolutelyContinuous _ _).ae_le (ae_prior_pos p)

/-- The posterior is stationary for the step in the rate reading. -/
theorem stationary_rate (β : Fin p → ℝ) {sigma2 : ℝ} (hs : 0 < sigma2) :
    Stationary (posterior β sigma2)
      fun q => horseshoePosterior .rate β sigma2 (fun j => q.1 j ^ 2) (q.2 ^ 2) := by
  have hc : ∀ j, 0 ≤ β j ^ 2 / (2 * sigma2) := fun j => by positivity
  have hP : Stationary ((posterior β sigma2).map toPrec)
      (scan3 (refM p) (Measure.pi fun _ : Fin p => volPos) volPos
        fun x w t => ENNReal.ofReal (joint (fun j => β j ^ 2 / (2 * sigma2)) x w t)) := by
    have e : (posterior β sigma2).map toPrec = bayes (refM p) fun r =>
        ∫⁻ x, ENNReal.ofReal (joint (fun j => β j ^ 2 / (2 * sigma2)) x r.1 r.2) ∂refM p := by
      rw [posterior_map β hs]
      refine bayes_congr_ae ?_
      filter_upwards [ae_volPos_prod p] with r hr using (joint_aux _ hr).2.2.symm
    rw [e]
    refine stationary_scan3 (measurable_joint _) ?_ ?_ ?_
    · filter_upwards [ae_volPos_prod p] with r hr using (joint_aux _ hr).1
    · have a := Measure.quasiMeasurePreserving_fst (μ := refM p) (ν := volPos) |>.ae
        (ae_volPos_prod p)
      have b := Measure.quasiMeasurePreserving_snd (μ := refM p) (ν := volPos) |>.ae ae_volPos
      filter_upwards [a, b] with r hr ht using (joint_local hc hr ht).1
    · have a := Measure.quasiMeasurePreserving_fst (μ := refM p)
        (ν := Measure.pi fun _ : Fin p => volPos) |>.ae (ae_volPos_prod p)
      have b := Measure.quasiMeasurePreserving_snd (μ := refM p)
        (ν := Measure.pi fun _ : Fin p => volPos) |>.ae (ae_pi_volPos p)
      filter_upwards [a, b] with r hr hw using (joint_global hc hr hw).1
  refine (Stationary.conj measurable_toPrec measurable_ofPrec ?_ hP).congr_ae ?_
  · filter_upwards [ae_posterior_pos β sigma2] with q hq using ofPrec_toPrec hq.1 hq.2
  · filter_upwards [ae_posterior_pos β sigma2] with q hq
    exact (horseshoePosterior_rate_eq β hs (fun j => pow_pos (hq.1 j) 2) (pow_pos hq.2 2)).symm

theorem gaussianPDFReal_le {v b : ℝ} (hv : 0 < v) (hb : b ≠ 0) :
    gaussianPDFReal 0 v.toNNReal b ≤ (√(2 * π))⁻¹ * |b|⁻¹ := by
  have hpi := pi_pos
  have hb' := abs_pos.2 hb
  have hsv := sqrt_pos.2 hv
  rw [gaussianPDFReal, coe_toNNReal _ hv.le, sqrt_mul (by positivity), mul_inv, mul_assoc, sub_zero]
  refine mul_le_mul_of_nonneg_left ?_ (by positivity)
  -- `exp (-b²/(2v)) ≤ √v / |b|`
  have h1 : b ^ 2 / v ≤ exp (b ^ 2 / v) := (le_add_of_nonneg_right zero_le_one).trans
    (add_one_le_exp _)
  have h2 : |b| / √v ≤ exp (b ^ 2 / (2 * v)) := by
    rw [← sqrt_sq_eq_abs, ← sqrt_div' _ hv.le, sqrt_le_left (exp_pos _).le, ← exp_nat_mul]
    refine h1.trans (le_of_eq ?_)
    congr 1
    field_simp
    norm_num
  rw [neg_div, exp_neg, ← mul_inv]
  refine inv_anti₀ hb' ?_
  calc |b| = √v * (|b| / √v) := by field_simp
    _ ≤ √v * exp (b ^ 2 / (2 * v)) := mul_le_mul_of_nonneg_left h2 hsv.le

theorem measurable_lik (β : Fin p → ℝ) (sigma2 : ℝ) : Measurable (lik β sigma2) := by
  unfold lik gaussianPDFReal
  fun_prop

/-- The posterior is well defined when no coefficient is zero. -/
theorem bayesDefined_posterior {β : Fin p → ℝ} (hβ : ∀ j, β j ≠ 0) {sigma2 : ℝ} (hs : 0 < sigma2) :
    BayesDefined (prior p) (lik β sigma2) := by
  have hpos : ∀ q : (Fin p → ℝ) × ℝ, AllPos q → ∀ j, 0 < q.1 j ^ 2 * q.2 ^ 2 * sigma2 :=
    fun q hq j => by have := hq.1 j; have := hq.2; positivity
  constructor
  · intro h
    rw [lintegral_eq_zero_iff (measurable_lik β sigma2)] at h
    obtain ⟨q, hq, hq0⟩ := ((ae_prior_pos p).and h).exists
    have : 0 < ∏ j, gaussianPDFReal 0 (q.1 j ^ 2 * q.2 ^ 2 * sigma2).toNNReal (β j) :=
      Finset.prod_pos fun j _ => gaussianPDFReal_pos _ _ _ (by simpa using hpos q hq j)
    have h0 : lik β sigma2 q = 0 := hq0
    rw [lik, ENNReal.ofReal_eq_zero] at h0
    exact absurd h0 (not_le.2 this)
  · have hb : ∫⁻ q, lik β sigma2 q ∂prior p ≤
        ∫⁻ _, ENNReal.ofReal (∏ j, (√(2 * π))⁻¹ * |β j|⁻¹) ∂prior p := by
      refine lintegral_mono_ae ?_
      filter_upwards [ae_prior_pos p] with q hq
      refine ENNReal.ofReal_le_ofReal (Finset.prod_le_prod (fun j _ => gaussianPDFReal_nonneg _ _ _)
        fun j _ => gaussianPDFReal_le (hpos q hq j) (hβ j))
    refine ne_top_of_le_ne_top ?_ hb
    simp

end Verif.Horseshoe
