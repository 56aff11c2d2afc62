import Verif.Prob.DataAug

/-!
# An increasing function of a density is positively correlated with it
-/

open MeasureTheory ProbabilityTheory
open scoped ENNReal

namespace Verif

variable {Θ : Type*} [MeasurableSpace Θ]

/-- A bounded increasing function of `u`. -/
noncomputable def squash (u : ℝ) : ℝ := u / (1 + u)

theorem squash_nonneg {u : ℝ} (h : 0 < u) : 0 ≤ squash u := by
  unfold squash
  positivity

theorem squash_le_one {u : ℝ} (h : 0 < u) : squash u ≤ 1 := by
  unfold squash
  rw [div_le_one (by positivity)]
  linarith

theorem measurable_squash : Measurable squash := by
  unfold squash
  fun_prop

theorem sub_mul_squash {u c : ℝ} (hu : 0 < u) (hc : 0 < c) :
    (u - c) * (squash u - squash c) = (u - c) ^ 2 / ((1 + u) * (1 + c)) := by
  unfold squash
  have h1 : 1 + u ≠ 0 := by positivity
  have h2 : 1 + c ≠ 0 := by positivity
  field_simp
  ring

/-- Under a probability measure `u` and `squash u` are strictly positively correlated, unless `u` is
almost surely constant. -/
theorem squash_corr {γ : Measure Θ} [IsProbabilityMeasure γ] {u : Θ → ℝ} (hu : Measurable u)
    (h0 : ∀ x, 0 < u x) (hi : Integrable u γ) (hne : ¬ ∃ c, ∀ᵐ x ∂γ, u x = c) :
    (∫ x, u x ∂γ) * (∫ x, squash (u x) ∂γ) < ∫ x, u x * squash (u x) ∂γ := by
  have hcp : 0 < ∫ x, u x ∂γ := by
    rw [integral_pos_iff_support_of_nonneg (fun x => (h0 x).le) hi]
    have : Function.support u = Set.univ := Set.eq_univ_of_forall fun x => (h0 x).ne'
    rw [this, measure_univ]
    exact one_pos
  generalize hc : ∫ x, u x ∂γ = c at hcp ⊢
  have hfb : ∀ᵐ x ∂γ, ‖squash (u x)‖ ≤ 1 := ae_of_all _ fun x => by
    rw [Real.norm_of_nonneg (squash_nonneg (h0 x))]
    exact squash_le_one (h0 x)
  have hfm : AEStronglyMeasurable (fun x => squash (u x)) γ :=
    (measurable_squash.comp hu).aestronglyMeasurable
  have hif : Integrable (fun x => squash (u x)) γ := Integrable.of_bound hfm 1 hfb
  have hiuf : Integrable (fun x => u x * squash (u x)) γ := hi.mul_bdd (c := 1) hfm hfb
  have e : ∀ x, (u x - c) * (squash (u x) - squash c) =
      u x * squash (u x) - c * squash (u x) - (u x * squash c - c * squash c) := fun x => by ring
  have hit : Integrable (fun x => (u x - c) * (squash (u x) - squash c)) γ := by
    simp only [e]
    exact (hiuf.sub (hif.const_mul c)).sub ((hi.mul_const _).sub (integrable_const _))
  have h1 : ∫ x, (u x - c) * (squash (u x) - squash c) ∂γ =
      ∫ x, u x * squash (u x) ∂γ - c * ∫ x, squash (u x) ∂γ := by
    simp only [e]
    have e1 : Integrable (fun x => u x * squash (u x) - c * squash (u x)) γ :=
      hiuf.sub (hif.const_mul c)
    have e2 : Integrable (fun x => u x * squash c - c * squash c) γ :=
      (hi.mul_const _).sub (integrable_const _)
    rw [integral_sub e1 e2,
      integral_sub hiuf (hif.const_mul c), integral_sub (hi.mul_const _) (integrable_const _),
      integral_mul_const, integral_const_mul, hc]
    simp
  have hnn : ∀ x, 0 ≤ (u x - c) * (squash (u x) - squash c) := fun x => by
    rw [sub_mul_squash (h0 x) hcp]
    have := h0 x
    positivity
  have h2 : 0 < ∫ x, (u x - c) * (squash (u x) - squash c) ∂γ := by
    refine lt_of_le_of_ne (integral_nonneg hnn) fun h => hne ⟨c, ?_⟩
    have h3 := (integral_eq_zero_iff_of_nonneg hnn hit).1 h.symm
    filter_upwards [h3] with x hx
    have hx' : (u x - c) * (squash (u x) - squash c) = 0 := hx
    rw [sub_mul_squash (h0 x) hcp] at hx'
    have := h0 x
    have h4 : (1 + u x) * (1 + c) ≠ 0 := by positivity
    rw [div_eq_zero_iff] at hx'
    have h5 := hx'.resolve_right h4
    exact sub_eq_zero.1 (pow_eq_zero_iff two_ne_zero |>.1 h5)
  linarith

/-- The same with extended nonnegative values. -/
theorem squash_corr_lintegral {γ : Measure Θ} [IsProbabilityMeasure γ] {u : Θ → ℝ} (hu : Measurable u)
    (h0 : ∀ x, 0 < u x) (hi : ∫⁻ x, ENNReal.ofReal (u x) ∂γ ≠ ∞) (hne : ¬ ∃ c, ∀ᵐ x ∂γ, u x = c) :
    (∫⁻ x, ENNReal.ofReal (u x) ∂γ) * (∫⁻ x, ENNReal.ofReal (squash (u x)) ∂γ) <
      ∫⁻ x, ENNReal.ofReal (u x) * ENNReal.ofReal (squash (u x)) ∂γ := by
  have hnn : 0 ≤ᵐ[γ] u := ae_of_all _ fun x => (h0 x).le
  have hint : Integrable u γ := by
    rw [← lintegral_ofReal_ne_top_iff_integrable hu.aestronglyMeasurable hnn]
    exact hi
  have hfb : ∀ᵐ x ∂γ, ‖squash (u x)‖ ≤ 1 := ae_of_all _ fun x => by
    rw [Real.norm_of_nonneg (squash_nonneg (h0 x))]
    exact squash_le_one (h0 x)
  have hfm : AEStronglyMeasurable (fun x => squash (u x)) γ :=
    (measurable_squash.comp hu).aestronglyMeasurable
  have hif : Integrable (fun x => squash (u x)) γ := Integrable.of_bound hfm 1 hfb
  have hiuf : Integrable (fun x => u x * squash (u x)) γ := hint.mul_bdd (c := 1) hfm hfb
  simp only [← ENNReal.ofReal_mul (h0 _).le]
  rw [← ofReal_integral_eq_lintegral_ofReal hint hnn,
    ← ofReal_integral_eq_lintegral_ofReal hif (ae_of_all _ fun x => squash_nonneg (h0 x)),
    ← ofReal_integral_eq_lintegral_ofReal hiuf
      (ae_of_all _ fun x => mul_nonneg (h0 x).le (squash_nonneg (h0 x))),
    ← ENNReal.ofReal_mul (integral_nonneg fun x => (h0 x).le)]
  have h := squash_corr hu h0 hint hne
  refine (ENNReal.ofReal_lt_ofReal_iff ?_).2 h
  refine lt_of_le_of_lt (mul_nonneg (integral_nonneg fun x => (h0 x).le)
    (integral_nonneg fun x => squash_nonneg (h0 x))) h

/-- Data augmentation with the wrong prior: the model's prior is `k u` times the one the second
conditional uses.  Starting from the model's prior weighted with the likelihood, one step makes `squash u`
smaller on average. -/
theorem dataAug_tilt_lt {Ω : Type*} [MeasurableSpace Ω] {μ₀ : Measure Θ} {ν : Measure Ω}
    [IsProbabilityMeasure μ₀] [IsProbabilityMeasure ν] {J : Θ → Ω → ℝ≥0∞}
    (hJ : Measurable (Function.uncurry J)) {u : Θ → ℝ} (hu : Measurable u) (h0 : ∀ x, 0 < u x)
    {k : ℝ} (hk : 0 < k) (hw : ∀ᵐ w ∂ν, BayesDefined μ₀ fun x => J x w)
    (hne : ∀ᵐ w ∂ν, ¬ ∃ c, ∀ᵐ x ∂bayes μ₀ (fun x => J x w), u x = c)
    (hfin : ∫⁻ x, ∫⁻ w, J x w ∂ν ∂(μ₀.withDensity fun x => ENNReal.ofReal (k * u x)) ≠ ∞) :
    ∫⁻ x, ∫⁻ w, J x w * ∫⁻ x', ENNReal.ofReal (squash (u x')) ∂bayes μ₀ (fun x => J x w) ∂ν
        ∂(μ₀.withDensity fun x => ENNReal.ofReal (k * u x)) <
      ∫⁻ x, (∫⁻ w, J x w ∂ν) * ENNReal.ofReal (squash (u x))
        ∂(μ₀.withDensity fun x => ENNReal.ofReal (k * u x)) := by
  have hum : Measurable fun x => ENNReal.ofReal (u x) := hu.ennreal_ofReal
  have hkum : Measurable fun x => ENNReal.ofReal (k * u x) := (hu.const_mul k).ennreal_ofReal
  have hsm : Measurable fun x => ENNReal.ofReal (squash (u x)) :=
    (measurable_squash.comp hu).ennreal_ofReal
  have hJr : ∀ w, Measurable fun x => J x w := fun w => hJ.comp measurable_prodMk_right
  have hJs : Measurable (Function.uncurry fun w x => J x w) := hJ.comp measurable_swap
  let G : Ω → ℝ≥0∞ := fun w => ∫⁻ x', ENNReal.ofReal (squash (u x')) ∂bayes μ₀ (fun x => J x w)
  have hG : Measurable G := by
    have e : G = fun w => (∫⁻ x, J x w ∂μ₀)⁻¹ * ∫⁻ x, J x w * ENNReal.ofReal (squash (u x)) ∂μ₀ :=
      funext fun w => lintegral_bayes (hJr w) hsm
    rw [e]
    refine Measurable.mul (Measurable.inv ?_) ?_
    · exact hJs.lintegral_prod_right'
    · exact (hJs.mul (hsm.comp measurable_snd)).lintegral_prod_right'
  have hJG : Measurable (Function.uncurry fun x w => J x w * G w) := hJ.mul (hG.comp measurable_snd)
  have hsf : SFinite (μ₀.withDensity fun x => ENNReal.ofReal (k * u x)) := inferInstance
  have hJs2 : Measurable (Function.uncurry fun x w => J x w * ENNReal.ofReal (squash (u x))) :=
    hJ.mul (hsm.comp measurable_fst)
  have e2 : ∀ x, (∫⁻ w, J x w ∂ν) * ENNReal.ofReal (squash (u x)) =
      ∫⁻ w, J x w * ENNReal.ofReal (squash (u x)) ∂ν := fun x =>
    (lintegral_mul_const _ (hJ.comp measurable_prodMk_left)).symm
  simp only [e2]
  show ∫⁻ x, ∫⁻ w, J x w * G w ∂ν ∂_ < _
  rw [lintegral_lintegral_swap hJG.aemeasurable, lintegral_lintegral_swap hJs2.aemeasurable]
  have hin : ∀ w (g : Θ → ℝ≥0∞), Measurable g →
      ∫⁻ x, J x w * g x ∂(μ₀.withDensity fun x => ENNReal.ofReal (k * u x)) =
      ENNReal.ofReal k * ((∫⁻ x, J x w ∂μ₀) * ((∫⁻ x, J x w ∂μ₀)⁻¹ *
        ∫⁻ x, J x w * (ENNReal.ofReal (u x) * g x) ∂μ₀)) ∨ ¬ BayesDefined μ₀ fun x => J x w := by
    intro w g hg
    by_cases hd : BayesDefined μ₀ fun x => J x w
    swap
    · exact Or.inr hd
    left
    rw [← mul_assoc (∫⁻ x, J x w ∂μ₀), ENNReal.mul_inv_cancel hd.1 hd.2, one_mul,
      lintegral_withDensity_eq_lintegral_mul _ hkum (g := fun x => J x w * g x) ((hJr w).mul hg),
      ← lintegral_const_mul _ (f := fun x => J x w * (ENNReal.ofReal (u x) * g x))
        ((hJr w).mul (hum.mul hg))]
    refine lintegral_congr fun x => ?_
    simp only [Pi.mul_apply]
    rw [ENNReal.ofReal_mul hk.le]
    ring
  refine lintegral_strict_mono (IsProbabilityMeasure.ne_zero ν) ?_ ?_ ?_
  · exact (Measurable.lintegral_prod_left' (f := fun q : Θ × Ω =>
      J q.1 q.2 * ENNReal.ofReal (squash (u q.1))) hJs2).aemeasurable
  · rw [lintegral_lintegral_swap (μ := ν) (f := fun w x => J x w * G w)
      (hJG.comp measurable_swap).aemeasurable]
    refine ne_top_of_le_ne_top hfin (lintegral_mono fun x => ?_)
    refine lintegral_mono_ae ?_
    filter_upwards [hw] with w hwd
    have := isProbabilityMeasure_bayes hwd
    calc J x w * G w ≤ J x w * 1 := by
          refine mul_le_mul' le_rfl ?_
          calc G w ≤ ∫⁻ _x', 1 ∂bayes μ₀ (fun x => J x w) := lintegral_mono fun x' => by
                rw [ENNReal.ofReal_le_one]
                exact squash_le_one (h0 x')
            _ = 1 := by simp
      _ = J x w := mul_one _
  · have hfin2 : ∀ᵐ w ∂ν, ∫⁻ x, J x w ∂(μ₀.withDensity fun x => ENNReal.ofReal (k * u x)) < ∞ := by
      rw [lintegral_lintegral_swap hJ.aemeasurable] at hfin
      exact ae_lt_top (Measurable.lintegral_prod_left' (f := fun q : Θ × Ω => J q.1 q.2) hJ) hfin
    filter_upwards [hw, hne, hfin2] with w hd hn hA
    have hp := isProbabilityMeasure_bayes hd
    have hA1 := (hin w 1 measurable_one).resolve_right (not_not.2 hd)
    simp only [Pi.one_apply, mul_one] at hA1
    have hS := (hin w (fun x => ENNReal.ofReal (squash (u x))) hsm).resolve_right (not_not.2 hd)
    have hc1 := lintegral_bayes (hJr w) hum (ν := μ₀)
    have hc2 := lintegral_bayes (hJr w) (hum.mul hsm) (ν := μ₀)
    simp only [Pi.mul_apply] at hc2
    rw [← hc1] at hA1
    rw [← hc2] at hS
    rw [lintegral_mul_const _ (hJr w), hA1, hS]
    have hkZ : ENNReal.ofReal k * ∫⁻ x, J x w ∂μ₀ ≠ 0 := mul_ne_zero (by simpa using hk) hd.1
    have hkZT : ENNReal.ofReal k * ∫⁻ x, J x w ∂μ₀ ≠ ∞ := ENNReal.mul_ne_top ENNReal.ofReal_ne_top hd.2
    have hG' : ∀ a b c d : ℝ≥0∞, a * (b * c) * d = a * b * (c * d) := fun a b c d => by ring
    rw [hG', ← mul_assoc (ENNReal.ofReal k)]
    refine (ENNReal.mul_lt_mul_iff_right hkZ hkZT).2 (squash_corr_lintegral hu h0 ?_ hn)
    intro hT
    rw [hA1, hT, ENNReal.mul_top hd.1, ENNReal.mul_top (by simpa using hk)] at hA
    exact lt_irrefl _ hA

end Verif
