import Verif.Prob.Bayes

/-!
# When the posterior law of a parameter is its prior
-/

open MeasureTheory ProbabilityTheory Filter Set
open scoped ENNReal

namespace Verif.Hier

variable {Θ Φ : Type*} [MeasurableSpace Θ] [MeasurableSpace Φ] {μ : Measure Θ} {ν : Measure Φ} [SigmaFinite μ]
  [SFinite ν] {h : Θ → ℝ≥0∞} {g : Θ × Φ → ℝ≥0∞}

omit [SigmaFinite μ] in
theorem lintegral_joint (hh : Measurable h) (hg : Measurable g) :
    ∫⁻ q, h q.1 * g q ∂μ.prod ν = ∫⁻ t, h t * ∫⁻ x, g (t, x) ∂ν ∂μ := by
  rw [lintegral_prod (fun q => h q.1 * g q) ((hh.comp measurable_fst).mul hg).aemeasurable]
  refine lintegral_congr fun t => ?_
  exact lintegral_const_mul (f := fun x => g (t, x)) (h t) (hg.comp measurable_prodMk_left)

/-- The posterior law of the first parameter. -/
theorem map_fst_bayes (hh : Measurable h) (hg : Measurable g) :
    (bayes (μ.prod ν) fun q => h q.1 * g q).map Prod.fst = μ.withDensity fun t =>
      (∫⁻ q, h q.1 * g q ∂μ.prod ν)⁻¹ * (h t * ∫⁻ x, g (t, x) ∂ν) := by
  have hm : Measurable fun t => h t * ∫⁻ x, g (t, x) ∂ν := hh.mul hg.lintegral_prod_right'
  ext S hS
  rw [Measure.map_apply measurable_fst hS, bayes, Measure.smul_apply,
    withDensity_apply _ (measurable_fst hS), withDensity_apply _ hS, lintegral_const_mul _ hm, smul_eq_mul]
  congr 1
  rw [show (Prod.fst ⁻¹' S : Set (Θ × Φ)) = S ×ˢ univ from by ext; simp, ← Measure.prod_restrict,
    Measure.restrict_univ, lintegral_joint hh hg]

/-- When it is the prior, the probability of the data does not depend on the parameter. -/
theorem ae_const_of_map_fst (hh : Measurable h) (hh1 : ∫⁻ t, h t ∂μ ≠ ∞) (hg : Measurable g)
    (hd : BayesDefined (μ.prod ν) fun q => h q.1 * g q)
    (e : (bayes (μ.prod ν) fun q => h q.1 * g q).map Prod.fst = μ.withDensity h) :
    ∀ᵐ t ∂μ, h t ≠ 0 → ∫⁻ x, g (t, x) ∂ν = ∫⁻ q, h q.1 * g q ∂μ.prod ν := by
  have hm : Measurable fun t => h t * ∫⁻ x, g (t, x) ∂ν := hh.mul hg.lintegral_prod_right'
  rw [map_fst_bayes hh hg, withDensity_eq_iff_of_sigmaFinite (hm.const_mul _).aemeasurable
    hh.aemeasurable] at e
  filter_upwards [e, ae_lt_top hh hh1] with t h1 h2 h3
  have h5 : h t * ((∫⁻ q, h q.1 * g q ∂μ.prod ν)⁻¹ * ∫⁻ x, g (t, x) ∂ν) = h t * 1 := by
    rw [mul_one, ← mul_assoc, mul_comm (h t), mul_assoc]
    exact h1
  have h6 := (ENNReal.mul_right_inj h3 h2.ne).1 h5
  rw [mul_comm, ← div_eq_mul_inv, ENNReal.div_eq_one_iff hd.1 hd.2] at h6
  exact h6

end Verif.Hier
