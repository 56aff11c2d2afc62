import Mathlib.Probability.Distributions.Gamma
import Mathlib.Probability.Distributions.Beta
import Mathlib.Probability.Distributions.Exponential

/-!
# Bayes posterior of a prior measure and a likelihood function

Specification used by the conjugate and Gibbs properties.  It does not refer to any model
definition.
-/

open MeasureTheory ProbabilityTheory
open scoped ENNReal

namespace Verif

/-- Spec.  The Bayes posterior: the prior reweighted by the likelihood and divided by the
evidence.  Meaningful when the evidence is neither zero nor infinite (`BayesDefined`). -/
noncomputable def bayes {Θ : Type*} [MeasurableSpace Θ] (prior : Measure Θ) (lik : Θ → ℝ≥0∞) :
    Measure Θ :=
  (∫⁻ θ, lik θ ∂prior)⁻¹ • prior.withDensity lik

/-- Spec.  The evidence is a positive finite number. -/
def BayesDefined {Θ : Type*} [MeasurableSpace Θ] (prior : Measure Θ) (lik : Θ → ℝ≥0∞) : Prop :=
  (∫⁻ θ, lik θ ∂prior) ≠ 0 ∧ (∫⁻ θ, lik θ ∂prior) ≠ ∞

variable {Θ : Type*} [MeasurableSpace Θ]

/-- The posterior is a probability measure when the evidence is positive and finite. -/
theorem isProbabilityMeasure_bayes {prior : Measure Θ} {lik : Θ → ℝ≥0∞}
    (h : BayesDefined prior lik) : IsProbabilityMeasure (bayes prior lik) := by
  constructor
  simp only [bayes, Measure.smul_apply, smul_eq_mul, withDensity_apply _ MeasurableSet.univ,
    Measure.restrict_univ]
  exact ENNReal.inv_mul_cancel h.1 h.2

/-- If the prior has density `f`, the probability measure with density `g` is the posterior as
soon as `f * lik = c * g` almost everywhere. -/
theorem bayes_withDensity {m : Measure Θ} {f g lik : Θ → ℝ≥0∞} {c : ℝ≥0∞}
    (hf : Measurable f) (hlik : Measurable lik) (hg : Measurable g)
    (hg1 : ∫⁻ x, g x ∂m = 1) (hc0 : c ≠ 0) (hc : c ≠ ∞)
    (h : ∀ᵐ x ∂m, f x * lik x = c * g x) :
    BayesDefined (m.withDensity f) lik ∧ bayes (m.withDensity f) lik = m.withDensity g := by
  have hwd : (m.withDensity f).withDensity lik = c • m.withDensity g := by
    rw [← withDensity_mul _ hf hlik, ← withDensity_smul _ hg]
    exact withDensity_congr_ae h
  have hev : ∫⁻ θ, lik θ ∂(m.withDensity f) = c := by
    have : ((m.withDensity f).withDensity lik) Set.univ = c := by
      rw [hwd, Measure.smul_apply, withDensity_apply _ MeasurableSet.univ, Measure.restrict_univ,
        hg1, smul_eq_mul, mul_one]
    rwa [withDensity_apply _ MeasurableSet.univ, Measure.restrict_univ] at this
  refine ⟨⟨by rwa [hev], by rwa [hev]⟩, ?_⟩
  rw [bayes, hev, hwd, smul_smul, ENNReal.inv_mul_cancel hc0 hc, one_smul]

/-- Proportional likelihoods give the same posterior. -/
theorem bayes_const_mul (prior : Measure Θ) {lik : Θ → ℝ≥0∞} (hlik : Measurable lik) {c : ℝ≥0∞}
    (hc0 : c ≠ 0) (hc : c ≠ ∞) : bayes prior (fun θ => c * lik θ) = bayes prior lik := by
  have h1 : (fun θ => c * lik θ) = c • lik := by ext; simp
  rw [bayes, bayes, lintegral_const_mul _ hlik, h1, withDensity_smul _ hlik, smul_smul,
    ENNReal.mul_inv (Or.inl hc0) (Or.inl hc), mul_comm c⁻¹, mul_assoc,
    ENNReal.inv_mul_cancel hc0 hc, mul_one]

/-- The posterior only depends on the likelihood up to prior-null sets. -/
theorem bayes_congr_ae {prior : Measure Θ} {l₁ l₂ : Θ → ℝ≥0∞} (h : l₁ =ᵐ[prior] l₂) :
    bayes prior l₁ = bayes prior l₂ := by
  rw [bayes, bayes, lintegral_congr_ae h, withDensity_congr_ae h]

theorem BayesDefined.congr_ae {prior : Measure Θ} {l₁ l₂ : Θ → ℝ≥0∞} (h : l₁ =ᵐ[prior] l₂)
    (hd : BayesDefined prior l₁) : BayesDefined prior l₂ := by
  rwa [BayesDefined, ← lintegral_congr_ae h]

/-- Updating with two likelihoods one after the other is updating with their product. -/
theorem bayes_bayes {prior : Measure Θ} {l₁ l₂ : Θ → ℝ≥0∞} (h₁ : Measurable l₁)
    (h₂ : Measurable l₂) (hd : BayesDefined prior l₁) :
    bayes (bayes prior l₁) l₂ = bayes prior (fun θ => l₁ θ * l₂ θ) := by
  have hc0 : (∫⁻ θ, l₁ θ ∂prior)⁻¹ ≠ 0 := ENNReal.inv_ne_zero.2 hd.2
  have hc : (∫⁻ θ, l₁ θ ∂prior)⁻¹ ≠ ∞ := ENNReal.inv_ne_top.2 hd.1
  have hw : (prior.withDensity l₁).withDensity l₂ = prior.withDensity (fun θ => l₁ θ * l₂ θ) :=
    (withDensity_mul _ h₁ h₂).symm
  have hi : ∫⁻ θ, l₂ θ ∂prior.withDensity l₁ = ∫⁻ θ, l₁ θ * l₂ θ ∂prior :=
    lintegral_withDensity_eq_lintegral_mul _ h₁ h₂
  unfold bayes
  rw [lintegral_smul_measure, withDensity_smul_measure, hi, hw, smul_smul, smul_eq_mul,
    ENNReal.mul_inv (Or.inl hc0) (Or.inl hc), mul_comm (_⁻¹⁻¹), mul_assoc,
    ENNReal.inv_mul_cancel hc0 hc, mul_one]

end Verif
