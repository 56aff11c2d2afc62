import Verif.Horseshoe.Spec

/-!
# Two groups of coefficients with their own local and one shared global shrinkage parameter

Stated without the model of the code.
-/

open MeasureTheory ProbabilityTheory
open scoped ENNReal

namespace Verif.Shared

/-- Spec.  Independent half-Cauchy priors of `(λ₁, (λ₂, τ))`. -/
noncomputable def prior (p₁ p₂ : ℕ) : Measure ((Fin p₁ → ℝ) × ((Fin p₂ → ℝ) × ℝ)) :=
  (Measure.pi fun _ => Horseshoe.halfCauchy).prod
    ((Measure.pi fun _ => Horseshoe.halfCauchy).prod Horseshoe.halfCauchy)

/-- Spec.  Density at `(β₁, β₂)` of `β₁ⱼ ~ N(0, λ₁ⱼ² τ²)` and `β₂ⱼ ~ N(0, λ₂ⱼ² τ²)`, all independent. -/
noncomputable def lik {p₁ p₂ : ℕ} (β₁ : Fin p₁ → ℝ) (β₂ : Fin p₂ → ℝ)
    (q : (Fin p₁ → ℝ) × ((Fin p₂ → ℝ) × ℝ)) : ℝ≥0∞ :=
  ENNReal.ofReal (∏ j, gaussianPDFReal 0 (q.1 j ^ 2 * q.2.2 ^ 2).toNNReal (β₁ j)) *
    ENNReal.ofReal (∏ j, gaussianPDFReal 0 (q.2.1 j ^ 2 * q.2.2 ^ 2).toNNReal (β₂ j))

/-- Spec.  The joint posterior of `(λ₁, (λ₂, τ))` given `(β₁, β₂)`. -/
noncomputable def posterior {p₁ p₂ : ℕ} (β₁ : Fin p₁ → ℝ) (β₂ : Fin p₂ → ℝ) :
    Measure ((Fin p₁ → ℝ) × ((Fin p₂ → ℝ) × ℝ)) :=
  bayes (prior p₁ p₂) (lik β₁ β₂)

end Verif.Shared
