import Verif.Prob.DataAug
import Mathlib.Probability.Distributions.Gaussian.Real
import Mathlib.Probability.Distributions.Gamma
import Mathlib.MeasureTheory.Constructions.Pi

/-!
# The horseshoe model: priors, likelihood and posterior of the shrinkage parameters

Stated without the model of the code.
-/

open MeasureTheory ProbabilityTheory Real
open scoped ENNReal

namespace Verif.Horseshoe

/-- Spec.  The standard half-Cauchy law: density `2 / (π (1 + x²))` on the positive half line. -/
noncomputable def halfCauchy : Measure ℝ :=
  (volume.restrict (Set.Ioi 0)).withDensity fun x => ENNReal.ofReal (2 / (π * (1 + x ^ 2)))

/-- Spec.  Independent half-Cauchy priors of `(λ, τ)`. -/
noncomputable def prior (p : ℕ) : Measure ((Fin p → ℝ) × ℝ) :=
  (Measure.pi fun _ => halfCauchy).prod halfCauchy

/-- Spec.  Density at `β` of `β_j ~ N(0, λ_j² τ² σ²)`, independent over `j`. -/
noncomputable def lik {p : ℕ} (β : Fin p → ℝ) (sigma2 : ℝ) (q : (Fin p → ℝ) × ℝ) : ℝ≥0∞ :=
  ENNReal.ofReal (∏ j, gaussianPDFReal 0 (q.1 j ^ 2 * q.2 ^ 2 * sigma2).toNNReal (β j))

/-- Spec.  The posterior of `(λ, τ)` given `β`. -/
noncomputable def posterior {p : ℕ} (β : Fin p → ℝ) (sigma2 : ℝ) : Measure ((Fin p → ℝ) × ℝ) :=
  bayes (prior p) (lik β sigma2)

/-- Spec.  Law of the precisions `(1/λ_j², 1/τ²)` after one scan: auxiliaries with parameters
`1 + 1/λ_j²` and `1 + 1/τ²`, local precisions with parameters `u_j + β_j² / (2 σ² τ²)`, global
precision `Gamma((p + 1) / 2, z + ∑_j β_j² w_j / (2 σ²))`.  `ex` is the law of an exponential draw with a
given parameter. -/
noncomputable def precisionScan {p : ℕ} (ex : ℝ → Measure ℝ) (β : Fin p → ℝ) (sigma2 : ℝ)
    (lambda2 : Fin p → ℝ) (tau2 : ℝ) : Measure ((Fin p → ℝ) × ℝ) :=
  ((Measure.pi fun j => ex (1 + 1 / lambda2 j)).prod (ex (1 + 1 / tau2))).bind fun x =>
    (Measure.pi fun j => ex (x.1 j + β j ^ 2 / (2 * sigma2 * tau2))).bind fun w =>
      (gammaMeasure (((p : ℝ) + 1) / 2) (x.2 + ∑ j, β j ^ 2 * w j / (2 * sigma2))).map fun t => (w, t)

end Verif.Horseshoe
