import Verif.PG.Props

/-!
# Specification: the joint posterior of a negative-binomial regression

Nothing here refers to the model of the code.
-/

open MeasureTheory ProbabilityTheory Matrix
open scoped ENNReal

namespace Verif.NbReg

/-- Spec.  Joint likelihood of the coefficients and the dispersion when
`Y_i ~ NB(h, sigmoid(-(X β)_i))` was observed to be `y`. -/
noncomputable def nbJointLik {p n : ℕ} (X : Matrix (Fin n) (Fin p) ℝ) (y : Fin n → ℕ)
    (q : (Fin p → ℝ) × ℝ) : ℝ≥0∞ :=
  ∏ i, nbMeasure q.2 (sigmoid (-(X *ᵥ q.1) i)) {y i}

/-- Spec.  Joint prior: independent centred normal coefficients with standard deviations `std`, gamma
dispersion with shape `a` and scale `b`. -/
noncomputable def nbPrior {p : ℕ} (std : Fin p → ℝ) (a b : ℝ) : Measure ((Fin p → ℝ) × ℝ) :=
  (normalPrior std).prod (gammaMeasure a b⁻¹)

end Verif.NbReg
