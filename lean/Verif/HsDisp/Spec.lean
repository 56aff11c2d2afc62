import Verif.HsReg.Spec
import Verif.NbReg.Spec

/-!
# Specification: negative-binomial regression with a horseshoe prior and an unknown dispersion

Nothing here refers to the model of the code.
-/

open MeasureTheory ProbabilityTheory Matrix
open scoped ENNReal

namespace Verif.HsDisp

/-- Spec.  Joint prior of `((beta, (lambda, tau)), h)`: the horseshoe prior of the coefficients and an
independent gamma dispersion with shape `a` and scale `b`. -/
noncomputable def prior (p : ℕ) (a b : ℝ) : Measure (((Fin p → ℝ) × ((Fin p → ℝ) × ℝ)) × ℝ) :=
  (HsReg.hsPrior p).prod (gammaMeasure a b⁻¹)

/-- Spec.  Joint posterior given `Y_i = y_i`, where `Y_i ~ NB(h, sigmoid(-(X beta)_i))`. -/
noncomputable def posterior {p n : ℕ} (X : Matrix (Fin n) (Fin p) ℝ) (a b : ℝ) (y : Fin n → ℕ) :
    Measure (((Fin p → ℝ) × ((Fin p → ℝ) × ℝ)) × ℝ) :=
  bayes (prior p a b) fun r => NbReg.nbJointLik X y (r.1.1, r.2)

end Verif.HsDisp
