import Verif.Horseshoe.Spec
import Verif.Mvn.Props

/-!
# Specification: the joint law of a regression with a horseshoe prior

Nothing here refers to the model of the code.
-/

open MeasureTheory ProbabilityTheory Matrix
open scoped ENNReal

namespace Verif.HsReg

/-- Spec.  Joint prior of `(beta, (lambda, tau))`: half-Cauchy shrinkage parameters, then independent
centred normal coefficients with standard deviations `lambda_j tau`. -/
noncomputable def hsPrior (p : ℕ) : Measure ((Fin p → ℝ) × ((Fin p → ℝ) × ℝ)) :=
  (Horseshoe.prior p).bind fun s => (normalPrior fun j => s.1 j * s.2).map fun β => (β, s)

/-- Spec.  Joint posterior given data whose likelihood `lik` depends on the coefficients only. -/
noncomputable def hsPosterior {p : ℕ} (lik : (Fin p → ℝ) → ℝ≥0∞) :
    Measure ((Fin p → ℝ) × ((Fin p → ℝ) × ℝ)) :=
  bayes (hsPrior p) fun q => lik q.1

end Verif.HsReg
