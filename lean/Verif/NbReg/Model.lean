import Verif.PG.Model
import Verif.CRT.Model

/-!
# Model of the two steps of `nbinom_logistic_finder` in one call of the sampler
-/

open MeasureTheory ProbabilityTheory Matrix

namespace Verif.NbReg

/-- The step for the coefficients (`/repo/aemcmc/gibbs.py:606-619`) on the state `(beta, h)`, with `h`
scalar.  `h` is kept. -/
noncomputable def coefStep (la : LinAlg) {p n : ℕ} (std : Fin p → ℝ) (X : Matrix (Fin n) (Fin p) ℝ)
    (y : Fin n → ℕ) (q : (Fin p → ℝ) × ℝ) : Measure ((Fin p → ℝ) × ℝ) :=
  (nbinomNormalPosterior la std X (fun _ => q.2) y q.1).map fun beta => (beta, q.2)

/-- The step for the dispersion (`/repo/aemcmc/gibbs.py:622-648`) on the state `(beta, h)`: it reads the
coefficients through `p = at.sigmoid(-X @ beta_posterior)`.  The coefficients are kept. -/
noncomputable def dispersionStep {p n : ℕ} (X : Matrix (Fin n) (Fin p) ℝ) (a b : ℝ) (y : Fin n → ℕ)
    (q : (Fin p → ℝ) × ℝ) : Measure ((Fin p → ℝ) × ℝ) :=
  (CRT.finderDispersion X q.1 a b (List.ofFn fun i => (y i : ℤ)) q.2).map fun h => (q.1, h)

/-- One call of the sampler for the coefficients and the dispersion of a negative-binomial regression
(`/repo/aemcmc/gibbs.py:599-650` and `/repo/aemcmc/basic.py:59-102`): the new coefficients are drawn
given the old dispersion; the step of the dispersion contains the node of the new coefficients, so it
uses the same draw, and the old dispersion. -/
noncomputable def sweep (la : LinAlg) {p n : ℕ} (std : Fin p → ℝ) (X : Matrix (Fin n) (Fin p) ℝ)
    (a b : ℝ) (y : Fin n → ℕ) (q : (Fin p → ℝ) × ℝ) : Measure ((Fin p → ℝ) × ℝ) :=
  (nbinomNormalPosterior la std X (fun _ => q.2) y q.1).bind fun beta =>
    (CRT.finderDispersion X beta a b (List.ofFn fun i => (y i : ℤ)) q.2).map fun h => (beta, h)

end Verif.NbReg
