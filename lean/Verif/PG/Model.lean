import Verif.Mvn.Model
import Verif.Prob.PolyaGamma

/-!
# Model of the Polya-gamma regression steps of `aemcmc/gibbs.py`

A step is a map from the current coefficients to the law of the new ones.
-/

open MeasureTheory ProbabilityTheory Matrix

namespace Verif

/-- `nbinom_normal_posterior` (`aemcmc/gibbs.py:481-548`): law of the returned sample as a function
of the current `beta`.  `h` may vary with the observation (a scalar `h` is a constant vector); `y`
holds counts, `beta_std` one standard deviation per coefficient.  The Polya-gamma generator
(`aemcmc/dists.py:11-29`, library `polyagamma`) is taken to draw independent `PG(y + h, X beta)`
variables. -/
noncomputable def nbinomNormalPosterior (la : LinAlg) {p n : ℕ} (beta_std : Fin p → ℝ)
    (X : Matrix (Fin n) (Fin p) ℝ) (h : Fin n → ℝ) (y : Fin n → ℕ) (beta : Fin p → ℝ) :
    Measure (Fin p → ℝ) :=
  let tau_beta : Fin p → ℝ := fun j => (beta_std j)⁻¹
  (Measure.pi fun i => pg ((y i : ℝ) + h i) ((X *ᵥ beta) i)).bind fun w =>
    let z : Fin n → ℝ := fun i => 0.5 * ((y i : ℝ) - h i) / w i
    normalRegression la w tau_beta X z

/-- A Boolean observation as the number `y` the code computes with. -/
def boolVal (y : Bool) : ℝ := if y then 1 else 0

/-- `bern_normal_posterior` (`aemcmc/gibbs.py:682-731`), same conventions. -/
noncomputable def bernNormalPosterior (la : LinAlg) {p n : ℕ} (beta_std : Fin p → ℝ)
    (X : Matrix (Fin n) (Fin p) ℝ) (y : Fin n → Bool) (beta : Fin p → ℝ) :
    Measure (Fin p → ℝ) :=
  let tau_beta : Fin p → ℝ := fun j => (beta_std j)⁻¹
  (Measure.pi fun i => pg 1 ((X *ᵥ beta) i)).bind fun w =>
    let z : Fin n → ℝ := fun i => (boolVal (y i) - 0.5) / w i
    normalRegression la w tau_beta X z

end Verif
