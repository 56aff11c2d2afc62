import Verif.PG.Model
import Verif.Horseshoe.Model

/-!
# Model of the steps of a regression with a horseshoe prior

The state is `(beta, (lambda, tau))`.  The prior standard deviation of the coefficients is the product
`lambda * tau` (the form `horseshoe_match` accepts, `/repo/aemcmc/gibbs.py:146-184`), so this is what the
regression finders pass as `beta_std`.
-/

open MeasureTheory ProbabilityTheory Matrix

namespace Verif.HsReg

/-- The step for the coefficients of a negative-binomial regression with given dispersion
(`/repo/aemcmc/gibbs.py:606-619`), with `beta_std = lambda * tau`.  The shrinkage parameters are kept. -/
noncomputable def nbCoefStep (la : LinAlg) {p n : ℕ} (X : Matrix (Fin n) (Fin p) ℝ) (h : Fin n → ℝ)
    (y : Fin n → ℕ) (q : (Fin p → ℝ) × ((Fin p → ℝ) × ℝ)) : Measure ((Fin p → ℝ) × ((Fin p → ℝ) × ℝ)) :=
  (nbinomNormalPosterior la (fun j => q.2.1 j * q.2.2) X h y q.1).map fun beta => (beta, q.2)

/-- The step for the coefficients of a Bernoulli regression (`/repo/aemcmc/gibbs.py:754-765`), with
`beta_std = lambda * tau`. -/
noncomputable def bernCoefStep (la : LinAlg) {p n : ℕ} (X : Matrix (Fin n) (Fin p) ℝ)
    (y : Fin n → Bool) (q : (Fin p → ℝ) × ((Fin p → ℝ) × ℝ)) :
    Measure ((Fin p → ℝ) × ((Fin p → ℝ) × ℝ)) :=
  (bernNormalPosterior la (fun j => q.2.1 j * q.2.2) X y q.1).map fun beta => (beta, q.2)

/-- The step for the shrinkage parameters (`/repo/aemcmc/gibbs.py:286-308`).  The coefficients are
kept. -/
noncomputable def shrinkStep (conv : Horseshoe.ExpArg) {p : ℕ} (q : (Fin p → ℝ) × ((Fin p → ℝ) × ℝ)) :
    Measure ((Fin p → ℝ) × ((Fin p → ℝ) × ℝ)) :=
  (Horseshoe.horseshoeStep conv q.1 q.2).map fun s => (q.1, s)

/-- Which shrinkage parameters the step of the coefficients reads: for each of the two, the current value
or the one just drawn (`/repo/aemcmc/basic.py:78-86`).  The library's loop gives the current values, both
`false`: the step of `lambda` has `beta` among its inputs (`/repo/aemcmc/gibbs.py:293-304`), so putting it
together edits the node `lambda * tau` that `beta` and its step share.  `Verif/Graph/Regression.lean`
proves this for the sampler `construct_sampler` builds.  The other cases are kept so that the theorems
also say that reading the new values would not help. -/
structure Reads where
  newLambda : Bool
  newTau : Bool
  deriving DecidableEq

/-- The pair that is read (`/repo/aemcmc/basic.py:86`, `95`). -/
def Reads.read (rd : Reads) {p : ℕ} (old new : (Fin p → ℝ) × ℝ) : (Fin p → ℝ) × ℝ :=
  (if rd.newLambda then new.1 else old.1, if rd.newTau then new.2 else old.2)

/-- One call of the sampler (`/repo/aemcmc/basic.py:59-102`).  The shrinkage parameters are drawn given the
current coefficients, the coefficients given the shrinkage parameters that are read. -/
noncomputable def nbSweep (conv : Horseshoe.ExpArg) (rd : Reads) (la : LinAlg) {p n : ℕ}
    (X : Matrix (Fin n) (Fin p) ℝ) (h : Fin n → ℝ) (y : Fin n → ℕ)
    (q : (Fin p → ℝ) × ((Fin p → ℝ) × ℝ)) : Measure ((Fin p → ℝ) × ((Fin p → ℝ) × ℝ)) :=
  (Horseshoe.horseshoeStep conv q.1 q.2).bind fun s =>
    (nbinomNormalPosterior la (fun j => (rd.read q.2 s).1 j * (rd.read q.2 s).2) X h y q.1).map
      fun beta => (beta, s)

/-- The same for the Bernoulli regression. (`/repo/aemcmc/basic.py:59-102`) -/
noncomputable def bernSweep (conv : Horseshoe.ExpArg) (rd : Reads) (la : LinAlg) {p n : ℕ}
    (X : Matrix (Fin n) (Fin p) ℝ) (y : Fin n → Bool)
    (q : (Fin p → ℝ) × ((Fin p → ℝ) × ℝ)) : Measure ((Fin p → ℝ) × ((Fin p → ℝ) × ℝ)) :=
  (Horseshoe.horseshoeStep conv q.1 q.2).bind fun s =>
    (bernNormalPosterior la (fun j => (rd.read q.2 s).1 j * (rd.read q.2 s).2) X y q.1).map
      fun beta => (beta, s)

end Verif.HsReg
