import Verif.Expr.Model

/-!
# Model of `/repo/aemcmc/conjugates.py`

Each relation is used in one direction (`run(None, q, relation(rv_et, q))`): the observed variable is
given, the posterior expression is the answer.  `srng.gen(op, ...)` makes a new RNG; the model takes
the new RNG leaf as the argument `rng`.  Static shapes of generated nodes are not tracked (`[]`);
run-time shapes are modelled in `Verif/Conj/Shape.lean`.
-/

namespace Verif.Conj

open Verif

/-- Logic variables of the patterns. -/
abbrev alphaLV := 0
/-- Logic variable `beta_lv`. -/
abbrev betaLV := 1
/-- Logic variable `size_lv`. -/
abbrev sizeLV := 2
/-- Logic variable `type_idx_lv`. -/
abbrev dtypeLV := 3
/-- Logic variable `n_lv`. -/
abbrev nLV := 4

/-- `etuple(etuplize(at.random.D), rng_lv, size_lv, type_idx_lv, alpha_lv, beta_lv)`
(`/repo/aemcmc/conjugates.py:48-50, 119-121, 197-199`). -/
def priorPat (d : Dist) : Pat :=
  .app (.rv d) [.lv 10, .lv sizeLV, .lv dtypeLV, .lv alphaLV, .lv betaLV]

/-- `Y_et` of the gamma-Poisson relation (`/repo/aemcmc/conjugates.py:51`). -/
def gammaPoissonPat : Pat := .app (.rv .poisson) [.lv 11, .lv 12, .lv 13, priorPat .gamma]

/-- `Y_et` of the beta-binomial relation (`/repo/aemcmc/conjugates.py:122-123`). -/
def betaBinomialPat : Pat :=
  .app (.rv .binomial) [.lv 11, .lv 12, .lv 13, .lv nLV, priorPat .beta]

/-- `Y_et` of the beta-negative-binomial relation (`/repo/aemcmc/conjugates.py:200-203`). -/
def betaNegBinomialPat : Pat :=
  .app (.rv .nbinom) [.lv 11, .lv 12, .lv 13, .lv nLV, priorPat .beta]

/-- `at.add(a, b)` -/
def addE (a b : Expr) : Expr := .app (.elem .add) [] [a, b]
/-- `at.sub(a, b)` -/
def subE (a b : Expr) : Expr := .app (.elem .sub) [] [a, b]
/-- the constant `1` -/
def oneE : Expr := .const [1] []

/-- `srng.gen(at.random.beta, a, b, size=size, dtype=dtype)`. -/
def genBeta (rng a b size dtype : Expr) : Expr := .app (.rv .beta) [] [rng, size, dtype, a, b]

/-- `srng.gen(at.random.gamma, a, r, size=size, dtype=dtype)`: the call takes shape and rate, the
node stores shape and `1 / rate` (library convention; see `DESIGN.md`). -/
def genGamma (rng a r size dtype : Expr) : Expr :=
  .app (.rv .gamma) [] [rng, size, dtype, a, .app (.elem .trueDiv) [] [oneE, r]]

/-- `gamma_poisson_conjugateo`, from the observation to the posterior
(`/repo/aemcmc/conjugates.py:43-67`). -/
def gammaPoissonPosterior (rng Y : Expr) : Option Expr := do
  let s ← matchP gammaPoissonPat Y []
  let alpha ← s.lookup alphaLV
  let beta ← s.lookup betaLV
  let size ← s.lookup sizeLV
  let dtype ← s.lookup dtypeLV
  return genGamma rng (addE alpha Y) (addE beta oneE) size dtype

/-- `beta_binomial_conjugateo` (`/repo/aemcmc/conjugates.py:114-141`). -/
def betaBinomialPosterior (rng Y : Expr) : Option Expr := do
  let s ← matchP betaBinomialPat Y []
  let alpha ← s.lookup alphaLV
  let beta ← s.lookup betaLV
  let size ← s.lookup sizeLV
  let dtype ← s.lookup dtypeLV
  let n ← s.lookup nLV
  return genBeta rng (addE alpha Y) (subE (addE beta n) Y) size dtype

/-- `beta_negative_binomial_conjugateo` (`/repo/aemcmc/conjugates.py:192-218`). -/
def betaNegBinomialPosterior (rng Y : Expr) : Option Expr := do
  let s ← matchP betaNegBinomialPat Y []
  let alpha ← s.lookup alphaLV
  let beta ← s.lookup betaLV
  let size ← s.lookup sizeLV
  let dtype ← s.lookup dtypeLV
  let n ← s.lookup nLV
  return genBeta rng (addE alpha Y) (addE beta n) size dtype

/-- The body shared by the three finders (`/repo/aemcmc/conjugates.py:70-87, 144-161, 221-238`):
`None` when the relation has no answer, otherwise the last argument of the observed variable
(`rv_et[-1].evaled_obj`) with the posterior and no updates. -/
def finder (posterior : Expr → Expr → Option Expr) (rng Y : Expr) : Option (List (Expr × Expr)) :=
  match posterior rng Y with
  | none => none
  | some post =>
    match Y.args?.bind List.getLast? with
    | none => none
    | some latent => some [(latent, post)]

/-- `local_gamma_poisson_posterior` (`/repo/aemcmc/conjugates.py:70-87`). -/
def gammaPoissonFinder := finder gammaPoissonPosterior
/-- `local_beta_binomial_posterior` (`/repo/aemcmc/conjugates.py:144-161`). -/
def betaBinomialFinder := finder betaBinomialPosterior
/-- `local_beta_negative_binomial_posterior` (`/repo/aemcmc/conjugates.py:221-238`). -/
def betaNegBinomialFinder := finder betaNegBinomialPosterior

end Verif.Conj
