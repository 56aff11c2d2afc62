import Verif.Expr.Model
import Mathlib.Probability.Distributions.Gamma
import Mathlib.Probability.Distributions.Beta
import Mathlib.Probability.Distributions.Poisson.Basic
import Mathlib.Probability.Distributions.Binomial
import Mathlib.Probability.Distributions.Bernoulli
import Mathlib.Probability.Distributions.Gaussian.Real

/-!
# Meaning of scalar expressions and random-variable nodes

Specification.  An environment gives a value to every input and to every random variable of the
model.  Deterministic nodes are evaluated; a random-variable node denotes its conditional law given
the values of its parameters.
-/

open MeasureTheory ProbabilityTheory
open scoped ENNReal NNReal unitInterval

namespace Verif

/-- Values of the inputs and random variables. -/
abbrev Env := Expr → ℝ

/-- Spec.  Logistic function. -/
noncomputable def sigmoid (x : ℝ) : ℝ := 1 / (1 + Real.exp (-x))

/-- Spec.  Value of a scalar expression; `none` for an operation with the wrong number of arguments,
a non-scalar constant, or an operator with no scalar meaning here. -/
noncomputable def evalE (ρ : Env) : Expr → Option ℝ
  | .input i s => some (ρ (.input i s))
  | .const [q] _ => some (q : ℝ)
  | .const _ _ => none
  | .app (.rv d) s as => some (ρ (.app (.rv d) s as))
  | .app (.elem o) _ [a] => (evalE ρ a).bind (un o)
  | .app (.subsElem o) _ [a] => (evalE ρ a).bind (un o)
  | .app (.elem o) _ [a, b] => (evalE ρ a).bind fun x => (evalE ρ b).bind fun y => bin o x y
  | .app (.subsElem o) _ [a, b] => (evalE ρ a).bind fun x => (evalE ρ b).bind fun y => bin o x y
  | .app _ _ _ => none
where
  /-- unary scalar operations -/
  un : SOp → ℝ → Option ℝ
    | .neg, x => some (-x)
    | .sigmoid, x => some (sigmoid x)
    | .reciprocal, x => some x⁻¹
    | _, _ => none
  /-- binary scalar operations -/
  bin : SOp → ℝ → ℝ → Option ℝ
    | .add, x, y => some (x + y)
    | .sub, x, y => some (x - y)
    | .mul, x, y => some (x * y)
    | .trueDiv, x, y => some (x / y)
    | _, _, _ => none

/-- Spec.  Negative binomial probability of `k` failures before `n` successes of probability `p`
(NumPy/SciPy/Aesara `nbinom(n, p)`). -/
noncomputable def nbPMF (n p : ℝ) (k : ℕ) : ℝ :=
  Real.Gamma (k + n) / (Real.Gamma n * (Nat.factorial k)) * p ^ n * (1 - p) ^ k

/-- Spec.  The negative binomial law on `ℕ`. -/
noncomputable def nbMeasure (n p : ℝ) : Measure ℕ :=
  Measure.sum fun k => ENNReal.ofReal (nbPMF n p k) • Measure.dirac k

open Classical in
/-- Spec.  Law of a random variable node with the given parameter values, `none` outside the
parameter domain.  Gamma nodes carry `(shape, scale)`
(evidence: `/repo/tests/test_gibbs.py:test_gamma_match`, `b_exp = 1.0 / b`). -/
noncomputable def rvLaw : Dist → List ℝ → Option (Measure ℝ)
  | .gamma, [a, s] => if 0 < a ∧ 0 < s then some (gammaMeasure a s⁻¹) else none
  | .beta, [a, b] => if 0 < a ∧ 0 < b then some (betaMeasure a b) else none
  | .poisson, [r] =>
    if 0 ≤ r then some ((poissonMeasure r.toNNReal).map (fun k : ℕ => (k : ℝ))) else none
  | .binomial, [n, p] =>
    if h : (∃ k : ℕ, (k : ℝ) = n) ∧ p ∈ Set.Icc (0 : ℝ) 1 then
      some ((binomial (Classical.choose h.1) ⟨p, h.2⟩).map (fun k : ℕ => (k : ℝ))) else none
  | .nbinom, [n, p] =>
    if 0 < n ∧ 0 < p ∧ p ≤ 1 then some ((nbMeasure n p).map (fun k : ℕ => (k : ℝ))) else none
  | .normal, [m, s] => if 0 ≤ s then some (gaussianReal m (s ^ 2).toNNReal) else none
  | _, _ => none

/-- Spec.  Conditional law of a random-variable node given the environment. -/
noncomputable def lawAt (ρ : Env) : Expr → Option (Measure ℝ)
  | .app (.rv d) _ (_ :: _ :: _ :: ps) => (ps.mapM (evalE ρ)).bind (rvLaw d)
  | _ => none

/-- Spec.  Probability of the single value `y` under a law, zero outside the parameter domain. -/
noncomputable def massOf : Option (Measure ℝ) → ℝ → ℝ≥0∞
  | some μ, y => μ {y}
  | none, _ => 0

/-- Spec.  Likelihood of the value `θ` of the variable `latent` when `Y` was observed to be `y`. -/
noncomputable def likAt (ρ : Env) (latent Y : Expr) (y : ℝ) (θ : ℝ) : ℝ≥0∞ :=
  massOf (lawAt (Function.update ρ latent θ) Y) y

/-- Spec.  `a` occurs in `b` as a value the evaluation of `b` reads: the search does not go below
random-variable nodes, whose value is given by the environment. -/
inductive Reads (a : Expr) : Expr → Prop
  | self : Reads a a
  | arg {o sh as e} : (∀ d, o ≠ .rv d) → e ∈ as → Reads a e → Reads a (.app o sh as)

end Verif
