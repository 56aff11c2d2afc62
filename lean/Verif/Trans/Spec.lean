import Verif.Expr.Sem
import Verif.Horseshoe.Model

/-!
# Laws of location-scale random variables and of expressions containing one

Specification for C36–C39.
-/

open MeasureTheory ProbabilityTheory

namespace Verif.Trans

/-- Spec.  Density of the two-parameter location-scale distributions with location `m` and scale `s`
(NumPy/SciPy conventions). -/
noncomputable def lsDens : Dist → ℝ → ℝ → ℝ → ℝ
  | .normal, m, s, x => Real.exp (-(x - m) ^ 2 / (2 * s ^ 2)) / (s * √(2 * Real.pi))
  | .cauchy, m, s, x => 1 / (Real.pi * s * (1 + ((x - m) / s) ^ 2))
  | .laplace, m, s, x => Real.exp (-|x - m| / s) / (2 * s)
  | .logistic, m, s, x => Real.exp (-(x - m) / s) / (s * (1 + Real.exp (-(x - m) / s)) ^ 2)
  | .gumbel, m, s, x => Real.exp (-((x - m) / s + Real.exp (-(x - m) / s))) / s
  | _, _, _, _ => 0

/-- Spec.  The two-parameter location-scale distributions. -/
def twoParam : List Dist := [.cauchy, .gumbel, .laplace, .logistic, .normal]

/-- Spec.  The law with that density. -/
noncomputable def lsLaw (d : Dist) (m s : ℝ) : Measure ℝ :=
  volume.withDensity fun x => ENNReal.ofReal (lsDens d m s x)

open Classical in
/-- Spec.  Law of one component of a location-scale node, given the environment. -/
noncomputable def scalarLaw (ρ : Env) : Expr → Option (Measure ℝ)
  | .app (.rv d) _ [_, _, _, mu, sd] =>
    (evalE ρ mu).bind fun m => (evalE ρ sd).bind fun s => if 0 < s then some (lsLaw d m s) else none
  | _ => none

open Classical in
/-- Spec.  Law of a scalar expression `e` in which the random variable `x` is drawn from `ν` and
everything else is given by the environment. -/
noncomputable def pushLaw (ν : Measure ℝ) (ρ : Env) (x e : Expr) : Option (Measure ℝ) :=
  if h : ∀ z, (evalE (Function.update ρ x z) e).isSome then
    some (ν.map fun z => (evalE (Function.update ρ x z) e).get (h z))
  else none

/-- Spec.  The same, `x` being drawn from its own law. -/
noncomputable def scalarOut (ρ : Env) (x e : Expr) : Option (Measure ℝ) :=
  (scalarLaw ρ x).bind fun ν => pushLaw ν ρ x e

open Classical in
/-- Spec.  Joint law of the `n + 1` components of a vector of random variables: a node of shape `()` is
drawn once and broadcast, any other node has independent components. -/
noncomputable def tensorLaw {n : ℕ} (ρ : Fin (n + 1) → Env) (x : Expr) :
    Option (Measure (Fin (n + 1) → ℝ)) :=
  if x.shape = [] then (scalarLaw (ρ 0) x).map fun ν => ν.map fun z _ => z
  else if h : ∀ i, (scalarLaw (ρ i) x).isSome then
    some (Measure.pi fun i => (scalarLaw (ρ i) x).get (h i))
  else none

open Classical in
/-- Spec.  Joint law of the `n + 1` components of an elementwise expression `e` in which the random
variable `x` is drawn and everything else is given by the environments, one per component. -/
noncomputable def tensorOut {n : ℕ} (ρ : Fin (n + 1) → Env) (x e : Expr) :
    Option (Measure (Fin (n + 1) → ℝ)) :=
  (tensorLaw ρ x).bind fun ν =>
    if h : ∀ (v : Fin (n + 1) → ℝ) i, (evalE (Function.update (ρ i) x (v i)) e).isSome then
      some (ν.map fun v i => (evalE (Function.update (ρ i) x (v i)) e).get (h v i))
    else none

/-- Spec.  Number of distribution parameters of the library's random variables: `t` has degrees of
freedom, location and scale; `other` distributions may have any number. -/
def arityOk : Dist → ℕ → Prop
  | .poisson, k | .exponential, k | .bernoulli, k => k = 1
  | .t, k => k = 3
  | .other _, _ => True
  | _, k => k = 2

/-- Spec.  A random-variable node with the right number of parameters. -/
def WellFormed : Expr → Prop
  | .app (.rv d) _ as => ∃ k, arityOk d k ∧ as.length = 3 + k
  | _ => True

/-- Spec.  The distribution of a random-variable node. -/
def distOf : Expr → Option Dist
  | .app (.rv d) _ _ => some d
  | _ => none

/-- Spec.  The inverse-gamma law with shape `a` and scale `b`, by its density. -/
noncomputable def invGammaLaw (a b : ℝ) : Measure ℝ :=
  (volume.restrict (Set.Ioi 0)).withDensity fun x =>
    ENNReal.ofReal (b ^ a / Real.Gamma a * x ^ (-a - 1) * Real.exp (-b / x))

open Classical in
/-- Spec.  Law of a scalar inverse-gamma node. -/
noncomputable def igLaw (ρ : Env) : Expr → Option (Measure ℝ)
  | .app (.rv .invgamma) _ [_, _, _, a, b] =>
    (evalE ρ a).bind fun a => (evalE ρ b).bind fun b =>
      if 0 < a ∧ 0 < b then some (invGammaLaw a b) else none
  | _ => none

open Classical in
/-- Spec.  Law of a scalar exponential node, in either reading of its argument. -/
noncomputable def expLaw (conv : Horseshoe.ExpArg) (ρ : Env) : Expr → Option (Measure ℝ)
  | .app (.rv .exponential) _ [_, _, _, c] =>
    (evalE ρ c).bind fun r => if 0 < r then some (Horseshoe.expDraw conv r) else none
  | _ => none

/-- Spec.  Law of a scalar expression `e` in which the exponential `x` is drawn. -/
noncomputable def expOut (conv : Horseshoe.ExpArg) (ρ : Env) (x e : Expr) : Option (Measure ℝ) :=
  (expLaw conv ρ x).bind fun ν => pushLaw ν ρ x e

end Verif.Trans
