import Verif.Graph.Props
import Mathlib.Data.ENNReal.Basic

/-!
# What NUTS is given: the joint density read off a graph (spec)
-/

open scoped ENNReal

namespace Verif.Graph

open Verif.Py

variable {Val : Type}

/-- Spec.  On the heap `ins`, with the model's variables `D` at the values `ρ`, the arguments of the
distribution of `r` are `xs`. -/
def ArgsOf (own : Owner) (sem : Node → Nat → List Val → Val) (D : Var → Prop)
    (given : Var → Option Val) (ins : Ins) (ρ : Var → Val) (r : Var) (xs : List Val) : Prop :=
  ∃ n i, own r = some (n, i) ∧ EvL own sem (over D ρ given) ins (ins n) xs

/-- Spec.  The joint density, read off the heap `ins`, of the variables `outs` at the values `ρ`: the
product of the densities `dens r` of the variables given the arguments of their distributions.  This is
the exponential of what `joint_logprob` computes (`/repo/aemcmc/nuts.py:91-95`) for the values
`ρ` before the change of variables. -/
def JointDens (own : Owner) (sem : Node → Nat → List Val → Val) (D : Var → Prop)
    (given : Var → Option Val) (dens : Var → List Val → Val → ℝ≥0∞) (ins : Ins) (outs : List Var)
    (ρ : Var → Val) (d : ℝ≥0∞) : Prop :=
  ∃ xs : Var → List Val, (∀ r ∈ outs, ArgsOf own sem D given ins ρ r (xs r)) ∧
    d = (outs.map fun r => dens r (xs r) (ρ r)).prod

end Verif.Graph
