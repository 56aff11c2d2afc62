import Verif.Track.Model
import Verif.Conj.Model
import Verif.Match.Model

/-!
# Which variables get a closed-form step

The registered finders (`/repo/aemcmc/conjugates.py:243-252`, `/repo/aemcmc/gibbs.py:311,653,768-772`)
and the nodes each of them is called on.

Simplification: an exception in a finder counts as no answer (the graph rewriter reports it and goes
on, library behaviour).
-/

namespace Verif.Track

open Verif

/-- The finders in the databases searched by `construct_sampler`
(`/repo/aemcmc/conjugates.py:243-252`, `/repo/aemcmc/gibbs.py:311,653,768-772`). -/
inductive Finder
  | gammaPoisson | betaBinomial | betaNegBinomial | horseshoe | nbLogistic | bernLogistic
  deriving DecidableEq, Repr

/-- The distribution named in `@sampler_finder([...])`
(`/repo/aemcmc/conjugates.py:70,144,221`, `/repo/aemcmc/gibbs.py:264,569,743`): the rewriter calls
the finder only on nodes of it. -/
def Finder.tracks : Finder → Dist
  | gammaPoisson => .poisson
  | betaBinomial => .binomial
  | betaNegBinomial => .nbinom
  | horseshoe => .normal
  | nbLogistic => .nbinom
  | bernLogistic => .bernoulli

/-- The key under which the answers are recorded: the name of the function
(`/repo/aemcmc/rewriting.py:154,168`). -/
def Finder.name : Finder → Nat
  | gammaPoisson => 0
  | betaBinomial => 1
  | betaNegBinomial => 2
  | horseshoe => 3
  | nbLogistic => 4
  | bernLogistic => 5

/-- The variables in the answer of a finder of `gibbs.py`. -/
def matchTargets (m : Except Match.PyErr (Option (List Match.Step))) : List Expr :=
  match m with
  | .ok (some steps) => steps.map (·.target)
  | _ => []

/-- The variables in the answer of a finder of `conjugates.py`. -/
def conjTargets (m : Option (List (Expr × Expr))) : List Expr := (m.getD []).map Prod.fst

/-- The variables for which the finder returns a step when called on `y`
(`/repo/aemcmc/conjugates.py:70-87,144-161,221-238`, `/repo/aemcmc/gibbs.py:264-308,569-650,743-765`). -/
def Finder.targets (rng y : Expr) : Finder → List Expr
  | gammaPoisson => conjTargets (Conj.gammaPoissonFinder rng y)
  | betaBinomial => conjTargets (Conj.betaBinomialFinder rng y)
  | betaNegBinomial => conjTargets (Conj.betaNegBinomialFinder rng y)
  | horseshoe => matchTargets (Match.horseshoeFinder y)
  | nbLogistic => matchTargets (Match.nbinomLogisticFinder y)
  | bernLogistic => matchTargets (Match.bernLogisticFinder y)

end Verif.Track
