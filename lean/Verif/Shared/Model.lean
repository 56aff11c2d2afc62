import Verif.Horseshoe.Model

/-!
# Model of one call of the sampler for two horseshoe groups that share the global parameter

`normal_horseshoe_finder` (`/repo/aemcmc/gibbs.py:264-308`) is called once for each normal variable.  The
call for the first group returns a step for `λ₁` and one for `τ`; the call for the second group returns a
step for `λ₂` and one for `τ`.  `construct_sampler` takes the step found last
(`/repo/aemcmc/basic.py:70`), so `τ` and `λ₂` are the two outputs of the second kernel and the new `τ` of
the first kernel is not used.  The state is `(λ₁, (λ₂, τ))`; the values of the coefficients are given.
-/

open MeasureTheory ProbabilityTheory

namespace Verif.Shared

/-- Which of `λ₁` and `τ` comes first in the order in which `construct_sampler` goes through the variables
(`/repo/aemcmc/basic.py:59`). -/
inductive Order
  | localFirst
  | globalFirst
  deriving DecidableEq

/-- The global parameter that the first kernel reads: the current value if its step is put together before
the one of `τ`, the new value otherwise (`/repo/aemcmc/basic.py:86`, `95`). -/
def Order.read : Order → ℝ → ℝ → ℝ
  | .localFirst, old, _ => old
  | .globalFirst, _, new => new

/-- One call of the sampler (`/repo/aemcmc/basic.py:59-102`).  The second kernel draws `(λ₂, τ)` from the
coefficients of the second group; the first kernel draws `λ₁` and a global parameter that is dropped. -/
noncomputable def sharedStep (conv : Horseshoe.ExpArg) (ord : Order) {p₁ p₂ : ℕ} (β₁ : Fin p₁ → ℝ)
    (β₂ : Fin p₂ → ℝ) (q : (Fin p₁ → ℝ) × ((Fin p₂ → ℝ) × ℝ)) :
    Measure ((Fin p₁ → ℝ) × ((Fin p₂ → ℝ) × ℝ)) :=
  (Horseshoe.horseshoeStep conv β₂ q.2).bind fun s =>
    (Horseshoe.horseshoeStep conv β₁ (q.1, ord.read q.2.2 s.2)).map fun r => (r.1, s)

/-- The part of the call that draws `λ₁` (`/repo/aemcmc/gibbs.py:293-304`); `λ₂` and `τ` are kept. -/
noncomputable def localStep (conv : Horseshoe.ExpArg) {p₁ p₂ : ℕ} (β₁ : Fin p₁ → ℝ)
    (q : (Fin p₁ → ℝ) × ((Fin p₂ → ℝ) × ℝ)) : Measure ((Fin p₁ → ℝ) × ((Fin p₂ → ℝ) × ℝ)) :=
  (Horseshoe.horseshoeStep conv β₁ (q.1, q.2.2)).map fun r => (r.1, q.2)

end Verif.Shared
