import Mathlib.Data.Matrix.Mul
import Mathlib.Analysis.SpecialFunctions.Exp

/-!
# Specification of the smoothing posterior of a hidden Markov model
-/

open Matrix

namespace Verif.FFBS

variable {M N : ℕ}

/-- Spec.  `exp` on the extended log-likelihoods. -/
noncomputable def lik : WithBot ℝ → ℝ
  | ⊥ => 0
  | (x : ℝ) => Real.exp x

/-- Spec.  Joint weight of the states `s_1, …, s_N` and the observations, with the initial state
`S_0 ~ γ₀` summed out: `∑_{s_0} γ₀(s_0) ∏_t Γ_t(s_{t-1}, s_t) exp(ℓ_t(s_t))`. -/
noncomputable def weight (γ₀ : Fin M → ℝ) (Γ : Fin N → Matrix (Fin M) (Fin M) ℝ)
    (ll : Fin N → Fin M → WithBot ℝ) (s : Fin N → Fin M) : ℝ :=
  ∑ s₀, γ₀ s₀ * ∏ t : Fin N,
    (Γ t ((Fin.cons s₀ s : Fin (N + 1) → Fin M) t.castSucc) (s t) * lik (ll t (s t)))

/-- Spec.  The evidence: the total weight of all state sequences. -/
noncomputable def evidence (γ₀ : Fin M → ℝ) (Γ : Fin N → Matrix (Fin M) (Fin M) ℝ)
    (ll : Fin N → Fin M → WithBot ℝ) : ℝ :=
  ∑ s, weight γ₀ Γ ll s

/-- Spec.  Posterior probability of the state sequence. -/
noncomputable def smoothing (γ₀ : Fin M → ℝ) (Γ : Fin N → Matrix (Fin M) (Fin M) ℝ)
    (ll : Fin N → Fin M → WithBot ℝ) (s : Fin N → Fin M) : ℝ :=
  weight γ₀ Γ ll s / evidence γ₀ Γ ll

end Verif.FFBS
