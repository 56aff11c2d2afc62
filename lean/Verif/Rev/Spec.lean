import Verif.Prob.Doeblin
import Mathlib.Probability.Moments.Covariance
import Mathlib.Probability.Moments.Variance

/-!
# Specification: successive draws of a sampler in equilibrium

Nothing here refers to the model of the code.
-/

open MeasureTheory ProbabilityTheory
open scoped ENNReal

namespace Verif

variable {Θ : Type*} [MeasurableSpace Θ]

/-- Spec.  Joint law of a draw from `π` and of the value `k` calls of `K` later. -/
noncomputable def atLag (π : Measure Θ) (K : Θ → Measure Θ) (k : ℕ) : Measure (Θ × Θ) :=
  π.bind fun θ => (calls K k θ).map (Prod.mk θ)

/-- Spec.  Covariance of `f` at a draw and `f` at the value `k` calls later. -/
noncomputable def autocov (π : Measure Θ) (K : Θ → Measure Θ) (f : Θ → ℝ) (k : ℕ) : ℝ :=
  cov[fun q => f q.1, fun q => f q.2; atLag π K k]

/-- Spec.  At every distance, the earlier and the later value may be exchanged. -/
def Reversible (π : Measure Θ) (K : Θ → Measure Θ) : Prop :=
  ∀ k, (atLag π K k).map Prod.swap = atLag π K k

/-- Spec.  For every function of finite variance, the covariances of the draws `k` calls apart start with
the variance, are never negative, never increase with `k`, and decrease ever more slowly. -/
def FadingCovariances (π : Measure Θ) (K : Θ → Measure Θ) : Prop :=
  ∀ f : Θ → ℝ, MemLp f 2 π → autocov π K f 0 = variance f π ∧ (∀ k, 0 ≤ autocov π K f k) ∧
    Antitone (autocov π K f) ∧
    ∀ k, autocov π K f (k + 1) - autocov π K f (k + 2) ≤ autocov π K f k - autocov π K f (k + 1)

/-- Spec.  On the probability space `(Ω, P)` the values `Z 0, Z 1, …` are a draw from `π` and what repeated
calls of `K` return from there: each value is drawn from `K` at the one before, whatever the values so
far. -/
structure IsEquilibriumRun {Ω : Type*} [MeasurableSpace Ω] (π : Measure Θ) (K : Θ → Measure Θ)
    (P : Measure Ω) (Z : ℕ → Ω → Θ) : Prop where
  meas : ∀ n, Measurable (Z n)
  first : P.map (Z 0) = π
  next : ∀ (n : ℕ) (S : ℕ → Set Θ), (∀ i, MeasurableSet (S i)) → ∀ B, MeasurableSet B →
    P ({ω | ∀ i ≤ n, Z i ω ∈ S i} ∩ {ω | Z (n + 1) ω ∈ B}) =
      ∫⁻ ω in {ω | ∀ i ≤ n, Z i ω ∈ S i}, K (Z n ω) B ∂P

/-- Spec.  The mean of `N` successive draws is never more precise than that of `N` independent draws, and
never less precise than a single draw. -/
def NoGain (π : Measure Θ) (K : Θ → Measure Θ) : Prop :=
  ∀ (Ω : Type) [MeasurableSpace Ω] (P : Measure Ω) (Z : ℕ → Ω → Θ), IsProbabilityMeasure P →
    IsEquilibriumRun π K P Z → ∀ f : Θ → ℝ, MemLp f 2 π → ∀ N : ℕ, 0 < N →
      variance f π / N ≤ variance (fun ω => (∑ i ∈ Finset.range N, f (Z i ω)) / N) P ∧
      variance (fun ω => (∑ i ∈ Finset.range N, f (Z i ω)) / N) P ≤ variance f π

end Verif
