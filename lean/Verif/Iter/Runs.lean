import Verif.Prob.Harris
import Verif.Prob.HalfLine
import Verif.Prob.ThreeBlock

/-!
# Steps that stay in a set of good states

Most steps of the library are only meaningful from states with positive scales or a positive dispersion.
`Runs D K K'` says that on `D` the step `K` is the measurable family `K'` of probability laws, whose
results lie in `D`.
-/

open MeasureTheory ProbabilityTheory Filter
open scoped ENNReal Topology

namespace Verif

variable {Θ : Type*} [MeasurableSpace Θ]

/-- On `D` the step `K` is the measurable family `K'` of probability laws, and `K'` ends in `D`. -/
structure Runs (D : Set Θ) (K K' : Θ → Measure Θ) : Prop where
  meas : Measurable K'
  prob : ∀ θ, IsProbabilityMeasure (K' θ)
  eq : ∀ θ ∈ D, K θ = K' θ
  stays : ∀ θ, ∀ᵐ x ∂K' θ, x ∈ D
  measD : MeasurableSet D

theorem Runs.calls_eq {D : Set Θ} {K K' : Θ → Measure Θ} (r : Runs D K K') {θ : Θ} (hθ : θ ∈ D)
    (k : ℕ) : calls K k θ = calls K' k θ :=
  calls_congr r.meas r.eq r.stays r.measD hθ k

/-- If repeated calls from one single start in `D` converge to `π`, the step keeps `π`. -/
theorem Runs.stationary {D : Set Θ} {K K' : Θ → Measure Θ} (r : Runs D K K') {θ : Θ} (hθ : θ ∈ D)
    {π : Measure Θ} (h : ConvergesFrom {θ} π K) : Stationary π K := by
  have h' : ∀ S, MeasurableSet S → Tendsto (fun k => calls K' k θ S) atTop (𝓝 (π S)) := by
    intro S hS
    have := h θ rfl S hS
    simpa only [r.calls_eq hθ] using this
  have hst := stationary_of_tendsto r.meas r.prob h'
  refine hst.congr_ae ?_
  have hD : ∀ᵐ x ∂π, x ∈ D := by
    rw [← hst.2]
    exact ae_bind r.meas.aemeasurable r.measD (ae_of_all _ r.stays)
  filter_upwards [hD] with x hx using (r.eq x hx).symm

/-- If all laws of the step have the same null sets and `π` is kept, repeated calls converge to `π`. -/
theorem Runs.converges {D : Set Θ} {K K' : Θ → Measure Θ} (r : Runs D K K') {m : Measure Θ}
    (h1 : ∀ θ, m ≪ K' θ) (h2 : ∀ θ, K' θ ≪ m) {π : Measure Θ} [IsProbabilityMeasure π]
    (hπ : π.bind K' = π) : ConvergesFrom D π K := by
  intro θ hθ S hS
  simpa only [r.calls_eq hθ] using converges_of_equivalent r.meas r.prob h1 h2 hπ θ trivial S hS

theorem ConvergesFrom.mono {D D' : Set Θ} {π : Measure Θ} {K : Θ → Measure Θ} (h : ConvergesFrom D π K)
    (hD : D' ⊆ D) : ConvergesFrom D' π K := fun θ hθ => h θ (hD hθ)

end Verif
