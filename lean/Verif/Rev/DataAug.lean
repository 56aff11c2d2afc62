import Verif.Rev.Lemmas
import Verif.Iter.Runs

/-!
# Reversibility of steps that alternate two conditional draws
-/

open MeasureTheory ProbabilityTheory
open scoped ENNReal

namespace Verif

variable {Θ Ω : Type*} [MeasurableSpace Θ] [MeasurableSpace Ω]

/-- Joint law of a draw from the marginal and one from the conditional, on rectangles. -/
theorem compProd_bayes {μ : Measure Θ} {ν : Measure Ω} [SFinite μ] [SFinite ν] {f : Θ → Ω → ℝ≥0∞}
    (hf : Measurable (Function.uncurry f)) (hd : ∀ᵐ θ ∂μ, BayesDefined ν (f θ))
    (hZ : BayesDefined μ fun θ => ∫⁻ ω, f θ ω ∂ν)
    {A : Kernel Θ Ω} [IsMarkovKernel A] (hA : ∀ᵐ θ ∂μ, A θ = bayes ν (f θ)) {S : Set Θ}
    (hS : MeasurableSet S) {T : Set Ω} (hT : MeasurableSet T) :
    (bayes μ (fun θ => ∫⁻ ω, f θ ω ∂ν) ⊗ₘ A) (S ×ˢ T) =
      (∫⁻ θ, ∫⁻ ω, f θ ω ∂ν ∂μ)⁻¹ * ∫⁻ θ in S, ∫⁻ ω in T, f θ ω ∂ν ∂μ := by
  have := isProbabilityMeasure_bayes hZ
  have hmG : Measurable fun θ => ∫⁻ ω, f θ ω ∂ν := Measurable.lintegral_prod_right hf
  rw [Measure.compProd_apply_prod hS hT, ← lintegral_indicator hS,
    lintegral_bayes hmG ((Kernel.measurable_coe A hT).indicator hS), ← lintegral_indicator hS]
  congr 1
  refine lintegral_congr_ae ?_
  filter_upwards [hd, hA] with θ h1 h2
  by_cases h3 : θ ∈ S
  · simp only [Set.indicator_of_mem h3]
    rw [h2, bayes, Measure.smul_apply, withDensity_apply _ hT, smul_eq_mul, ← mul_assoc,
      ENNReal.mul_inv_cancel h1.1 h1.2, one_mul]
  · simp only [Set.indicator_of_notMem h3, mul_zero]

/-- A step that draws an auxiliary value given the state and then the state given the auxiliary value. -/
theorem reversible_dataAug {μ : Measure Θ} {ν : Measure Ω} [SFinite μ] [SFinite ν] {f : Θ → Ω → ℝ≥0∞}
    {K₂ : Ω → Measure Θ} (hf : Measurable (Function.uncurry f)) (hg : ∀ θ, BayesDefined ν (f θ))
    (hh : ∀ᵐ ω ∂ν, BayesDefined μ fun θ => f θ ω) (hK : ∀ᵐ ω ∂ν, K₂ ω = bayes μ fun θ => f θ ω)
    (hZ : BayesDefined μ fun θ => ∫⁻ ω, f θ ω ∂ν) :
    Reversible (bayes μ fun θ => ∫⁻ ω, f θ ω ∂ν) (fun θ => (bayes ν (f θ)).bind K₂) ∧
      FadingCovariances (bayes μ fun θ => ∫⁻ ω, f θ ω ∂ν) (fun θ => (bayes ν (f θ)).bind K₂) := by
  classical
  have hf' : Measurable (Function.uncurry fun ω θ => f θ ω) := hf.comp measurable_swap
  have hsw : ∫⁻ ω, ∫⁻ θ, f θ ω ∂μ ∂ν = ∫⁻ θ, ∫⁻ ω, f θ ω ∂ν ∂μ :=
    (lintegral_lintegral_swap hf.aemeasurable).symm
  have hZ' : BayesDefined ν fun ω => ∫⁻ θ, f θ ω ∂μ := by
    rw [BayesDefined, hsw]
    exact hZ
  have hπ := isProbabilityMeasure_bayes hZ
  have hm := isProbabilityMeasure_bayes hZ'
  have hmH : Measurable fun ω => ∫⁻ θ, f θ ω ∂μ := Measurable.lintegral_prod_right hf'
  have hgood : MeasurableSet {ω | BayesDefined μ fun θ => f θ ω} :=
    ((measurableSet_singleton (0 : ℝ≥0∞)).compl.preimage hmH).inter
      ((measurableSet_singleton (∞ : ℝ≥0∞)).compl.preimage hmH)
  let A : Kernel Θ Ω := ⟨fun θ => bayes ν (f θ), measurable_bayes hf⟩
  let B : Kernel Ω Θ := ⟨fun ω => if BayesDefined μ (fun θ => f θ ω) then bayes μ (fun θ => f θ ω) else
      bayes μ fun θ => ∫⁻ ω, f θ ω ∂ν, Measurable.ite hgood (measurable_bayes hf') measurable_const⟩
  have hAm : IsMarkovKernel A := ⟨fun θ => isProbabilityMeasure_bayes (hg θ)⟩
  have hBm : IsMarkovKernel B := ⟨fun ω => by
    by_cases h : BayesDefined μ (fun θ => f θ ω)
    · have := isProbabilityMeasure_bayes h
      simpa only [B, Kernel.coe_mk, if_pos h] using this
    · simpa only [B, Kernel.coe_mk, if_neg h] using hπ⟩
  have hB : ∀ᵐ ω ∂ν, B ω = bayes μ fun θ => f θ ω := by
    filter_upwards [hh] with ω h1
    simp only [B, Kernel.coe_mk, if_pos h1]
  have hAlt : Alternates (bayes μ fun θ => ∫⁻ ω, f θ ω ∂ν) (bayes ν fun ω => ∫⁻ θ, f θ ω ∂μ) A B := by
    constructor
    have : IsProbabilityMeasure (((bayes μ fun θ => ∫⁻ ω, f θ ω ∂ν) ⊗ₘ A).map Prod.swap) :=
      Measure.isProbabilityMeasure_map measurable_swap.aemeasurable
    refine Measure.ext_prod fun {T S} hT hS => ?_
    rw [Measure.map_apply measurable_swap (hT.prod hS), Set.preimage_swap_prod,
      compProd_bayes hf (ae_of_all _ hg) hZ (ae_of_all _ fun _ => rfl) hS hT,
      compProd_bayes hf' hh hZ' hB hT hS, hsw]
    congr 1
    exact lintegral_lintegral_swap hf.aemeasurable
  have e : (fun θ => (bayes ν (f θ)).bind K₂) = ⇑(B ∘ₖ A) := by
    funext θ
    rw [Kernel.comp_apply]
    refine Measure.bind_congr_right ((bayes_absolutelyContinuous ν (f θ)).ae_le ?_)
    filter_upwards [hK, hB] with ω h1 h2
    rw [h1, h2]
  rw [e]
  exact ⟨hAlt.reversible, hAlt.fading⟩

theorem Runs.atLag_eq {D : Set Θ} {K K' : Θ → Measure Θ} (r : Runs D K K') {π : Measure Θ}
    (hD : ∀ᵐ θ ∂π, θ ∈ D) : atLag π K = atLag π K' := by
  funext k
  refine Measure.bind_congr_right ?_
  filter_upwards [hD] with θ hθ
  rw [r.calls_eq hθ]

theorem Runs.reversible {D : Set Θ} {K K' : Θ → Measure Θ} (r : Runs D K K') {π : Measure Θ}
    (hD : ∀ᵐ θ ∂π, θ ∈ D) (h : Reversible π K' ∧ FadingCovariances π K') :
    Reversible π K ∧ FadingCovariances π K := by
  have e : autocov π K = autocov π K' := by
    funext f k
    rw [autocov, autocov, r.atLag_eq hD]
  simpa only [Reversible, FadingCovariances, e, r.atLag_eq hD] using h

end Verif
