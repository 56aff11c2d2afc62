import Verif.Prob.Bayes
import Mathlib.MeasureTheory.Measure.Decomposition.Hahn
import Mathlib.Probability.Kernel.Composition.Prod

/-!
# Stationary laws of data-augmentation samplers

`Stationary` is the specification of "this transition leaves that law invariant".  The lemmas say
that alternating draws from the two conditionals of a joint density leave the marginal invariant,
and that a transition with everywhere positive density has at most one stationary probability law.
-/

open MeasureTheory ProbabilityTheory
open scoped ENNReal

namespace Verif

variable {Θ Ω : Type*} [MeasurableSpace Θ] [MeasurableSpace Ω]

/-- Spec.  Drawing `θ ~ π` and then `θ' ~ K θ` gives `θ' ~ π`.  The first conjunct makes the second
meaningful. -/
def Stationary (π : Measure Θ) (K : Θ → Measure Θ) : Prop :=
  AEMeasurable K π ∧ π.bind K = π

theorem measurable_bayes {ν : Measure Ω} [SFinite ν] {f : Θ → Ω → ℝ≥0∞}
    (hf : Measurable (Function.uncurry f)) : Measurable fun θ => bayes ν (f θ) := by
  refine Measure.measurable_of_measurable_coe _ fun S hS => ?_
  have h1 : ∀ θ, bayes ν (f θ) S = (∫⁻ ω, f θ ω ∂ν)⁻¹ * ∫⁻ ω in S, f θ ω ∂ν := by
    intro θ
    rw [bayes, Measure.smul_apply, withDensity_apply _ hS, smul_eq_mul]
  simp only [h1]
  exact (Measurable.lintegral_prod_right hf).inv.mul (Measurable.lintegral_prod_right hf)

theorem bayes_absolutelyContinuous (ν : Measure Ω) (f : Ω → ℝ≥0∞) : bayes ν f ≪ ν := by
  unfold bayes
  exact Measure.smul_absolutelyContinuous.trans (withDensity_absolutelyContinuous _ _)

theorem lintegral_bayes {ν : Measure Ω} {f g : Ω → ℝ≥0∞} (hf : Measurable f) (hg : Measurable g) :
    ∫⁻ ω, g ω ∂bayes ν f = (∫⁻ ω, f ω ∂ν)⁻¹ * ∫⁻ ω, f ω * g ω ∂ν := by
  rw [bayes, lintegral_smul_measure, smul_eq_mul,
    lintegral_withDensity_eq_lintegral_mul _ hf hg]
  rfl

section DataAug

variable {μ₀ : Measure Θ} {ν : Measure Ω} [SFinite μ₀] [SFinite ν] {f : Θ → Ω → ℝ≥0∞}
  {K₂ : Ω → Measure Θ}

omit [SFinite μ₀] [SFinite ν] in
theorem bind_bayes_congr (hK : ∀ᵐ ω ∂ν, K₂ ω = bayes μ₀ (fun θ => f θ ω)) (θ : Θ) :
    (bayes ν (f θ)).bind K₂ = (bayes ν (f θ)).bind fun ω => bayes μ₀ (fun θ' => f θ' ω) :=
  Measure.bind_congr_right ((bayes_absolutelyContinuous ν (f θ)).ae_le hK)

/-- The two-block transition is a measurable kernel. -/
theorem measurable_dataAug (hf : Measurable (Function.uncurry f))
    (hK : ∀ᵐ ω ∂ν, K₂ ω = bayes μ₀ (fun θ => f θ ω)) :
    Measurable fun θ => (bayes ν (f θ)).bind K₂ := by
  have hf' : Measurable (Function.uncurry fun ω θ => f θ ω) := hf.comp measurable_swap
  simp only [bind_bayes_congr hK]
  exact (Measure.measurable_bind' (measurable_bayes hf')).comp (measurable_bayes hf)

/-- Alternating the two conditionals of the joint density `f` leaves the marginal invariant. -/
theorem stationary_dataAug (hf : Measurable (Function.uncurry f))
    (hg : ∀ᵐ θ ∂μ₀, BayesDefined ν (f θ)) (hh : ∀ᵐ ω ∂ν, BayesDefined μ₀ (fun θ => f θ ω))
    (hK : ∀ᵐ ω ∂ν, K₂ ω = bayes μ₀ (fun θ => f θ ω)) :
    Stationary (bayes μ₀ fun θ => ∫⁻ ω, f θ ω ∂ν) (fun θ => (bayes ν (f θ)).bind K₂) := by
  have hf' : Measurable (Function.uncurry fun ω θ => f θ ω) := hf.comp measurable_swap
  have hmK : Measurable fun ω => bayes μ₀ (fun θ => f θ ω) := measurable_bayes hf'
  have hmg : Measurable fun θ => ∫⁻ ω, f θ ω ∂ν := Measurable.lintegral_prod_right hf
  have hfθ : ∀ θ, Measurable (f θ) := fun θ => hf.comp (measurable_const.prodMk measurable_id)
  have hfω : ∀ ω, Measurable fun θ => f θ ω := fun ω =>
    hf.comp (measurable_id.prodMk measurable_const)
  refine ⟨(measurable_dataAug hf hK).aemeasurable, ?_⟩
  ext S hS
  have hmKS : Measurable fun ω => bayes μ₀ (fun θ => f θ ω) S := Measure.measurable_coe hS |>.comp hmK
  rw [Measure.bind_apply hS (measurable_dataAug hf hK).aemeasurable]
  simp only [bind_bayes_congr hK]
  have h1 : ∀ θ, ((bayes ν (f θ)).bind fun ω => bayes μ₀ (fun θ' => f θ' ω)) S =
      (∫⁻ ω, f θ ω ∂ν)⁻¹ * ∫⁻ ω, f θ ω * bayes μ₀ (fun θ' => f θ' ω) S ∂ν := by
    intro θ
    rw [Measure.bind_apply hS hmK.aemeasurable, lintegral_bayes (hfθ θ) hmKS]
  simp only [h1]
  have hm2 : Measurable fun θ => ∫⁻ ω, f θ ω * bayes μ₀ (fun θ' => f θ' ω) S ∂ν :=
    Measurable.lintegral_prod_right (f := fun θ ω => f θ ω * bayes μ₀ (fun θ' => f θ' ω) S)
      (hf.mul (hmKS.comp measurable_snd))
  rw [lintegral_bayes (g := fun θ => (∫⁻ ω, f θ ω ∂ν)⁻¹ *
    ∫⁻ ω, f θ ω * bayes μ₀ (fun θ' => f θ' ω) S ∂ν) hmg (hmg.inv.mul hm2)]
  have h2 : ∫⁻ θ, (∫⁻ ω, f θ ω ∂ν) * ((∫⁻ ω, f θ ω ∂ν)⁻¹ *
      ∫⁻ ω, f θ ω * bayes μ₀ (fun θ' => f θ' ω) S ∂ν) ∂μ₀ =
      ∫⁻ θ, ∫⁻ ω, f θ ω * bayes μ₀ (fun θ' => f θ' ω) S ∂ν ∂μ₀ := by
    refine lintegral_congr_ae ?_
    filter_upwards [hg] with θ hθ
    rw [← mul_assoc, ENNReal.mul_inv_cancel hθ.1 hθ.2, one_mul]
  have h3 : ∫⁻ θ, ∫⁻ ω, f θ ω * bayes μ₀ (fun θ' => f θ' ω) S ∂ν ∂μ₀ =
      ∫⁻ ω, ∫⁻ θ, f θ ω * bayes μ₀ (fun θ' => f θ' ω) S ∂μ₀ ∂ν :=
    lintegral_lintegral_swap (hf.mul (hmKS.comp measurable_snd)).aemeasurable
  have h4 : ∫⁻ ω, ∫⁻ θ, f θ ω * bayes μ₀ (fun θ' => f θ' ω) S ∂μ₀ ∂ν =
      ∫⁻ ω, ∫⁻ θ in S, f θ ω ∂μ₀ ∂ν := by
    refine lintegral_congr_ae ?_
    filter_upwards [hh] with ω hω
    rw [lintegral_mul_const _ (hfω ω), bayes, Measure.smul_apply, withDensity_apply _ hS,
      smul_eq_mul, ← mul_assoc, ENNReal.mul_inv_cancel hω.1 hω.2, one_mul]
  have h5 : ∫⁻ ω, ∫⁻ θ in S, f θ ω ∂μ₀ ∂ν = ∫⁻ θ in S, ∫⁻ ω, f θ ω ∂ν ∂μ₀ :=
    lintegral_lintegral_swap hf'.aemeasurable
  rw [h2, h3, h4, h5, bayes, Measure.smul_apply, withDensity_apply _ hS, smul_eq_mul]

end DataAug

/-- A smaller finite measure with the same integral of a positive function is the same measure. -/
theorem eq_of_le_of_lintegral_eq {μ μ' : Measure Θ} [IsFiniteMeasure μ] (hle : μ' ≤ μ)
    {b : Θ → ℝ≥0∞} (hb : Measurable b) (hpos : ∀ θ, b θ ≠ 0) (hb1 : ∀ θ, b θ ≤ 1)
    (h : ∫⁻ θ, b θ ∂μ ≤ ∫⁻ θ, b θ ∂μ') : μ' = μ := by
  have hfin : IsFiniteMeasure (μ.withDensity b) := by
    refine isFiniteMeasure_withDensity ?_
    refine ne_top_of_le_ne_top (measure_ne_top μ Set.univ) ?_
    calc ∫⁻ θ, b θ ∂μ ≤ ∫⁻ _, 1 ∂μ := lintegral_mono hb1
      _ = μ Set.univ := by simp
  have hle' : μ'.withDensity b ≤ μ.withDensity b := by
    refine Measure.le_iff.2 fun S hS => ?_
    rw [withDensity_apply _ hS, withDensity_apply _ hS]
    exact lintegral_mono' (Measure.restrict_mono le_rfl hle) le_rfl
  have hfin' : IsFiniteMeasure (μ'.withDensity b) :=
    ⟨(hle' Set.univ).trans_lt (measure_lt_top _ _)⟩
  have huniv : μ'.withDensity b Set.univ = μ.withDensity b Set.univ := by
    refine le_antisymm (hle' _) ?_
    simpa [withDensity_apply] using h
  have heq := Measure.eq_of_le_of_measure_univ_eq hle' huniv
  have hne : ∀ θ, b θ ≠ ∞ := fun θ => ne_top_of_le_ne_top ENNReal.one_ne_top (hb1 θ)
  rw [← withDensity_inv_same hb (ae_of_all μ' hpos) (ae_of_all μ' hne), heq,
    withDensity_inv_same hb (ae_of_all μ hpos) (ae_of_all μ hne)]

/-- A transition whose laws are all equivalent to one reference measure has at most one stationary
probability law. -/
theorem stationary_unique {m : Measure Θ} {K : Θ → Measure Θ} (hK : Measurable K)
    (hp : ∀ θ, IsProbabilityMeasure (K θ)) (h1 : ∀ θ, m ≪ K θ) (h2 : ∀ θ, K θ ≪ m)
    {π π' : Measure Θ} [IsProbabilityMeasure π] [IsProbabilityMeasure π']
    (hπ : π.bind K = π) (hπ' : π'.bind K = π') : π = π' := by
  obtain ⟨S, hS, hSle, hSc⟩ := hahn_decomposition π π'
  have hKS : ∀ {T : Set Θ}, MeasurableSet T → Measurable fun θ => K θ T := fun hT =>
    (Measure.measurable_coe hT).comp hK
  have hr1 : π'.restrict S ≤ π.restrict S := by
    refine Measure.le_iff.2 fun T hT => ?_
    rw [Measure.restrict_apply hT, Measure.restrict_apply hT]
    exact hSle _ (hT.inter hS) Set.inter_subset_right
  have hr2 : π.restrict Sᶜ ≤ π'.restrict Sᶜ := by
    refine Measure.le_iff.2 fun T hT => ?_
    rw [Measure.restrict_apply hT, Measure.restrict_apply hT]
    exact hSc _ (hT.inter hS.compl) Set.inter_subset_right
  have hac : ∀ {ρ : Measure Θ}, ρ.bind K = ρ → ρ ≪ m := by
    intro ρ hρ
    refine Measure.AbsolutelyContinuous.mk fun T hT h0 => ?_
    rw [← hρ, Measure.bind_apply hT hK.aemeasurable]
    simp [h2 _ h0]
  have key : π S = π' S := by
    by_cases hm : m Sᶜ = 0
    · have a1 := hac hπ hm
      have a2 := hac hπ' hm
      rw [prob_compl_eq_zero_iff hS] at a1 a2
      rw [a1, a2]
    · have hpos : ∀ θ, K θ Sᶜ ≠ 0 := fun θ h0 => hm (h1 θ h0)
      have hab : ∀ θ, K θ S + K θ Sᶜ = 1 := fun θ => prob_add_prob_compl hS
      have hsplit : ∀ {ρ : Measure Θ}, ρ.bind K = ρ →
          ρ S = ∫⁻ θ in S, K θ S ∂ρ + ∫⁻ θ in Sᶜ, K θ S ∂ρ := by
        intro ρ hρ
        conv_lhs => rw [← hρ, Measure.bind_apply hS hK.aemeasurable]
        exact (lintegral_add_compl _ hS).symm
      have hsum : ∀ {ρ : Measure Θ}, ρ S = ∫⁻ θ in S, K θ S ∂ρ + ∫⁻ θ in S, K θ Sᶜ ∂ρ := by
        intro ρ
        rw [← lintegral_add_left (hKS hS)]
        simp [hab]
      have e1 : ∀ {ρ : Measure Θ} [IsProbabilityMeasure ρ], ρ.bind K = ρ →
          ∫⁻ θ in S, K θ Sᶜ ∂ρ = ∫⁻ θ in Sᶜ, K θ S ∂ρ := by
        intro ρ _ hρ
        have hfin : ∫⁻ θ in S, K θ S ∂ρ ≠ ∞ := by
          refine ne_top_of_le_ne_top (measure_ne_top ρ S) ?_
          rw [hsplit hρ]
          exact le_self_add
        exact (ENNReal.add_right_inj hfin).1 (hsum.symm.trans (hsplit hρ))
      have hle : ∫⁻ θ in S, K θ Sᶜ ∂π ≤ ∫⁻ θ in S, K θ Sᶜ ∂π' := by
        rw [e1 hπ, e1 hπ']
        exact lintegral_mono' hr2 le_rfl
      have := eq_of_le_of_lintegral_eq hr1 (hKS hS.compl) hpos (fun θ => prob_le_one) hle
      have h3 := congrArg (fun ρ : Measure Θ => ρ Set.univ) this
      simpa using h3.symm
  have keyc : π Sᶜ = π' Sᶜ := by
    rw [prob_compl_eq_one_sub hS, prob_compl_eq_one_sub hS, key]
  have f1 : π'.restrict S = π.restrict S :=
    Measure.eq_of_le_of_measure_univ_eq hr1 (by simp [key])
  have f2 : π.restrict Sᶜ = π'.restrict Sᶜ :=
    Measure.eq_of_le_of_measure_univ_eq hr2 (by simp [keyc])
  rw [← Measure.restrict_add_restrict_compl (μ := π) hS, ← f1, f2,
    Measure.restrict_add_restrict_compl hS]

end Verif
