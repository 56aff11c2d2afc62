import Mathlib.MeasureTheory.Measure.GiryMonad
import Mathlib.MeasureTheory.Integral.Lebesgue.Countable
import Mathlib.MeasureTheory.Constructions.Polish.Basic
import Verif.Prob.DataAug

/-!
# Checking a sampler against simulated data

Parameters are drawn from the prior, data are simulated from the model at these parameters, and one step of
the sampler for these data is made from these parameters.
-/

open MeasureTheory
open scoped ENNReal

namespace Verif

variable {Θ Y : Type*} [MeasurableSpace Θ] [MeasurableSpace Y]

/-- Spec.  Parameters from the prior, then data from the model: joint law of both. -/
noncomputable def simulated (prior : Measure Θ) (data : Θ → Measure Y) : Measure (Θ × Y) :=
  prior.bind fun θ => (data θ).map fun y => (θ, y)

/-- Spec.  The same, followed by one step `K y` of the sampler for the simulated data `y` from the simulated
parameters: joint law of the new parameters and the data. -/
noncomputable def simulatedStep (prior : Measure Θ) (data : Θ → Measure Y) (K : Y → Θ → Measure Θ) :
    Measure (Θ × Y) :=
  prior.bind fun θ => (data θ).bind fun y => (K y θ).map fun θ' => (θ', y)

/-- Spec.  The step passes the check: it does not change the joint law. -/
def Calibrated (prior : Measure Θ) (data : Θ → Measure Y) (K : Y → Θ → Measure Θ) : Prop :=
  simulatedStep prior data K = simulated prior data

variable [Countable Y] [DiscreteMeasurableSpace Y]

/-- A family of laws of countable data is measurable when the probabilities of single data sets are. -/
theorem aemeasurable_of_singleton {prior : Measure Θ} {data : Θ → Measure Y}
    (h : ∀ y, AEMeasurable (fun θ => data θ {y}) prior) : AEMeasurable data prior := by
  have e : ∀ (μ : Measure Y) (T : Set Y), μ T = ∑' y, T.indicator 1 y * μ {y} := by
    intro μ T
    rw [← lintegral_countable', lintegral_indicator_one (Set.to_countable T).measurableSet]
  refine ⟨fun θ => Measure.sum fun y => (h y).mk _ θ • Measure.dirac y, ?_, ?_⟩
  · refine Measure.measurable_of_measurable_coe _ fun T hT => ?_
    simp only [Measure.sum_apply _ hT, Measure.smul_apply, smul_eq_mul]
    exact Measurable.tsum fun y => (h y).measurable_mk.mul measurable_const
  · filter_upwards [ae_all_iff.2 fun y => (h y).ae_eq_mk] with θ hθ
    refine Measure.ext fun T hT => ?_
    rw [e, Measure.sum_apply _ hT]
    refine tsum_congr fun y => ?_
    rw [hθ y, Measure.smul_apply, Measure.dirac_apply' _ hT, smul_eq_mul, mul_comm]

theorem simulated_apply {prior : Measure Θ} {data : Θ → Measure Y} (hd : AEMeasurable data prior)
    {T : Set (Θ × Y)} (hT : MeasurableSet T) :
    simulated prior data T = ∑' y, ∫⁻ θ in {θ | (θ, y) ∈ T}, data θ {y} ∂prior := by
  have hm : ∀ θ : Θ, Measurable fun y : Y => (θ, y) := fun θ => measurable_prodMk_left
  have hs : ∀ y : Y, MeasurableSet {θ | (θ, y) ∈ T} := fun y => measurable_prodMk_right hT
  have hdy : ∀ y : Y, AEMeasurable (fun θ => data θ {y}) prior := fun y =>
    (Measure.measurable_coe (measurableSet_singleton y)).comp_aemeasurable hd
  have h1 : ∀ (data : Θ → Measure Y) (θ : Θ) {T : Set (Θ × Y)}, MeasurableSet T →
      (data θ).map (fun y => (θ, y)) T = ∑' y, {θ | (θ, y) ∈ T}.indicator (fun θ => data θ {y}) θ := by
    intro data θ T hT
    rw [Measure.map_apply (hm θ) hT, ← lintegral_indicator_one (hm θ hT), lintegral_countable']
    refine tsum_congr fun y => ?_
    by_cases h : (θ, y) ∈ T
    · rw [Set.indicator_of_mem (s := (fun y => (θ, y)) ⁻¹' T) h,
        Set.indicator_of_mem (s := {θ | (θ, y) ∈ T}) h, Pi.one_apply, one_mul]
    · rw [Set.indicator_of_notMem (s := (fun y => (θ, y)) ⁻¹' T) h,
        Set.indicator_of_notMem (s := {θ | (θ, y) ∈ T}) h, zero_mul]
  have h2 : AEMeasurable (fun θ => (data θ).map fun y => (θ, y)) prior := by
    refine ⟨fun θ => (hd.mk _ θ).map fun y => (θ, y), ?_, ?_⟩
    · refine Measure.measurable_of_measurable_coe _ fun T hT => ?_
      simp only [h1 (hd.mk _) _ hT]
      exact Measurable.tsum fun y => ((Measure.measurable_coe (measurableSet_singleton y)).comp
        hd.measurable_mk).indicator (measurable_prodMk_right hT)
    · filter_upwards [hd.ae_eq_mk] with θ hθ
      rw [hθ]
  rw [simulated, Measure.bind_apply (f := fun θ => (data θ).map fun y => (θ, y)) hT h2]
  simp only [h1 data _ hT]
  rw [lintegral_tsum fun y => (hdy y).indicator (hs y)]
  exact tsum_congr fun y => lintegral_indicator (hs y) _

theorem simulatedStep_apply {prior : Measure Θ} {data : Θ → Measure Y} (hd : AEMeasurable data prior)
    {K : Y → Θ → Measure Θ} (hK : ∀ y, AEMeasurable (K y) prior) {T : Set (Θ × Y)} (hT : MeasurableSet T) :
    simulatedStep prior data K T = ∑' y, ∫⁻ θ, K y θ {θ | (θ, y) ∈ T} * data θ {y} ∂prior := by
  have hm : ∀ y : Y, Measurable fun θ : Θ => (θ, y) := fun y => measurable_prodMk_right
  have hdy : ∀ y : Y, AEMeasurable (fun θ => data θ {y}) prior := fun y =>
    (Measure.measurable_coe (measurableSet_singleton y)).comp_aemeasurable hd
  have h1 : ∀ (data : Θ → Measure Y) (K : Y → Θ → Measure Θ) (θ : Θ) {T : Set (Θ × Y)}, MeasurableSet T →
      (data θ).bind (fun y => (K y θ).map fun θ' => (θ', y)) T =
        ∑' y, K y θ {θ | (θ, y) ∈ T} * data θ {y} := by
    intro data K θ T hT
    rw [Measure.bind_apply (f := fun y => (K y θ).map fun θ' => (θ', y)) hT
      (Measurable.of_discrete).aemeasurable, lintegral_countable']
    refine tsum_congr fun y => ?_
    rw [Measure.map_apply (hm y) hT]
    rfl
  have h2 : AEMeasurable (fun θ => (data θ).bind fun y => (K y θ).map fun θ' => (θ', y)) prior := by
    refine ⟨fun θ => (hd.mk _ θ).bind fun y => ((hK y).mk _ θ).map fun θ' => (θ', y), ?_, ?_⟩
    · refine Measure.measurable_of_measurable_coe _ fun T hT => ?_
      simp only [h1 (hd.mk _) (fun y => (hK y).mk _) _ hT]
      exact Measurable.tsum fun y =>
        ((Measure.measurable_coe (measurable_prodMk_right hT)).comp (hK y).measurable_mk).mul
          ((Measure.measurable_coe (measurableSet_singleton y)).comp hd.measurable_mk)
    · filter_upwards [ae_all_iff.2 fun y => (hK y).ae_eq_mk, hd.ae_eq_mk] with θ hθ hθ'
      simp only [hθ, hθ']
  rw [simulatedStep, Measure.bind_apply
    (f := fun θ => (data θ).bind fun y => (K y θ).map fun θ' => (θ', y)) hT h2]
  simp only [h1 data K _ hT]
  exact lintegral_tsum fun y => AEMeasurable.mul ((Measure.measurable_coe
    (measurable_prodMk_right hT)).comp_aemeasurable (hK y)) (hdy y)

/-- For one data set: the step keeps the posterior iff it does not change the unnormalised posterior. -/
theorem stationary_bayes_iff {prior : Measure Θ} {lik : Θ → ℝ≥0∞} (hl : AEMeasurable lik prior)
    (hd : BayesDefined prior lik) {K : Θ → Measure Θ} (hK : AEMeasurable K prior) :
    Stationary (bayes prior lik) K ↔
      ∀ S, MeasurableSet S → ∫⁻ θ, K θ S * lik θ ∂prior = ∫⁻ θ in S, lik θ ∂prior := by
  have hK' : AEMeasurable K (bayes prior lik) := hK.mono_ac (bayes_absolutelyContinuous _ _)
  have hc0 : (∫⁻ θ, lik θ ∂prior)⁻¹ ≠ 0 := ENNReal.inv_ne_zero.2 hd.2
  have hc1 : (∫⁻ θ, lik θ ∂prior)⁻¹ ≠ ∞ := ENNReal.inv_ne_top.2 hd.1
  have key : ∀ S, MeasurableSet S → ((bayes prior lik).bind K S = bayes prior lik S ↔
      ∫⁻ θ, K θ S * lik θ ∂prior = ∫⁻ θ in S, lik θ ∂prior) := by
    intro S hS
    have hKS : AEMeasurable (fun θ => K θ S) prior := (Measure.measurable_coe hS).comp_aemeasurable hK
    rw [Measure.bind_apply hS hK', bayes, lintegral_smul_measure, Measure.smul_apply, withDensity_apply _ hS,
      lintegral_withDensity_eq_lintegral_mul₀ hl hKS, smul_eq_mul, smul_eq_mul,
      ENNReal.mul_right_inj hc0 hc1]
    simp only [Pi.mul_apply, mul_comm]
  constructor
  · intro h S hS
    rw [← key S hS, h.2]
  · exact fun h => ⟨hK', Measure.ext fun S hS => (key S hS).2 (h S hS)⟩

/-- The check is passed iff the step keeps the posterior for all data sets of positive probability. -/
theorem calibrated_iff {prior : Measure Θ} [IsFiniteMeasure prior] {data : Θ → Measure Y}
    (hd : AEMeasurable data prior) (hp : ∀ᵐ θ ∂prior, IsProbabilityMeasure (data θ)) {K : Y → Θ → Measure Θ}
    (hK : ∀ y, AEMeasurable (K y) prior) :
    Calibrated prior data K ↔ ∀ y, ∫⁻ θ, data θ {y} ∂prior ≠ 0 →
      Stationary (bayes prior fun θ => data θ {y}) (K y) := by
  have hdy : ∀ y : Y, AEMeasurable (fun θ => data θ {y}) prior := fun y =>
    (Measure.measurable_coe (measurableSet_singleton y)).comp_aemeasurable hd
  have hfin : ∀ y, ∫⁻ θ, data θ {y} ∂prior ≠ ∞ := fun y =>
    ((lintegral_mono_ae (g := fun _ => 1) (hp.mono fun θ _ => prob_le_one)).trans_lt (by
      rw [lintegral_one]; exact measure_lt_top _ _)).ne
  constructor
  · intro h y hy
    rw [stationary_bayes_iff (hdy y) ⟨hy, hfin y⟩ (hK y)]
    intro S hS
    have hT : MeasurableSet (S ×ˢ {y}) := hS.prod (measurableSet_singleton y)
    have h1 := congrArg (fun m => m (S ×ˢ {y})) h
    simp only [simulatedStep_apply hd hK hT, simulated_apply hd hT] at h1
    have hz : ∀ z, z ≠ y → {θ : Θ | (θ, z) ∈ S ×ˢ ({y} : Set Y)} = ∅ := fun z hz =>
      Set.eq_empty_of_forall_notMem fun θ hθ => hz hθ.2
    have hy' : {θ : Θ | (θ, y) ∈ S ×ˢ ({y} : Set Y)} = S :=
      Set.ext fun θ => ⟨fun h => h.1, fun h => ⟨h, rfl⟩⟩
    rw [tsum_eq_single y fun z h => by rw [hz z h]; simp only [measure_empty, zero_mul, lintegral_zero],
      tsum_eq_single y fun z h => by rw [hz z h, Measure.restrict_empty, lintegral_zero_measure], hy'] at h1
    exact h1
  · intro h
    refine Measure.ext fun T hT => ?_
    rw [simulatedStep_apply hd hK hT, simulated_apply hd hT]
    refine tsum_congr fun y => ?_
    have hS : MeasurableSet {θ | (θ, y) ∈ T} := measurable_prodMk_right hT
    by_cases hy : ∫⁻ θ, data θ {y} ∂prior = 0
    · have h0 := (lintegral_eq_zero_iff' (hdy y)).1 hy
      rw [lintegral_congr_ae (g := fun _ => 0), lintegral_zero]
      · symm
        rw [lintegral_congr_ae (g := fun _ => 0), lintegral_zero]
        exact ae_restrict_of_ae h0
      · filter_upwards [h0] with θ hθ
        simp only [hθ, Pi.zero_apply, mul_zero]
    · exact (stationary_bayes_iff (hdy y) ⟨hy, hfin y⟩ (hK y)).1 (h y hy) _ hS

end Verif
