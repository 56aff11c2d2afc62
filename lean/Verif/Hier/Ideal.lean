import Verif.Hier.Law
import Verif.Prob.Bayes
import Mathlib.Probability.Kernel.Representation

/-!
# An ideal NUTS
-/

open MeasureTheory ProbabilityTheory Filter
open scoped ENNReal Topology

namespace Verif.Hier

/-- Spec: an ideal NUTS for one variable, a number or a vector.  `g d t z` is the new value for the density `d`, the
current value `t` and the random numbers `z`.  It is the same for proportional densities, and repeated calls
converge to the law with density `d` from every value of positive density. -/
structure OneNuts (E : Type) [MeasureSpace E] where
  Z : Type
  mZ : MeasurableSpace Z
  P : Measure Z
  prob : IsProbabilityMeasure P
  g : (E → ℝ≥0∞) → E → Z → E
  scale : ∀ (c : ℝ≥0∞) (d : E → ℝ≥0∞), c ≠ 0 → c ≠ ∞ → g (fun t => c * d t) = g d
  meas : ∀ d, Measurable d → ∫⁻ t, d t = 1 → Measurable fun q : E × Z => g d q.1 q.2
  stays : ∀ d, Measurable d → ∫⁻ t, d t = 1 → ∀ t, d t ≠ 0 → ∀ᵐ z ∂P, d (g d t z) ≠ 0
  conv : ∀ d, Measurable d → ∫⁻ t, d t = 1 →
    ConvergesFrom {t | d t ≠ 0} (volume.withDensity d) fun t => P.map (g d t)

attribute [instance] OneNuts.mZ OneNuts.prob

/-- A step that forgets the current value is at its law after one call. -/
theorem calls_const {Θ : Type*} [MeasurableSpace Θ] {μ : Measure Θ} [IsProbabilityMeasure μ] (k : ℕ) (t : Θ) :
    calls (fun _ : Θ => μ) (k + 1) t = μ := by
  rw [(calls_succ' measurable_const k).2]
  exact bind_calls measurable_const (by simp) k

/-- There is an ideal NUTS. -/
theorem oneNuts_exists (E : Type) [MeasureSpace E] [StandardBorelSpace E] [Nonempty E] :
    Nonempty (OneNuts E) := by
  classical
  have hf : ∀ μ : Measure E, ∃ f : unitInterval → E, Measurable f ∧
      (IsProbabilityMeasure μ → (volume : Measure unitInterval).map f = μ) := by
    intro μ
    by_cases hμ : IsProbabilityMeasure μ
    · let κ : Kernel Unit E := ⟨fun _ => μ, measurable_const⟩
      have : IsMarkovKernel κ := ⟨fun _ => hμ⟩
      obtain ⟨f, hf, hκ⟩ := κ.exists_measurable_map_eq_unitInterval
      exact ⟨f (), hf.comp measurable_prodMk_left, fun _ => hκ ()⟩
    · exact ⟨fun _ => Classical.arbitrary E, measurable_const, fun h => absurd h hμ⟩
  choose f hfm hfl using hf
  have key : ∀ d : E → ℝ≥0∞, Measurable d → ∫⁻ t, d t = 1 →
      bayes volume d = volume.withDensity d ∧ IsProbabilityMeasure (bayes volume d) ∧
        (volume : Measure unitInterval).map (f (bayes volume d)) = volume.withDensity d := by
    intro d hd h1
    have e : bayes volume d = volume.withDensity d := by rw [bayes, h1, inv_one, one_smul]
    have hp : IsProbabilityMeasure (bayes volume d) :=
      isProbabilityMeasure_bayes ⟨by rw [h1]; exact one_ne_zero, by rw [h1]; exact ENNReal.one_ne_top⟩
    exact ⟨e, hp, (hfl _ hp).trans e⟩
  refine ⟨{
    Z := unitInterval, mZ := inferInstance, P := volume, prob := inferInstance
    g := fun d _ z => if Measurable d then f (bayes volume d) z else Classical.arbitrary E
    scale := ?_, meas := ?_, stays := ?_, conv := ?_ }⟩
  · intro c d hc0 hc
    by_cases hd : Measurable d
    · funext t z
      rw [if_pos hd, if_pos (hd.const_mul c), bayes_const_mul _ hd hc0 hc]
    · have hd' : ¬ Measurable fun t => c * d t := by
        intro h
        refine hd ?_
        have e : d = fun t => c⁻¹ * (c * d t) := funext fun t => by
          rw [← mul_assoc, ENNReal.inv_mul_cancel hc0 hc, one_mul]
        rw [e]
        exact h.const_mul _
      funext t z
      rw [if_neg hd, if_neg hd']
  · intro d hd h1
    simp only [if_pos hd]
    exact (hfm _).comp measurable_snd
  · intro d hd h1 t ht
    simp only [if_pos hd]
    have h2 : ∀ᵐ x ∂(volume : Measure E).withDensity d, d x ≠ 0 := by
      rw [ae_withDensity_iff hd]
      exact ae_of_all _ fun x hx => hx
    rw [← (key d hd h1).2.2] at h2
    exact ae_of_ae_map (hfm _).aemeasurable h2
  · intro d hd h1 t ht S hS
    simp only [if_pos hd]
    have hp := (key d hd h1).2.1
    rw [(key d hd h1).1] at hp
    refine tendsto_atTop_of_eventually_const (i₀ := 1) fun k hk => ?_
    obtain ⟨j, rfl⟩ := Nat.exists_eq_add_of_le' hk
    rw [show (fun _ : E => (volume : Measure unitInterval).map (fun z => f (bayes volume d) z)) =
      fun _ => volume.withDensity d from funext fun _ => (key d hd h1).2.2, calls_const]

end Verif.Hier
