import Verif.Shared.Local
import Verif.Shared.Scale

/-!
# C61: a global shrinkage parameter shared by two groups of coefficients
-/

open MeasureTheory ProbabilityTheory
open scoped ENNReal

namespace Verif.Shared

open HsReg

variable {p₁ p₂ : ℕ}

/-- **C61 (partial), what is right.** Rate reading: the draw of the local parameters of the first group,
with everything else kept, leaves the joint posterior invariant, and the posterior exists. Missing: the
draw of the global parameter, where the code is wrong (`C61_violated`). -/
theorem C61_local_draw_partial {β₁ : Fin p₁ → ℝ} {β₂ : Fin p₂ → ℝ} (h₁ : ∀ j, β₁ j ≠ 0)
    (h₂ : ∀ j, β₂ j ≠ 0) :
    BayesDefined (prior p₁ p₂) (lik β₁ β₂) ∧ Stationary (posterior β₁ β₂) (localStep .rate β₁) :=
  ⟨bayesDefined_shared h₁ h₂, localStep_rate h₁ h₂⟩

example : Stationary (posterior ![1, -2] ![3]) (localStep .rate ![1, -2]) :=
  (C61_local_draw_partial (fun j => by fin_cases j <;> norm_num)
    fun j => by fin_cases j; norm_num).2

/-- Spec.  The law of the state after `n` calls. -/
noncomputable def after {Θ : Type*} [MeasurableSpace Θ] (K : Θ → Measure Θ) : ℕ → Measure Θ → Measure Θ
  | 0, ν => ν
  | n + 1, ν => (after K n ν).bind K

/-- **C61 (partial), the first group is ignored.** Either reading, either order of the steps, any start
with positive values: after any number of calls the law of the local parameters of the second group and of
the global parameter is the one of the sampler for a model with the second group alone.  It does not depend
on the coefficients of the first group. -/
theorem C61_first_group_ignored_partial (conv : Horseshoe.ExpArg) (ord : Order) (β₁ : Fin p₁ → ℝ)
    (β₂ : Fin p₂ → ℝ) {ν : Measure ((Fin p₁ → ℝ) × ((Fin p₂ → ℝ) × ℝ))}
    (hpos : ∀ᵐ q ∂ν, (∀ j, 0 < q.1 j) ∧ (∀ j, 0 < q.2.1 j) ∧ 0 < q.2.2) (n : ℕ) :
    (after (sharedStep conv ord β₁ β₂) n ν).map Prod.snd =
      after (Horseshoe.horseshoeStep conv β₂) n (ν.map Prod.snd) := by
  have key : ∀ n, (∀ᵐ q ∂after (sharedStep conv ord β₁ β₂) n ν, Pos q) ∧
      (after (sharedStep conv ord β₁ β₂) n ν).map Prod.snd =
        after (Horseshoe.horseshoeStep conv β₂) n (ν.map Prod.snd) := by
    intro n
    induction n with
    | zero => exact ⟨hpos, rfl⟩
    | succ n ih =>
      refine ⟨ae_pos_bind conv ord β₁ β₂ ih.1, ?_⟩
      rw [after, bind_map_snd' conv ord β₁ β₂ ih.1, ih.2, after]
  exact (key n).2

example (n : ℕ) : (after (sharedStep .rate .globalFirst ![5] ![3]) n
      (Measure.dirac (![2], (![1], 4)))).map Prod.snd =
    (after (sharedStep .rate .globalFirst ![-7] ![3]) n
      (Measure.dirac (![2], (![1], 4)))).map Prod.snd := by
  have h : ∀ᵐ q ∂Measure.dirac ((![2], (![1], 4)) : (Fin 1 → ℝ) × ((Fin 1 → ℝ) × ℝ)),
      (∀ j, 0 < q.1 j) ∧ (∀ j, 0 < q.2.1 j) ∧ 0 < q.2.2 := by
    refine (ae_dirac_iff measurableSet_Pos).2 ?_
    exact ⟨fun j => by fin_cases j; norm_num, fun j => by fin_cases j; norm_num, by norm_num⟩
  rw [C61_first_group_ignored_partial _ _ _ _ h, C61_first_group_ignored_partial _ _ _ _ h]

/-- **C61 is violated.** Rate reading, either order of the steps, at least one coefficient in the first
group, no coefficient zero: the joint posterior exists and the sampler does not keep it. -/
theorem C61_violated (ord : Order) (hp : 0 < p₁) {β₁ : Fin p₁ → ℝ} {β₂ : Fin p₂ → ℝ}
    (h₁ : ∀ j, β₁ j ≠ 0) (h₂ : ∀ j, β₂ j ≠ 0) :
    BayesDefined (prior p₁ p₂) (lik β₁ β₂) ∧
    ¬ Stationary (posterior β₁ β₂) (sharedStep .rate ord β₁ β₂) := by
  have hd := bayesDefined_shared h₁ h₂
  refine ⟨hd, fun h => ?_⟩
  have i1 : IsProbabilityMeasure (posterior β₁ β₂) := isProbabilityMeasure_bayes hd
  have i2 : IsProbabilityMeasure (Horseshoe.posterior β₂ 1) :=
    isProbabilityMeasure_bayes (Horseshoe.bayesDefined_posterior h₂ one_pos)
  have e := kept_marginal ord h₂ (ae_posterior_pos β₁ β₂) h
  have hmg : Measurable fun s : (Fin p₂ → ℝ) × ℝ => groupLik β₁ s.2 :=
    (measurable_groupLik β₁).comp measurable_snd
  have hdg := groupDefined h₁ h₂
  rw [posterior_map_snd h₂, Track.bayes_eq_self_iff hmg hdg] at e
  obtain ⟨k, hk⟩ := e
  have hac : Horseshoe.prior p₂ ≪ Horseshoe.posterior β₂ 1 := by
    have hd2 := Horseshoe.bayesDefined_posterior h₂ one_pos
    refine Measure.AbsolutelyContinuous.trans ?_
      (Measure.absolutelyContinuous_smul (ENNReal.inv_ne_zero.2 hd2.2))
    refine withDensity_absolutelyContinuous' (Horseshoe.measurable_lik β₂ 1).aemeasurable ?_
    filter_upwards [Horseshoe.ae_prior_pos p₂] with s hs using lik_ne_zero β₂ hs
  have hk2 : ∀ᵐ s ∂Horseshoe.prior p₂, groupLik β₁ s.2 = k := hac.ae_le hk
  have hmap : (Horseshoe.prior p₂).map Prod.snd = Horseshoe.halfCauchy := by
    rw [Horseshoe.prior]
    exact Measure.snd_prod
  refine groupLik_not_const hp h₁ k ?_
  rw [← hmap, ae_map_iff measurable_snd.aemeasurable
    (measurableSet_eq_fun (measurable_groupLik β₁) measurable_const)]
  exact hk2

example : ¬ Stationary (posterior ![1, -2] ![3]) (sharedStep .rate .localFirst ![1, -2] ![3]) :=
  (C61_violated .localFirst (by norm_num) (fun j => by fin_cases j <;> norm_num)
    fun j => by fin_cases j; norm_num).2

/-- **C61 is violated** in the library's reading too: scale reading, either order of the steps, both groups
nonempty, no coefficient zero. -/
theorem C61_scale_violated (ord : Order) (hp₁ : 0 < p₁) (hp₂ : 0 < p₂) {β₁ : Fin p₁ → ℝ}
    {β₂ : Fin p₂ → ℝ} (h₁ : ∀ j, β₁ j ≠ 0) (h₂ : ∀ j, β₂ j ≠ 0) :
    ¬ Stationary (posterior β₁ β₂) (sharedStep .scale ord β₁ β₂) :=
  scale_never ord hp₁ hp₂ h₁ h₂

example : ¬ Stationary (posterior ![1, -2] ![3]) (sharedStep .scale .globalFirst ![1, -2] ![3]) :=
  C61_scale_violated .globalFirst (by norm_num) (by norm_num) (fun j => by fin_cases j <;> norm_num)
    fun j => by fin_cases j; norm_num

end Verif.Shared
