import Verif.HsReg.Reads

/-!
# C60: one call of the sampler of a regression with a horseshoe prior keeps the joint posterior
-/

open MeasureTheory ProbabilityTheory Matrix
open scoped ENNReal

namespace Verif.HsReg

variable {p n : ℕ}

/-- The joint posteriors the theorems speak about exist, for all data and regressors. -/
theorem C60_posterior_exists (X : Matrix (Fin n) (Fin p) ℝ) {h : Fin n → ℝ} (hh : ∀ i, 0 < h i)
    (y : Fin n → ℕ) (z : Fin n → Bool) :
    BayesDefined (hsPrior p) (fun q => nbRegLik X h y q.1) ∧
    BayesDefined (hsPrior p) (fun q => bernRegLik (fun ψ => sigmoid (-ψ)) X z q.1) := by
  have key : ∀ {b κ : Fin n → ℝ} {lik : (Fin p → ℝ) → ℝ≥0∞}, PGForm X b κ lik →
      BayesDefined (hsPrior p) fun q => lik q.1 := by
    intro b κ lik F
    have hm : Measurable fun q : (Fin p → ℝ) × ((Fin p → ℝ) × ℝ) => lik q.1 :=
      F.measurable.comp measurable_fst
    have e : ∫⁻ q, lik q.1 ∂hsPrior p =
        ∫⁻ q, dens q * lik q.1 ∂volume.prod (Horseshoe.prior p) := by
      rw [hsPrior_eq, lintegral_withDensity_eq_lintegral_mul _ measurable_dens hm]
      rfl
    have hd := F.jointDefined
    exact ⟨e ▸ hd.1, e ▸ hd.2⟩
  exact ⟨key (nbForm X hh y).some, key (bernForm X z).some⟩

example : BayesDefined (hsPrior 2) (fun q => nbRegLik !![1, 2; 3, 4] (fun _ => 2) ![3, 0] q.1) :=
  (C60_posterior_exists _ (fun _ => two_pos) _ ![true, false]).1

/-- **C60 is violated** by every negative-binomial regression with a horseshoe prior and at least one
coefficient: the step for the coefficients never leaves the joint posterior invariant, whatever the
data, the regressors and the dispersion. -/
theorem C60_nbinom_coef_step_violated {la : LinAlg} (hla : la.Sound) (hp : 0 < p)
    (X : Matrix (Fin n) (Fin p) ℝ) {h : Fin n → ℝ} (hh : ∀ i, 0 < h i) (y : Fin n → ℕ) :
    ¬ Stationary (hsPosterior (nbRegLik X h y)) (nbCoefStep la X h y) := fun hst =>
  coef_never (nbForm X hh y).some ⟨0, hp⟩ (hst.congr_ae (coefStep_ae (nbForm X hh y).some hla))

/-- **C60 is violated** by every Bernoulli regression with a horseshoe prior and at least one
coefficient. -/
theorem C60_bern_coef_step_violated {la : LinAlg} (hla : la.Sound) (hp : 0 < p)
    (X : Matrix (Fin n) (Fin p) ℝ) (y : Fin n → Bool) :
    ¬ Stationary (hsPosterior (bernRegLik (fun ψ => sigmoid (-ψ)) X y)) (bernCoefStep la X y) :=
  fun hst => coef_never (bernForm X y).some ⟨0, hp⟩
    (hst.congr_ae (coefStep_ae (bernForm X y).some hla))

example : ¬ Stationary (hsPosterior (bernRegLik (fun ψ => sigmoid (-ψ)) !![1, 2; 3, 4] ![true, false]))
    (bernCoefStep stdLinAlg !![1, 2; 3, 4] ![true, false]) :=
  C60_bern_coef_step_violated stdLinAlg_sound two_pos _ _

/-- **C60 (partial).** With at least one coefficient, the step for the shrinkage parameters leaves the
joint posterior of both regressions invariant if and only if `exponential` reads its argument as a rate.
The full property asks for this with the library's reading, for the step of the coefficients and for the
whole call; these are refuted below and above. -/
theorem C60_shrink_step_iff_partial (conv : Horseshoe.ExpArg) (hp : 0 < p) (X : Matrix (Fin n) (Fin p) ℝ)
    {h : Fin n → ℝ} (hh : ∀ i, 0 < h i) (y : Fin n → ℕ) (z : Fin n → Bool) :
    (Stationary (hsPosterior (nbRegLik X h y)) (shrinkStep conv) ↔ conv = .rate) ∧
    (Stationary (hsPosterior (bernRegLik (fun ψ => sigmoid (-ψ)) X z)) (shrinkStep conv) ↔
      conv = .rate) := by
  cases conv
  · exact ⟨iff_of_true ((shrink_rate (nbForm X hh y).some).congr_ae
        (shrinkStep_ae (nbForm X hh y).some.measurable .rate).symm) rfl,
      iff_of_true ((shrink_rate (bernForm X z).some).congr_ae
        (shrinkStep_ae (bernForm X z).some.measurable .rate).symm) rfl⟩
  · exact ⟨iff_of_false (fun hst => shrink_scale_never (nbForm X hh y).some hp
        (hst.congr_ae (shrinkStep_ae (nbForm X hh y).some.measurable .scale))) (by simp),
      iff_of_false (fun hst => shrink_scale_never (bernForm X z).some hp
        (hst.congr_ae (shrinkStep_ae (bernForm X z).some.measurable .scale))) (by simp)⟩

/-- **C60 is violated** by the step for the shrinkage parameters with the library's reading of
`exponential`, for every data set and every positive number of coefficients. -/
theorem C60_shrink_step_scale_violated (hp : 0 < p) (X : Matrix (Fin n) (Fin p) ℝ) {h : Fin n → ℝ}
    (hh : ∀ i, 0 < h i) (y : Fin n → ℕ) (z : Fin n → Bool) :
    ¬ Stationary (hsPosterior (nbRegLik X h y)) (shrinkStep .scale) ∧
    ¬ Stationary (hsPosterior (bernRegLik (fun ψ => sigmoid (-ψ)) X z)) (shrinkStep .scale) :=
  ⟨fun hst => absurd ((C60_shrink_step_iff_partial .scale hp X hh y z).1.1 hst) (by simp),
    fun hst => absurd ((C60_shrink_step_iff_partial .scale hp X hh y z).2.1 hst) (by simp)⟩

example : ¬ Stationary (hsPosterior (nbRegLik !![1, 2; 3, 4] (fun _ => 2) ![3, 0])) (shrinkStep .scale) :=
  (C60_shrink_step_scale_violated two_pos _ (fun _ => two_pos) _ ![true, false]).1

/-- **C60 is violated** by one call of the sampler, for both regressions, every data set, at least one
coefficient and both readings of the argument of `exponential`: even the reading that makes the update
of the shrinkage parameters right does not help.  Nor does it matter which of the old and the new shrinkage
parameters the step of the coefficients reads. -/
theorem C60_sweep_violated (conv : Horseshoe.ExpArg) (rd : Reads) {la : LinAlg} (hla : la.Sound)
    (hp : 0 < p) (X : Matrix (Fin n) (Fin p) ℝ) {h : Fin n → ℝ} (hh : ∀ i, 0 < h i) (y : Fin n → ℕ)
    (z : Fin n → Bool) :
    ¬ Stationary (hsPosterior (nbRegLik X h y)) (nbSweep conv rd la X h y) ∧
    ¬ Stationary (hsPosterior (bernRegLik (fun ψ => sigmoid (-ψ)) X z)) (bernSweep conv rd la X z) := by
  have key : ∀ {b κ : Fin n → ℝ} {lik : (Fin p → ℝ) → ℝ≥0∞}, PGForm X b κ lik →
      ¬ Stationary (hsPosterior lik) (fun q => (Horseshoe.horseshoeStep conv q.1 q.2).bind fun s =>
        (pgStep la (fun j => ((rd.read q.2 s).1 j * (rd.read q.2 s).2)⁻¹) X b κ q.1).map
          fun β => (β, s)) := by
    intro b κ lik F hst
    exact readK_never conv rd F ⟨0, hp⟩ (hst.congr_ae (K' := readK conv rd (coefK X b κ))
      ((ae_hsPosterior_pos lik F.measurable).mono fun q hq => readK_ae F hla conv rd hq)).2
  exact ⟨key (nbForm X hh y).some, key (bernForm X z).some⟩

/-- In the library's reading no other step of the coefficients would repair the call: whatever law `K` the
new coefficients are drawn from, given everything old and the new shrinkage parameters, the call does not
keep the joint posterior.  (`K` with the exact conditional is one case.) -/
theorem C60_scale_any_coef_step_violated (hp : 0 < p) (X : Matrix (Fin n) (Fin p) ℝ) {h : Fin n → ℝ}
    (hh : ∀ i, 0 < h i) (y : Fin n → ℕ) (z : Fin n → Bool)
    {K : ((Fin p → ℝ) × ((Fin p → ℝ) × ℝ)) × ((Fin p → ℝ) × ℝ) → Measure (Fin p → ℝ)}
    (hK : Measurable K) (hK1 : ∀ t, IsProbabilityMeasure (K t)) :
    ¬ Stationary (hsPosterior (nbRegLik X h y)) (fun q => (Horseshoe.horseshoeStep .scale q.1 q.2).bind
      fun s => (K (q, s)).map fun β => (β, s)) ∧
    ¬ Stationary (hsPosterior (bernRegLik (fun ψ => sigmoid (-ψ)) X z))
      (fun q => (Horseshoe.horseshoeStep .scale q.1 q.2).bind
        fun s => (K (q, s)).map fun β => (β, s)) := by
  have key : ∀ {b κ : Fin n → ℝ} {lik : (Fin p → ℝ) → ℝ≥0∞}, PGForm X b κ lik →
      ¬ Stationary (hsPosterior lik) (fun q => (Horseshoe.horseshoeStep .scale q.1 q.2).bind
        fun s => (K (q, s)).map fun β => (β, s)) := by
    intro b κ lik F hst
    refine F.boxLik.scale_any_never ⟨0, hp⟩ hK hK1 (hst.congr_ae ?_)
    filter_upwards [ae_hsPosterior_pos lik F.measurable] with q hq
    rw [shrinkK_eq .scale q.1 hq]
  exact ⟨key (nbForm X hh y).some, key (bernForm X z).some⟩

/-- The hypotheses are met. -/
example : ¬ Stationary (hsPosterior (nbRegLik !![1, 2; 3, 4] (fun _ => 2) ![3, 0]))
    (nbCoefStep stdLinAlg !![1, 2; 3, 4] (fun _ => 2) ![3, 0]) :=
  C60_nbinom_coef_step_violated stdLinAlg_sound two_pos _ (fun _ => two_pos) _

example : Stationary (hsPosterior (nbRegLik !![1, 2; 3, 4] (fun _ => 2) ![3, 0])) (shrinkStep .rate) :=
  (C60_shrink_step_iff_partial .rate two_pos _ (fun _ => two_pos) _ ![true, false]).1.2 rfl

example : ¬ Stationary (hsPosterior (bernRegLik (fun ψ => sigmoid (-ψ)) !![1, 2; 3, 4] ![true, false]))
    (bernSweep .scale ⟨false, false⟩ stdLinAlg !![1, 2; 3, 4] ![true, false]) :=
  (C60_sweep_violated .scale _ stdLinAlg_sound two_pos _ (h := fun _ => 1) (fun _ => one_pos) 0 _).2

/-- A step of the coefficients the last theorem speaks about: fresh standard normal coefficients. -/
example : ¬ Stationary (hsPosterior (nbRegLik !![1, 2; 3, 4] (fun _ => 2) ![3, 0]))
    (fun q => (Horseshoe.horseshoeStep .scale q.1 q.2).bind
      fun s => (normalPrior (p := 2) fun _ => 1).map fun β => (β, s)) :=
  (C60_scale_any_coef_step_violated two_pos _ (fun _ => two_pos) _ ![true, false]
    (K := fun _ => normalPrior fun _ => 1) measurable_const fun _ => prob_normalPrior _).1

end Verif.HsReg
