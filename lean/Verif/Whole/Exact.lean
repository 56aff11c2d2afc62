import Verif.Prob.Parallel
import Verif.Whole.Conc
import Verif.Whole.HsReg

/-!
# Exact conditional draws in the graph of a regression with a horseshoe prior
-/

open MeasureTheory ProbabilityTheory Matrix Filter Topology
open scoped ENNReal

namespace Verif.Whole

variable {p n : ℕ}

/-- A step that draws from `π` whatever the state keeps `π`. -/
theorem stationary_const {Θ : Type*} [MeasurableSpace Θ] {π : Measure Θ} (h : IsProbabilityMeasure π) :
    Stationary π fun _ => π :=
  ⟨aemeasurable_const, by rw [Measure.bind_const, measure_univ, one_smul]⟩

/-- Chebyshev's inequality for the prior of the coefficients. -/
theorem normalPrior_far_le {σ : Fin p → ℝ} (hσ : ∀ j, 0 < σ j) {e : ℝ} (he : 0 < e) (j : Fin p) :
    normalPrior σ (far e j) ≤ ENNReal.ofReal (σ j ^ 2 / e ^ 2) := by
  have h1 := mvn_far_le (d := fun j => (σ j ^ 2)⁻¹) (fun j => inv_pos.2 (pow_pos (hσ j) 2)) he j
  have h2 : mvn 0 (diagonal fun j => (σ j ^ 2)⁻¹)⁻¹ = normalPrior σ := by
    have := normalPrior_sqrt (std := fun j => σ j ^ 2) fun j => pow_pos (hσ j) 2
    rw [← this]
    congr 1
    funext j
    exact Real.sqrt_sq (hσ j).le
  rw [h2, inv_inv] at h1
  exact h1

/-- A likelihood of the Polya-Gamma form is bounded below near the origin. -/
theorem lik_ge {X : Matrix (Fin n) (Fin p) ℝ} {b κ : Fin n → ℝ} {lik : (Fin p → ℝ) → ℝ≥0∞}
    (F : HsReg.PGForm X b κ lik) : ∃ r : ℝ, 0 < r ∧ ∃ c : ℝ≥0∞, c ≠ 0 ∧
      ∀ β : Fin p → ℝ, (∀ j, |β j| < r) → c ≤ lik β := by
  have hcont : Continuous fun β => F.c * (Real.exp (F.tilt ⬝ᵥ β) * pgLik X b κ β) := by
    have := continuous_pgLik X b κ
    have h2 : Continuous fun β => F.tilt ⬝ᵥ β := by
      unfold dotProduct
      fun_prop
    fun_prop
  have h0 : 0 < F.c * (Real.exp (F.tilt ⬝ᵥ 0) * pgLik X b κ 0) :=
    mul_pos F.hc (mul_pos (Real.exp_pos _) (pgLik_pos X b κ 0))
  have hopen := isOpen_lt (continuous_const (y := F.c * (Real.exp (F.tilt ⬝ᵥ 0) * pgLik X b κ 0) / 2)) hcont
  obtain ⟨r, hr, hball⟩ := Metric.isOpen_iff.1 hopen 0 (half_lt_self h0)
  refine ⟨r, hr, ENNReal.ofReal (F.c * (Real.exp (F.tilt ⬝ᵥ 0) * pgLik X b κ 0) / 2), ?_, fun β hβ => ?_⟩
  · simpa using h0
  · have hmem : β ∈ Metric.ball (0 : Fin p → ℝ) r := by
      rw [mem_ball_zero_iff, pi_norm_lt_iff hr]
      exact hβ
    rw [F.hlik]
    exact ENNReal.ofReal_le_ofReal (hball hmem).le

/-- The conditional law of the coefficients concentrates at zero as the standard deviations do. -/
theorem cond_far_tendsto {X : Matrix (Fin n) (Fin p) ℝ} {b κ : Fin n → ℝ} {lik : (Fin p → ℝ) → ℝ≥0∞}
    (F : HsReg.PGForm X b κ lik) {σ : ℕ → Fin p → ℝ} (hσ : ∀ k j, 0 < σ k j)
    (hlim : ∀ j, Tendsto (fun k => σ k j) atTop (𝓝 0)) {e : ℝ} (he : 0 < e) (j : Fin p) :
    Tendsto (fun k => bayes (normalPrior (σ k)) lik (far e j)) atTop (𝓝 0) := by
  obtain ⟨r, hr, c, hc, hle⟩ := lik_ge F
  have : ∀ k, IsProbabilityMeasure (normalPrior (σ k)) := fun k => by
    unfold normalPrior
    infer_instance
  refine bayes_far_tendsto (fun e he j => ?_) F.measurable F.hC F.hle hr hc hle he j
  have h1 : Tendsto (fun k => ENNReal.ofReal (σ k j ^ 2 / e ^ 2)) atTop (𝓝 0) := by
    have := ENNReal.tendsto_ofReal (((hlim j).pow 2).div_const (e ^ 2))
    simpa using this
  exact tendsto_of_tendsto_of_tendsto_of_le_of_le tendsto_const_nhds h1 (fun _ => zero_le)
    fun k => normalPrior_far_le (hσ k) he j

theorem halfCauchy_Ioo {e : ℝ} (he : 0 < e) : Horseshoe.halfCauchy (Set.Ioo 0 e) ≠ 0 := by
  have h : volume.restrict (Set.Ioi 0) ≪ Horseshoe.halfCauchy := by
    refine withDensity_absolutelyContinuous' (by fun_prop) (ae_of_all _ fun x => ?_)
    have : 0 < 2 / (Real.pi * (1 + x ^ 2)) := by positivity
    simpa using this
  intro h0
  have h1 := h h0
  rw [Measure.restrict_apply measurableSet_Ioo, Set.inter_eq_left.2 Set.Ioo_subset_Ioi_self,
    Real.volume_Ioo] at h1
  simp at h1
  linarith

/-- The prior standard deviations are small with positive probability. -/
theorem prior_small {e : ℝ} (he : 0 < e) : ∃ᵐ s ∂Horseshoe.prior p, ∀ j, s.1 j * s.2 < e := by
  have h1 : Horseshoe.prior p ((Set.univ.pi fun _ : Fin p => Set.Ioo (0 : ℝ) 1) ×ˢ Set.Ioo 0 e) ≠ 0 := by
    rw [Horseshoe.prior, Measure.prod_prod, Measure.pi_pi]
    exact mul_ne_zero (Finset.prod_ne_zero_iff.2 fun _ _ => halfCauchy_Ioo one_pos) (halfCauchy_Ioo he)
  refine (frequently_ae_mem_iff.2 h1).mono fun s hs j => ?_
  have h2 : s.1 j ∈ Set.Ioo (0 : ℝ) 1 := hs.1 j trivial
  have h3 : s.2 ∈ Set.Ioo 0 e := hs.2
  nlinarith [h2.1, h2.2, h3.1, h3.2]

section
variable {X : Matrix (Fin n) (Fin p) ℝ} {b κ : Fin n → ℝ} {lik : (Fin p → ℝ) → ℝ≥0∞}

/-- The conditional law of the coefficients. -/
theorem cond_coef (F : HsReg.PGForm X b κ lik) {s : (Fin p → ℝ) × ℝ} (hs : Horseshoe.AllPos s) :
    (bayes volume fun β => HsReg.dens (β, s) * lik β) = bayes (normalPrior fun j => s.1 j * s.2) lik := by
  rw [HsReg.normalPrior_eq_dens hs, bayes_withDensity_left (f := fun β => HsReg.dens (β, s))
    (HsReg.measurable_dens.comp measurable_prodMk_right) F.measurable]

/-- The conditional law of the shrinkage parameters. -/
theorem cond_shrink (F : HsReg.PGForm X b κ lik) (β : Fin p → ℝ) :
    (bayes (Horseshoe.prior p) fun s => HsReg.dens (β, s) * lik β) = Horseshoe.posterior β 1 := by
  simp only [mul_comm _ (lik β)]
  exact bayes_const_mul _ (Horseshoe.measurable_lik β 1) (F.ne_zero β)
    (ne_top_of_le_ne_top F.hC (F.hle β))

/-- Drawing the coefficients from their conditional law keeps the posterior. -/
theorem exact_coef_keeps (F : HsReg.PGForm X b κ lik) {kA : (Fin p → ℝ) × ℝ → Measure (Fin p → ℝ)}
    (hA : Measurable kA) (pA : ∀ s, IsProbabilityMeasure (kA s))
    (h : ∀ s, Horseshoe.AllPos s → kA s = bayes (normalPrior fun j => s.1 j * s.2) lik) :
    Stationary (HsReg.hsPosterior lik) (onFirst fun q => kA q.2) := by
  rw [HsReg.hsPosterior_eq F.measurable, stationary_onFirst_iff F.measurable_joint F.jointDefined
    (K := fun q => kA q.2) (hA.comp measurable_snd) fun q => pA q.2]
  filter_upwards [Horseshoe.ae_prior_pos p] with s hs
  change Stationary (bayes volume fun β => HsReg.dens (β, s) * lik β) fun _ => kA s
  rw [cond_coef F hs, ← h s hs]
  exact stationary_const (pA s)

/-- Drawing the shrinkage parameters from their conditional law keeps the posterior. -/
theorem exact_shrink_keeps (F : HsReg.PGForm X b κ lik) {kB : (Fin p → ℝ) → Measure ((Fin p → ℝ) × ℝ)}
    (hB : Measurable kB) (pB : ∀ β, IsProbabilityMeasure (kB β))
    (h : ∀ β : Fin p → ℝ, (∀ j, β j ≠ 0) → kB β = Horseshoe.posterior β 1) :
    Stationary (HsReg.hsPosterior lik) (onSecond fun q => kB q.1) := by
  rw [HsReg.hsPosterior_eq F.measurable, stationary_onSecond_iff F.measurable_joint F.jointDefined
    (K := fun q => kB q.1) (hB.comp measurable_fst) fun q => pB q.1]
  filter_upwards [HsReg.ae_ne_zero (p := p)] with β hβ
  change Stationary (bayes (Horseshoe.prior p) fun s => HsReg.dens (β, s) * lik β) fun _ => kB β
  rw [cond_shrink F, ← h β hβ]
  exact stationary_const (pB β)

theorem dens_ne_zero (β : Fin p → ℝ) {s : (Fin p → ℝ) × ℝ} (hs : Horseshoe.AllPos s) :
    HsReg.dens (β, s) ≠ 0 := by
  have : 0 < ∏ j, gaussianPDFReal 0 (s.1 j ^ 2 * s.2 ^ 2 * 1).toNNReal (β j) :=
    Finset.prod_pos fun j _ => gaussianPDFReal_pos _ _ _ (by
      have h1 := hs.1 j
      have h2 := hs.2
      simp only [ne_eq, Real.toNNReal_eq_zero, not_le]
      positivity)
  simpa [HsReg.dens, Horseshoe.lik] using this

/-- Drawing both from the old values does not. -/
theorem exact_parallel_fails (F : HsReg.PGForm X b κ lik) (j : Fin p)
    {kA : (Fin p → ℝ) × ℝ → Measure (Fin p → ℝ)} {kB : (Fin p → ℝ) → Measure ((Fin p → ℝ) × ℝ)}
    (hA : Measurable kA) (hB : Measurable kB) (pA : ∀ s, IsProbabilityMeasure (kA s))
    (pB : ∀ β, IsProbabilityMeasure (kB β))
    (h1 : ∀ s, Horseshoe.AllPos s → kA s = bayes (normalPrior fun j => s.1 j * s.2) lik)
    (h2 : ∀ β : Fin p → ℝ, (∀ j, β j ≠ 0) → kB β = Horseshoe.posterior β 1) :
    ¬ Stationary (HsReg.hsPosterior lik) (parallel kA kB) := by
  intro h
  have hprob : IsProbabilityMeasure (HsReg.hsPosterior lik) := by
    rw [HsReg.hsPosterior_eq F.measurable]
    exact isProbabilityMeasure_bayes F.jointDefined
  have hc := parallel_const hA hB pA pB (exact_coef_keeps F hA pA h1) (exact_shrink_keeps F hB pB h2) h
    (measurableSet_far 1 j)
  -- almost everywhere for the reference measure
  have hac : (volume : Measure (Fin p → ℝ)).prod (Horseshoe.prior p) ≪ HsReg.hsPosterior lik := by
    rw [HsReg.hsPosterior_eq F.measurable, bayes]
    refine (withDensity_absolutelyContinuous' F.measurable_joint.aemeasurable ?_).smul_right ?_
    · filter_upwards [HsReg.ae_dens_pos (p := p)] with q hq
      exact mul_ne_zero (dens_ne_zero q.1 hq) (F.ne_zero q.1)
    · exact ENNReal.inv_ne_zero.2 F.jointDefined.2
  obtain ⟨β, hβ⟩ := (Measure.ae_ae_of_ae_prod (hac.ae_le hc)).exists
  -- the conditional probability of a set does not depend on the shrinkage parameters
  have hex : ∀ k : ℕ, ∃ s : (Fin p → ℝ) × ℝ, (∀ i, s.1 i * s.2 < 1 / ((k : ℝ) + 1)) ∧
      (kA s (far 1 j) = ∫⁻ s', kA s' (far 1 j) ∂kB β) ∧ Horseshoe.AllPos s := fun k =>
    ((prior_small (by positivity)).and_eventually (hβ.and (Horseshoe.ae_prior_pos p))).exists
  choose s hsm hse hsp using hex
  have hpos : ∀ k i, 0 < (s k).1 i * (s k).2 := fun k i => mul_pos ((hsp k).1 i) (hsp k).2
  have hlim : ∀ i, Tendsto (fun k => (s k).1 i * (s k).2) atTop (𝓝 0) := fun i =>
    tendsto_of_tendsto_of_tendsto_of_le_of_le tendsto_const_nhds tendsto_one_div_add_atTop_nhds_zero_nat
      (fun k => (hpos k i).le) fun k => (hsm k i).le
  have ht := cond_far_tendsto F hpos hlim one_pos j
  simp only [← h1 _ (hsp _), hse] at ht
  have hz := tendsto_nhds_unique tendsto_const_nhds ht
  -- but it is positive
  have h0 := (hse 0).trans hz
  rw [h1 _ (hsp 0), ← cond_coef F (hsp 0)] at h0
  have hacv : (volume : Measure (Fin p → ℝ)) ≪ bayes volume fun β => HsReg.dens (β, s 0) * lik β := by
    have hd : BayesDefined volume fun β => HsReg.dens (β, s 0) * lik β := by
      have : IsProbabilityMeasure (normalPrior fun j => (s 0).1 j * (s 0).2) := by
        unfold normalPrior
        infer_instance
      have := F.defined (normalPrior fun j => (s 0).1 j * (s 0).2)
      rwa [BayesDefined, ← HsReg.bayesDefined_slice F.measurable (hsp 0)] at this
    rw [bayes]
    refine (withDensity_absolutelyContinuous' ?_ ?_).smul_right ?_
    · exact ((HsReg.measurable_dens.comp measurable_prodMk_right).mul F.measurable).aemeasurable
    · exact ae_of_all _ fun β => mul_ne_zero (dens_ne_zero β (hsp 0)) (F.ne_zero β)
    · exact ENNReal.inv_ne_zero.2 hd.2
  have hv := hacv h0
  have hopen : IsOpen {β : Fin p → ℝ | 1 < β j} := isOpen_lt continuous_const (continuous_apply j)
  refine (hopen.measure_pos volume ⟨fun _ => 2, one_lt_two (α := ℝ)⟩).ne' (measure_mono_null (fun β hβ => ?_) hv)
  have h3 : 1 < β j := hβ
  exact h3.le.trans (le_abs_self _)

end
end Verif.Whole
