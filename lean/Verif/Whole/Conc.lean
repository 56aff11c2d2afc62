import Verif.HsDisp.Lemmas

/-!
# Coefficients under a prior that shrinks to zero

As the prior standard deviations tend to zero, the law of the new coefficients of a regression step
concentrates at zero.
-/

open MeasureTheory ProbabilityTheory Matrix Filter
open scoped ENNReal Topology

namespace Verif.Whole

variable {p n : ℕ}

/-- The coefficient vectors whose entry `j` is at least `e` in absolute value. -/
def far (e : ℝ) (j : Fin p) : Set (Fin p → ℝ) := {β | e ≤ |β j|}

theorem measurableSet_far (e : ℝ) (j : Fin p) : MeasurableSet (far e j) :=
  measurableSet_le measurable_const (continuous_abs.measurable.comp (measurable_pi_apply j))

/-- Chebyshev's inequality for the prior. -/
theorem mvn_far_le {d : Fin p → ℝ} (hd : ∀ j, 0 < d j) {e : ℝ} (he : 0 < e) (j : Fin p) :
    mvn 0 (diagonal d)⁻¹ (far e j) ≤ ENNReal.ofReal ((d j)⁻¹ / e ^ 2) := by
  have h1 : mvn 0 (diagonal d)⁻¹ = normalPrior fun j => √((d j)⁻¹) := by
    rw [normalPrior_sqrt fun j => inv_pos.2 (hd j)]
    simp only [inv_inv]
  have hmp := measurePreserving_eval (fun j => gaussianReal 0 ((√((d j)⁻¹)) ^ 2).toNNReal) j
  have h2 : far e j = Function.eval j ⁻¹' {x : ℝ | e ≤ |x|} := rfl
  have hS : MeasurableSet {x : ℝ | e ≤ |x|} := measurableSet_le measurable_const measurable_norm
  rw [h1, normalPrior, h2, hmp.measure_preimage hS.nullMeasurableSet]
  have h3 := meas_ge_le_variance_div_sq (μ := gaussianReal 0 ((√((d j)⁻¹)) ^ 2).toNNReal) (X := id)
    (memLp_id_gaussianReal 2) he
  have e1 : √((d j)⁻¹) ^ 2 = (d j)⁻¹ := Real.sq_sqrt (inv_pos.2 (hd j)).le
  simp only [id_eq] at h3
  rw [integral_id_gaussianReal, variance_id_gaussianReal, Real.coe_toNNReal _ (sq_nonneg _), e1] at h3
  rw [e1]
  simpa using h3

theorem mvn_far_tendsto {d : ℕ → Fin p → ℝ} (hd : ∀ k j, 0 < d k j)
    (hlim : ∀ j, Tendsto (fun k => d k j) atTop atTop) {e : ℝ} (he : 0 < e) (j : Fin p) :
    Tendsto (fun k => mvn 0 (diagonal (d k))⁻¹ (far e j)) atTop (𝓝 0) := by
  have h1 : Tendsto (fun k => ENNReal.ofReal ((d k j)⁻¹ / e ^ 2)) atTop (𝓝 0) := by
    have h := ((tendsto_inv_atTop_zero.comp (hlim j)).div_const (e ^ 2))
    have := ENNReal.tendsto_ofReal h
    simpa using this
  exact tendsto_of_tendsto_of_tendsto_of_le_of_le tendsto_const_nhds h1 (fun _ => zero_le)
    fun k => mvn_far_le (hd k) he j

/-- The posterior concentrates where the prior does, if the likelihood is bounded, and bounded below near
that place. -/
theorem bayes_far_tendsto {μ : ℕ → Measure (Fin p → ℝ)} [∀ k, IsProbabilityMeasure (μ k)]
    (hμ : ∀ e, 0 < e → ∀ j, Tendsto (fun k => μ k (far e j)) atTop (𝓝 0)) {g : (Fin p → ℝ) → ℝ≥0∞}
    (hg : Measurable g) {G c : ℝ≥0∞} (hG : G ≠ ∞) (hGle : ∀ β, g β ≤ G) {r : ℝ} (hr : 0 < r) (hc : c ≠ 0)
    (hcle : ∀ β : Fin p → ℝ, (∀ j, |β j| < r) → c ≤ g β) {e : ℝ} (he : 0 < e) (j : Fin p) :
    Tendsto (fun k => bayes (μ k) g (far e j)) atTop (𝓝 0) := by
  have hsum : Tendsto (fun k => ∑ i, μ k (far r i)) atTop (𝓝 0) := by
    have := tendsto_finsetSum Finset.univ fun i _ => hμ r hr i
    simpa using this
  have hhalf : ∀ᶠ k in atTop, ∑ i, μ k (far r i) ≤ 1 / 2 :=
    (hsum.eventually (gt_mem_nhds (by norm_num : (0 : ℝ≥0∞) < 1 / 2))).mono fun _ h => h.le
  have hT : Tendsto (fun k => (c * (1 / 2))⁻¹ * (G * μ k (far e j))) atTop (𝓝 0) := by
    have h1 := ENNReal.Tendsto.const_mul (hμ e he j) (Or.inr hG)
    have h2 := ENNReal.Tendsto.const_mul h1 (a := (c * (1 / 2))⁻¹)
      (Or.inr (ENNReal.inv_ne_top.2 (mul_ne_zero hc (by norm_num))))
    simpa using h2
  refine tendsto_of_tendsto_of_tendsto_of_le_of_le' tendsto_const_nhds hT
    (Eventually.of_forall fun _ => zero_le) ?_
  filter_upwards [hhalf] with k hk
  have hS := measurableSet_far e j
  rw [bayes, Measure.smul_apply, withDensity_apply _ hS, smul_eq_mul]
  refine mul_le_mul' (ENNReal.inv_le_inv.2 ?_) ?_
  · -- the box has probability at least one half
    let B : Set (Fin p → ℝ) := {β | ∀ i, |β i| < r}
    have hB : MeasurableSet B := by
      have : B = ⋂ i, (far r i)ᶜ := by
        ext β
        simp [B, far]
      rw [this]
      exact MeasurableSet.iInter fun i => (measurableSet_far r i).compl
    have hBc : Bᶜ ⊆ ⋃ i, far r i := by
      intro β hβ
      simp only [B, Set.mem_compl_iff, Set.mem_ofPred_eq, not_forall, not_lt] at hβ
      exact Set.mem_iUnion.2 hβ
    have h1 : μ k Bᶜ ≤ 1 / 2 := (measure_mono hBc).trans ((measure_iUnion_fintype_le _ _).trans hk)
    have h2 : (1 : ℝ≥0∞) / 2 ≤ μ k B := by
      rw [prob_compl_eq_one_sub hB] at h1
      have h4 : (1 : ℝ≥0∞) ≤ 1 / 2 + μ k B := tsub_le_iff_right.1 h1
      have h5 : (1 : ℝ≥0∞) / 2 + 1 / 2 ≤ 1 / 2 + μ k B := by
        rwa [ENNReal.add_halves]
      exact (ENNReal.add_le_add_iff_left (by norm_num)).1 h5
    calc c * (1 / 2) ≤ c * μ k B := mul_le_mul' le_rfl h2
      _ = ∫⁻ _ in B, c ∂μ k := by rw [setLIntegral_const]
      _ ≤ ∫⁻ β in B, g β ∂μ k := setLIntegral_mono hg fun β hβ => hcle β hβ
      _ ≤ _ := setLIntegral_le_lintegral _ _
  · calc ∫⁻ β in far e j, g β ∂μ k ≤ ∫⁻ _ in far e j, G ∂μ k := lintegral_mono fun β => hGle β
      _ = G * μ k (far e j) := by rw [setLIntegral_const]

/-- Bounds of the weight of the coefficients given positive Polya-Gamma variables. -/
theorem pgJoint_bounds (X : Matrix (Fin n) (Fin p) ℝ) (κ : Fin n → ℝ) {w : Fin n → ℝ} (hw : ∀ i, 0 < w i) :
    (∃ G : ℝ≥0∞, G ≠ ∞ ∧ ∀ β, pgJoint X κ β w ≤ G) ∧
      ∃ r : ℝ, 0 < r ∧ ∃ c : ℝ≥0∞, c ≠ 0 ∧
        ∀ β : Fin p → ℝ, (∀ j, |β j| < r) → c ≤ pgJoint X κ β w := by
  constructor
  · refine ⟨ENNReal.ofReal (∏ i, Real.exp (κ i ^ 2 / (2 * w i))), ENNReal.ofReal_ne_top, fun β => ?_⟩
    rw [pgJoint]
    refine ENNReal.ofReal_le_ofReal (Finset.prod_le_prod (fun i _ => by positivity) fun i _ => ?_)
    rw [← Real.exp_add, Real.exp_le_exp]
    have hi := hw i
    have h := sq_nonneg (κ i - (X *ᵥ β) i * w i)
    rw [le_div_iff₀ (by positivity)]
    nlinarith
  · let f : (Fin p → ℝ) → ℝ := fun β =>
      ∏ i, (Real.exp (κ i * (X *ᵥ β) i) * Real.exp (-((X *ᵥ β) i ^ 2 / 2 * w i)))
    have hf : Continuous f := by
      unfold f mulVec dotProduct
      fun_prop
    have h0 : 0 < f 0 := Finset.prod_pos fun i _ => by positivity
    have hev : ∀ᶠ β in 𝓝 (0 : Fin p → ℝ), f 0 / 2 < f β :=
      hf.continuousAt.eventually (lt_mem_nhds (half_lt_self h0))
    obtain ⟨r, hr, hball⟩ := Metric.eventually_nhds_iff.1 hev
    refine ⟨r, hr, ENNReal.ofReal (f 0 / 2), by simpa using h0, fun β hβ => ?_⟩
    have hd : dist β 0 < r := by
      rw [dist_pi_lt_iff hr]
      intro j
      simpa using hβ j
    exact ENNReal.ofReal_le_ofReal (hball hd).le

/-- New coefficients of a regression step with prior precisions `d`. -/
noncomputable def mixK (X : Matrix (Fin n) (Fin p) ℝ) (b κ c : Fin n → ℝ) (d : Fin p → ℝ) :
    Measure (Fin p → ℝ) :=
  (Measure.pi fun i => pg (posOr1 (b i)) (c i)).bind fun w =>
    bayes (mvn 0 (diagonal d)⁻¹) fun β => pgJoint X κ β w

theorem mixK_far_tendsto (X : Matrix (Fin n) (Fin p) ℝ) (b κ : Fin n → ℝ) (β₀ : Fin p → ℝ)
    {d : ℕ → Fin p → ℝ} (hd : ∀ k j, 0 < d k j) (hlim : ∀ j, Tendsto (fun k => d k j) atTop atTop)
    {e : ℝ} (he : 0 < e) (j : Fin p) :
    Tendsto (fun k => mixK X b κ (X *ᵥ β₀) (d k) (far e j)) atTop (𝓝 0) := by
  have : ∀ i, IsProbabilityMeasure (pg (posOr1 (b i)) ((X *ᵥ β₀) i)) :=
    fun i => isProbabilityMeasure_pg (posOr1_pos _) _
  have hS := measurableSet_far e j
  have hm : ∀ k, Measurable fun w => bayes (mvn 0 (diagonal (d k))⁻¹) fun β => pgJoint X κ β w :=
    fun k => measurable_bayes_pgJoint (d k) X κ
  have e1 : ∀ k, mixK X b κ (X *ᵥ β₀) (d k) (far e j) = ∫⁻ w,
      bayes (mvn 0 (diagonal (d k))⁻¹) (fun β => pgJoint X κ β w) (far e j)
        ∂Measure.pi fun i => pg (posOr1 (b i)) ((X *ᵥ β₀) i) := fun k =>
    Measure.bind_apply hS (hm k).aemeasurable
  simp only [e1]
  have key := tendsto_lintegral_of_dominated_convergence
    (μ := Measure.pi fun i => pg (posOr1 (b i)) ((X *ᵥ β₀) i))
    (F := fun k w => bayes (mvn 0 (diagonal (d k))⁻¹) (fun β => pgJoint X κ β w) (far e j))
    (f := fun _ => 0) (fun _ => 1) (fun k => (Measure.measurable_coe hS).comp (hm k))
    (fun k => ae_of_all _ fun w => (measure_mono (Set.subset_univ _)).trans (bayes_le_one _ _))
    (by simp) (by
      filter_upwards [NbReg.ae_pi_pg_pos (fun i => posOr1_pos (b i)) X β₀] with w hw
      obtain ⟨⟨G, hG, hGle⟩, r, hr, c, hc, hcle⟩ := pgJoint_bounds X κ hw
      exact bayes_far_tendsto (fun e he j => mvn_far_tendsto hd hlim he j)
        (measurable_pgJoint_right X κ w) hG hGle hr hc hcle he j)
  simpa using key

/-- The law of the new coefficients has the null sets of Lebesgue measure. -/
theorem mixK_null (X : Matrix (Fin n) (Fin p) ℝ) (b κ : Fin n → ℝ) (β₀ : Fin p → ℝ) {d : Fin p → ℝ}
    (hd : ∀ j, 0 < d j) {T : Set (Fin p → ℝ)} (hT : MeasurableSet T) :
    mixK X b κ (X *ᵥ β₀) d T = 0 ↔ volume T = 0 := by
  have : ∀ i, IsProbabilityMeasure (pg (posOr1 (b i)) ((X *ᵥ β₀) i)) :=
    fun i => isProbabilityMeasure_pg (posOr1_pos _) _
  have hm := measurable_bayes_pgJoint d X κ
  have key : ∀ w : Fin n → ℝ, (∀ i, 0 < w i) →
      (bayes (mvn 0 (diagonal d)⁻¹) (fun β => pgJoint X κ β w) T = 0 ↔ volume T = 0) := by
    intro w hw
    have hdef := (normalRegression_eq_bayes stdLinAlg_sound hd X κ hw).1
    have hmv := mvn_absolutelyContinuous 0 (PosDef.diagonal hd)
    refine ⟨fun h => hmv.2 ?_, fun h => (bayes_absolutelyContinuous _ _) (hmv.1 h)⟩
    refine ((withDensity_absolutelyContinuous' (measurable_pgJoint_right X _ w).aemeasurable
      (ae_of_all _ fun β => ?_)).trans
      (Measure.absolutelyContinuous_smul (ENNReal.inv_ne_zero.2 hdef.2))) h
    rw [pgJoint, Ne, ENNReal.ofReal_eq_zero, not_le]
    exact Finset.prod_pos fun i _ => mul_pos (Real.exp_pos _) (Real.exp_pos _)
  have hpos := NbReg.ae_pi_pg_pos (fun i => posOr1_pos (b i)) X β₀
  rw [mixK, Measure.bind_apply hT hm.aemeasurable]
  rw [lintegral_eq_zero_iff (f := fun w => bayes (mvn 0 (diagonal d)⁻¹)
    (fun β => pgJoint X κ β w) T) ((Measure.measurable_coe hT).comp hm)]
  constructor
  · intro h
    obtain ⟨w, hw, hw0⟩ := (hpos.and h).exists
    exact (key w hw).1 hw0
  · intro h
    filter_upwards [hpos] with w hw using (key w hw).2 h

theorem coefK_eq_mixK (X : Matrix (Fin n) (Fin p) ℝ) (b κ : Fin n → ℝ) (β : Fin p → ℝ)
    (s : (Fin p → ℝ) × ℝ) : HsReg.coefK X b κ (β, s) = mixK X b κ (X *ᵥ β) (HsReg.precOf s) := by
  rw [HsReg.coefK, mixK]
  congr 1
  funext w
  rw [HsReg.bayes_mvn_eq (d := HsReg.precOf s) (fun _ => posOr1_pos _)
    (HsReg.measurable_pgJoint_left X κ w)]
  rfl

theorem coefP_eq_mixK (X : Matrix (Fin n) (Fin p) ℝ) (y : Fin n → ℕ) (d β : Fin p → ℝ) (h : ℝ) :
    HsDisp.coefP X y (d, (β, h)) = mixK X (fun i => (y i : ℝ) + posOr1 h)
      (fun i => 0.5 * ((y i : ℝ) - posOr1 h)) (X *ᵥ β) fun j => posOr1 (d j) := rfl

/-- Precisions tend to infinity as standard deviations tend to zero. -/
theorem prec_tendsto {f : ℕ → ℝ} (hf : ∀ k, 0 < f k) (h : Tendsto f atTop (𝓝 0)) :
    Tendsto (fun k => posOr1 (f k)⁻¹) atTop atTop := by
  have e : (fun k => posOr1 (f k)⁻¹) = fun k => (f k)⁻¹ :=
    funext fun k => posOr1_of_pos (inv_pos.2 (hf k))
  rw [e]
  exact tendsto_inv_nhdsGT_zero.comp (tendsto_nhdsWithin_iff.2 ⟨h, Eventually.of_forall hf⟩)

end Verif.Whole
