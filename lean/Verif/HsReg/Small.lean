import Verif.HsReg.ScaleSweep
import Verif.PG.Mean

/-!
# Small coefficients under a horseshoe posterior

The negative moments of a coefficient grow like the third power of those of a half-Cauchy variable's
singularity.
-/

open MeasureTheory ProbabilityTheory Matrix
open scoped ENNReal

namespace Verif.HsReg

variable {p n : ℕ} {lik : (Fin p → ℝ) → ℝ≥0∞}

theorem BoxLik.measurable_joint (F : BoxLik lik) :
    Measurable fun q : (Fin p → ℝ) × ((Fin p → ℝ) × ℝ) => dens q * lik q.1 :=
  measurable_dens.mul (F.measurable.comp measurable_fst)

theorem BoxLik.prob (F : BoxLik lik) : IsProbabilityMeasure (hsPosterior lik) := by
  rw [hsPosterior_eq F.measurable]
  exact isProbabilityMeasure_bayes F.jointDefined

theorem BoxLik.shrink_rate (F : BoxLik lik) :
    Stationary (hsPosterior lik) (onSecond (shrinkK .rate)) := by
  rw [hsPosterior_eq F.measurable, stationary_onSecond_iff F.measurable_joint F.jointDefined
    (measurable_shrinkK _) (prob_shrinkK _)]
  refine ae_of_all _ fun β => ?_
  have e1 : (bayes (Horseshoe.prior p) fun s => dens (β, s) * lik β) = Horseshoe.posterior β 1 := by
    simp only [mul_comm _ (lik β)]
    exact bayes_const_mul _ (Horseshoe.measurable_lik β 1) (F.ne_zero β)
      (ne_top_of_le_ne_top F.hC (F.hle β))
  rw [e1]
  have e2 : Horseshoe.horseshoeStep .rate β =ᵐ[Horseshoe.posterior β 1]
      fun s => shrinkK .rate (β, s) := by
    filter_upwards [Horseshoe.ae_posterior_pos β 1] with s hs using shrinkK_eq _ β hs
  exact (Horseshoe.stationary_rate β one_pos).congr_ae e2

/-- A centred normal with standard deviation at most one, on the unit interval. -/
theorem negPow_gauss_Icc_ge (s : ℝ) {σ : ℝ} (h0 : 0 ≤ σ) (h1 : σ ≤ 1) :
    negPow s σ * ∫⁻ x in Set.Icc (-1) 1, negPow s x ∂gaussianReal 0 1 ≤
      ∫⁻ x in Set.Icc (-1) 1, negPow s x ∂gaussianReal 0 (σ ^ 2).toNNReal := by
  have e : gaussianReal 0 (σ ^ 2).toNNReal = (gaussianReal 0 1).map (σ * ·) := by
    rw [gaussianReal_map_const_mul, mul_zero, mul_one]
    congr 1
    ext
    simp [sq_nonneg]
  rw [e, setLIntegral_map measurableSet_Icc (measurable_negPow s) (by fun_prop)]
  simp only [negPow_mul]
  rw [lintegral_const_mul _ (measurable_negPow s)]
  refine mul_le_mul' le_rfl (lintegral_mono_set fun x hx => ?_)
  have h2 := hx.1
  have h3 := hx.2
  constructor <;> simp only <;> nlinarith

theorem negPow_gauss_unit : ∃ k : ℝ≥0∞, k ≠ 0 ∧ k ≠ ∞ ∧ ∀ s : ℝ, s < 1 / 2 →
    k * ENNReal.ofReal (1 - 2 * s)⁻¹ ≤ ∫⁻ x in Set.Icc (-1) 1, negPow s x ∂gaussianReal 0 1 := by
  refine ⟨ENNReal.ofReal (gaussianPDFReal 0 1 1), ?_, ENNReal.ofReal_ne_top, fun s hs => ?_⟩
  · simpa using gaussianPDFReal_pos 0 1 1 one_ne_zero
  have hmp : Measurable fun x : ℝ => gaussianPDF 0 1 x := measurable_gaussianPDF 0 1
  rw [← lintegral_negPow hs, ← lintegral_const_mul _ (measurable_negPow s),
    gaussianReal_of_var_ne_zero 0 one_ne_zero, restrict_withDensity measurableSet_Icc,
    lintegral_withDensity_eq_lintegral_mul _ hmp (measurable_negPow s)]
  refine le_trans ?_ (lintegral_mono_set (s := Set.Ioc 0 1) fun x hx => ⟨by linarith [hx.1], hx.2⟩)
  refine setLIntegral_mono_ae (hmp.mul (measurable_negPow s)).aemeasurable (ae_of_all _ fun x hx => ?_)
  rw [Pi.mul_apply, gaussianPDF]
  refine mul_le_mul' (ENNReal.ofReal_le_ofReal ?_) le_rfl
  unfold gaussianPDFReal
  refine mul_le_mul_of_nonneg_left (Real.exp_le_exp.2 ?_) (by positivity)
  simp only [sub_zero, NNReal.coe_one]
  nlinarith [hx.1, hx.2]

/-- The unit box. -/
theorem negPow_normalPrior_ge (s : ℝ) (j : Fin p) {q : (Fin p → ℝ) × ℝ} (hq : Horseshoe.AllPos q)
    (h1 : ∀ j, q.1 j ≤ 1) (h2 : q.2 ≤ 1) :
    gaussianReal 0 1 (Set.Icc (-1) 1) ^ p * (negPow s (q.1 j) * negPow s q.2 *
        ∫⁻ x in Set.Icc (-1) 1, negPow s x ∂gaussianReal 0 1) ≤
      ∫⁻ β in unitBox p, negPow s (β j) ∂(normalPrior fun j => q.1 j * q.2) := by
  let μ : Fin p → Measure ℝ := fun i =>
    (gaussianReal 0 ((q.1 i * q.2) ^ 2).toNNReal).restrict (Set.Icc (-1) 1)
  have e3 : (Measure.pi μ).map (fun x : Fin p → ℝ => x j) =
      (∏ i ∈ Finset.univ.erase j, μ i Set.univ) • μ j := Measure.pi_map_eval (μ := μ) j
  have e : ∫⁻ β in unitBox p, negPow s (β j) ∂(normalPrior fun j => q.1 j * q.2) =
      (∏ i ∈ Finset.univ.erase j, μ i Set.univ) * ∫⁻ x, negPow s x ∂μ j := by
    rw [normalPrior, unitBox, Measure.restrict_pi_pi,
      ← lintegral_map (f := negPow s) (g := fun x : Fin p → ℝ => x j) (measurable_negPow s) (by fun_prop)]
    refine Eq.trans (congrArg (fun m => ∫⁻ x, negPow s x ∂m) e3) ?_
    rw [lintegral_smul_measure, smul_eq_mul]
  have hσ : ∀ i, 0 ≤ q.1 i * q.2 ∧ q.1 i * q.2 ≤ 1 := fun i =>
    ⟨(mul_pos (hq.1 i) hq.2).le, mul_le_one₀ (h1 i) hq.2.le h2⟩
  rw [e]
  refine mul_le_mul' ?_ ?_
  · calc gaussianReal 0 1 (Set.Icc (-1) 1) ^ p
        ≤ gaussianReal 0 1 (Set.Icc (-1) 1) ^ (Finset.univ.erase j).card :=
          pow_le_pow_right_of_le_one' prob_le_one (by simp)
      _ = ∏ _i ∈ Finset.univ.erase j, gaussianReal 0 1 (Set.Icc (-1) 1) := by rw [Finset.prod_const]
      _ ≤ _ := Finset.prod_le_prod' fun i _ => by
          simp only [μ, Measure.restrict_apply MeasurableSet.univ, Set.univ_inter]
          exact gauss_Icc_ge (hσ i).1 (hσ i).2
  · rw [← negPow_mul]
    exact negPow_gauss_Icc_ge s (hσ j).1 (hσ j).2

/-- Lower bound on the negative moments of a coefficient. -/
theorem BoxLik.coef_ge (F : BoxLik lik) (j : Fin p) : ∃ c : ℝ≥0∞, c ≠ 0 ∧ c ≠ ∞ ∧
    ∀ s : ℝ, s < 1 / 2 → c * (Horseshoe.hcPow1 s * Horseshoe.hcPow1 s * ENNReal.ofReal (1 - 2 * s)⁻¹) ≤
      ∫⁻ q, negPow s (q.1 j) ∂hsPosterior lik := by
  obtain ⟨k, hk0, hkT, hk⟩ := negPow_gauss_unit
  have hg : gaussianReal 0 1 (Set.Icc (-1) 1) ≠ 0 := fun h => by
    have h1 := gaussianReal_absolutelyContinuous' (0 : ℝ) (one_ne_zero (α := NNReal)) h
    rw [Real.volume_Icc] at h1
    norm_num at h1
  have hI : Horseshoe.halfCauchy (Set.Ioc 0 1) ≠ 0 := fun h => by
    have h1 := Horseshoe.hcPow1_ge (s := 1 / 4) (by norm_num) (by norm_num)
    rw [Horseshoe.hcPow1, Measure.restrict_zero_set h, lintegral_zero_measure] at h1
    have h2 : 0 < Real.pi⁻¹ * (1 - 2 * (1 / 4 : ℝ))⁻¹ := by
      have := Real.pi_pos
      norm_num
      positivity
    simp only [nonpos_iff_eq_zero, ENNReal.ofReal_eq_zero] at h1
    linarith
  let Z : ℝ≥0∞ := ∫⁻ q, dens q * lik q.1 ∂volume.prod (Horseshoe.prior p)
  have hZ0 : Z ≠ 0 := F.jointDefined.1
  have hZT : Z ≠ ∞ := F.jointDefined.2
  let g : ℝ≥0∞ := F.l * gaussianReal 0 1 (Set.Icc (-1) 1) ^ p * k
  let h : ℝ≥0∞ := ∏ _i ∈ Finset.univ.erase j, Horseshoe.halfCauchy (Set.Ioc 0 1)
  have hg0 : g ≠ 0 := mul_ne_zero (mul_ne_zero F.hl (pow_ne_zero _ hg)) hk0
  have hgT : g ≠ ∞ := ENNReal.mul_ne_top (ENNReal.mul_ne_top F.l_ne_top
    (ENNReal.pow_ne_top (measure_ne_top _ _))) hkT
  have hh0 : h ≠ 0 := Finset.prod_ne_zero_iff.2 fun _ _ => hI
  have hhT : h ≠ ∞ := ENNReal.prod_ne_top fun _ _ => measure_ne_top _ _
  refine ⟨Z⁻¹ * (g * h), mul_ne_zero (ENNReal.inv_ne_zero.2 hZT) (mul_ne_zero hg0 hh0),
    ENNReal.mul_ne_top (ENNReal.inv_ne_top.2 hZ0) (ENNReal.mul_ne_top hgT hhT), fun s hs => ?_⟩
  have hmj : Measurable fun q : (Fin p → ℝ) × ((Fin p → ℝ) × ℝ) => negPow s (q.1 j) :=
    (measurable_negPow s).comp (by fun_prop)
  have hmj' : Measurable fun β : Fin p → ℝ => negPow s (β j) :=
    (measurable_negPow s).comp (by fun_prop)
  have hm2 : Measurable fun q : (Fin p → ℝ) × ((Fin p → ℝ) × ℝ) => dens q * lik q.1 * negPow s (q.1 j) :=
    F.measurable_joint.mul hmj
  rw [hsPosterior_eq F.measurable, lintegral_bayes F.measurable_joint hmj, lintegral_prod_symm' _ hm2,
    mul_assoc]
  refine mul_le_mul' le_rfl ?_
  let S : Set ((Fin p → ℝ) × ℝ) := (Set.univ.pi fun _ => Set.Ioc 0 1) ×ˢ Set.Ioc 0 1
  have hS : MeasurableSet S :=
    (MeasurableSet.univ_pi fun _ => measurableSet_Ioc).prod measurableSet_Ioc
  have hmq : Measurable fun q : (Fin p → ℝ) × ℝ => negPow s (q.1 j) * negPow s q.2 :=
    ((measurable_negPow s).comp (by fun_prop)).mul ((measurable_negPow s).comp measurable_snd)
  have e : ∫⁻ q in S, negPow s (q.1 j) * negPow s q.2 ∂Horseshoe.prior p =
      h * (Horseshoe.hcPow1 s * Horseshoe.hcPow1 s) := by
    rw [Horseshoe.prior, ← Measure.prod_restrict, Measure.restrict_pi_pi]
    have e1 := lintegral_prod_mul (μ := Measure.pi fun _ : Fin p =>
        Horseshoe.halfCauchy.restrict (Set.Ioc 0 1))
      (ν := Horseshoe.halfCauchy.restrict (Set.Ioc 0 1)) (f := fun x => negPow s (x j)) (g := negPow s)
      hmj'.aemeasurable (measurable_negPow s).aemeasurable
    have e2 : (Measure.pi fun _ : Fin p => Horseshoe.halfCauchy.restrict (Set.Ioc 0 1)).map
        (fun x : Fin p → ℝ => x j) = h • Horseshoe.halfCauchy.restrict (Set.Ioc 0 1) := by
      refine Eq.trans (Measure.pi_map_eval (μ := fun _ : Fin p =>
        Horseshoe.halfCauchy.restrict (Set.Ioc 0 1)) j) ?_
      simp [h]
    rw [e1, ← lintegral_map (f := negPow s) (g := fun x : Fin p → ℝ => x j) (measurable_negPow s)
      (by fun_prop), e2, lintegral_smul_measure, smul_eq_mul]
    simp only [Horseshoe.hcPow1, negPow]
    ring
  calc g * h * (Horseshoe.hcPow1 s * Horseshoe.hcPow1 s * ENNReal.ofReal (1 - 2 * s)⁻¹)
      = ∫⁻ q in S, negPow s (q.1 j) * negPow s q.2 * (g * ENNReal.ofReal (1 - 2 * s)⁻¹)
        ∂Horseshoe.prior p := by
        rw [lintegral_mul_const _ hmq, e]
        ring
    _ ≤ ∫⁻ q in S, (∫⁻ β : Fin p → ℝ, dens (β, q) * lik β * negPow s (β j))
        ∂Horseshoe.prior p := by
        refine lintegral_mono_ae ?_
        filter_upwards [ae_restrict_mem hS] with q hq
        have hp : Horseshoe.AllPos q := ⟨fun j => (hq.1 j trivial).1, hq.2.1⟩
        have e4 : ∫⁻ β, dens (β, q) * lik β * negPow s (β j) =
            ∫⁻ β, lik β * negPow s (β j) ∂(normalPrior fun j => q.1 j * q.2) := by
          rw [normalPrior_eq_dens hp, lintegral_withDensity_eq_lintegral_mul _
            (f := fun β => dens (β, q)) (measurable_dens.comp measurable_prodMk_right)
            (g := fun β => lik β * negPow s (β j)) (F.measurable.mul hmj')]
          exact lintegral_congr fun β => by rw [Pi.mul_apply, mul_assoc]
        rw [e4]
        calc negPow s (q.1 j) * negPow s q.2 * (g * ENNReal.ofReal (1 - 2 * s)⁻¹)
            = F.l * (gaussianReal 0 1 (Set.Icc (-1) 1) ^ p * (negPow s (q.1 j) * negPow s q.2 *
              (k * ENNReal.ofReal (1 - 2 * s)⁻¹))) := by
              simp only [g]
              ring
          _ ≤ F.l * (gaussianReal 0 1 (Set.Icc (-1) 1) ^ p * (negPow s (q.1 j) * negPow s q.2 *
              ∫⁻ x in Set.Icc (-1) 1, negPow s x ∂gaussianReal 0 1)) := by
              gcongr
              exact hk s hs
          _ ≤ F.l * ∫⁻ β in unitBox p, negPow s (β j) ∂(normalPrior fun j => q.1 j * q.2) :=
              mul_le_mul' le_rfl (negPow_normalPrior_ge s j hp (fun j => (hq.1 j trivial).2) hq.2.2)
          _ = ∫⁻ β in unitBox p, F.l * negPow s (β j) ∂(normalPrior fun j => q.1 j * q.2) :=
              (lintegral_const_mul _ hmj').symm
          _ ≤ ∫⁻ β in unitBox p, lik β * negPow s (β j) ∂(normalPrior fun j => q.1 j * q.2) :=
              setLIntegral_mono_ae (F.measurable.mul hmj').aemeasurable
                (ae_of_all _ fun β hβ => mul_le_mul' (F.hbox β hβ) le_rfl)
          _ ≤ _ := setLIntegral_le_lintegral _ _
    _ ≤ _ := setLIntegral_le_lintegral _ _

/-- A quantity that grows without bound does not satisfy a quadratic inequality. -/
theorem no_quadratic {c A B : ℝ≥0∞} (hc0 : c ≠ 0) (hcT : c ≠ ∞) (hA : A ≠ ∞) (hB : B ≠ ∞) :
    ¬ ∀ s : ℝ, 0 < s → s < 1 / 2 →
      c * (Horseshoe.hcPow1 s * Horseshoe.hcPow1 s) ≤ A * Horseshoe.hcPow1 s + B := by
  intro h
  have hc : 0 < c.toReal := ENNReal.toReal_pos hc0 hcT
  have hpi := Real.pi_pos
  have hA0 : 0 ≤ A.toReal := ENNReal.toReal_nonneg
  have hB0 : 0 ≤ B.toReal := ENNReal.toReal_nonneg
  let R : ℝ := 1 + (A.toReal + B.toReal) / c.toReal
  have hR : 1 ≤ R := le_add_of_nonneg_right (by positivity)
  obtain ⟨s, hs0, hs1, hsR⟩ : ∃ s : ℝ, 0 < s ∧ s < 1 / 2 ∧ R ≤ Real.pi⁻¹ * (1 - 2 * s)⁻¹ := by
    have h2 : 0 < (2 * Real.pi * R)⁻¹ := by positivity
    have h3 : (2 * Real.pi * R)⁻¹ < 1 := by
      refine inv_lt_one_of_one_lt₀ ?_
      have := Real.two_le_pi
      nlinarith
    refine ⟨(1 - (2 * Real.pi * R)⁻¹) / 2, by linarith, by linarith, ?_⟩
    have e : 1 - 2 * ((1 - (2 * Real.pi * R)⁻¹) / 2) = (2 * Real.pi * R)⁻¹ := by ring
    rw [e, inv_inv]
    have : Real.pi⁻¹ * (2 * Real.pi * R) = 2 * R := by field_simp
    rw [this]
    linarith
  have hH := Horseshoe.hcPow1_ge hs0 hs1
  have hHT : Horseshoe.hcPow1 s ≠ ∞ :=
    ne_top_of_le_ne_top (Horseshoe.hcPow_lt_top hs0 hs1).ne (setLIntegral_le_lintegral _ _)
  have hq := h s hs0 hs1
  generalize Horseshoe.hcPow1 s = H at hH hHT hq
  have hHR : R ≤ H.toReal := by
    have h1 := (ENNReal.ofReal_le_ofReal hsR).trans hH
    have h2 := ENNReal.toReal_mono hHT h1
    rwa [ENNReal.toReal_ofReal (by linarith)] at h2
  have hq' := ENNReal.toReal_mono (ENNReal.add_ne_top.2 ⟨ENNReal.mul_ne_top hA hHT, hB⟩) hq
  rw [ENNReal.toReal_mul, ENNReal.toReal_mul, ENNReal.toReal_add (ENNReal.mul_ne_top hA hHT) hB,
    ENNReal.toReal_mul] at hq'
  have hcR : c.toReal * R = c.toReal + (A.toReal + B.toReal) := by
    simp only [R]
    field_simp
  have h5 : c.toReal * R * H.toReal ≤ c.toReal * (H.toReal * H.toReal) := by
    have : 0 ≤ c.toReal * H.toReal := by positivity
    nlinarith
  rw [hcR] at h5
  nlinarith

end Verif.HsReg
