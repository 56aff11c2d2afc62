import Verif.Shared.Lemmas
import Verif.Horseshoe.Drift

/-!
# Scale reading: the joint posterior of two groups is not kept

The mean of a power of a local precision of the second group is finite under the joint posterior, and the
kernel of that group multiplies it by more than one.
-/

open MeasureTheory ProbabilityTheory Real
open scoped ENNReal

namespace Verif.Shared

open HsReg

variable {p₁ p₂ : ℕ}

theorem gaussianPDFReal_le_pow {v b : ℝ} (hv : 0 < v) (hb : b ≠ 0) :
    gaussianPDFReal 0 v.toNNReal b ≤ √((√(2 * π))⁻¹ * |b|⁻¹ * (√(2 * π))⁻¹) * v⁻¹ ^ (1 / 4 : ℝ) := by
  have hpi := pi_pos
  have hb' := abs_pos.2 hb
  have h0 := gaussianPDFReal_nonneg 0 v.toNNReal b
  have h1 := Horseshoe.gaussianPDFReal_le hv hb
  have h2 : gaussianPDFReal 0 v.toNNReal b ≤ (√(2 * π))⁻¹ * √v⁻¹ := by
    rw [gaussianPDFReal, coe_toNNReal _ hv.le, sqrt_mul (by positivity), mul_inv, sqrt_inv]
    refine mul_le_of_le_one_right (by positivity) ?_
    rw [exp_le_one_iff, neg_div]
    exact neg_nonpos.2 (by positivity)
  have h3 : √(√v⁻¹) = v⁻¹ ^ (1 / 4 : ℝ) := by
    rw [sqrt_eq_rpow, sqrt_eq_rpow, ← rpow_mul (by positivity)]
    norm_num
  rw [← h3, ← sqrt_mul (by positivity)]
  refine le_sqrt_of_sq_le ?_
  calc gaussianPDFReal 0 v.toNNReal b ^ 2
      = gaussianPDFReal 0 v.toNNReal b * gaussianPDFReal 0 v.toNNReal b := sq _
    _ ≤ ((√(2 * π))⁻¹ * |b|⁻¹) * ((√(2 * π))⁻¹ * √v⁻¹) := mul_le_mul h1 h2 h0 (by positivity)
    _ = _ := by ring

/-- The density of the first group falls at least like `τ^(-1/2)`. -/
theorem groupLik_le_pow (hp : 0 < p₁) {β₁ : Fin p₁ → ℝ} (hβ : ∀ j, β₁ j ≠ 0) :
    ∃ K : ℝ≥0∞, K ≠ ∞ ∧ ∀ t, 0 < t →
      groupLik β₁ t ≤ K * ENNReal.ofReal ((t ^ 2)⁻¹ ^ (1 / 4 : ℝ)) := by
  have hpi := pi_pos
  let j : Fin p₁ := ⟨0, hp⟩
  let A : ℝ := ∏ i ∈ Finset.univ.erase j, ((√(2 * π))⁻¹ * |β₁ i|⁻¹)
  let B : ℝ := √((√(2 * π))⁻¹ * |β₁ j|⁻¹ * (√(2 * π))⁻¹)
  have hA : 0 ≤ A := Finset.prod_nonneg fun i _ => by positivity
  have hB : 0 ≤ B := sqrt_nonneg _
  refine ⟨ENNReal.ofReal (A * B) * Horseshoe.hcPow (1 / 4), ENNReal.mul_ne_top ENNReal.ofReal_ne_top
    (Horseshoe.hcPow_lt_top (by norm_num) (by norm_num)).ne, fun t ht => ?_⟩
  have hm : Measurable fun x : ℝ => ENNReal.ofReal ((x ^ 2)⁻¹ ^ (1 / 4 : ℝ)) := by fun_prop
  have hb : ∀ᵐ l ∂(Measure.pi fun _ : Fin p₁ => Horseshoe.halfCauchy), Horseshoe.lik β₁ 1 (l, t) ≤
      ENNReal.ofReal (A * B) * ENNReal.ofReal ((t ^ 2)⁻¹ ^ (1 / 4 : ℝ)) *
        ENNReal.ofReal ((l j ^ 2)⁻¹ ^ (1 / 4 : ℝ)) := by
    filter_upwards [ae_pi_halfCauchy p₁] with l hl
    have hv : ∀ i, 0 < l i ^ 2 * t ^ 2 * 1 := fun i => by
      have := hl i
      positivity
    rw [← ENNReal.ofReal_mul (by positivity), ← ENNReal.ofReal_mul (by positivity), Horseshoe.lik]
    refine ENNReal.ofReal_le_ofReal ?_
    rw [← Finset.prod_erase_mul _ _ (Finset.mem_univ j)]
    have h1 : ∏ i ∈ Finset.univ.erase j, gaussianPDFReal 0 (l i ^ 2 * t ^ 2 * 1).toNNReal (β₁ i) ≤ A :=
      Finset.prod_le_prod (fun i _ => gaussianPDFReal_nonneg _ _ _)
        fun i _ => Horseshoe.gaussianPDFReal_le (hv i) (hβ i)
    have h2 := gaussianPDFReal_le_pow (hv j) (hβ j)
    have h3 : (l j ^ 2 * t ^ 2 * 1)⁻¹ ^ (1 / 4 : ℝ) =
        (t ^ 2)⁻¹ ^ (1 / 4 : ℝ) * (l j ^ 2)⁻¹ ^ (1 / 4 : ℝ) := by
      rw [← mul_rpow (by positivity) (by positivity), mul_one, mul_inv, mul_comm]
    rw [h3] at h2
    calc _ ≤ A * (B * ((t ^ 2)⁻¹ ^ (1 / 4 : ℝ) * (l j ^ 2)⁻¹ ^ (1 / 4 : ℝ))) :=
          mul_le_mul h1 h2 (gaussianPDFReal_nonneg _ _ _) hA
      _ = _ := by ring
  refine (lintegral_mono_ae hb).trans (le_of_eq ?_)
  rw [lintegral_const_mul' _ _ (by finiteness), Horseshoe.lintegral_pi_coord (fun _ => inferInstance) j hm]
  rw [Horseshoe.hcPow]
  ring

theorem groupDefined {β₁ : Fin p₁ → ℝ} {β₂ : Fin p₂ → ℝ} (h₁ : ∀ j, β₁ j ≠ 0) (h₂ : ∀ j, β₂ j ≠ 0) :
    BayesDefined (Horseshoe.posterior β₂ 1) fun s => groupLik β₁ s.2 := by
  have i2 : IsProbabilityMeasure (Horseshoe.posterior β₂ 1) :=
    isProbabilityMeasure_bayes (Horseshoe.bayesDefined_posterior h₂ one_pos)
  have hmg : Measurable fun s : (Fin p₂ → ℝ) × ℝ => groupLik β₁ s.2 :=
    (measurable_groupLik β₁).comp measurable_snd
  have hpos := Horseshoe.ae_posterior_pos β₂ 1
  constructor
  · intro h0
    rw [lintegral_eq_zero_iff hmg] at h0
    obtain ⟨s, hs, h0⟩ := (hpos.and h0).exists
    exact groupLik_ne_zero β₁ hs.2 h0
  · have hb : ∫⁻ s, groupLik β₁ s.2 ∂Horseshoe.posterior β₂ 1 ≤
        ∫⁻ _, likBound β₁ ∂Horseshoe.posterior β₂ 1 := by
      refine lintegral_mono_ae ?_
      filter_upwards [hpos] with s hs using groupLik_le h₁ hs.2
    refine ne_top_of_le_ne_top ?_ hb
    simp [likBound]

/-- The mean of a power above one of a local precision of the second group is finite. -/
theorem posterior_moment (hp : 0 < p₁) {β₁ : Fin p₁ → ℝ} {β₂ : Fin p₂ → ℝ} (h₁ : ∀ j, β₁ j ≠ 0)
    (h₂ : ∀ j, β₂ j ≠ 0) (j : Fin p₂) :
    ∫⁻ s, ENNReal.ofReal ((Horseshoe.toPrec s).1 j ^ (9 / 8 : ℝ)) ∂(posterior β₁ β₂).map Prod.snd ≠ ∞ := by
  have hmg : Measurable fun s : (Fin p₂ → ℝ) × ℝ => groupLik β₁ s.2 :=
    (measurable_groupLik β₁).comp measurable_snd
  have hmx : Measurable fun r : (Fin p₂ → ℝ) × ℝ => ENNReal.ofReal (r.1 j ^ (9 / 8 : ℝ)) := by fun_prop
  have hmy : Measurable fun r : (Fin p₂ → ℝ) × ℝ => ENNReal.ofReal
      ((∏ i, r.1 i ^ (if i = j then 9 / 8 else 0 : ℝ)) * r.2 ^ (1 / 4 : ℝ)) := by fun_prop
  obtain ⟨K, hK, hb⟩ := groupLik_le_pow hp h₁
  rw [posterior_map_snd h₂, lintegral_bayes (g := fun s : (Fin p₂ → ℝ) × ℝ =>
    ENNReal.ofReal ((Horseshoe.toPrec s).1 j ^ (9 / 8 : ℝ))) hmg (hmx.comp Horseshoe.measurable_toPrec)]
  refine ENNReal.mul_ne_top (ENNReal.inv_ne_top.2 (groupDefined h₁ h₂).1) ?_
  have hle : ∫⁻ s, groupLik β₁ s.2 * ENNReal.ofReal ((Horseshoe.toPrec s).1 j ^ (9 / 8 : ℝ))
        ∂Horseshoe.posterior β₂ 1 ≤
      ∫⁻ s, K * ENNReal.ofReal ((∏ i, (Horseshoe.toPrec s).1 i ^ (if i = j then 9 / 8 else 0 : ℝ)) *
        (Horseshoe.toPrec s).2 ^ (1 / 4 : ℝ)) ∂Horseshoe.posterior β₂ 1 := by
    refine lintegral_mono_ae ?_
    filter_upwards [Horseshoe.ae_posterior_pos β₂ 1] with s hs
    have h3 : 0 ≤ (Horseshoe.toPrec s).2 ^ (1 / 4 : ℝ) := rpow_nonneg (inv_nonneg.2 (sq_nonneg _)) _
    rw [Finset.prod_eq_single j (fun i _ hi => by rw [if_neg hi, rpow_zero])
      (fun h => absurd (Finset.mem_univ j) h), if_pos rfl, mul_comm ((Horseshoe.toPrec s).1 j ^ _),
      ENNReal.ofReal_mul h3, ← mul_assoc]
    exact mul_le_mul' (hb s.2 hs.2) le_rfl
  refine ne_top_of_le_ne_top ?_ hle
  rw [lintegral_const_mul' _ _ hK, Horseshoe.posterior_pow β₂ one_pos hmy]
  refine ENNReal.mul_ne_top hK (ENNReal.mul_ne_top (Horseshoe.inv_mass_ne_top h₂ one_pos) (ne_of_lt ?_))
  have hsum : ∑ i : Fin p₂, (if i = j then 19 / 16 else 1 / 2 : ℝ) = 19 / 16 + ((p₂ : ℝ) - 1) / 2 := by
    have hp2 : 1 ≤ p₂ := j.pos
    rw [← Finset.add_sum_erase _ _ (Finset.mem_univ j), if_pos rfl,
      Finset.sum_congr rfl fun i hi => if_neg (Finset.ne_of_mem_erase hi), Finset.sum_const,
      Finset.card_erase_of_mem (Finset.mem_univ j), Finset.card_univ, Fintype.card_fin, nsmul_eq_mul,
      Nat.cast_sub hp2, Nat.cast_one]
    ring
  refine Horseshoe.moments_lt_top (fun i => ?_) _ (fun i => if i = j then 19 / 16 else 1 / 2) (1 / 4)
    (fun i => ?_) (fun i => ?_) (fun i => ?_) (fun i => ?_) ?_ ?_
  · have := h₂ i
    positivity
  · split_ifs <;> norm_num
  · split_ifs <;> norm_num
  · split_ifs <;> norm_num
  · split_ifs <;> norm_num
  · rw [hsum]
    linarith
  · rw [hsum]
    linarith

/-- Scale reading, both groups nonempty: the joint posterior is not kept. -/
theorem scale_never (ord : Order) (hp₁ : 0 < p₁) (hp₂ : 0 < p₂) {β₁ : Fin p₁ → ℝ} {β₂ : Fin p₂ → ℝ}
    (h₁ : ∀ j, β₁ j ≠ 0) (h₂ : ∀ j, β₂ j ≠ 0) :
    ¬ Stationary (posterior β₁ β₂) (sharedStep .scale ord β₁ β₂) := by
  intro hst
  let j : Fin p₂ := ⟨0, hp₂⟩
  have i1 : IsProbabilityMeasure (posterior β₁ β₂) := isProbabilityMeasure_bayes (bayesDefined_shared h₁ h₂)
  have i2 := Measure.isProbabilityMeasure_map (μ := posterior β₁ β₂) (f := Prod.snd)
    measurable_snd.aemeasurable
  have hpos : ∀ᵐ s ∂(posterior β₁ β₂).map Prod.snd, Horseshoe.AllPos s := by
    rw [ae_map_iff measurable_snd.aemeasurable Horseshoe.measurableSet_allPos]
    filter_upwards [ae_posterior_pos β₁ β₂] with q hq using hq.2
  have hk := marginal_kept (ae_posterior_pos β₁ β₂) hst
  have hfin := posterior_moment hp₁ h₁ h₂ j
  have hm : Measurable fun s : (Fin p₂ → ℝ) × ℝ =>
      ENNReal.ofReal ((Horseshoe.toPrec s).1 j ^ (9 / 8 : ℝ)) := by
    have : Measurable fun r : (Fin p₂ → ℝ) × ℝ => ENNReal.ofReal (r.1 j ^ (9 / 8 : ℝ)) := by fun_prop
    exact this.comp Horseshoe.measurable_toPrec
  have hne0 : ∫⁻ s, ENNReal.ofReal ((Horseshoe.toPrec s).1 j ^ (9 / 8 : ℝ))
      ∂(posterior β₁ β₂).map Prod.snd ≠ 0 := by
    intro h
    rw [lintegral_eq_zero_iff hm] at h
    obtain ⟨q, hq, hq0⟩ := (hpos.and h).exists
    have h0 : ENNReal.ofReal ((Horseshoe.toPrec q).1 j ^ (9 / 8 : ℝ)) = 0 := hq0
    rw [ENNReal.ofReal_eq_zero] at h0
    exact absurd h0 (not_le.2 (rpow_pos_of_pos (inv_pos.2 (pow_pos (hq.1 j) 2)) _))
  have hG : 1 < Gamma (1 + 9 / 8) := by
    have := Gamma_strictMonoOn_Ici (Set.mem_Ici.2 le_rfl)
      (Set.mem_Ici.2 (show (2 : ℝ) ≤ 1 + 9 / 8 by norm_num)) (by norm_num)
    rwa [Gamma_two] at this
  have hmK : Measurable fun s => shrinkK .scale (β₂, s) :=
    (measurable_shrinkK .scale).comp measurable_prodMk_left
  have hge : ENNReal.ofReal (Gamma (1 + 9 / 8) * Gamma (1 + 9 / 8)) *
      ∫⁻ s, ENNReal.ofReal ((Horseshoe.toPrec s).1 j ^ (9 / 8 : ℝ)) ∂(posterior β₁ β₂).map Prod.snd ≤
      ∫⁻ s, ENNReal.ofReal ((Horseshoe.toPrec s).1 j ^ (9 / 8 : ℝ)) ∂(posterior β₁ β₂).map Prod.snd := by
    conv_rhs => rw [← hk, Measure.lintegral_bind hmK.aemeasurable hm.aemeasurable]
    rw [← lintegral_const_mul' _ _ ENNReal.ofReal_ne_top]
    refine lintegral_mono_ae ?_
    filter_upwards [hpos] with s hs
    rw [← shrinkK_eq .scale β₂ hs]
    exact Horseshoe.scale_moment_ge p₂ β₂ one_pos hs j (by norm_num)
  have h1 : 1 < ENNReal.ofReal (Gamma (1 + 9 / 8) * Gamma (1 + 9 / 8)) := by
    rw [ENNReal.one_lt_ofReal]
    nlinarith
  have h2 := (ENNReal.mul_lt_mul_iff_right hne0 hfin).2 h1
  rw [mul_one, mul_comm] at h2
  exact absurd hge (not_le.2 h2)

end Verif.Shared
