import Verif.PG.Lemmas
import Verif.Prob.SmallBall
import Verif.Horseshoe.Tail

/-!
# Means of Pólya-Gamma variables, and negative moments of the new coefficients
-/

open MeasureTheory ProbabilityTheory Matrix
open scoped ENNReal

namespace Verif

variable {p n : ℕ}

/-- Weighting by something that moves the other way makes means smaller. -/
theorem lintegral_bayes_anti {Θ : Type*} [MeasurableSpace Θ] {μ : Measure Θ} [IsProbabilityMeasure μ]
    {f g : Θ → ℝ≥0∞} (hf : Measurable f) (hg : Measurable g) (hd : BayesDefined μ g)
    (h : ∀ x y, f x * g x + f y * g y ≤ f x * g y + f y * g x) :
    ∫⁻ x, f x ∂bayes μ g ≤ ∫⁻ x, f x ∂μ := by
  have hfg : Measurable fun x => f x * g x := hf.mul hg
  have e1 : ∫⁻ x, ∫⁻ y, (f x * g x + f y * g y) ∂μ ∂μ = 2 * ∫⁻ x, f x * g x ∂μ := by
    have : ∀ x, ∫⁻ y, (f x * g x + f y * g y) ∂μ = f x * g x + ∫⁻ y, f y * g y ∂μ := fun x => by
      rw [lintegral_add_left measurable_const]
      simp
    simp only [this]
    rw [lintegral_add_left hfg]
    simp [two_mul]
  have e2 : ∫⁻ x, ∫⁻ y, (f x * g y + f y * g x) ∂μ ∂μ = 2 * ((∫⁻ x, f x ∂μ) * ∫⁻ x, g x ∂μ) := by
    have : ∀ x, ∫⁻ y, (f x * g y + f y * g x) ∂μ = f x * ∫⁻ y, g y ∂μ + (∫⁻ y, f y ∂μ) * g x := fun x => by
      rw [lintegral_add_left (hg.const_mul _), lintegral_const_mul _ hg, lintegral_mul_const _ hf]
    simp only [this]
    rw [lintegral_add_left (hf.mul_const _), lintegral_mul_const _ hf, lintegral_const_mul _ hg, two_mul]
  have key : 2 * ∫⁻ x, f x * g x ∂μ ≤ 2 * ((∫⁻ x, f x ∂μ) * ∫⁻ x, g x ∂μ) := by
    rw [← e1, ← e2]
    exact lintegral_mono fun x => lintegral_mono fun y => h x y
  rw [ENNReal.mul_le_mul_iff_right two_ne_zero ENNReal.ofNat_ne_top] at key
  rw [lintegral_bayes hg hf]
  simp only [mul_comm (g _)]
  rw [← ENNReal.mul_le_mul_iff_right hd.1 hd.2, ← mul_assoc, ENNReal.mul_inv_cancel hd.1 hd.2, one_mul,
    mul_comm]
  exact key

/-- The constant in the mean of a Pólya-Gamma variable. -/
noncomputable def pgMean : ℝ := ∑' k, pgCoef k

theorem pgMean_nonneg : 0 ≤ pgMean := tsum_nonneg fun k => (pgCoef_pos k).le

theorem lintegral_pg0 {b : ℝ} (hb : 0 < b) :
    ∫⁻ w, ENNReal.ofReal w ∂pg0 b = ENNReal.ofReal (pgMean * b) := by
  have hmeas : ∀ k, Measurable fun x : ℕ → ℝ => ENNReal.ofReal (pgCoef k * x k) := fun k =>
    ((measurable_pi_apply k).const_mul _).ennreal_ofReal
  have hmean : ∫⁻ x, ENNReal.ofReal x ∂gammaMeasure b 1 = ENNReal.ofReal b := by
    have h := Horseshoe.lintegral_rpow_gamma (s := 1) hb one_pos one_pos
    simp only [Real.rpow_one] at h
    rw [h, Real.Gamma_add_one hb.ne', Real.one_rpow, mul_one,
      mul_div_cancel_right₀ _ (Real.Gamma_pos_of_pos hb).ne']
  have hk : ∀ k, ∫⁻ x, ENNReal.ofReal (pgCoef k * x k) ∂gammaSeq b =
      ENNReal.ofReal (pgCoef k) * ENNReal.ofReal b := by
    intro k
    rw [lintegral_gammaSeq_eval hb k (f := fun y => ENNReal.ofReal (pgCoef k * y)) (by fun_prop),
      ← hmean, ← lintegral_const_mul _ (by fun_prop)]
    exact lintegral_congr fun x => ENNReal.ofReal_mul (pgCoef_pos k).le
  rw [pg0, lintegral_map (by fun_prop) measurable_pgSum]
  have e : ∫⁻ x, ENNReal.ofReal (∑' k, pgCoef k * x k) ∂gammaSeq b =
      ∫⁻ x, ∑' k, ENNReal.ofReal (pgCoef k * x k) ∂gammaSeq b := by
    refine lintegral_congr_ae ?_
    filter_upwards [ae_gammaSeq hb] with x hx
    exact ENNReal.ofReal_tsum_of_nonneg (fun k => mul_nonneg (pgCoef_pos k).le (hx.1 k).le) hx.2
  refine Eq.trans e ?_
  rw [lintegral_tsum fun k => (hmeas k).aemeasurable]
  simp only [hk]
  rw [ENNReal.tsum_mul_right, ENNReal.ofReal_mul pgMean_nonneg, pgMean,
    ENNReal.ofReal_tsum_of_nonneg (fun k => (pgCoef_pos k).le) summable_pgCoef]

/-- The tilt makes a Pólya-Gamma variable smaller on average. -/
theorem lintegral_pg_le {b : ℝ} (hb : 0 < b) (c : ℝ) :
    ∫⁻ w, ENNReal.ofReal w ∂pg b c ≤ ENNReal.ofReal (pgMean * b) := by
  have := isProbabilityMeasure_pg0 hb
  rw [← lintegral_pg0 hb, pg]
  refine lintegral_bayes_anti (by fun_prop) (by fun_prop) (bayesDefined_pg hb c) fun x y => ?_
  have hx := (Real.exp_pos (-(c ^ 2 / 2 * x))).le
  have hy := (Real.exp_pos (-(c ^ 2 / 2 * y))).le
  simp only [ENNReal.ofReal, ← ENNReal.coe_mul, ← ENNReal.coe_add, ENNReal.coe_le_coe]
  rw [← NNReal.coe_le_coe]
  push_cast
  simp only [Real.coe_toNNReal', max_eq_left hx, max_eq_left hy]
  have hc : 0 ≤ c ^ 2 / 2 := by positivity
  rcases le_total x y with h | h
  · have h1 : max x 0 ≤ max y 0 := max_le_max_right _ h
    have h2 : Real.exp (-(c ^ 2 / 2 * y)) ≤ Real.exp (-(c ^ 2 / 2 * x)) :=
      Real.exp_le_exp.2 (neg_le_neg (mul_le_mul_of_nonneg_left h hc))
    nlinarith [mul_nonneg (sub_nonneg.2 h1) (sub_nonneg.2 h2)]
  · have h1 : max y 0 ≤ max x 0 := max_le_max_right _ h
    have h2 : Real.exp (-(c ^ 2 / 2 * x)) ≤ Real.exp (-(c ^ 2 / 2 * y)) :=
      Real.exp_le_exp.2 (neg_le_neg (mul_le_mul_of_nonneg_left h hc))
    nlinarith [mul_nonneg (sub_nonneg.2 h1) (sub_nonneg.2 h2)]

/-- Negative moments of a coefficient given the Pólya-Gamma variables. -/
theorem lintegral_negPow_bayes {s : ℝ} (h0 : 0 < s) (h1 : s < 1 / 2) {d : Fin p → ℝ}
    (hd : ∀ j, 0 < d j) (X : Matrix (Fin n) (Fin p) ℝ) (κ : Fin n → ℝ) {w : Fin n → ℝ}
    (hw : ∀ i, 0 < w i) (j : Fin p) :
    ∫⁻ x, negPow s (x j) ∂bayes (mvn 0 (diagonal d)⁻¹) (fun β => pgJoint X κ β w) ≤
      ENNReal.ofReal (3 * (1 - 2 * s)⁻¹) * (ENNReal.ofReal (d j ^ s) + 1 +
        ∑ i, ENNReal.ofReal (X i j ^ 2) * ENNReal.ofReal (w i)) := by
  have hP : (Xᵀ * diagonal w * X).PosSemidef := by
    have := (PosSemidef.diagonal (fun i => (hw i).le)).conjTranspose_mul_mul_same X
    rwa [conjTranspose_eq_transpose_of_trivial] at this
  have hQ : (diagonal d + Xᵀ * diagonal w * X).PosDef := (PosDef.diagonal hd).add_posSemidef hP
  have hs : 0 ≤ (1 - 2 * s)⁻¹ := inv_nonneg.2 (by linarith)
  rw [← (normalRegression_eq_bayes stdLinAlg_sound hd X κ hw).2,
    normalRegression_law stdLinAlg_sound hw hd]
  refine (lintegral_negPow_mvn h0 h1 _ hQ j).trans ?_
  rw [ENNReal.ofReal_mul (by positivity)]
  refine mul_le_mul' le_rfl ?_
  have e : (diagonal d + Xᵀ * diagonal w * X) j j = d j + ∑ i, X i j ^ 2 * w i := by
    rw [Matrix.add_apply, diagonal_apply_eq, mul_apply]
    simp only [mul_diagonal, transpose_apply]
    congr 1
    exact Finset.sum_congr rfl fun i _ => by ring
  have hA : 0 ≤ ∑ i, X i j ^ 2 * w i := Finset.sum_nonneg fun i _ => mul_nonneg (sq_nonneg _) (hw i).le
  have e2 : ∑ i, ENNReal.ofReal (X i j ^ 2) * ENNReal.ofReal (w i) =
      ENNReal.ofReal (∑ i, X i j ^ 2 * w i) := by
    rw [ENNReal.ofReal_sum_of_nonneg fun i _ => mul_nonneg (sq_nonneg _) (hw i).le]
    exact Finset.sum_congr rfl fun i _ => (ENNReal.ofReal_mul (sq_nonneg _)).symm
  have hdp : 0 ≤ d j ^ s := Real.rpow_nonneg (hd j).le _
  rw [e, e2, ← ENNReal.ofReal_one, ← ENNReal.ofReal_add hdp zero_le_one, ← ENNReal.ofReal_add (by positivity) hA]
  refine ENNReal.ofReal_le_ofReal ?_
  have h2 := Real.rpow_add_le_add_rpow (hd j).le hA h0.le (by linarith : s ≤ 1)
  have h3 : (∑ i, X i j ^ 2 * w i) ^ s ≤ 1 + ∑ i, X i j ^ 2 * w i := by
    rcases le_total (∑ i, X i j ^ 2 * w i) 1 with h | h
    · have := Real.rpow_le_one hA h h0.le
      linarith
    · have := Real.rpow_le_rpow_of_exponent_le h (by linarith : s ≤ 1)
      rw [Real.rpow_one] at this
      linarith
  linarith

/-- Negative moments of a coefficient drawn after the Pólya-Gamma variables. -/
theorem lintegral_negPow_step {s : ℝ} (h0 : 0 < s) (h1 : s < 1 / 2) {d : Fin p → ℝ}
    (hd : ∀ j, 0 < d j) (X : Matrix (Fin n) (Fin p) ℝ) (κ : Fin n → ℝ) {b : Fin n → ℝ}
    (hb : ∀ i, 0 < b i) (c : Fin n → ℝ) (j : Fin p) :
    ∫⁻ x, negPow s (x j) ∂((Measure.pi fun i => pg (b i) (c i)).bind fun w =>
        bayes (mvn 0 (diagonal d)⁻¹) (fun β => pgJoint X κ β w)) ≤
      ENNReal.ofReal (3 * (1 - 2 * s)⁻¹) * (ENNReal.ofReal (d j ^ s) + 1 +
        ∑ i, ENNReal.ofReal (X i j ^ 2) * ENNReal.ofReal (pgMean * b i)) := by
  have hpr : ∀ i, IsProbabilityMeasure (pg (b i) (c i)) := fun i => isProbabilityMeasure_pg (hb i) _
  have hm : Measurable fun x : Fin p → ℝ => negPow s (x j) :=
    (measurable_negPow s).comp (measurable_pi_apply j)
  rw [Measure.lintegral_bind (measurable_bayes_pgJoint d X κ).aemeasurable hm.aemeasurable]
  have hpos : ∀ᵐ w ∂Measure.pi fun i => pg (b i) (c i), ∀ i, 0 < w i := by
    rw [pi_pg_eq_withDensity hb]
    exact (withDensity_absolutelyContinuous _ _).ae_le (ae_pi_pg0_pos hb)
  have hme : ∀ i, Measurable fun w : Fin n → ℝ => ENNReal.ofReal (X i j ^ 2) * ENNReal.ofReal (w i) :=
    fun i => by fun_prop
  refine (lintegral_mono_ae (hpos.mono fun w hw => lintegral_negPow_bayes h0 h1 hd X κ hw j)).trans ?_
  rw [lintegral_const_mul _ ((Finset.measurable_sum _ fun i _ => hme i).const_add _),
    lintegral_add_left measurable_const, lintegral_finsetSum _ fun i _ => hme i]
  refine mul_le_mul' le_rfl (add_le_add (by simp) (Finset.sum_le_sum fun i _ => ?_))
  rw [lintegral_const_mul _ (by fun_prop)]
  refine mul_le_mul' le_rfl ?_
  have hev := measurePreserving_eval (fun i => pg (b i) (c i)) i
  rw [hev.lintegral_comp (f := ENNReal.ofReal) (by fun_prop)]
  exact lintegral_pg_le (hb i) _

end Verif
