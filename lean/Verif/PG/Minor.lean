import Verif.PG.Lemmas
import Verif.Prob.Doeblin

/-!
# All results of a Polya-Gamma step share a piece of positive mass
-/

open MeasureTheory ProbabilityTheory Matrix
open scoped ENNReal

namespace Verif

variable {p n : ℕ}

theorem cosh_sqrt_le (x y : ℝ) :
    Real.cosh (Real.sqrt (x ^ 2 + y ^ 2) / 2) ≤ 2 * (Real.cosh (x / 2) * Real.cosh (y / 2)) := by
  have h1 : Real.sqrt (x ^ 2 + y ^ 2) ≤ |x| + |y| := by
    rw [Real.sqrt_le_left (by positivity)]
    have := mul_nonneg (abs_nonneg x) (abs_nonneg y)
    nlinarith [sq_abs x, sq_abs y]
  have h2 : Real.cosh (Real.sqrt (x ^ 2 + y ^ 2) / 2) ≤ Real.cosh (|x| / 2 + |y| / 2) := by
    rw [Real.cosh_le_cosh, abs_of_nonneg (by positivity), abs_of_nonneg (by positivity)]
    linarith
  have h3 : Real.cosh (|x| / 2) = Real.cosh (x / 2) := by
    rw [← Real.cosh_abs (x / 2), abs_div, abs_two]
  have h4 : Real.cosh (|y| / 2) = Real.cosh (y / 2) := by
    rw [← Real.cosh_abs (y / 2), abs_div, abs_two]
  have h5 : Real.sinh (|x| / 2) * Real.sinh (|y| / 2) ≤ Real.cosh (|x| / 2) * Real.cosh (|y| / 2) :=
    mul_le_mul (Real.sinh_lt_cosh _).le (Real.sinh_lt_cosh _).le
      (Real.sinh_nonneg_iff.2 (by positivity)) (Real.cosh_pos _).le
  calc _ ≤ _ := h2
    _ = Real.cosh (|x| / 2) * Real.cosh (|y| / 2) + Real.sinh (|x| / 2) * Real.sinh (|y| / 2) :=
        Real.cosh_add _ _
    _ ≤ 2 * (Real.cosh (|x| / 2) * Real.cosh (|y| / 2)) := by linarith
    _ = _ := by rw [h3, h4]

/-- The joint Laplace transform of the auxiliary variables. -/
theorem lintegral_exp_pi_pg0 {b : Fin n → ℝ} (hb : ∀ i, 0 < b i) (c : Fin n → ℝ) :
    ∫⁻ w, ENNReal.ofReal (∏ i, Real.exp (-(c i ^ 2 / 2 * w i))) ∂(Measure.pi fun i => pg0 (b i)) =
      ENNReal.ofReal (∏ i, Real.cosh (c i / 2) ^ (-b i)) := by
  have h := (pi_pg_eq (p := 1) (Matrix.of fun i _ => c i) hb 0 (fun _ => 1)).2.1
  have e : ∀ i, ((Matrix.of fun i (_ : Fin 1) => c i) *ᵥ fun _ => 1) i = c i := fun i => by
    simp [mulVec, dotProduct]
  simp only [pgJoint, pgLik, e, Pi.zero_apply, zero_mul, Real.exp_zero, one_mul] at h
  exact h

/-- The mean weight of new coefficients, over the auxiliary variables drawn given any old ones. -/
theorem lintegral_pgJoint_pg_ge {b : Fin n → ℝ} (hb : ∀ i, 0 < b i) (X : Matrix (Fin n) (Fin p) ℝ)
    (κ : Fin n → ℝ) (β β' : Fin p → ℝ) :
    ENNReal.ofReal ((∏ i, (2 : ℝ) ^ (-b i)) * pgLik X b κ β') ≤
      ∫⁻ w, pgJoint X κ β' w ∂(Measure.pi fun i => pg (b i) ((X *ᵥ β) i)) := by
  rw [pi_pg_eq_withDensity hb, lintegral_withDensity_eq_lintegral_mul _ (measurable_pgCond _ _)
    (measurable_pgJoint_left X κ β')]
  have e : ∀ w : Fin n → ℝ, (pgCond b (X *ᵥ β) * pgJoint X κ β') w =
      ENNReal.ofReal (∏ i, ((Real.cosh ((X *ᵥ β) i / 2) ^ (-b i))⁻¹ *
        Real.exp (κ i * (X *ᵥ β') i))) * ENNReal.ofReal (∏ i, Real.exp
          (-(Real.sqrt ((X *ᵥ β) i ^ 2 + (X *ᵥ β') i ^ 2) ^ 2 / 2 * w i))) := by
    intro w
    have h1 : ∀ i, 0 ≤ (Real.cosh ((X *ᵥ β) i / 2) ^ (-b i))⁻¹ := fun i =>
      inv_nonneg.2 (Real.rpow_nonneg (Real.cosh_pos _).le _)
    rw [Pi.mul_apply, pgCond, pgJoint, ← ENNReal.ofReal_mul (Finset.prod_nonneg fun i _ =>
      mul_nonneg (h1 i) (Real.exp_pos _).le), ← ENNReal.ofReal_mul (Finset.prod_nonneg fun i _ =>
      mul_nonneg (h1 i) (Real.exp_pos _).le), ← Finset.prod_mul_distrib, ← Finset.prod_mul_distrib]
    congr 1
    refine Finset.prod_congr rfl fun i _ => ?_
    rw [Real.sq_sqrt (by positivity)]
    have : -(((X *ᵥ β) i ^ 2 + (X *ᵥ β') i ^ 2) / 2 * w i) =
        -((X *ᵥ β) i ^ 2 / 2 * w i) + -((X *ᵥ β') i ^ 2 / 2 * w i) := by ring
    rw [this, Real.exp_add]
    ring
  simp only [e]
  rw [lintegral_const_mul _ (by
    refine Measurable.ennreal_ofReal (Finset.measurable_prod _ fun i _ => ?_)
    fun_prop), lintegral_exp_pi_pg0 hb,
    ← ENNReal.ofReal_mul (Finset.prod_nonneg fun i _ => mul_nonneg
      (inv_nonneg.2 (Real.rpow_nonneg (Real.cosh_pos _).le _)) (Real.exp_pos _).le),
    ← Finset.prod_mul_distrib, pgLik, ← Finset.prod_mul_distrib]
  refine ENNReal.ofReal_le_ofReal (Finset.prod_le_prod (fun i _ => ?_) fun i _ => ?_)
  · have := Real.cosh_pos ((X *ᵥ β') i / 2)
    positivity
  · have hx := Real.cosh_pos ((X *ᵥ β) i / 2)
    have hy := Real.cosh_pos ((X *ᵥ β') i / 2)
    have hz := Real.cosh_pos (Real.sqrt ((X *ᵥ β) i ^ 2 + (X *ᵥ β') i ^ 2) / 2)
    have h1 : (2 * (Real.cosh ((X *ᵥ β) i / 2) * Real.cosh ((X *ᵥ β') i / 2))) ^ (-b i) ≤
        Real.cosh (Real.sqrt ((X *ᵥ β) i ^ 2 + (X *ᵥ β') i ^ 2) / 2) ^ (-b i) :=
      Real.rpow_le_rpow_of_nonpos hz (cosh_sqrt_le _ _) (by have := hb i; linarith)
    rw [Real.mul_rpow two_pos.le (by positivity), Real.mul_rpow hx.le hy.le] at h1
    have h2 : 0 < Real.cosh ((X *ᵥ β) i / 2) ^ (-b i) := Real.rpow_pos_of_pos hx _
    have h3 : (Real.cosh ((X *ᵥ β) i / 2) ^ (-b i))⁻¹ * ((2 : ℝ) ^ (-b i) *
        (Real.cosh ((X *ᵥ β) i / 2) ^ (-b i) * Real.cosh ((X *ᵥ β') i / 2) ^ (-b i))) =
        (2 : ℝ) ^ (-b i) * Real.cosh ((X *ᵥ β') i / 2) ^ (-b i) := by
      field_simp
    calc (2 : ℝ) ^ (-b i) * (Real.exp (κ i * (X *ᵥ β') i) * Real.cosh ((X *ᵥ β') i / 2) ^ (-b i))
        = Real.exp (κ i * (X *ᵥ β') i) * ((2 : ℝ) ^ (-b i) *
            Real.cosh ((X *ᵥ β') i / 2) ^ (-b i)) := by ring
      _ = Real.exp (κ i * (X *ᵥ β') i) * ((Real.cosh ((X *ᵥ β) i / 2) ^ (-b i))⁻¹ *
            ((2 : ℝ) ^ (-b i) * (Real.cosh ((X *ᵥ β) i / 2) ^ (-b i) *
              Real.cosh ((X *ᵥ β') i / 2) ^ (-b i)))) := by rw [h3]
      _ ≤ Real.exp (κ i * (X *ᵥ β') i) * ((Real.cosh ((X *ᵥ β) i / 2) ^ (-b i))⁻¹ *
            Real.cosh (Real.sqrt ((X *ᵥ β) i ^ 2 + (X *ᵥ β') i ^ 2) / 2) ^ (-b i)) := by
          gcongr
      _ = _ := by ring

/-- The normalising constant of the conditional law of the coefficients is bounded in the auxiliary
variables. -/
theorem pgJoint_norm_le {d : Fin p → ℝ} (hd : ∀ j, 0 < d j) (X : Matrix (Fin n) (Fin p) ℝ)
    (κ : Fin n → ℝ) : ∃ C : ℝ≥0∞, C ≠ 0 ∧ C ≠ ∞ ∧ ∀ w : Fin n → ℝ, (∀ i, 0 < w i) →
      ∫⁻ β, pgJoint X κ β w ∂(mvn 0 (diagonal d)⁻¹) ≤ C := by
  have hlik : ∀ β, pgJoint X κ β 0 = ENNReal.ofReal
      (1 * Real.exp ((Xᵀ *ᵥ κ) ⬝ᵥ β - (β ⬝ᵥ (0 : Matrix (Fin p) (Fin p) ℝ) *ᵥ β) / 2)) := by
    intro β
    rw [pgJoint, one_mul]
    simp only [← Real.exp_add, ← Real.exp_sum]
    congr 2
    have e1 : (Xᵀ *ᵥ κ) ⬝ᵥ β = ∑ i, κ i * (X *ᵥ β) i := by
      rw [dotProduct_comm, dotProduct_mulVec, ← mulVec_transpose, transpose_transpose]
      simp only [dotProduct]
      exact Finset.sum_congr rfl fun i _ => by ring
    rw [e1]
    simp
  have h := (bayes_mvn 0 (Q := diagonal d) (PosDef.diagonal hd) PosSemidef.zero (Xᵀ *ᵥ κ) one_pos
    (measurable_pgJoint_right X κ 0) hlik).1
  refine ⟨_, h.1, h.2, fun w hw => lintegral_mono fun β => ENNReal.ofReal_le_ofReal ?_⟩
  refine Finset.prod_le_prod (fun i _ => mul_nonneg (Real.exp_pos _).le (Real.exp_pos _).le)
    fun i _ => mul_le_mul_of_nonneg_left (Real.exp_le_exp.2 ?_) (Real.exp_pos _).le
  have h1 := hw i
  simp only [Pi.zero_apply, mul_zero, neg_zero, Left.neg_nonpos_iff]
  positivity

/-- If the auxiliary variable is drawn from `ν` and then the parameter from its conditional law, the
result exceeds every density below the mean weight, up to a bound on the normalising constants. -/
theorem le_bind_bayes {Θ Ω : Type} [MeasurableSpace Θ] [MeasurableSpace Ω] {μ₀ : Measure Θ}
    [SFinite μ₀] {ν : Measure Ω} [SFinite ν] {f : Θ → Ω → ℝ≥0∞}
    (hf : Measurable (Function.uncurry f)) {C : ℝ≥0∞} (hC : ∀ᵐ ω ∂ν, ∫⁻ θ, f θ ω ∂μ₀ ≤ C)
    {g : Θ → ℝ≥0∞} (hg : ∀ θ, g θ ≤ ∫⁻ ω, f θ ω ∂ν) :
    C⁻¹ • μ₀.withDensity g ≤ ν.bind fun ω => bayes μ₀ fun θ => f θ ω := by
  have hJs : Measurable (Function.uncurry fun ω θ => f θ ω) := hf.comp measurable_swap
  refine Measure.le_iff.2 fun S hS => ?_
  rw [Measure.bind_apply hS (measurable_bayes hJs).aemeasurable, Measure.smul_apply, smul_eq_mul,
    withDensity_apply _ hS]
  calc C⁻¹ * ∫⁻ θ in S, g θ ∂μ₀
      ≤ C⁻¹ * ∫⁻ θ in S, ∫⁻ ω, f θ ω ∂ν ∂μ₀ := by
        gcongr with θ
        exact hg θ
    _ = C⁻¹ * ∫⁻ ω, ∫⁻ θ in S, f θ ω ∂μ₀ ∂ν := by
        rw [lintegral_lintegral_swap (f := fun θ ω => f θ ω) hf.aemeasurable]
    _ = ∫⁻ ω, C⁻¹ * ∫⁻ θ in S, f θ ω ∂μ₀ ∂ν := by
        exact (lintegral_const_mul _ hJs.lintegral_prod_right').symm
    _ ≤ _ := by
        refine lintegral_mono_ae ?_
        filter_upwards [hC] with ω hω
        rw [bayes, Measure.smul_apply, smul_eq_mul, withDensity_apply _ hS]
        gcongr

/-- The step is a probability kernel and all its results share a piece of positive mass. -/
theorem pgStep_minor {la : LinAlg} (hla : la.Sound) {d : Fin p → ℝ} (hd : ∀ j, 0 < d j)
    (X : Matrix (Fin n) (Fin p) ℝ) {b : Fin n → ℝ} (κ : Fin n → ℝ) (hb : ∀ i, 0 < b i) :
    Measurable (pgStep la d X b κ) ∧ (∀ β, IsProbabilityMeasure (pgStep la d X b κ β)) ∧
      ∃ m : Measure (Fin p → ℝ), m ≠ 0 ∧ ∀ β, m ≤ pgStep la d X b κ β := by
  have hp0 : ∀ i, IsProbabilityMeasure (pg0 (b i)) := fun i => isProbabilityMeasure_pg0 (hb i)
  have hstep : pgStep la d X b κ = fun β =>
      (bayes (Measure.pi fun i => pg0 (b i)) (pgJoint X κ β)).bind fun w =>
        normalRegression la w d X (fun i => κ i / w i) := by
    ext1 β
    rw [pgStep, (pi_pg_eq X hb κ β).2.2]
  have hae : ∀ᵐ w ∂(Measure.pi fun i => pg0 (b i)),
      normalRegression la w d X (fun i => κ i / w i) =
        bayes (mvn 0 (diagonal d)⁻¹) (fun β => pgJoint X κ β w) := by
    filter_upwards [ae_pi_pg0_pos hb] with w hw
    exact (normalRegression_eq_bayes hla hd X κ hw).2
  have hmeas := measurable_dataAug (measurable_pgJoint X κ) hae
  rw [← hstep] at hmeas
  have hstep2 : ∀ β, pgStep la d X b κ β = (Measure.pi fun i => pg (b i) ((X *ᵥ β) i)).bind fun w =>
      bayes (mvn 0 (diagonal d)⁻¹) fun β => pgJoint X κ β w := by
    intro β
    rw [hstep]
    exact (bind_bayes_congr hae β).trans (by rw [(pi_pg_eq X hb κ β).2.2])
  have hpos : ∀ β, ∀ᵐ w ∂(Measure.pi fun i => pg (b i) ((X *ᵥ β) i)), ∀ i, 0 < w i := by
    intro β
    rw [(pi_pg_eq X hb 0 β).2.2]
    exact (bayes_absolutelyContinuous _ _).ae_le (ae_pi_pg0_pos hb)
  have hpm : ∀ β, IsProbabilityMeasure (Measure.pi fun i => pg (b i) ((X *ᵥ β) i)) := by
    intro β
    have : ∀ i, IsProbabilityMeasure (pg (b i) ((X *ᵥ β) i)) :=
      fun i => isProbabilityMeasure_pg (hb i) _
    infer_instance
  have hbm := measurable_bayes_pgJoint d X κ
  refine ⟨hmeas, fun β => ?_, ?_⟩
  · rw [hstep2]
    have := hpm β
    refine isProbabilityMeasure_bind hbm.aemeasurable ?_
    filter_upwards [hpos β] with w hw
    exact isProbabilityMeasure_bayes (normalRegression_eq_bayes hla hd X κ hw).1
  · obtain ⟨C, hC0, hCT, hC⟩ := pgJoint_norm_le hd X κ
    have hm : Measurable fun β => ENNReal.ofReal ((∏ i, (2 : ℝ) ^ (-b i)) * pgLik X b κ β) := by
      have h2 : (0 : ℝ) ≤ ∏ i, (2 : ℝ) ^ (-b i) := Finset.prod_nonneg fun i _ => by positivity
      simp only [ENNReal.ofReal_mul h2]
      exact (measurable_pgLik X b κ).const_mul _
    refine ⟨C⁻¹ • (mvn 0 (diagonal d)⁻¹).withDensity fun β =>
      ENNReal.ofReal ((∏ i, (2 : ℝ) ^ (-b i)) * pgLik X b κ β), ?_, fun β => ?_⟩
    · intro h0
      have h1 := congrArg (fun μ : Measure (Fin p → ℝ) => μ Set.univ) h0
      simp only [Measure.smul_apply, smul_eq_mul, Measure.coe_zero, Pi.zero_apply, mul_eq_zero,
        ENNReal.inv_eq_zero, hCT, false_or, withDensity_apply _ MeasurableSet.univ,
        Measure.restrict_univ] at h1
      rw [lintegral_eq_zero_iff hm] at h1
      obtain ⟨β, hβ⟩ := h1.exists
      simp only [Pi.zero_apply, ENNReal.ofReal_eq_zero] at hβ
      exact absurd hβ (not_le.2 (mul_pos (Finset.prod_pos fun i _ => by positivity)
        (pgLik_pos X b κ β)))
    · have := hpm β
      rw [hstep2]
      refine le_bind_bayes (f := pgJoint X κ) (measurable_pgJoint X κ) ?_
        fun β' => lintegral_pgJoint_pg_ge hb X κ β β'
      filter_upwards [hpos β] with w hw
      exact hC w hw

/-- Repeated calls of the step converge to its stationary law from every start. -/
theorem pgStep_converges {la : LinAlg} (hla : la.Sound) {d : Fin p → ℝ} (hd : ∀ j, 0 < d j)
    (X : Matrix (Fin n) (Fin p) ℝ) {b κ : Fin n → ℝ} (hb : ∀ i, 0 < b i)
    (hκ : ∀ i, |κ i| ≤ b i / 2) :
    ConvergesGeom Set.univ (bayes (mvn 0 (diagonal d)⁻¹) fun β => ENNReal.ofReal (pgLik X b κ β))
      (pgStep la d X b κ) ∧
    ConvergesFrom Set.univ (bayes (mvn 0 (diagonal d)⁻¹) fun β => ENNReal.ofReal (pgLik X b κ β))
      (pgStep la d X b κ) := by
  obtain ⟨hm, hp, m, hm0, hmle⟩ := pgStep_minor hla hd X κ hb
  have hpr : IsProbabilityMeasure
      (bayes (mvn 0 (diagonal d)⁻¹) fun β => ENNReal.ofReal (pgLik X b κ β)) :=
    isProbabilityMeasure_bayes (bayesDefined_pgLik X hκ _)
  have hst := (pgStep_stationary_iff hla hd X hb hκ _).2 rfl
  have h1 := convergesGeom_of_minorised hm hp hmle hm0 hst.2
  exact ⟨h1, h1.converges fun θ _ k => by
    have := prob_calls hm hp k θ
    infer_instance⟩

end Verif
