import Verif.PG.Model
import Verif.Mvn.Props
import Verif.Prob.DataAug

/-!
# Lemmas: the Polya-gamma step has exactly one stationary law
-/

open MeasureTheory ProbabilityTheory Matrix
open scoped ENNReal

namespace Verif

/-- The posterior determines the prior when the likelihood is positive. -/
theorem bayes_prior_inj {Θ : Type*} [MeasurableSpace Θ] {μ μ' : Measure Θ}
    [IsProbabilityMeasure μ] [IsProbabilityMeasure μ'] {l : Θ → ℝ≥0∞} (hl : Measurable l)
    (h0 : ∀ θ, l θ ≠ 0) (h1 : ∀ θ, l θ ≠ ∞) (hd' : BayesDefined μ' l)
    (h : bayes μ l = bayes μ' l) : μ = μ' := by
  unfold bayes at h
  have h2 := congrArg (fun ρ : Measure Θ => ρ.withDensity fun θ => (l θ)⁻¹) h
  simp only [withDensity_smul_measure] at h2
  rw [withDensity_inv_same hl (ae_of_all _ h0) (ae_of_all _ h1),
    withDensity_inv_same hl (ae_of_all _ h0) (ae_of_all _ h1)] at h2
  have h3 := congrArg (fun ρ : Measure Θ => ρ Set.univ) h2
  simp only [Measure.smul_apply, measure_univ, smul_eq_mul, mul_one] at h3
  rw [h3] at h2
  have hc0 : (∫⁻ θ, l θ ∂μ')⁻¹ ≠ 0 := ENNReal.inv_ne_zero.2 hd'.2
  have hc : (∫⁻ θ, l θ ∂μ')⁻¹ ≠ ∞ := ENNReal.inv_ne_top.2 hd'.1
  ext S hS
  have h4 := congrArg (fun ρ : Measure Θ => ρ S) h2
  simp only [Measure.smul_apply, smul_eq_mul] at h4
  exact (ENNReal.mul_right_inj hc0 hc).1 h4

/-- A positive bounded likelihood has a well-defined posterior. -/
theorem bayesDefined_of_bounded {Θ : Type*} [MeasurableSpace Θ] {μ : Measure Θ}
    [IsProbabilityMeasure μ] {l : Θ → ℝ≥0∞} (hl : Measurable l) (h0 : ∀ θ, l θ ≠ 0)
    {B : ℝ≥0∞} (hB : B ≠ ∞) (h1 : ∀ θ, l θ ≤ B) : BayesDefined μ l := by
  constructor
  · intro h
    rw [lintegral_eq_zero_iff hl] at h
    obtain ⟨θ, hθ⟩ := h.exists
    exact h0 θ hθ
  · refine ne_top_of_le_ne_top hB ?_
    calc ∫⁻ θ, l θ ∂μ ≤ ∫⁻ _, B ∂μ := lintegral_mono h1
      _ = B := by simp

section

variable {p n : ℕ}

/-- The general step: `ω_i ~ PG(b_i, (X β)_i)`, then the normal regression with precisions `ω` and
pseudo-data `κ / ω`. -/
noncomputable def pgStep (la : LinAlg) (d : Fin p → ℝ) (X : Matrix (Fin n) (Fin p) ℝ)
    (b κ : Fin n → ℝ) (β : Fin p → ℝ) : Measure (Fin p → ℝ) :=
  (Measure.pi fun i => pg (b i) ((X *ᵥ β) i)).bind fun w =>
    normalRegression la w d X (fun i => κ i / w i)

/-- The likelihood the general step targets. -/
noncomputable def pgLik (X : Matrix (Fin n) (Fin p) ℝ) (b κ : Fin n → ℝ) (β : Fin p → ℝ) : ℝ :=
  ∏ i, (Real.exp (κ i * (X *ᵥ β) i) * Real.cosh ((X *ᵥ β) i / 2) ^ (-b i))

theorem pgLik_pos (X : Matrix (Fin n) (Fin p) ℝ) (b κ : Fin n → ℝ) (β : Fin p → ℝ) :
    0 < pgLik X b κ β :=
  Finset.prod_pos fun _ _ => mul_pos (Real.exp_pos _) (Real.rpow_pos_of_pos (Real.cosh_pos _) _)

theorem measurable_pgLik (X : Matrix (Fin n) (Fin p) ℝ) (b κ : Fin n → ℝ) :
    Measurable fun β => ENNReal.ofReal (pgLik X b κ β) := by
  refine ENNReal.measurable_ofReal.comp ?_
  unfold pgLik mulVec
  refine Finset.measurable_prod _ fun _ _ => ?_
  have h1 : Measurable Real.cosh := Real.continuous_cosh.measurable
  fun_prop

/-- Joint density of coefficients and Polya-gamma variables. -/
noncomputable def pgJoint (X : Matrix (Fin n) (Fin p) ℝ) (κ : Fin n → ℝ) (β : Fin p → ℝ)
    (w : Fin n → ℝ) : ℝ≥0∞ :=
  ENNReal.ofReal (∏ i, (Real.exp (κ i * (X *ᵥ β) i) * Real.exp (-((X *ᵥ β) i ^ 2 / 2 * w i))))

theorem measurable_pgJoint (X : Matrix (Fin n) (Fin p) ℝ) (κ : Fin n → ℝ) :
    Measurable (Function.uncurry (pgJoint X κ)) := by
  unfold pgJoint mulVec Function.uncurry dotProduct
  refine ENNReal.measurable_ofReal.comp ?_
  refine Finset.measurable_prod _ fun i _ => ?_
  fun_prop

theorem integrable_exp_pg0 {b : ℝ} (hb : 0 < b) (c : ℝ) :
    Integrable (fun w => Real.exp (-(c ^ 2 / 2 * w))) (pg0 b) := by
  have := isProbabilityMeasure_pg0 hb
  have hm : AEStronglyMeasurable (fun w => Real.exp (-(c ^ 2 / 2 * w))) (pg0 b) := by fun_prop
  refine Integrable.of_bound (C := 1) hm ?_
  filter_upwards [ae_pos_pg0 hb] with w hw
  rw [Real.norm_of_nonneg (Real.exp_pos _).le, Real.exp_le_one_iff]
  have : 0 ≤ c ^ 2 / 2 * w := by positivity
  linarith

theorem pg_eq_withDensity {b : ℝ} (hb : 0 < b) (c : ℝ) :
    pg b c = (pg0 b).withDensity fun w =>
      ENNReal.ofReal ((Real.cosh (c / 2) ^ (-b))⁻¹ * Real.exp (-(c ^ 2 / 2 * w))) := by
  have hk0 : 0 < Real.cosh (c / 2) ^ (-b) := Real.rpow_pos_of_pos (Real.cosh_pos _) _
  rw [pg, bayes, lintegral_exp_pg0 hb, ← ENNReal.ofReal_inv_of_pos hk0,
    ← withDensity_smul _ (by fun_prop)]
  congr 1
  ext w
  rw [Pi.smul_apply, smul_eq_mul, ← ENNReal.ofReal_mul (inv_nonneg.2 hk0.le)]

/-- Normalised density of the Polya-gamma variables. -/
noncomputable def pgCond (b ψ w : Fin n → ℝ) : ℝ≥0∞ :=
  ENNReal.ofReal (∏ i, (Real.cosh (ψ i / 2) ^ (-b i))⁻¹ * Real.exp (-(ψ i ^ 2 / 2 * w i)))

theorem measurable_pgCond (b ψ : Fin n → ℝ) : Measurable (pgCond b ψ) := by
  unfold pgCond
  exact ENNReal.measurable_ofReal.comp (Finset.measurable_prod _ fun i _ => by fun_prop)

theorem pi_pg_eq_withDensity {b : Fin n → ℝ} (hb : ∀ i, 0 < b i) (ψ : Fin n → ℝ) :
    (Measure.pi fun i => pg (b i) (ψ i)) =
      (Measure.pi fun i => pg0 (b i)).withDensity (pgCond b ψ) := by
  have hp0 : ∀ i, IsProbabilityMeasure (pg0 (b i)) := fun i => isProbabilityMeasure_pg0 (hb i)
  have hsf : ∀ i, SigmaFinite ((pg0 (b i)).withDensity fun w =>
      ENNReal.ofReal ((Real.cosh (ψ i / 2) ^ (-b i))⁻¹ * Real.exp (-(ψ i ^ 2 / 2 * w)))) := by
    intro i
    rw [← pg_eq_withDensity (hb i)]
    have := isProbabilityMeasure_pg (hb i) (ψ i)
    infer_instance
  have h := pi_withDensity_ofReal (fun i => pg0 (b i))
    (fun i => (integrable_exp_pg0 (hb i) (ψ i)).const_mul (Real.cosh (ψ i / 2) ^ (-b i))⁻¹)
      (fun i w => mul_nonneg
        (inv_nonneg.2 (Real.rpow_pos_of_pos (Real.cosh_pos _) _).le) (Real.exp_pos _).le)
  simp only [fun i => pg_eq_withDensity (hb i) (ψ i)]
  exact h

theorem pgJoint_eq (X : Matrix (Fin n) (Fin p) ℝ) (b κ : Fin n → ℝ) (β : Fin p → ℝ)
    (w : Fin n → ℝ) :
    pgJoint X κ β w = ENNReal.ofReal (pgLik X b κ β) * pgCond b (X *ᵥ β) w := by
  rw [pgCond, ← ENNReal.ofReal_mul (pgLik_pos X b κ β).le, pgJoint, pgLik, ← Finset.prod_mul_distrib]
  congr 1
  refine Finset.prod_congr rfl fun i _ => ?_
  have := (Real.rpow_pos_of_pos (Real.cosh_pos ((X *ᵥ β) i / 2)) (-b i)).ne'
  field_simp

theorem measurable_pgJoint_left (X : Matrix (Fin n) (Fin p) ℝ) (κ : Fin n → ℝ) (β : Fin p → ℝ) :
    Measurable (pgJoint X κ β) := by
  have h : pgJoint X κ β = fun w => Function.uncurry (pgJoint X κ) (β, w) := rfl
  rw [h]
  exact (measurable_pgJoint X κ).comp measurable_prodMk_left

theorem measurable_pgJoint_right (X : Matrix (Fin n) (Fin p) ℝ) (κ : Fin n → ℝ) (w : Fin n → ℝ) :
    Measurable fun β => pgJoint X κ β w := by
  have h : (fun β => pgJoint X κ β w) = fun β => Function.uncurry (pgJoint X κ) (β, w) := rfl
  rw [h]
  exact (measurable_pgJoint X κ).comp measurable_prodMk_right

theorem measurable_bayes_pgJoint (d : Fin p → ℝ) (X : Matrix (Fin n) (Fin p) ℝ) (κ : Fin n → ℝ) :
    Measurable fun w => bayes (mvn 0 (diagonal d)⁻¹) (fun β => pgJoint X κ β w) := by
  have h : (Function.uncurry fun w β => pgJoint X κ β w) =
      fun q : (Fin n → ℝ) × (Fin p → ℝ) => Function.uncurry (pgJoint X κ) (q.2, q.1) := rfl
  have h2 : Measurable (Function.uncurry fun w β => pgJoint X κ β w) := by
    rw [h]
    exact (measurable_pgJoint X κ).comp measurable_swap
  exact measurable_bayes (f := fun w β => pgJoint X κ β w) h2

/-- The conditional law of the Polya-gamma variables. -/
theorem pi_pg_eq (X : Matrix (Fin n) (Fin p) ℝ) {b : Fin n → ℝ} (hb : ∀ i, 0 < b i)
    (κ : Fin n → ℝ) (β : Fin p → ℝ) :
    BayesDefined (Measure.pi fun i => pg0 (b i)) (pgJoint X κ β) ∧
    ∫⁻ w, pgJoint X κ β w ∂(Measure.pi fun i => pg0 (b i)) = ENNReal.ofReal (pgLik X b κ β) ∧
    (Measure.pi fun i => pg (b i) ((X *ᵥ β) i)) =
      bayes (Measure.pi fun i => pg0 (b i)) (pgJoint X κ β) := by
  have hp : ∀ i, IsProbabilityMeasure (pg (b i) ((X *ᵥ β) i)) := fun i =>
    isProbabilityMeasure_pg (hb i) _
  have hpi := pi_pg_eq_withDensity hb (X *ᵥ β)
  have hgm := measurable_pgCond b (X *ᵥ β)
  have hg1 : ∫⁻ w, pgCond b (X *ᵥ β) w ∂(Measure.pi fun i => pg0 (b i)) = 1 := by
    rw [← setLIntegral_univ, ← withDensity_apply _ MeasurableSet.univ, ← hpi, measure_univ]
  have hval : ∫⁻ w, pgJoint X κ β w ∂(Measure.pi fun i => pg0 (b i)) =
      ENNReal.ofReal (pgLik X b κ β) := by
    simp only [pgJoint_eq X b]
    rw [lintegral_const_mul _ hgm, hg1, mul_one]
  have h0 : ENNReal.ofReal (pgLik X b κ β) ≠ 0 := by simpa using pgLik_pos X b κ β
  refine ⟨?_, hval, ?_⟩
  · rw [BayesDefined, hval]
    exact ⟨h0, ENNReal.ofReal_ne_top⟩
  · rw [bayes, hval, hpi, show pgJoint X κ β = ENNReal.ofReal (pgLik X b κ β) •
      pgCond b (X *ᵥ β) from funext fun w => pgJoint_eq X b κ β w, withDensity_smul _ hgm, smul_smul,
      ENNReal.inv_mul_cancel h0 ENNReal.ofReal_ne_top, one_smul]

/-- The conditional law of the coefficients. -/
theorem normalRegression_eq_bayes {la : LinAlg} (hla : la.Sound) {d : Fin p → ℝ}
    (hd : ∀ j, 0 < d j) (X : Matrix (Fin n) (Fin p) ℝ) (κ : Fin n → ℝ) {w : Fin n → ℝ}
    (hw : ∀ i, 0 < w i) :
    BayesDefined (mvn 0 (diagonal d)⁻¹) (fun β => pgJoint X κ β w) ∧
    normalRegression la w d X (fun i => κ i / w i) =
      bayes (mvn 0 (diagonal d)⁻¹) (fun β => pgJoint X κ β w) := by
  have hP : (Xᵀ * diagonal w * X).PosSemidef := by
    have := (PosSemidef.diagonal (fun i => (hw i).le)).conjTranspose_mul_mul_same X
    rwa [conjTranspose_eq_transpose_of_trivial] at this
  have hm := measurable_pgJoint_right X κ w
  have hlik : ∀ β, pgJoint X κ β w = ENNReal.ofReal
      (1 * Real.exp ((Xᵀ *ᵥ κ) ⬝ᵥ β - (β ⬝ᵥ (Xᵀ * diagonal w * X) *ᵥ β) / 2)) := by
    intro β
    rw [pgJoint, one_mul]
    simp only [← Real.exp_add, ← Real.exp_sum]
    congr 2
    have e1 : (Xᵀ *ᵥ κ) ⬝ᵥ β = ∑ i, κ i * (X *ᵥ β) i := by
      rw [dotProduct_comm, dotProduct_mulVec, ← mulVec_transpose, transpose_transpose]
      simp only [dotProduct]
      exact Finset.sum_congr rfl fun i _ => by ring
    have e2 : β ⬝ᵥ (Xᵀ * diagonal w * X) *ᵥ β = ∑ i, w i * (X *ᵥ β) i ^ 2 := by
      rw [Matrix.mul_assoc, ← mulVec_mulVec, dotProduct_mulVec, ← mulVec_transpose,
        transpose_transpose, ← mulVec_mulVec]
      simp only [dotProduct, mulVec_diagonal]
      exact Finset.sum_congr rfl fun i _ => by ring
    rw [e1, e2, Finset.sum_div, ← Finset.sum_sub_distrib]
    exact Finset.sum_congr rfl fun i _ => by ring
  have h := bayes_mvn 0 (Q := diagonal d) (PosDef.diagonal hd) hP (Xᵀ *ᵥ κ) one_pos hm hlik
  refine ⟨h.1, ?_⟩
  have hκ : (diagonal w *ᵥ fun i => κ i / w i) = κ := by
    ext i
    rw [mulVec_diagonal, mul_div_cancel₀ _ (hw i).ne']
  rw [normalRegression_law hla hw hd, h.2, hκ, mulVec_zero, zero_add]

theorem mvn_absolutelyContinuous {p : ℕ} (m : Fin p → ℝ) {Q : Matrix (Fin p) (Fin p) ℝ}
    (hQ : Q.PosDef) : mvn m Q⁻¹ ≪ volume ∧ volume ≪ mvn m Q⁻¹ := by
  obtain ⟨c, hc, h⟩ := mvn_eq_withDensity m hQ
  rw [h]
  refine ⟨withDensity_absolutelyContinuous _ _, ?_⟩
  refine withDensity_absolutelyContinuous' ?_ (ae_of_all _ fun x => ?_)
  · refine Measurable.aemeasurable ?_
    refine ENNReal.measurable_ofReal.comp ?_
    have : Continuous fun x : Fin p → ℝ => (x - m) ⬝ᵥ Q *ᵥ (x - m) :=
      (continuous_id.sub continuous_const).dotProduct
        (continuous_const.matrix_mulVec (continuous_id.sub continuous_const))
    fun_prop
  · simpa using mul_pos hc (Real.exp_pos _)

theorem ae_pi_pg0_pos {b : Fin n → ℝ} (hb : ∀ i, 0 < b i) :
    ∀ᵐ w ∂(Measure.pi fun i => pg0 (b i)), ∀ i, 0 < w i := by
  have hp0 : ∀ i, IsProbabilityMeasure (pg0 (b i)) := fun i => isProbabilityMeasure_pg0 (hb i)
  rw [ae_all_iff]
  intro i
  exact (Measure.quasiMeasurePreserving_eval (μ := fun i => pg0 (b i)) i).ae (ae_pos_pg0 (hb i))

theorem pgFactor_le {b κ ψ : ℝ} (hκ : |κ| ≤ b / 2) :
    Real.exp (κ * ψ) * Real.cosh (ψ / 2) ^ (-b) ≤ 2 ^ b := by
  have hb : 0 ≤ b := by linarith [abs_nonneg κ]
  have h1 : Real.exp (|ψ| / 2) / 2 ≤ Real.cosh (ψ / 2) := by
    rw [← Real.cosh_abs (ψ / 2), Real.cosh_eq, abs_div, abs_two]
    have := Real.exp_pos (-(|ψ| / 2))
    linarith
  have h2 : Real.cosh (ψ / 2) ^ (-b) ≤ (Real.exp (|ψ| / 2) / 2) ^ (-b) :=
    Real.rpow_le_rpow_of_nonpos (by positivity) h1 (by linarith)
  have h3 : (Real.exp (|ψ| / 2) / 2) ^ (-b) = Real.exp (-(b / 2 * |ψ|)) * 2 ^ b := by
    rw [Real.div_rpow (Real.exp_pos _).le two_pos.le, ← Real.exp_mul, Real.rpow_neg two_pos.le,
      div_inv_eq_mul]
    congr 2
    ring
  have h4 : κ * ψ ≤ b / 2 * |ψ| :=
    (le_abs_self _).trans (by rw [abs_mul]; exact mul_le_mul_of_nonneg_right hκ (abs_nonneg _))
  calc Real.exp (κ * ψ) * Real.cosh (ψ / 2) ^ (-b)
      ≤ Real.exp (κ * ψ) * (Real.exp (-(b / 2 * |ψ|)) * 2 ^ b) :=
        mul_le_mul_of_nonneg_left (h2.trans_eq h3) (Real.exp_pos _).le
    _ = Real.exp (κ * ψ - b / 2 * |ψ|) * 2 ^ b := by
        rw [← mul_assoc, ← Real.exp_add, sub_eq_add_neg]
    _ ≤ 1 * 2 ^ b := mul_le_mul_of_nonneg_right (Real.exp_le_one_iff.2 (by linarith))
        (Real.rpow_nonneg two_pos.le _)
    _ = 2 ^ b := one_mul _

theorem bayesDefined_pgLik (X : Matrix (Fin n) (Fin p) ℝ)
    {b κ : Fin n → ℝ} (hκ : ∀ i, |κ i| ≤ b i / 2) (μ : Measure (Fin p → ℝ))
    [IsProbabilityMeasure μ] : BayesDefined μ fun β => ENNReal.ofReal (pgLik X b κ β) := by
  refine bayesDefined_of_bounded (measurable_pgLik X b κ)
    (fun β => by simpa using pgLik_pos X b κ β) (B := ENNReal.ofReal (∏ i, (2 : ℝ) ^ (b i)))
    ENNReal.ofReal_ne_top fun β => ENNReal.ofReal_le_ofReal ?_
  exact Finset.prod_le_prod (fun i _ => by have := Real.cosh_pos ((X *ᵥ β) i / 2); positivity)
    fun i _ => pgFactor_le (hκ i)

/-- **Main lemma.** The step has exactly one stationary probability law: the posterior. -/
theorem pgStep_stationary_iff {la : LinAlg} (hla : la.Sound) {d : Fin p → ℝ}
    (hd : ∀ j, 0 < d j) (X : Matrix (Fin n) (Fin p) ℝ) {b κ : Fin n → ℝ} (hb : ∀ i, 0 < b i)
    (hκ : ∀ i, |κ i| ≤ b i / 2)
    (π : Measure (Fin p → ℝ)) [IsProbabilityMeasure π] :
    Stationary π (pgStep la d X b κ) ↔
      π = bayes (mvn 0 (diagonal d)⁻¹) fun β => ENNReal.ofReal (pgLik X b κ β) := by
  have hp0 : ∀ i, IsProbabilityMeasure (pg0 (b i)) := fun i => isProbabilityMeasure_pg0 (hb i)
  have hstep : pgStep la d X b κ = fun β =>
      (bayes (Measure.pi fun i => pg0 (b i)) (pgJoint X κ β)).bind fun w =>
        normalRegression la w d X (fun i => κ i / w i) := by
    ext1 β
    rw [pgStep, (pi_pg_eq X hb κ β).2.2]
  have hae : ∀ᵐ w ∂(Measure.pi fun i => pg0 (b i)),
      normalRegression la w d X (fun i => κ i / w i) =
        bayes (mvn 0 (diagonal d)⁻¹) (fun β => pgJoint X κ β w) := by
    filter_upwards [ae_pi_pg0_pos hb] with w hw
    exact (normalRegression_eq_bayes hla hd X κ hw).2
  have hdef2 : ∀ᵐ w ∂(Measure.pi fun i => pg0 (b i)),
      BayesDefined (mvn 0 (diagonal d)⁻¹) (fun β => pgJoint X κ β w) := by
    filter_upwards [ae_pi_pg0_pos hb] with w hw
    exact (normalRegression_eq_bayes hla hd X κ hw).1
  have hmeas := measurable_dataAug (measurable_pgJoint X κ) hae
  have hst := stationary_dataAug (measurable_pgJoint X κ)
    (ae_of_all _ fun β => (pi_pg_eq X hb κ β).1) hdef2 hae
  rw [← hstep] at hst hmeas
  simp only [fun β => (pi_pg_eq X hb κ β).2.1] at hst
  have hpr : IsProbabilityMeasure
      (bayes (mvn 0 (diagonal d)⁻¹) fun β => ENNReal.ofReal (pgLik X b κ β)) :=
    isProbabilityMeasure_bayes (bayesDefined_pgLik X hκ _)
  constructor
  · intro hπ
    have hK2 : AEMeasurable (fun w => normalRegression la w d X (fun i => κ i / w i))
        (Measure.pi fun i => pg0 (b i)) := by
      exact ⟨fun w => bayes (mvn 0 (diagonal d)⁻¹) (fun β => pgJoint X κ β w),
        measurable_bayes_pgJoint d X κ, hae⟩
    have hlaw : ∀ β, ∀ᵐ w ∂bayes (Measure.pi fun i => pg0 (b i)) (pgJoint X κ β),
        ∃ m : Fin p → ℝ, ∃ Q : Matrix (Fin p) (Fin p) ℝ, Q.PosDef ∧
          normalRegression la w d X (fun i => κ i / w i) = mvn m Q⁻¹ := by
      intro β
      refine (bayes_absolutelyContinuous _ _).ae_le ?_
      filter_upwards [ae_pi_pg0_pos hb] with w hw
      exact ⟨_, _, posDef_diag_add hd hw X, normalRegression_law hla hw hd X _⟩
    have hmK : ∀ β, AEMeasurable (fun w => normalRegression la w d X (fun i => κ i / w i))
        (bayes (Measure.pi fun i => pg0 (b i)) (pgJoint X κ β)) := fun β =>
      hK2.mono_ac (bayes_absolutelyContinuous _ _)
    have hprob : ∀ β, IsProbabilityMeasure
        (bayes (Measure.pi fun i => pg0 (b i)) (pgJoint X κ β)) := fun β =>
      isProbabilityMeasure_bayes (pi_pg_eq X hb κ β).1
    have hmS : ∀ β {S : Set (Fin p → ℝ)}, MeasurableSet S →
        AEMeasurable (fun w => normalRegression la w d X (fun i => κ i / w i) S)
          (bayes (Measure.pi fun i => pg0 (b i)) (pgJoint X κ β)) := fun β S hS =>
      (Measure.measurable_coe hS).comp_aemeasurable (hmK β)
    refine stationary_unique (m := volume) hmeas ?_ ?_ ?_ hπ.2 hst.2
    · intro β
      rw [hstep]
      constructor
      rw [Measure.bind_apply MeasurableSet.univ (hmK β)]
      have : ∀ᵐ w ∂bayes (Measure.pi fun i => pg0 (b i)) (pgJoint X κ β),
          normalRegression la w d X (fun i => κ i / w i) Set.univ = 1 := by
        filter_upwards [hlaw β] with w ⟨m, Q, _, h⟩
        rw [h, measure_univ]
      rw [lintegral_congr_ae this]
      simp
    · intro β
      refine Measure.AbsolutelyContinuous.mk fun S hS h0 => ?_
      rw [hstep, Measure.bind_apply hS (hmK β),
        lintegral_eq_zero_iff' (hmS β hS)] at h0
      obtain ⟨w, hw0, m, Q, hQ, hw⟩ := (h0.and (hlaw β)).exists
      refine (mvn_absolutelyContinuous m hQ).2 ?_
      rw [← hw]
      exact hw0
    · intro β
      refine Measure.AbsolutelyContinuous.mk fun S hS h0 => ?_
      rw [hstep, Measure.bind_apply hS (hmK β),
        lintegral_eq_zero_iff' (hmS β hS)]
      filter_upwards [hlaw β] with w ⟨m, Q, hQ, hw⟩
      simp only [hw, Pi.zero_apply]
      exact (mvn_absolutelyContinuous m hQ).1 h0
  · rintro rfl
    exact hst

instance isProbabilityMeasure_normalPrior {p : ℕ} (std : Fin p → ℝ) :
    IsProbabilityMeasure (normalPrior std) := by
  unfold normalPrior
  infer_instance

theorem normalPrior_sqrt {std : Fin p → ℝ} (hs : ∀ j, 0 < std j) :
    normalPrior (fun j => Real.sqrt (std j)) = mvn 0 (diagonal fun j => (std j)⁻¹)⁻¹ := by
  rw [normalPrior_eq_mvn fun j => Real.sqrt_pos.2 (hs j)]
  simp only [fun j => Real.sq_sqrt (hs j).le]

/-- What the step called with `1/std` leaves invariant, among posteriors whose likelihood differs
from the targeted one by `c * exp (q · β)`. -/
theorem pgStep_tilt_iff {la : LinAlg} (hla : la.Sound) {std : Fin p → ℝ}
    (hs : ∀ j, 0 < std j) (X : Matrix (Fin n) (Fin p) ℝ) {b κ : Fin n → ℝ} (hb : ∀ i, 0 < b i)
    (hκ : ∀ i, |κ i| ≤ b i / 2) {c : ℝ} (hc : 0 < c) (q : Fin p → ℝ)
    {lik : (Fin p → ℝ) → ℝ≥0∞}
    (hlik : ∀ β, lik β = ENNReal.ofReal (c * (Real.exp (q ⬝ᵥ β) * pgLik X b κ β)))
    (hd : BayesDefined (normalPrior std) lik) :
    Stationary (bayes (normalPrior std) lik) (pgStep la (fun j => (std j)⁻¹) X b κ) ↔
      (∀ j, std j = 1) ∧ q = 0 := by
  have hpr := isProbabilityMeasure_bayes hd
  rw [pgStep_stationary_iff hla (fun j => inv_pos.2 (hs j)) X hb hκ]
  have hLm := measurable_pgLik X b κ
  have hL0 : ∀ β, ENNReal.ofReal (pgLik X b κ β) ≠ 0 := fun β => by
    simpa using pgLik_pos X b κ β
  have hEm : Measurable fun β : Fin p → ℝ => ENNReal.ofReal (Real.exp (q ⬝ᵥ β)) := by
    have : Continuous fun β : Fin p → ℝ => q ⬝ᵥ β := continuous_const.dotProduct continuous_id
    fun_prop
  have hQ : (diagonal fun j => (std j ^ 2)⁻¹).PosDef :=
    PosDef.diagonal fun j => inv_pos.2 (pow_pos (hs j) 2)
  have hQ' : (diagonal fun j => (std j)⁻¹).PosDef := PosDef.diagonal fun j => inv_pos.2 (hs j)
  have hE := bayes_mvn 0 (Q := diagonal fun j => (std j ^ 2)⁻¹) hQ
    (P := 0) PosSemidef.zero q one_pos hEm (fun β => by simp)
  rw [mulVec_zero, zero_add, add_zero, ← normalPrior_eq_mvn hs] at hE
  have hsplit : bayes (normalPrior std) lik =
      bayes (bayes (normalPrior std) fun β => ENNReal.ofReal (Real.exp (q ⬝ᵥ β)))
        fun β => ENNReal.ofReal (pgLik X b κ β) := by
    rw [bayes_bayes hEm hLm hE.1, ← bayes_const_mul _
      (lik := fun β => ENNReal.ofReal (Real.exp (q ⬝ᵥ β)) * ENNReal.ofReal (pgLik X b κ β))
      (hEm.mul hLm) (c := ENNReal.ofReal c) (by simpa using hc) ENNReal.ofReal_ne_top]
    congr 1
    ext β
    rw [hlik, ENNReal.ofReal_mul hc.le, ENNReal.ofReal_mul (Real.exp_pos _).le]
  rw [hsplit, hE.2]
  constructor
  · intro h
    have h1 := bayes_prior_inj hLm hL0 (fun _ => ENNReal.ofReal_ne_top)
      (bayesDefined_pgLik X hκ _) h
    obtain ⟨hm, hS⟩ := mvn_inj hQ.inv.posSemidef hQ'.inv.posSemidef h1
    have h2 := congrArg (fun M => M⁻¹) hS
    simp only [nonsing_inv_nonsing_inv _ (isUnit_iff_ne_zero.2 hQ.det_pos.ne'),
      nonsing_inv_nonsing_inv _ (isUnit_iff_ne_zero.2 hQ'.det_pos.ne')] at h2
    refine ⟨fun j => ?_, ?_⟩
    · have h4 : std j ^ 2 = std j := inv_injective (congrFun (diagonal_injective h2) j)
      have := hs j
      nlinarith
    · have h5 := congrArg (fun v => (diagonal fun j => (std j ^ 2)⁻¹) *ᵥ v) hm
      simpa only [mulVec_mulVec, mul_nonsing_inv _ (isUnit_iff_ne_zero.2 hQ.det_pos.ne'),
        one_mulVec, mulVec_zero] using h5
  · rintro ⟨h, rfl⟩
    simp [h]

end

end Verif
