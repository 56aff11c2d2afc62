import Verif.PG.Props
import Verif.PG.Minor
import Verif.Prob.Tilt

/-!
# Lemmas: one more success raises the drawn linear predictor of its observation
-/

open MeasureTheory ProbabilityTheory Matrix
open scoped ENNReal

namespace Verif

variable {p n : ℕ}

theorem pgStep_bayes {la : LinAlg} (hla : la.Sound) {d : Fin p → ℝ} (hd : ∀ j, 0 < d j)
    (X : Matrix (Fin n) (Fin p) ℝ) {b : Fin n → ℝ} (κ : Fin n → ℝ) (hb : ∀ i, 0 < b i)
    (β : Fin p → ℝ) :
    pgStep la d X b κ β = (Measure.pi fun i => pg (b i) ((X *ᵥ β) i)).bind fun w =>
      bayes (mvn 0 (diagonal d)⁻¹) fun β => pgJoint X κ β w := by
  have hae : ∀ᵐ w ∂(Measure.pi fun i => pg0 (b i)),
      normalRegression la w d X (fun i => κ i / w i) =
        bayes (mvn 0 (diagonal d)⁻¹) (fun β => pgJoint X κ β w) := by
    filter_upwards [ae_pi_pg0_pos hb] with w hw
    exact (normalRegression_eq_bayes hla hd X κ hw).2
  rw [pgStep, (pi_pg_eq X hb κ β).2.2]
  exact bind_bayes_congr hae β

theorem ae_pi_pg_pos {b : Fin n → ℝ} (hb : ∀ i, 0 < b i) (X : Matrix (Fin n) (Fin p) ℝ)
    (β : Fin p → ℝ) : ∀ᵐ w ∂(Measure.pi fun i => pg (b i) ((X *ᵥ β) i)), ∀ i, 0 < w i := by
  rw [(pi_pg_eq X hb 0 β).2.2]
  exact (bayes_absolutelyContinuous _ _).ae_le (ae_pi_pg0_pos hb)

theorem prod_exp_shift {κ κ' : Fin n → ℝ} {i : Fin n} (hi : κ' i = κ i + 1)
    (hk : ∀ k, k ≠ i → κ' k = κ k) (ψ : Fin n → ℝ) (r : Fin n → ℝ) :
    ∏ k, (Real.exp (κ' k * ψ k) * r k) = (∏ k, (Real.exp (κ k * ψ k) * r k)) * Real.exp (ψ i) := by
  have e : ∀ k, Real.exp (κ' k * ψ k) * r k =
      Real.exp (κ k * ψ k) * r k * (if k = i then Real.exp (ψ k) else 1) := by
    intro k
    by_cases h : k = i
    · subst h
      rw [hi, if_pos rfl, add_mul, one_mul, Real.exp_add]
      ring
    · rw [hk k h, if_neg h, mul_one]
  rw [Finset.prod_congr rfl fun k _ => e k, Finset.prod_mul_distrib, Finset.prod_ite_eq']
  simp

theorem pgJoint_shift (X : Matrix (Fin n) (Fin p) ℝ) {κ κ' : Fin n → ℝ} {i : Fin n}
    (hi : κ' i = κ i + 1) (hk : ∀ k, k ≠ i → κ' k = κ k) (β : Fin p → ℝ) (w : Fin n → ℝ) :
    pgJoint X κ' β w = pgJoint X κ β w * ENNReal.ofReal (Real.exp ((X *ᵥ β) i)) := by
  rw [pgJoint, pgJoint, prod_exp_shift hi hk, ENNReal.ofReal_mul]
  exact Finset.prod_nonneg fun k _ => by positivity

theorem measurable_pred (X : Matrix (Fin n) (Fin p) ℝ) (i : Fin n) :
    Measurable fun β : Fin p → ℝ => (X *ᵥ β) i := by
  simp only [mulVec, dotProduct]
  fun_prop

theorem mono_exp : Monotone fun x : ℝ => ENNReal.ofReal (Real.exp x) := fun _ _ h =>
  ENNReal.ofReal_le_ofReal (Real.exp_le_exp.2 h)

theorem pgStep_mono {la : LinAlg} (hla : la.Sound) {d : Fin p → ℝ} (hd : ∀ j, 0 < d j)
    (X : Matrix (Fin n) (Fin p) ℝ) {b κ κ' : Fin n → ℝ} (hb : ∀ i, 0 < b i) {i : Fin n}
    (hi : κ' i = κ i + 1) (hk : ∀ k, k ≠ i → κ' k = κ k) (β : Fin p → ℝ) :
    StochLE ((pgStep la d X b κ β).map fun β => (X *ᵥ β) i)
      ((pgStep la d X b κ' β).map fun β => (X *ᵥ β) i) := by
  intro A hA hU
  have hm := measurable_pred X i
  rw [Measure.map_apply hm hA, Measure.map_apply hm hA, pgStep_bayes hla hd X κ hb,
    pgStep_bayes hla hd X κ' hb,
    Measure.bind_apply (hm hA) (measurable_bayes_pgJoint d X κ).aemeasurable,
    Measure.bind_apply (hm hA) (measurable_bayes_pgJoint d X κ').aemeasurable]
  refine lintegral_mono_ae ?_
  filter_upwards [ae_pi_pg_pos hb X β] with w hw
  have h1 := (normalRegression_eq_bayes hla hd X κ hw).1
  have h2 := (normalRegression_eq_bayes hla hd X κ' hw).1
  simp only [pgJoint_shift X hi hk] at h2 ⊢
  have := stochLE_tilt (measurable_pgJoint_right X κ w) hm mono_exp h1 h2 A hA hU
  rwa [Measure.map_apply hm hA, Measure.map_apply hm hA] at this

theorem pgStep_strict {la : LinAlg} (hla : la.Sound) {d : Fin p → ℝ} (hd : ∀ j, 0 < d j)
    (X : Matrix (Fin n) (Fin p) ℝ) {b κ κ' : Fin n → ℝ} (hb : ∀ i, 0 < b i) {i : Fin n}
    (hX : X i ≠ 0)
    (hi : κ' i = κ i + 1) (hk : ∀ k, k ≠ i → κ' k = κ k) (β : Fin p → ℝ) :
    pgStep la d X b κ β {β | 0 < (X *ᵥ β) i} < pgStep la d X b κ' β {β | 0 < (X *ᵥ β) i} := by
  have hm := measurable_pred X i
  have hpg : ∀ k, IsProbabilityMeasure (pg (b k) ((X *ᵥ β) k)) :=
    fun k => isProbabilityMeasure_pg (hb k) _
  have hB : MeasurableSet {β : Fin p → ℝ | 0 < (X *ᵥ β) i} := measurableSet_lt measurable_const hm
  have hac := mvn_absolutelyContinuous (0 : Fin p → ℝ) (Q := diagonal d) (PosDef.diagonal hd)
  have hc : Continuous fun β : Fin p → ℝ => (X *ᵥ β) i := by
    simp only [mulVec, dotProduct]; fun_prop
  have hself : 0 < (X *ᵥ X i) i := by
    show 0 < X i ⬝ᵥ X i
    exact (Finset.sum_nonneg fun k _ => mul_self_nonneg (X i k)).lt_of_ne fun h => hX (dotProduct_self_eq_zero.1 h.symm)
  have hB0 : (mvn 0 (diagonal d)⁻¹) {β : Fin p → ℝ | 0 < (X *ᵥ β) i} ≠ 0 := fun h =>
    ((isOpen_lt continuous_const hc).measure_pos volume ⟨X i, hself⟩).ne' (hac.2 h)
  have hB1 : (mvn 0 (diagonal d)⁻¹) {β : Fin p → ℝ | 0 < (X *ᵥ β) i}ᶜ ≠ 0 := fun h => by
    refine ((isOpen_lt hc continuous_const).measure_pos volume
      (U := {β : Fin p → ℝ | (X *ᵥ β) i < 0}) ⟨-X i, ?_⟩).ne'
      (measure_mono_null (fun x hx => ?_) (hac.2 h))
    · simpa [mulVec_neg] using hself
    · simp only [Set.mem_compl_iff, Set.mem_ofPred_eq, not_lt] at hx ⊢
      exact hx.le
  rw [pgStep_bayes hla hd X κ hb, pgStep_bayes hla hd X κ' hb,
    Measure.bind_apply hB (measurable_bayes_pgJoint d X κ).aemeasurable,
    Measure.bind_apply hB (measurable_bayes_pgJoint d X κ').aemeasurable]
  have hlt : ∀ᵐ w ∂(Measure.pi fun i => pg (b i) ((X *ᵥ β) i)),
      bayes (mvn 0 (diagonal d)⁻¹) (fun β => pgJoint X κ β w) {β | 0 < (X *ᵥ β) i} <
        bayes (mvn 0 (diagonal d)⁻¹) (fun β => pgJoint X κ' β w) {β | 0 < (X *ᵥ β) i} := by
    filter_upwards [ae_pi_pg_pos hb X β] with w hw
    have h1 := (normalRegression_eq_bayes hla hd X κ hw).1
    have h2 := (normalRegression_eq_bayes hla hd X κ' hw).1
    simp only [pgJoint_shift X hi hk] at h2 ⊢
    refine bayes_tilt_lt (measurable_pgJoint_right X κ w) (mono_exp.measurable.comp hm) h1 h2 hB
      ENNReal.one_ne_top (fun x hx => ?_) (fun x hx => ?_) (fun x => ?_) (fun x => ?_) hB0 hB1
    · have : 1 < Real.exp ((X *ᵥ x) i) := Real.one_lt_exp_iff.2 hx
      simpa using this
    · have : Real.exp ((X *ᵥ x) i) ≤ 1 := Real.exp_le_one_iff.2 (not_lt.1 hx)
      simpa using this
    · rw [pgJoint, ne_eq, ENNReal.ofReal_eq_zero, not_le]
      exact Finset.prod_pos fun k _ => by positivity
    · exact ENNReal.ofReal_ne_top
  refine lintegral_strict_mono (by simpa using (IsProbabilityMeasure.ne_zero _))
    (Measure.measurable_measure.1 (measurable_bayes_pgJoint d X κ') _ hB).aemeasurable ?_ hlt
  refine ne_top_of_le_ne_top (b := 1) ENNReal.one_ne_top ?_
  calc _ ≤ ∫⁻ _ : Fin n → ℝ, 1 ∂(Measure.pi fun i => pg (b i) ((X *ᵥ β) i)) := by
        refine lintegral_mono_ae ?_
        filter_upwards [ae_pi_pg_pos hb X β] with w hw
        have := isProbabilityMeasure_bayes (normalRegression_eq_bayes hla hd X κ hw).1
        exact prob_le_one
    _ = 1 := by simp

/-- The posterior of a logistic regression. -/
theorem bernRegLik_shift (X : Matrix (Fin n) (Fin p) ℝ) (y : Fin n → Bool) (i : Fin n)
    (β : Fin p → ℝ) :
    bernRegLik sigmoid X (Function.update y i true) β =
      bernRegLik sigmoid X (Function.update y i false) β * ENNReal.ofReal (Real.exp ((X *ᵥ β) i)) := by
  have hc : (0 : ℝ) < ∏ _i : Fin n, (2 : ℝ)⁻¹ := by positivity
  have h1 : boolVal (Function.update y i true i) - 0.5 =
      boolVal (Function.update y i false i) - 0.5 + 1 := by
    rw [Function.update_self, Function.update_self, boolVal, boolVal]
    norm_num
  have h2 : ∀ k, k ≠ i → boolVal (Function.update y i true k) - 0.5 =
      boolVal (Function.update y i false k) - 0.5 := fun k hk => by
    rw [Function.update_of_ne hk, Function.update_of_ne hk]
  have key : pgLik X (fun _ => 1) (fun k => boolVal (Function.update y i true k) - 0.5) β =
      pgLik X (fun _ => 1) (fun k => boolVal (Function.update y i false k) - 0.5) β *
        Real.exp ((X *ᵥ β) i) :=
    prod_exp_shift (κ := fun k => boolVal (Function.update y i false k) - 0.5)
      (κ' := fun k => boolVal (Function.update y i true k) - 0.5) h1 h2 (X *ᵥ β)
      fun k => Real.cosh ((X *ᵥ β) k / 2) ^ (-1 : ℝ)
  rw [bernRegLik_eq, bernRegLik_eq, key, ← mul_assoc, ENNReal.ofReal_mul]
  exact mul_nonneg hc.le (pgLik_pos X _ _ β).le

theorem bern_posterior_mono (X : Matrix (Fin n) (Fin p) ℝ) (y : Fin n → Bool) (i : Fin n)
    (μ : Measure (Fin p → ℝ)) [IsProbabilityMeasure μ] :
    StochLE ((bayes μ (bernRegLik sigmoid X (Function.update y i false))).map fun β => (X *ᵥ β) i)
      ((bayes μ (bernRegLik sigmoid X (Function.update y i true))).map fun β => (X *ᵥ β) i) := by
  have hl : Measurable (bernRegLik sigmoid X (Function.update y i false)) := by
    have hc : (0 : ℝ) < ∏ _i : Fin n, (2 : ℝ)⁻¹ := by positivity
    rw [funext (bernRegLik_eq X _)]
    simp only [ENNReal.ofReal_mul hc.le]
    exact (measurable_pgLik X _ _).const_mul _
  have h2 := bayesDefined_bernRegLik X (Function.update y i true) μ
  have e : bernRegLik sigmoid X (Function.update y i true) = fun β =>
      bernRegLik sigmoid X (Function.update y i false) β * ENNReal.ofReal (Real.exp ((X *ᵥ β) i)) :=
    funext (bernRegLik_shift X y i)
  have h1 := bayesDefined_bernRegLik X (Function.update y i false) μ
  rw [e] at h2 ⊢
  generalize bernRegLik sigmoid X (Function.update y i false) = l at *
  exact stochLE_tilt (l := l) (f := fun β => (X *ᵥ β) i)
    (g := fun x => ENNReal.ofReal (Real.exp x)) hl (measurable_pred X i) mono_exp h1 h2

end Verif
