import Verif.PG.AnyPrior
import Verif.Prob.HalfLine
import Mathlib.Probability.Independence.Basic

/-!
# Lemmas: how the Polya-gamma step reacts to a change of its inputs
-/

open MeasureTheory ProbabilityTheory Matrix
open scoped ENNReal

namespace Verif

/-- A mixture over an image. -/
theorem bind_of_map {A B C : Type*} [MeasurableSpace A] [MeasurableSpace B] [MeasurableSpace C]
    {m : Measure A} {f : A → B} (hf : Measurable f) {K : B → Measure C} (hK : Measurable K) :
    (m.map f).bind K = m.bind fun x => K (f x) := by
  rw [Measure.bind, Measure.bind, Measure.map_map hK hf]
  rfl

/-- Some of the coordinates of independent variables, in any order. -/
theorem pi_map_comp {n m : ℕ} {f : Fin m → Fin n} (hf : Function.Injective f)
    (μ : Fin n → Measure ℝ) [∀ i, IsProbabilityMeasure (μ i)] :
    (Measure.pi μ).map (fun (w : Fin n → ℝ) i => w (f i)) = Measure.pi fun i => μ (f i) := by
  have h1 : iIndepFun (fun (i : Fin n) (w : Fin n → ℝ) => w i) (Measure.pi μ) :=
    iIndepFun_pi (X := fun _ x => x) fun _ => aemeasurable_id
  have h2 := (iIndepFun_iff_map_fun_eq_pi_map
    (fun i => (measurable_pi_apply (f i)).aemeasurable)).1 (h1.precomp hf)
  refine h2.trans ?_
  congr 1
  ext1 i
  exact (measurePreserving_eval μ (f i)).map_eq

section

variable {p n m : ℕ}

/-- The step with the conditional law of the coefficients written as a posterior. -/
theorem pgStep_eq_bayes {la : LinAlg} (hla : la.Sound) {d : Fin p → ℝ} (hd : ∀ j, 0 < d j)
    (X : Matrix (Fin n) (Fin p) ℝ) {b : Fin n → ℝ} (hb : ∀ i, 0 < b i) (κ : Fin n → ℝ)
    (β : Fin p → ℝ) :
    pgStep la d X b κ β = (Measure.pi fun i => pg (b i) ((X *ᵥ β) i)).bind fun w =>
      bayes (mvn 0 (diagonal d)⁻¹) fun β => pgJoint X κ β w := by
  refine Measure.bind_congr_right ?_
  rw [(pi_pg_eq X hb κ β).2.2]
  refine (bayes_absolutelyContinuous _ _).ae_le ?_
  filter_upwards [ae_pi_pg0_pos hb] with w hw
  exact (normalRegression_eq_bayes hla hd X κ hw).2

/-- Only the observations with a regressor that is not zero matter, and not their order. -/
theorem pgStep_rows {la : LinAlg} (hla : la.Sound) {d : Fin p → ℝ} (hd : ∀ j, 0 < d j)
    (X : Matrix (Fin n) (Fin p) ℝ) {b : Fin n → ℝ} (hb : ∀ i, 0 < b i) (κ : Fin n → ℝ)
    {f : Fin m → Fin n} (hf : Function.Injective f) (h0 : ∀ i, i ∉ Set.range f → ∀ j, X i j = 0)
    (β : Fin p → ℝ) :
    pgStep la d (X.submatrix f id) (fun i => b (f i)) (fun i => κ (f i)) β = pgStep la d X b κ β := by
  rw [pgStep_eq_bayes hla hd _ (fun i => hb (f i)), pgStep_eq_bayes hla hd _ hb]
  have hpr : ∀ i, IsProbabilityMeasure (pg (b i) ((X *ᵥ β) i)) := fun i =>
    isProbabilityMeasure_pg (hb i) _
  have hrow : ∀ (β : Fin p → ℝ) i, (X.submatrix f id *ᵥ β) i = (X *ᵥ β) (f i) := fun β i => rfl
  have hpi := pi_map_comp hf fun i => pg (b i) ((X *ᵥ β) i)
  simp only [hrow]
  rw [← hpi, bind_of_map (by fun_prop) (measurable_bayes_pgJoint d _ _)]
  refine Measure.bind_congr_right (ae_of_all _ fun w => ?_)
  refine congrArg (bayes (mvn 0 (diagonal d)⁻¹)) (funext fun β' => ?_)
  simp only [pgJoint, hrow]
  congr 1
  rw [← Finset.prod_image (s := Finset.univ) (g := f)
    (f := fun i => Real.exp (κ i * (X *ᵥ β') i) * Real.exp (-((X *ᵥ β') i ^ 2 / 2 * w i)))
    (fun i _ j _ h => hf h)]
  refine Finset.prod_subset (Finset.subset_univ _) fun i _ hi => ?_
  have hz : (X *ᵥ β') i = 0 := by
    simp only [mulVec, dotProduct]
    exact Finset.sum_eq_zero fun j _ => by
      rw [h0 i (fun ⟨k, hk⟩ => hi (Finset.mem_image.2 ⟨k, Finset.mem_univ _, hk⟩)), zero_mul]
  simp [hz]

theorem map_mulVec_mvn (S : Matrix (Fin p) (Fin p) ℝ) {d : Fin p → ℝ} (hd : ∀ j, 0 < d j) :
    (mvn 0 (diagonal d)⁻¹).map (fun β => S *ᵥ β) = mvn 0 (S * (diagonal d)⁻¹ * Sᵀ) := by
  have hC : (diagonal d)⁻¹ = diagonal (fun j => √(d j)⁻¹) * (diagonal fun j => √(d j)⁻¹)ᵀ := by
    refine inv_eq_left_inv ?_
    rw [diagonal_transpose, diagonal_mul_diagonal, diagonal_mul_diagonal, ← diagonal_one]
    congr 1
    ext j
    rw [Real.mul_self_sqrt (inv_pos.2 (hd j)).le, inv_mul_cancel₀ (hd j).ne']
  have h := map_affine_iidNormal (0 : Fin p → ℝ) (diagonal fun j => √(d j)⁻¹)
  have h' := map_affine_iidNormal (0 : Fin p → ℝ) (S * diagonal fun j => √(d j)⁻¹)
  rw [hC, ← h, Measure.map_map (by fun_prop) (by fun_prop)]
  rw [transpose_mul, Matrix.mul_assoc] at h'
  rw [Matrix.mul_assoc, Matrix.mul_assoc, ← h']
  congr 1
  ext1 z
  simp [mulVec_mulVec]

/-- New coordinates for the coefficients. -/
theorem pgStep_linear {la : LinAlg} (hla : la.Sound) {d d' : Fin p → ℝ} (hd : ∀ j, 0 < d j)
    (hd' : ∀ j, 0 < d' j) (X : Matrix (Fin n) (Fin p) ℝ) {b : Fin n → ℝ} (hb : ∀ i, 0 < b i)
    (κ : Fin n → ℝ) (S : Matrix (Fin p) (Fin p) ℝ)
    (hS : S * (diagonal d')⁻¹ * Sᵀ = (diagonal d)⁻¹) (β : Fin p → ℝ) :
    (pgStep la d' (X * S) b κ β).map (fun β => S *ᵥ β) = pgStep la d X b κ (S *ᵥ β) := by
  have hm : Measurable fun β : Fin p → ℝ => S *ᵥ β := by fun_prop
  rw [pgStep_eq_bayes hla hd' _ hb, pgStep_eq_bayes hla hd _ hb,
    map_bind (measurable_bayes_pgJoint d' _ _).aemeasurable hm]
  simp only [mulVec_mulVec]
  refine Measure.bind_congr_right (ae_of_all _ fun w => ?_)
  have h1 : (fun β' => pgJoint (X * S) κ β' w) = fun β' => pgJoint X κ (S *ᵥ β') w := by
    ext β'
    simp only [pgJoint, mulVec_mulVec]
  simp only [h1]
  rw [bayes_map (l := fun β' => pgJoint X κ β' w) hm (measurable_pgJoint_right X κ w),
    map_mulVec_mvn S hd', hS]

end

end Verif
