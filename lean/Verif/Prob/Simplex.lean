import Mathlib.MeasureTheory.Function.Jacobian
import Mathlib.MeasureTheory.Constructions.Pi
import Mathlib.MeasureTheory.Measure.Lebesgue.EqHaar
import Mathlib.Analysis.SpecialFunctions.Log.Deriv
import Mathlib.Analysis.SpecialFunctions.ExpDeriv
import Mathlib.LinearAlgebra.Matrix.SchurComplement
import Mathlib.LinearAlgebra.Determinant
import Mathlib.MeasureTheory.Function.SpecialFunctions.Basic

/-!
# The change of variables between the space and the simplex

`m` free coordinates `y`, completed to `m + 1` coordinates with sum zero, go to the probability vector
proportional to their exponentials.
-/

open MeasureTheory Real
open scoped ENNReal

namespace Verif.Simplex

variable {m : ℕ}

/-- Completion to a vector with sum zero. -/
def zero (y : Fin m → ℝ) : Fin (m + 1) → ℝ := Fin.snoc (α := fun _ => ℝ) y (-∑ j, y j)

/-- Completion to a vector with sum one. -/
def one (x : Fin m → ℝ) : Fin (m + 1) → ℝ := Fin.snoc (α := fun _ => ℝ) x (1 - ∑ j, x j)

/-- The normalising sum. -/
noncomputable def norm (y : Fin m → ℝ) : ℝ := ∑ i, exp (zero y i)

/-- The probability vector. -/
noncomputable def prob (y : Fin m → ℝ) (i : Fin (m + 1)) : ℝ := exp (zero y i - log (norm y))

/-- Its first `m` entries. -/
noncomputable def head (y : Fin m → ℝ) (j : Fin m) : ℝ := prob y j.castSucc

/-- The way back: logarithms, centred. -/
noncomputable def back (x : Fin (m + 1) → ℝ) (j : Fin m) : ℝ :=
  log (x j.castSucc) - (∑ i, log (x i)) / (m + 1)

/-- The first `m` entries of positive probability vectors. -/
def inner (m : ℕ) : Set (Fin m → ℝ) := {x | (∀ j, 0 < x j) ∧ ∑ j, x j < 1}

theorem zero_castSucc (y : Fin m → ℝ) (j : Fin m) : zero y j.castSucc = y j := by
  simp [zero]

theorem zero_last (y : Fin m → ℝ) : zero y (Fin.last m) = -∑ j, y j := by
  simp [zero]

theorem one_castSucc (y : Fin m → ℝ) (j : Fin m) : one y j.castSucc = y j := by
  simp [one]

theorem one_last (y : Fin m → ℝ) : one y (Fin.last m) = 1 - ∑ j, y j := by
  simp [one]

theorem sum_zero (y : Fin m → ℝ) : ∑ i, zero y i = 0 := by
  rw [Fin.sum_univ_castSucc, zero_last]
  simp [zero_castSucc]

theorem norm_pos (y : Fin m → ℝ) : 0 < norm y := Finset.sum_pos (fun _ _ => exp_pos _) ⟨0, Finset.mem_univ _⟩

theorem prob_eq (y : Fin m → ℝ) (i : Fin (m + 1)) : prob y i = exp (zero y i) / norm y := by
  rw [prob, exp_sub, exp_log (norm_pos y)]

theorem prob_pos (y : Fin m → ℝ) (i : Fin (m + 1)) : 0 < prob y i := exp_pos _

theorem sum_prob (y : Fin m → ℝ) : ∑ i, prob y i = 1 := by
  simp only [prob_eq]
  rw [← Finset.sum_div]
  exact div_self (norm_pos y).ne'

theorem one_head (y : Fin m → ℝ) : one (head y) = prob y := by
  have h := sum_prob y
  rw [Fin.sum_univ_castSucc] at h
  funext i
  refine Fin.lastCases ?_ (fun j => ?_) i
  · rw [one_last]
    simp only [head]
    linarith
  · rw [one_castSucc, head]

theorem back_prob (y : Fin m → ℝ) : back (prob y) = y := by
  funext j
  have h : ∀ i, log (prob y i) = zero y i - log (norm y) := fun i => by rw [prob, log_exp]
  simp only [back, h, Finset.sum_sub_distrib, sum_zero, Finset.sum_const, Finset.card_univ, Fintype.card_fin,
    nsmul_eq_mul, zero_castSucc]
  have : (m : ℝ) + 1 ≠ 0 := by positivity
  push_cast
  field_simp
  ring

theorem prob_back {x : Fin (m + 1) → ℝ} (h0 : ∀ i, 0 < x i) (h1 : ∑ i, x i = 1) : prob (back x) = x := by
  have hm : (m : ℝ) + 1 ≠ 0 := by positivity
  have hz : ∀ i, zero (back x) i = log (x i) - (∑ i, log (x i)) / (m + 1) := by
    intro i
    refine Fin.lastCases ?_ (fun j => ?_) i
    · rw [zero_last]
      simp only [back]
      rw [Finset.sum_sub_distrib, Finset.sum_const, Finset.card_univ, Fintype.card_fin, nsmul_eq_mul,
        Fin.sum_univ_castSucc]
      field_simp
      ring
    · rw [zero_castSucc, back]
  have he : ∀ i, exp (zero (back x) i) = x i * exp (-((∑ i, log (x i)) / (m + 1))) := by
    intro i
    rw [hz, sub_eq_add_neg, exp_add, exp_log (h0 i)]
  have hn : norm (back x) = exp (-((∑ i, log (x i)) / (m + 1))) := by
    simp only [norm, he]
    rw [← Finset.sum_mul, h1, one_mul]
  funext i
  rw [prob_eq, he, hn]
  exact mul_div_cancel_right₀ _ (exp_pos _).ne'

theorem head_injective : Function.Injective (head (m := m)) := by
  intro y y' h
  rw [← back_prob y, ← back_prob y', ← one_head, ← one_head, h]

theorem head_range : Set.range (head (m := m)) = inner m := by
  ext x
  constructor
  · rintro ⟨y, rfl⟩
    refine ⟨fun j => prob_pos _ _, ?_⟩
    have h := sum_prob y
    rw [Fin.sum_univ_castSucc] at h
    have := prob_pos y (Fin.last m)
    simp only [head]
    linarith
  · rintro ⟨h0, h1⟩
    refine ⟨back (one x), ?_⟩
    funext j
    rw [head, prob_back, one_castSucc]
    · intro i
      refine Fin.lastCases ?_ (fun j => ?_) i
      · rw [one_last]
        linarith
      · rw [one_castSucc]
        exact h0 j
    · rw [Fin.sum_univ_castSucc, one_last]
      simp [one_castSucc]

/-- The matrix of partial derivatives of `head`. -/
noncomputable def jac (y : Fin m → ℝ) : Matrix (Fin m) (Fin m) ℝ :=
  Matrix.diagonal (head y) * (1 + Matrix.replicateCol (Fin 1) (fun _ => (-1 : ℝ)) *
    Matrix.replicateRow (Fin 1) fun j => head y j - prob y (Fin.last m))

theorem jac_mulVec (y v : Fin m → ℝ) (j : Fin m) :
    (jac y).mulVec v j = head y j * (v j - ∑ i, (head y i - prob y (Fin.last m)) * v i) := by
  rw [jac, ← Matrix.mulVec_mulVec, Matrix.mulVec_diagonal, Matrix.add_mulVec, Matrix.one_mulVec,
    ← Matrix.mulVec_mulVec, Pi.add_apply]
  congr 1
  rw [sub_eq_add_neg]
  congr 1
  simp [Matrix.mulVec, dotProduct, Matrix.replicateCol, Matrix.replicateRow]

theorem jac_det (y : Fin m → ℝ) : (jac y).det = (m + 1) * ∏ i, prob y i := by
  have hdet : (1 + Matrix.replicateCol (Fin 1) (fun _ => (-1 : ℝ)) *
      Matrix.replicateRow (Fin 1) fun j => head y j - prob y (Fin.last m)).det =
      1 + (fun j => head y j - prob y (Fin.last m)) ⬝ᵥ (fun _ => (-1 : ℝ)) := by
    rw [← Matrix.det_one_add_replicateCol_mul_replicateRow (ι := Fin 1)]
    congr!
  rw [jac, Matrix.det_mul, Matrix.det_diagonal, hdet, Fin.prod_univ_castSucc]
  have h := sum_prob y
  rw [Fin.sum_univ_castSucc] at h
  have hs : 1 + (fun j => head y j - prob y (Fin.last m)) ⬝ᵥ (fun _ => (-1 : ℝ)) =
      (m + 1) * prob y (Fin.last m) := by
    simp only [dotProduct, mul_neg, mul_one, Finset.sum_neg_distrib, Finset.sum_sub_distrib, Finset.sum_const,
      Finset.card_univ, Fintype.card_fin, nsmul_eq_mul, head]
    linarith
  rw [hs]
  simp only [head]
  ring

theorem head_hasFDerivAt (y : Fin m → ℝ) :
    HasFDerivAt head (LinearMap.toContinuousLinearMap (Matrix.toLin' (jac y))) y := by
  rw [hasFDerivAt_pi']
  intro j
  have hp : ∀ i : Fin m, HasFDerivAt (fun y : Fin m → ℝ => y i)
      (ContinuousLinearMap.proj (R := ℝ) (φ := fun _ : Fin m => ℝ) i) y := fun i => hasFDerivAt_apply i y
  have hs : HasFDerivAt (fun y : Fin m → ℝ => -∑ i, y i)
      (-∑ i, ContinuousLinearMap.proj (R := ℝ) (φ := fun _ : Fin m => ℝ) i) y :=
    (HasFDerivAt.fun_sum fun i _ => hp i).neg
  have hn : HasFDerivAt (norm (m := m)) ((∑ i, exp (y i) •
      ContinuousLinearMap.proj (R := ℝ) (φ := fun _ : Fin m => ℝ) i) + exp (-∑ i, y i) •
        -∑ i, ContinuousLinearMap.proj (R := ℝ) (φ := fun _ : Fin m => ℝ) i) y := by
    have := (HasFDerivAt.fun_sum (u := Finset.univ) fun i _ => (hp i).exp).add hs.exp
    refine this.congr_of_eventuallyEq (Filter.Eventually.of_forall fun y => ?_)
    simp only [norm]
    rw [Fin.sum_univ_castSucc, zero_last]
    simp [zero_castSucc]
  have hh : HasFDerivAt (fun y : Fin m → ℝ => head y j) _ y :=
    ((hp j).sub (hn.log (norm_pos y).ne')).exp.congr_of_eventuallyEq
      (Filter.Eventually.of_forall fun y => by simp only [head, prob, zero_castSucc, Pi.sub_apply])
  refine hh.congr_fderiv (ContinuousLinearMap.ext fun v => ?_)
  symm
  simp only [ContinuousLinearMap.comp_apply, ContinuousLinearMap.proj_apply,
    LinearMap.coe_toContinuousLinearMap', Matrix.toLin'_apply, jac_mulVec]
  have e1 : ∀ i, head y i = exp (y i) * (norm y)⁻¹ := fun i => by
    rw [head, prob_eq, zero_castSucc, div_eq_mul_inv]
  have e2 : prob y (Fin.last m) = exp (-∑ i, y i) * (norm y)⁻¹ := by
    rw [prob_eq, zero_last, div_eq_mul_inv]
  simp only [smul_apply, sub_apply, add_apply, neg_apply, sum_apply, ContinuousLinearMap.proj_apply,
    smul_eq_mul, Pi.sub_apply]
  rw [exp_sub, exp_log (norm_pos y), div_eq_mul_inv, e1 j]
  congr 2
  rw [mul_add, Finset.mul_sum, mul_neg, mul_neg, ← sub_eq_add_neg, Finset.mul_sum, Finset.mul_sum,
    ← Finset.sum_sub_distrib]
  refine Finset.sum_congr rfl fun i _ => ?_
  rw [e1, e2]
  ring

theorem measurable_zero (i : Fin (m + 1)) : Measurable fun y : Fin m → ℝ => zero y i := by
  refine Fin.lastCases ?_ (fun j => ?_) i
  · simp only [zero_last]
    exact (Finset.measurable_sum _ fun j _ => measurable_pi_apply j).neg
  · simp only [zero_castSucc]
    exact measurable_pi_apply j

theorem measurable_prob : Measurable (prob (m := m)) := by
  refine measurable_pi_lambda _ fun i => ?_
  refine measurable_exp.comp ((measurable_zero i).sub (measurable_log.comp ?_))
  exact Finset.measurable_sum _ fun i _ => measurable_exp.comp (measurable_zero i)

theorem measurable_one : Measurable (one (m := m)) := by
  refine measurable_pi_lambda _ fun i => ?_
  refine Fin.lastCases ?_ (fun j => ?_) i
  · simp only [one_last]
    exact measurable_const.sub (Finset.measurable_sum _ fun i _ => measurable_pi_apply i)
  · simp only [one_castSucc]
    exact measurable_pi_apply j

theorem measurable_back : Measurable (back (m := m)) := by
  refine measurable_pi_lambda _ fun _ => ?_
  exact (measurable_log.comp (measurable_pi_apply _)).sub
    ((Finset.measurable_sum _ fun i _ => measurable_log.comp (measurable_pi_apply i)).div_const _)

theorem measurable_head : Measurable (head (m := m)) :=
  measurable_pi_lambda _ fun _ => (measurable_pi_apply _).comp measurable_prob

/-- Lebesgue measure on the first `m` entries of probability vectors is the image of the measure with density
`(m + 1) ∏ pᵢ`. -/
theorem map_head :
    (volume.withDensity fun y : Fin m → ℝ => ENNReal.ofReal ((m + 1) * ∏ i, prob y i)).map head =
      volume.restrict (inner m) := by
  ext A hA
  have hA' := measurable_head hA
  rw [Measure.map_apply measurable_head hA, withDensity_apply _ hA', Measure.restrict_apply hA,
    ← head_range, ← Set.image_preimage_eq_inter_range]
  have := lintegral_image_eq_lintegral_abs_det_fderiv_mul volume hA'
    (fun y _ => (head_hasFDerivAt y).hasFDerivWithinAt) head_injective.injOn (fun _ => 1)
  simp only [lintegral_const, one_mul, Measure.restrict_apply_univ, mul_one] at this
  rw [this]
  refine lintegral_congr fun y => ?_
  have hd : (LinearMap.toContinuousLinearMap (Matrix.toLin' (jac y))).det = (jac y).det :=
    LinearMap.det_toLin' _
  rw [hd, jac_det, abs_of_pos]
  exact mul_pos (by positivity) (Finset.prod_pos fun i _ => prob_pos y i)

theorem map_prob :
    (volume.withDensity fun y : Fin m → ℝ => ENNReal.ofReal ((m + 1) * ∏ i, prob y i)).map prob =
      (volume.restrict (inner m)).map one := by
  rw [← map_head, Measure.map_map measurable_one measurable_head]
  congr 1
  funext y
  exact (one_head y).symm

end Verif.Simplex
