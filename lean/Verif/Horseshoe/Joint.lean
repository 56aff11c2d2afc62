import Verif.Horseshoe.Lemmas

/-!
# Conditionals of the augmented joint density, and the law of the step in the rate reading
-/

open MeasureTheory ProbabilityTheory Real
open scoped ENNReal

namespace Verif.Horseshoe

variable {p : ℕ}

/-- Reference measure of the auxiliary variables and of the precisions. -/
noncomputable abbrev refM (p : ℕ) : Measure ((Fin p → ℝ) × ℝ) :=
  (Measure.pi fun _ : Fin p => volPos).prod volPos

/-- Joint density of auxiliaries `x`, local precisions `w` and global precision `t`, up to a
constant. -/
noncomputable def joint (c : Fin p → ℝ) (x : (Fin p → ℝ) × ℝ) (w : Fin p → ℝ) (t : ℝ) : ℝ :=
  (∏ j, exp (-((1 + w j) * x.1 j + c j * w j * t))) * t ^ (((p : ℝ) - 1) / 2) *
    exp (-((1 + t) * x.2))

theorem measurable_joint (c : Fin p → ℝ) :
    Measurable fun q : ((Fin p → ℝ) × ℝ) × (Fin p → ℝ) × ℝ =>
      ENNReal.ofReal (joint c q.1 q.2.1 q.2.2) := by
  unfold joint
  fun_prop

theorem measurable_joint_aux (c w : Fin p → ℝ) (t : ℝ) :
    Measurable fun x => ENNReal.ofReal (joint c x w t) := by
  unfold joint
  fun_prop

theorem measurable_joint_local (c : Fin p → ℝ) (x : (Fin p → ℝ) × ℝ) (t : ℝ) :
    Measurable fun w => ENNReal.ofReal (joint c x w t) := by
  unfold joint
  fun_prop

theorem measurable_joint_global (c w : Fin p → ℝ) (x : (Fin p → ℝ) × ℝ) :
    Measurable fun t => ENNReal.ofReal (joint c x w t) := by
  unfold joint
  fun_prop

theorem isProbabilityMeasure_pi_gamma {a r : Fin p → ℝ} (ha : ∀ j, 0 < a j) (hr : ∀ j, 0 < r j) :
    IsProbabilityMeasure (Measure.pi fun j => gammaMeasure (a j) (r j)) := by
  have : ∀ j, IsProbabilityMeasure (gammaMeasure (a j) (r j)) :=
    fun j => isProbabilityMeasure_gammaMeasure (ha j) (hr j)
  infer_instance

/-- Conditional of the auxiliaries, and the marginal. -/
theorem joint_aux (c : Fin p → ℝ) {r : (Fin p → ℝ) × ℝ} (hr : AllPos r) :
    BayesDefined (refM p) (fun x => ENNReal.ofReal (joint c x r.1 r.2)) ∧
    bayes (refM p) (fun x => ENNReal.ofReal (joint c x r.1 r.2)) =
      (Measure.pi fun j => gammaMeasure 1 (1 + r.1 j)).prod (gammaMeasure 1 (1 + r.2)) ∧
    ∫⁻ x, ENNReal.ofReal (joint c x r.1 r.2) ∂refM p = ENNReal.ofReal (marg c r) := by
  have h1 : ∀ j, 0 < 1 + r.1 j := fun j => by have := hr.1 j; positivity
  have h2 : 0 < 1 + r.2 := by have := hr.2; positivity
  have i1 : IsProbabilityMeasure (Measure.pi fun j => gammaMeasure 1 (1 + r.1 j)) :=
    isProbabilityMeasure_pi_gamma (fun _ => one_pos) h1
  have i2 := isProbabilityMeasure_gammaMeasure one_pos h2
  have hmpos : 0 < marg c r := by
    unfold marg
    have := hr.2
    exact mul_pos (Finset.prod_pos fun j _ => div_pos (exp_pos _) (h1 j)) (by positivity)
  have hm1 := (measurable_prod_gammaPDFReal (fun _ : Fin p => 1) (fun j => 1 + r.1 j)).ennreal_ofReal
  have hm2 := (measurable_gammaPDFReal 1 (1 + r.2)).ennreal_ofReal
  refine bayes_of_density
    (ν := (Measure.pi fun j => gammaMeasure 1 (1 + r.1 j)).prod (gammaMeasure 1 (1 + r.2)))
    (g := fun x => ENNReal.ofReal (∏ j, gammaPDFReal 1 (1 + r.1 j) (x.1 j)) *
      ENNReal.ofReal (gammaPDFReal 1 (1 + r.2) x.2)) ?_ ?_ ?_ ?_ ENNReal.ofReal_ne_top ?_
  · rw [pi_gammaMeasure_eq (a := fun _ => 1) (fun _ => one_pos) h1,
      gammaMeasure_eq_volPos 1 (1 + r.2)]
    exact prod_withDensity hm1 hm2
  · exact (hm1.comp measurable_fst).mul (hm2.comp measurable_snd)
  · exact measurable_joint_aux c r.1 r.2
  · simpa using hmpos
  · filter_upwards [ae_volPos_prod p] with x hx
    rw [← ENNReal.ofReal_mul (Finset.prod_nonneg fun j _ => gammaPDFReal_nonneg one_pos (h1 j) _),
      ← ENNReal.ofReal_mul hmpos.le]
    congr 1
    have e1 : ∀ j, gammaPDFReal 1 (1 + r.1 j) (x.1 j) = (1 + r.1 j) * exp (-((1 + r.1 j) * x.1 j)) :=
      fun j => gammaPDFReal_one (hx.1 j)
    rw [Finset.prod_congr rfl fun j _ => e1 j, gammaPDFReal_one hx.2, joint, marg]
    have e2 : (∏ j, exp (-(c j * r.1 j * r.2)) / (1 + r.1 j)) *
        ∏ j, (1 + r.1 j) * exp (-((1 + r.1 j) * x.1 j)) =
        ∏ j, exp (-((1 + r.1 j) * x.1 j + c j * r.1 j * r.2)) := by
      rw [← Finset.prod_mul_distrib]
      refine Finset.prod_congr rfl fun j _ => ?_
      rw [neg_add, exp_add]
      have := (h1 j).ne'
      field_simp
    rw [← e2]
    generalize (∏ j, exp (-(c j * r.1 j * r.2)) / (1 + r.1 j)) = P1
    generalize (∏ j, (1 + r.1 j) * exp (-((1 + r.1 j) * x.1 j))) = P2
    field_simp

/-- Conditional of the local precisions. -/
theorem joint_local {c : Fin p → ℝ} (hc : ∀ j, 0 ≤ c j) {x : (Fin p → ℝ) × ℝ} (hx : AllPos x)
    {t : ℝ} (ht : 0 < t) :
    BayesDefined (Measure.pi fun _ : Fin p => volPos) (fun w => ENNReal.ofReal (joint c x w t)) ∧
    bayes (Measure.pi fun _ : Fin p => volPos) (fun w => ENNReal.ofReal (joint c x w t)) =
      Measure.pi fun j => gammaMeasure 1 (x.1 j + c j * t) := by
  have h1 : ∀ j, 0 < x.1 j + c j * t := fun j =>
    add_pos_of_pos_of_nonneg (hx.1 j) (mul_nonneg (hc j) ht.le)
  have i1 : IsProbabilityMeasure (Measure.pi fun j => gammaMeasure 1 (x.1 j + c j * t)) :=
    isProbabilityMeasure_pi_gamma (fun _ => one_pos) h1
  have hK : 0 < (∏ j, exp (-(x.1 j)) / (x.1 j + c j * t)) *
      (t ^ (((p : ℝ) - 1) / 2) * exp (-((1 + t) * x.2))) :=
    mul_pos (Finset.prod_pos fun j _ => div_pos (exp_pos _) (h1 j)) (by positivity)
  have := bayes_of_density (ν := Measure.pi fun j => gammaMeasure 1 (x.1 j + c j * t))
    (c := ENNReal.ofReal ((∏ j, exp (-(x.1 j)) / (x.1 j + c j * t)) *
      (t ^ (((p : ℝ) - 1) / 2) * exp (-((1 + t) * x.2)))))
    (lik := fun w => ENNReal.ofReal (joint c x w t))
    (pi_gammaMeasure_eq (a := fun _ => 1) (fun _ => one_pos) h1)
    (measurable_prod_gammaPDFReal (fun _ : Fin p => 1) (fun j => x.1 j + c j * t)).ennreal_ofReal
    (measurable_joint_local c x t)
    (by simpa using hK) ENNReal.ofReal_ne_top ?_
  · exact ⟨this.1, this.2.1⟩
  · filter_upwards [ae_pi_volPos p] with w hw
    rw [← ENNReal.ofReal_mul hK.le]
    congr 1
    have e1 : ∀ j, gammaPDFReal 1 (x.1 j + c j * t) (w j) =
        (x.1 j + c j * t) * exp (-((x.1 j + c j * t) * w j)) := fun j => gammaPDFReal_one (hw j)
    rw [Finset.prod_congr rfl fun j _ => e1 j, joint]
    have e2 : (∏ j, exp (-(x.1 j)) / (x.1 j + c j * t)) *
        ∏ j, (x.1 j + c j * t) * exp (-((x.1 j + c j * t) * w j)) =
        ∏ j, exp (-((1 + w j) * x.1 j + c j * w j * t)) := by
      rw [← Finset.prod_mul_distrib]
      refine Finset.prod_congr rfl fun j _ => ?_
      rw [show -((1 + w j) * x.1 j + c j * w j * t) = -(x.1 j) + -((x.1 j + c j * t) * w j) by ring,
        exp_add]
      have := (h1 j).ne'
      field_simp
    rw [← e2]
    ring

/-- Conditional of the global precision. -/
theorem joint_global {c : Fin p → ℝ} (hc : ∀ j, 0 ≤ c j) {x : (Fin p → ℝ) × ℝ} (hx : AllPos x)
    {w : Fin p → ℝ} (hw : ∀ j, 0 < w j) :
    BayesDefined volPos (fun t => ENNReal.ofReal (joint c x w t)) ∧
    bayes volPos (fun t => ENNReal.ofReal (joint c x w t)) =
      gammaMeasure (((p : ℝ) + 1) / 2) (x.2 + ∑ j, c j * w j) := by
  have ha : 0 < ((p : ℝ) + 1) / 2 := by positivity
  have h1 : 0 < x.2 + ∑ j, c j * w j :=
    add_pos_of_pos_of_nonneg hx.2 (Finset.sum_nonneg fun j _ => mul_nonneg (hc j) (hw j).le)
  have i1 := isProbabilityMeasure_gammaMeasure ha h1
  have hG := Gamma_pos_of_pos ha
  have hK : 0 < (∏ j, exp (-((1 + w j) * x.1 j))) * exp (-x.2) /
      ((x.2 + ∑ j, c j * w j) ^ (((p : ℝ) + 1) / 2) / Gamma (((p : ℝ) + 1) / 2)) := by
    have : 0 < ∏ j, exp (-((1 + w j) * x.1 j)) := Finset.prod_pos fun j _ => exp_pos _
    positivity
  have := bayes_of_density (ν := gammaMeasure (((p : ℝ) + 1) / 2) (x.2 + ∑ j, c j * w j))
    (c := ENNReal.ofReal ((∏ j, exp (-((1 + w j) * x.1 j))) * exp (-x.2) /
      ((x.2 + ∑ j, c j * w j) ^ (((p : ℝ) + 1) / 2) / Gamma (((p : ℝ) + 1) / 2))))
    (lik := fun t => ENNReal.ofReal (joint c x w t))
    (gammaMeasure_eq_volPos _ _) (measurable_gammaPDFReal _ _).ennreal_ofReal
    (measurable_joint_global c w x)
    (by simpa using hK) ENNReal.ofReal_ne_top ?_
  · exact ⟨this.1, this.2.1⟩
  · filter_upwards [ae_volPos] with t ht
    rw [← ENNReal.ofReal_mul hK.le]
    congr 1
    rw [joint, gammaPDFReal, if_pos ht.le,
      show ((p : ℝ) + 1) / 2 - 1 = ((p : ℝ) - 1) / 2 by ring]
    have e2 : ∏ j, exp (-((1 + w j) * x.1 j + c j * w j * t)) =
        (∏ j, exp (-((1 + w j) * x.1 j))) * exp (-((∑ j, c j * w j) * t)) := by
      rw [Finset.sum_mul, ← Finset.sum_neg_distrib, exp_sum, ← Finset.prod_mul_distrib]
      refine Finset.prod_congr rfl fun j _ => ?_
      rw [neg_add, exp_add]
    have e3 : exp (-((x.2 + ∑ j, c j * w j) * t)) =
        exp (-(x.2 * t)) * exp (-((∑ j, c j * w j) * t)) := by
      rw [← exp_add]; congr 1; ring
    have e4 : exp (-((1 + t) * x.2)) = exp (-x.2) * exp (-(x.2 * t)) := by
      rw [← exp_add]; congr 1; ring
    rw [e2, e3, e4]
    have hne := (rpow_pos_of_pos h1 (((p : ℝ) + 1) / 2)).ne'
    generalize (∏ j, exp (-((1 + w j) * x.1 j))) = P
    field_simp

end Verif.Horseshoe
