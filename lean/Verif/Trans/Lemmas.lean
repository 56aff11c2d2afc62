import Verif.Trans.Model
import Verif.Trans.Spec
import Verif.Conj.Lemmas
import Mathlib.MeasureTheory.Function.Jacobian
import Mathlib.MeasureTheory.Integral.IntegralEqImproper
import Mathlib.Probability.Distributions.Cauchy

/-!
# Lemmas about the location-scale laws
-/

open MeasureTheory ProbabilityTheory

namespace Verif.Trans

theorem measurable_lsDens (d : Dist) (m s : ℝ) : Measurable (lsDens d m s) := by
  cases d <;> unfold lsDens <;> fun_prop

theorem lsDens_pos {d : Dist} (hd : d ∈ twoParam) {s : ℝ} (hs : 0 < s) (m x : ℝ) :
    0 < lsDens d m s x := by
  have := Real.pi_pos
  simp only [twoParam, List.mem_cons, List.not_mem_nil, or_false] at hd
  rcases hd with rfl | rfl | rfl | rfl | rfl <;> simp only [lsDens] <;> positivity

theorem lsDens_scale {d : Dist} (hd : d ∈ twoParam) {s : ℝ} (hs : 0 < s) (m z : ℝ) :
    s * lsDens d m s (m + s * z) = lsDens d 0 1 z := by
  have hpi := Real.pi_pos
  have e1 : (m + s * z - m) / s = z := by field_simp; ring
  have e2 : -(m + s * z - m) / s = -z := by field_simp; ring
  simp only [twoParam, List.mem_cons, List.not_mem_nil, or_false] at hd
  rcases hd with rfl | rfl | rfl | rfl | rfl <;> simp only [lsDens]
  · rw [e1]
    simp
    field_simp
  · rw [e1, e2]
    simp
    field_simp
  · have e3 : -|m + s * z - m| / s = -|z| := by
      rw [add_sub_cancel_left, abs_mul, abs_of_pos hs]
      field_simp
    rw [e3]
    simp
    field_simp
  · rw [e2]
    simp
    field_simp
  · have e4 : -(m + s * z - m) ^ 2 / (2 * s ^ 2) = -z ^ 2 / 2 := by
      rw [add_sub_cancel_left]
      field_simp
    rw [e4]
    simp
    field_simp

/-- The affine image of the standard law. -/
theorem map_lsLaw {d : Dist} (hd : d ∈ twoParam) {s : ℝ} (hs : 0 < s) (m : ℝ) :
    (lsLaw d 0 1).map (fun z => m + s * z) = lsLaw d m s := by
  have hg : Measurable fun z : ℝ => m + s * z := by fun_prop
  refine Measure.ext_of_lintegral _ fun φ hφ => ?_
  have hφg : Measurable fun z : ℝ => φ (m + s * z) := hφ.comp hg
  rw [lintegral_map hφ hg, lsLaw, lsLaw, lintegral_withDensity_eq_lintegral_mul _
    (measurable_lsDens d 0 1).ennreal_ofReal hφg, lintegral_withDensity_eq_lintegral_mul _
    (measurable_lsDens d m s).ennreal_ofReal hφ]
  have hinj : Set.InjOn (fun z : ℝ => m + s * z) Set.univ := by
    intro a _ b _ h
    have h1 : s * a = s * b := add_left_cancel h
    exact mul_left_cancel₀ hs.ne' h1
  have himg : (fun z : ℝ => m + s * z) '' Set.univ = Set.univ := by
    refine Set.eq_univ_of_forall fun x => ⟨(x - m) / s, Set.mem_univ _, ?_⟩
    field_simp
    ring
  have hder : ∀ z ∈ (Set.univ : Set ℝ), HasDerivWithinAt (fun z : ℝ => m + s * z) s Set.univ z :=
    fun z _ => by
      have := ((hasDerivAt_id z).const_mul s).const_add m
      simp only [id, mul_one] at this
      exact this.hasDerivWithinAt
  have := lintegral_image_eq_lintegral_abs_deriv_mul MeasurableSet.univ hder hinj
    ((fun x => ENNReal.ofReal (lsDens d m s x)) * φ)
  rw [himg, Measure.restrict_univ] at this
  rw [this]
  refine lintegral_congr fun z => ?_
  simp only [Pi.mul_apply]
  rw [← mul_assoc, ← ENNReal.ofReal_mul (abs_nonneg _), abs_of_pos hs, lsDens_scale hd hs]

instance (d : Dist) (m s : ℝ) : SigmaFinite (lsLaw d m s) := by
  unfold lsLaw
  infer_instance

theorem lsLaw_ne_zero {d : Dist} (hd : d ∈ twoParam) {s : ℝ} (hs : 0 < s) (m : ℝ) {S : Set ℝ}
    (hS : volume S ≠ 0) : lsLaw d m s S ≠ 0 := by
  intro h
  have : volume ≪ lsLaw d m s := by
    unfold lsLaw
    refine withDensity_absolutelyContinuous' (measurable_lsDens d m s).ennreal_ofReal.aemeasurable
      (ae_of_all _ fun x => ?_)
    simpa using lsDens_pos hd hs m x
  exact hS (this h)

end Verif.Trans
