import Verif.Prob.PolyaGamma
import Verif.Prob.HalfLine
import Mathlib.Analysis.SpecialFunctions.Gamma.Deriv
import Mathlib.MeasureTheory.Constructions.Cylinders

/-!
# The Pólya-Gamma law depends measurably on both parameters
-/

open MeasureTheory ProbabilityTheory
open scoped ENNReal

namespace Verif

theorem measurable_Gamma_posOr1 : Measurable fun b => Real.Gamma (posOr1 b) := by
  have hc : ContinuousOn Real.Gamma (Set.Ioi 0) := fun s hs =>
    (Real.differentiableAt_Gamma fun m => by
      have h1 : (0 : ℝ) < s := hs
      have h2 : (0 : ℝ) ≤ m := Nat.cast_nonneg m
      linarith).continuousAt.continuousWithinAt
  classical
  have := hc.measurable_piecewise (g := fun _ => Real.Gamma 1) continuousOn_const measurableSet_Ioi
  convert this using 1
  funext b
  by_cases h : 0 < b
  · rw [posOr1_of_pos h, Set.piecewise_eq_of_mem _ _ _ (Set.mem_Ioi.2 h)]
  · rw [Set.piecewise_eq_of_notMem _ _ _ (by simpa using h), posOr1, if_neg h]

theorem measurable_gammaMeasure_shape : Measurable fun b => gammaMeasure (posOr1 b) 1 := by
  refine Measure.measurable_of_measurable_coe _ fun S hS => ?_
  simp only [gammaMeasure, withDensity_apply _ hS]
  have hm : Measurable fun q : ℝ × ℝ => gammaPDF (posOr1 q.1) 1 q.2 := by
    refine Measurable.ennreal_ofReal ?_
    refine Measurable.ite (measurableSet_le measurable_const measurable_snd) ?_ measurable_const
    have h1 : Measurable fun q : ℝ × ℝ => posOr1 q.1 := measurable_posOr1.comp measurable_fst
    have h2 : Measurable fun q : ℝ × ℝ => Real.Gamma (posOr1 q.1) :=
      measurable_Gamma_posOr1.comp measurable_fst
    fun_prop
  exact hm.lintegral_prod_right

theorem measurable_gammaSeq : Measurable fun b => gammaSeq (posOr1 b) := by
  have : ∀ b, IsProbabilityMeasure (gammaSeq (posOr1 b)) := fun b =>
    isProbabilityMeasure_gammaSeq (posOr1_pos b)
  refine Measurable.measure_of_isPiSystem_of_isProbabilityMeasure
    (generateFrom_squareCylinders (α := fun _ : ℕ => ℝ)).symm
    (isPiSystem_squareCylinders (fun _ => MeasurableSpace.isPiSystem_measurableSet)
      fun _ => by simp) ?_
  rintro _ ⟨s, t, ht, rfl⟩
  have ht' : ∀ i, MeasurableSet (t i) := fun i => ht i (Set.mem_univ i)
  have e : ∀ b, gammaSeq (posOr1 b) ((s : Set ℕ).pi t) = ∏ i ∈ s, gammaMeasure (posOr1 b) 1 (t i) := by
    intro b
    have := isProbabilityMeasure_gammaMeasure (posOr1_pos b) one_pos
    exact Measure.infinitePi_pi _ fun i _ => ht' i
  simp only [e]
  exact Finset.measurable_prod _ fun i _ =>
    (Measure.measurable_coe (ht' i)).comp measurable_gammaMeasure_shape

theorem measurable_pg0 : Measurable fun b => pg0 (posOr1 b) :=
  (Measure.measurable_map _ measurable_pgSum).comp measurable_gammaSeq

/-- The law as a function of a pair. -/
noncomputable def pgOf (q : ℝ × ℝ) : Measure ℝ := pg (posOr1 q.1) q.2

theorem measurable_pgOf : Measurable pgOf := by
  let κ : Kernel (ℝ × ℝ) ℝ := ⟨fun q => pg0 (posOr1 q.1), measurable_pg0.comp measurable_fst⟩
  have : IsMarkovKernel κ := ⟨fun q => isProbabilityMeasure_pg0 (posOr1_pos q.1)⟩
  have hf : Measurable fun r : (ℝ × ℝ) × ℝ => ENNReal.ofReal (Real.exp (-(r.1.2 ^ 2 / 2 * r.2))) := by
    fun_prop
  refine Measure.measurable_of_measurable_coe _ fun S hS => ?_
  have e : ∀ q : ℝ × ℝ, pgOf q S =
      (∫⁻ w, ENNReal.ofReal (Real.exp (-(q.2 ^ 2 / 2 * w))) ∂κ q)⁻¹ *
        ∫⁻ w, ENNReal.ofReal (Real.exp (-(q.2 ^ 2 / 2 * w))) * S.indicator 1 w ∂κ q := by
    intro q
    have hm : Measurable fun w : ℝ => ENNReal.ofReal (Real.exp (-(q.2 ^ 2 / 2 * w))) := by fun_prop
    rw [pgOf, pg, bayes, Measure.smul_apply, withDensity_apply _ hS, smul_eq_mul, ← lintegral_indicator hS]
    congr 1
    refine lintegral_congr fun w => ?_
    by_cases h : w ∈ S <;> simp [h]
  simp only [e]
  exact (hf.lintegral_kernel_prod_right' (κ := κ)).inv.mul
    ((hf.mul ((measurable_one.indicator hS).comp measurable_snd)).lintegral_kernel_prod_right' (κ := κ))

/-- A vector of independent variables whose laws depend measurably on a parameter. -/
theorem measurable_pi_of {α : Type*} [MeasurableSpace α] {n : ℕ} {κ : α → Fin n → Measure ℝ}
    (hκ : ∀ i, Measurable fun x => κ x i) (hp : ∀ x i, IsProbabilityMeasure (κ x i)) :
    Measurable fun x => Measure.pi (κ x) := by
  refine Measurable.measure_of_isPiSystem_of_isProbabilityMeasure generateFrom_pi.symm
    isPiSystem_pi ?_
  rintro _ ⟨s, hs, rfl⟩
  simp only [Measure.pi_pi]
  refine Finset.measurable_prod _ fun i _ => ?_
  have hsi : MeasurableSet (s i) := hs i (Set.mem_univ i)
  exact (Measure.measurable_coe hsi).comp (hκ i)

/-- A vector of independent Pólya-Gamma variables depends measurably on a parameter. -/
theorem measurable_pi_pg {α : Type*} [MeasurableSpace α] {n : ℕ} {b c : α → Fin n → ℝ}
    (hb : Measurable b) (hc : Measurable c) :
    Measurable fun x => Measure.pi fun i => pg (posOr1 (b x i)) (c x i) := by
  have hm : ∀ i, Measurable fun x => pgOf (b x i, c x i) := by
    intro i
    have hb' : Measurable fun x => b x i := (measurable_pi_apply i).comp hb
    have hc' : Measurable fun x => c x i := (measurable_pi_apply i).comp hc
    exact measurable_pgOf.comp (hb'.prodMk hc')
  exact measurable_pi_of (κ := fun x i => pgOf (b x i, c x i)) hm
    fun x i => isProbabilityMeasure_pg (posOr1_pos _) _

end Verif
