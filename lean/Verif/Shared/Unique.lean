import Verif.Shared.Model
import Verif.Shared.Spec
import Verif.HsReg.Lemmas
import Verif.Prob.JointStep
import Verif.Horseshoe.Props

/-!
# The horseshoe step has at most one stationary law on the positive values
-/

open MeasureTheory ProbabilityTheory Real
open scoped ENNReal

namespace Verif.Shared

open HsReg

variable {p : ℕ}

theorem gamma_ac {a r : ℝ} : gammaMeasure a r ≪ volPos := by
  rw [gammaMeasure_eq_volPos]
  exact withDensity_absolutelyContinuous _ _

theorem ac_gamma {a r : ℝ} (ha : 0 < a) (hr : 0 < r) : volPos ≪ gammaMeasure a r := by
  rw [gammaMeasure_eq_volPos]
  refine withDensity_absolutelyContinuous' ?_ ?_
  · exact (measurable_gammaPDFReal _ _).ennreal_ofReal.aemeasurable
  · filter_upwards [ae_volPos] with x hx
    simp only [ne_eq, ENNReal.ofReal_eq_zero, not_le]
    exact gammaPDFReal_pos ha hr hx

theorem pi_gamma_ac {a r : Fin p → ℝ} (ha : ∀ j, 0 < a j) (hr : ∀ j, 0 < r j) :
    Measure.pi (fun j => gammaMeasure (a j) (r j)) ≪ Measure.pi fun _ : Fin p => volPos := by
  rw [pi_gammaMeasure_eq ha hr]
  exact withDensity_absolutelyContinuous _ _

theorem ac_pi_gamma {a r : Fin p → ℝ} (ha : ∀ j, 0 < a j) (hr : ∀ j, 0 < r j) :
    Measure.pi (fun _ : Fin p => volPos) ≪ Measure.pi fun j => gammaMeasure (a j) (r j) := by
  rw [pi_gammaMeasure_eq ha hr]
  refine withDensity_absolutelyContinuous' ?_ ?_
  · exact (measurable_prod_gammaPDFReal a r).ennreal_ofReal.aemeasurable
  · filter_upwards [ae_pi_volPos p] with x hx
    simp only [ne_eq, ENNReal.ofReal_eq_zero, not_le]
    exact Finset.prod_pos fun j _ => gammaPDFReal_pos (ha j) (hr j) (hx j)

/-- The measure class of the results. -/
noncomputable def resClass (p : ℕ) : Measure ((Fin p → ℝ) × ℝ) :=
  ((Measure.pi fun _ : Fin p => volPos).prod volPos).map Horseshoe.ofPrec

theorem midK_null (conv : Horseshoe.ExpArg)
    (r : ((Fin p → ℝ) × ((Fin p → ℝ) × ℝ)) × ((Fin p → ℝ) × ℝ)) {S : Set ((Fin p → ℝ) × ℝ)}
    (hS : MeasurableSet S) : midK conv r S = 0 ↔ resClass p S = 0 := by
  have hm : Measurable fun w => globalK (r, w) := measurable_globalK.comp measurable_prodMk_left
  have hg : Measurable fun w => globalK (r, w) S := (Measure.measurable_coe hS).comp hm
  rw [midK, Measure.bind_apply hS hm.aemeasurable, lintegral_eq_zero_iff hg, resClass,
    Measure.map_apply Horseshoe.measurable_ofPrec hS,
    Measure.measure_prod_null (Horseshoe.measurable_ofPrec hS)]
  have h1 : ∀ w : Fin p → ℝ, globalK (r, w) S = 0 ↔
      volPos (Prod.mk w ⁻¹' (Horseshoe.ofPrec ⁻¹' S)) = 0 := fun w => by
    have hw : Measurable fun t : ℝ => ((fun j => (√(w j))⁻¹, (√t)⁻¹) : (Fin p → ℝ) × ℝ) := by fun_prop
    rw [globalK, Measure.map_apply hw hS]
    exact ⟨fun h => ac_gamma (by positivity) (posOr1_pos _) h, fun h => gamma_ac h⟩
  have h2 : (∀ᵐ w ∂localK conv r, volPos (Prod.mk w ⁻¹' (Horseshoe.ofPrec ⁻¹' S)) = 0) ↔
      ∀ᵐ w ∂Measure.pi fun _ : Fin p => volPos, volPos (Prod.mk w ⁻¹' (Horseshoe.ofPrec ⁻¹' S)) = 0 :=
    ⟨fun h => (ac_pi_gamma (fun _ => one_pos) fun _ => posOr1_pos _).ae_le h,
      fun h => (pi_gamma_ac (fun _ => one_pos) fun _ => posOr1_pos _).ae_le h⟩
  rw [show ((fun w => globalK (r, w) S) =ᵐ[localK conv r] 0) ↔
    ∀ᵐ w ∂localK conv r, volPos (Prod.mk w ⁻¹' (Horseshoe.ofPrec ⁻¹' S)) = 0 from
    Filter.eventually_congr (Filter.Eventually.of_forall fun w => h1 w), h2]
  rfl

theorem shrinkK_null (conv : Horseshoe.ExpArg) (q : (Fin p → ℝ) × ((Fin p → ℝ) × ℝ))
    {S : Set ((Fin p → ℝ) × ℝ)} (hS : MeasurableSet S) : shrinkK conv q S = 0 ↔ resClass p S = 0 := by
  have hm : Measurable fun aux => midK conv (q, aux) :=
    (measurable_midK conv).comp measurable_prodMk_left
  have hg : Measurable fun aux => midK conv (q, aux) S := (Measure.measurable_coe hS).comp hm
  have := prob_auxK conv q
  rw [shrinkK_eq_mid]
  change ((auxK conv q).bind fun aux => midK conv (q, aux)) S = 0 ↔ _
  rw [Measure.bind_apply hS hm.aemeasurable, lintegral_eq_zero_iff hg]
  constructor
  · intro h
    obtain ⟨aux, ha⟩ := h.exists
    exact (midK_null conv _ hS).1 ha
  · exact fun h => ae_of_all _ fun aux => (midK_null conv _ hS).2 h

/-- Two laws of positive values kept by the horseshoe step are equal. -/
theorem step_unique (conv : Horseshoe.ExpArg) (β : Fin p → ℝ) {m m' : Measure ((Fin p → ℝ) × ℝ)}
    [IsProbabilityMeasure m] [IsProbabilityMeasure m']
    (h1 : m.bind (fun s => shrinkK conv (β, s)) = m)
    (h2 : m'.bind (fun s => shrinkK conv (β, s)) = m') : m = m' := by
  refine stationary_unique (m := resClass p) (K := fun s => shrinkK conv (β, s))
    ((measurable_shrinkK conv).comp measurable_prodMk_left) (fun s => prob_shrinkK conv _)
    (fun s => ?_) (fun s => ?_) h1 h2
  · exact Measure.AbsolutelyContinuous.mk fun S hS h => (shrinkK_null conv _ hS).1 h
  · exact Measure.AbsolutelyContinuous.mk fun S hS h => (shrinkK_null conv _ hS).2 h

end Verif.Shared
