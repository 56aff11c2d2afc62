import Verif.Horseshoe.Prec
import Verif.PG.Symm

/-!
# C72, C73: what the horseshoe step owes to the way the coefficients are written down
-/

open MeasureTheory ProbabilityTheory Real
open scoped ENNReal

namespace Verif.Horseshoe

variable {p : ℕ}

/-- Relabelling the local scales. -/
def shuffle (σ : Equiv.Perm (Fin p)) (q : (Fin p → ℝ) × ℝ) : (Fin p → ℝ) × ℝ :=
  (fun j => q.1 (σ j), q.2)

theorem measurable_shuffle (σ : Equiv.Perm (Fin p)) : Measurable (shuffle σ) := by
  unfold shuffle
  fun_prop

theorem lastTwo_shuffle (conv : ExpArg) (rows : ℕ) {β β' : Fin p → ℝ} (σ : Equiv.Perm (Fin p))
    (hβ : ∀ j, β' j ^ 2 = β (σ j) ^ 2) (sigma2 tau2 : ℝ) (x : (Fin p → ℝ) × ℝ) :
    lastTwo conv rows β' sigma2 tau2 (shuffle σ x) =
      (lastTwo conv rows β sigma2 tau2 x).map (shuffle σ) := by
  have hpr : ∀ j, IsProbabilityMeasure
      (gammaMeasure 1 (posOr1 (eRate conv (x.1 j + β j ^ 2 / (2 * sigma2 * tau2))))) := fun j =>
    isProbabilityMeasure_gammaMeasure one_pos (posOr1_pos _)
  have hmap := pi_map_comp σ.injective fun j =>
    gammaMeasure 1 (posOr1 (eRate conv (x.1 j + β j ^ 2 / (2 * sigma2 * tau2))))
  unfold lastTwo
  rw [map_bind (measurable_lastDraw_right rows β sigma2 x).aemeasurable (measurable_shuffle σ)]
  simp only [shuffle, hβ]
  rw [← hmap, bind_of_map (by fun_prop)
    (measurable_lastDraw_right rows β' sigma2 ((fun j => x.1 (σ j)), x.2))]
  congr 1
  ext1 w
  unfold lastDraw
  rw [Measure.map_map (measurable_shuffle σ) (by fun_prop)]
  simp only [hβ]
  rw [Equiv.sum_comp σ fun j => β j ^ 2 * w j / (2 * sigma2)]
  rfl

/-- **C72, the horseshoe step.** Listing the coefficients and their local scales in another order
(`σ`) has the one effect that the new local scales come in that order, and the signs of the
coefficients (`s`) have no effect at all; the global scale is the same. -/
theorem C72_horseshoe_coefficients (conv : ExpArg) (β : Fin p → ℝ) {sigma2 : ℝ} (hσ : 0 < sigma2)
    {lambda2 : Fin p → ℝ} (hl : ∀ j, 0 < lambda2 j) {tau2 : ℝ} (ht : 0 < tau2)
    (σ : Equiv.Perm (Fin p)) {s : Fin p → ℝ} (hs : ∀ j, s j = 1 ∨ s j = -1) :
    horseshoePosterior conv (fun j => s j * β (σ j)) sigma2 (fun j => lambda2 (σ j)) tau2 =
      (horseshoePosterior conv β sigma2 lambda2 tau2).map fun q => (fun j => q.1 (σ j), q.2) := by
  have hβ : ∀ j, (s j * β (σ j)) ^ 2 = β (σ j) ^ 2 := fun j => by
    rcases hs j with h | h <;> simp [h]
  have hpr : ∀ j, IsProbabilityMeasure (expDraw conv (1 + 1 / lambda2 j)) := fun j => by
    rw [expDraw_eq]
    exact isProbabilityMeasure_gammaMeasure one_pos
      (eRate_pos conv (add_pos one_pos (one_div_pos.2 (hl j))))
  have hpt : IsProbabilityMeasure (expDraw conv (1 + 1 / tau2)) := by
    rw [expDraw_eq]
    exact isProbabilityMeasure_gammaMeasure one_pos
      (eRate_pos conv (add_pos one_pos (one_div_pos.2 ht)))
  have haux : (Measure.pi fun j => expDraw conv (1 + 1 / lambda2 (σ j))).prod
      (expDraw conv (1 + 1 / tau2)) =
      ((Measure.pi fun j => expDraw conv (1 + 1 / lambda2 j)).prod
        (expDraw conv (1 + 1 / tau2))).map (shuffle σ) := by
    have h1 := pi_map_comp σ.injective fun j => expDraw conv (1 + 1 / lambda2 j)
    rw [← h1]
    have h2 := Measure.map_prod_map (Measure.pi fun j => expDraw conv (1 + 1 / lambda2 j))
      (expDraw conv (1 + 1 / tau2)) (f := fun (w : Fin p → ℝ) i => w (σ i)) (g := id)
      (by fun_prop) measurable_id
    rw [Measure.map_id] at h2
    exact h2
  rw [horseshoePosterior_eq conv _ hσ (fun j => hl (σ j)) ht,
    horseshoePosterior_eq conv _ hσ hl ht, precisionScan_eq conv _ hσ (fun j => hl (σ j)) ht,
    precisionScan_eq conv _ hσ hl ht, haux,
    bind_of_map (measurable_shuffle σ) (measurable_lastTwo conv p _ sigma2 tau2)]
  simp only [lastTwo_shuffle conv p σ hβ]
  rw [← map_bind (measurable_lastTwo conv p β sigma2 tau2).aemeasurable (measurable_shuffle σ),
    Measure.map_map measurable_ofPrec (measurable_shuffle σ),
    Measure.map_map (g := fun q : (Fin p → ℝ) × ℝ => ((fun j => q.1 (σ j)), q.2)) (by fun_prop)
      measurable_ofPrec]
  rfl

/-- **C73 (partial), the horseshoe step.** Here a change of units has the right effect: coefficients
`c` times as large with a noise variance `c ^ 2` times as large give the same scales.  (What fails is
the regression step, `C73_units_violated`.) -/
theorem C73_horseshoe_units_partial (conv : ExpArg) (β : Fin p → ℝ) (sigma2 : ℝ)
    (lambda2 : Fin p → ℝ) (tau2 : ℝ) {c : ℝ} (hc : c ≠ 0) :
    horseshoePosterior conv (fun j => c * β j) (c ^ 2 * sigma2) lambda2 tau2 =
      horseshoePosterior conv β sigma2 lambda2 tau2 := by
  have h1 : ∀ a : ℝ, c ^ 2 * a / (c ^ 2 * sigma2) = a / sigma2 := fun a =>
    mul_div_mul_left _ _ (pow_ne_zero 2 hc)
  have h2 : ∀ b : ℝ, 0.5 * (c * b) ^ 2 * tau2⁻¹ / (c ^ 2 * sigma2) =
      0.5 * b ^ 2 * tau2⁻¹ / sigma2 := fun b => by
    rw [← h1]
    congr 1
    ring
  have h3 : ∀ w : Fin p → ℝ, 0.5 * (∑ j, (c * β j) ^ 2 * w j) / (c ^ 2 * sigma2) =
      0.5 * (∑ j, β j ^ 2 * w j) / sigma2 := fun w => by
    have e : ∑ j, (c * β j) ^ 2 * w j = c ^ 2 * ∑ j, β j ^ 2 * w j := by
      rw [Finset.mul_sum]
      exact Finset.sum_congr rfl fun j _ => by ring
    rw [e, ← h1, mul_left_comm]
  simp only [horseshoePosterior, horseshoeArray, lambdaDraw, tauDraw, h2, h3]

/-- Three coefficients, the first two exchanged and the last one negated. -/
example (conv : ExpArg) :
    horseshoePosterior conv ![2, 1, -3] 2 ![5, 4, 6] 7 =
      (horseshoePosterior conv ![1, 2, 3] 2 ![4, 5, 6] 7).map
        fun q => (![q.1 1, q.1 0, q.1 2], q.2) := by
  have h := C72_horseshoe_coefficients conv ![1, 2, 3] (sigma2 := 2) (by norm_num)
    (lambda2 := ![4, 5, 6]) (fun j => by fin_cases j <;> norm_num) (tau2 := 7) (by norm_num)
    (Equiv.swap 0 1) (s := ![1, 1, -1]) (fun j => by fin_cases j <;> simp)
  have e1 : (fun j => (![1, 1, -1] : Fin 3 → ℝ) j * (![1, 2, 3] : Fin 3 → ℝ) (Equiv.swap 0 1 j)) =
      ![2, 1, -3] := by
    ext j
    fin_cases j <;> simp [Equiv.swap_apply_of_ne_of_ne]
  have e2 : ∀ v : Fin 3 → ℝ, (fun j => v (Equiv.swap 0 1 j)) = ![v 1, v 0, v 2] := by
    intro v
    ext j
    fin_cases j <;> simp [Equiv.swap_apply_of_ne_of_ne]
  rw [e1, e2] at h
  simp only [e2] at h
  simpa using h

end Verif.Horseshoe
