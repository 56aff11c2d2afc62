import Verif.Horseshoe.Array
import Verif.Horseshoe.Props

/-!
# C58: `horseshoe_posterior` on coefficient arrays of any shape
-/

open MeasureTheory ProbabilityTheory Real
open scoped ENNReal

namespace Verif.Horseshoe

/-- **C58 (part), the global draw.**  For coefficients of shape `rows :: rest` with at least one entry,
the draw of the global precision has its conditional law given the local precisions and the auxiliary if
and only if the trailing dimensions multiply to one (a vector, or a matrix with one column).  It does not
depend on how `srng.exponential` reads its argument.  Missing for the full property: all other shapes,
where the code is wrong. -/
theorem C58_global_draw_iff_partial (rows : ℕ) (rest : List ℕ) (hne : 0 < rows * rest.prod)
    (β : Fin (rows * rest.prod) → ℝ) {sigma2 : ℝ} (hs : 0 < sigma2) {z : ℝ} (hz : 0 < z)
    {w : Fin (rows * rest.prod) → ℝ} (hw : ∀ j, 0 < w j) :
    tauDraw rows β sigma2 z w = bayes (gammaMeasure (1 / 2) z) (fun t =>
        ENNReal.ofReal (∏ j, normalDens (sigma2 / (w j * t)) (β j))) ↔ rest.prod = 1 := by
  rw [← (C28_rate_conditionals_partial (β := β) hs).2.2.2 z w hz hw]
  have hrows : 0 < rows := Nat.pos_of_mul_pos_right hne
  have hR : 0 < z + 0.5 * (∑ j, β j ^ 2 * w j) / sigma2 :=
    add_pos_of_pos_of_nonneg hz (by
      have : 0 ≤ ∑ j, β j ^ 2 * w j := Finset.sum_nonneg fun j _ => by
        have := hw j
        positivity
      positivity)
  constructor
  · intro h
    have h1 := lintegral_id_gammaMeasure (a := 0.5 * ((rows : ℝ) + 1)) (by positivity) hR
    have h2 := lintegral_id_gammaMeasure (a := 0.5 * (((rows * rest.prod : ℕ) : ℝ) + 1)) (by positivity) hR
    unfold tauDraw at h
    rw [h, h2, ENNReal.ofReal_eq_ofReal_iff (by positivity) (by positivity),
      div_left_inj' hR.ne'] at h1
    have h3 : (rows : ℝ) * rest.prod = rows := by
      rw [Nat.cast_mul] at h1
      linarith
    have h4 : rows * rest.prod = rows * 1 := by rw [mul_one]; exact_mod_cast h3
    exact Nat.eq_of_mul_eq_mul_left hrows h4
  · intro h
    have aux : ∀ n, n = rows * rest.prod →
        tauDraw n β sigma2 z w = tauDraw (rows * rest.prod) β sigma2 z w := by
      rintro _ rfl
      rfl
    exact aux rows (by rw [h, mul_one])

example : tauDraw 3 (fun j : Fin (3 * [1].prod) => (j : ℝ)) 1 2 (fun j => (j : ℝ) + 1) =
    bayes (gammaMeasure (1 / 2) 2) (fun t =>
      ENNReal.ofReal (∏ j : Fin (3 * [1].prod), normalDens (1 / (((j : ℝ) + 1) * t)) j)) :=
  (C58_global_draw_iff_partial 3 [1] (by norm_num) (fun j => (j : ℝ)) one_pos two_pos
    (w := fun j => (j : ℝ) + 1) (fun j => by positivity)).2 rfl

/-- **C58 (part), the step.**  For coefficients of shape `rows :: rest` with at least one entry, none of
them zero, the step keeps the posterior of the shrinkage parameters if and only if `srng.exponential`
reads its argument as a rate and the trailing dimensions multiply to one.  Missing for the full property:
all other shapes and the scale reading, where the code is wrong. -/
theorem C58_step_iff_partial (conv : ExpArg) (rows : ℕ) (rest : List ℕ) (hne : 0 < rows * rest.prod)
    {β : Fin (rows * rest.prod) → ℝ} (hβ : ∀ j, β j ≠ 0) {sigma2 : ℝ} (hs : 0 < sigma2) :
    BayesDefined (prior (rows * rest.prod)) (lik β sigma2) ∧
    (Stationary (posterior β sigma2)
      (fun q => horseshoeArray conv rows β sigma2 (fun j => q.1 j ^ 2) (q.2 ^ 2)) ↔
        conv = .rate ∧ rest.prod = 1) := by
  refine ⟨bayesDefined_posterior hβ hs, fun h => ?_, fun h => ?_⟩
  · obtain rfl : conv = .rate := by
      cases conv
      · rfl
      · exact absurd h (not_stationary_scale hne rows hβ hs)
    have hrows : 0 < rows := Nat.pos_of_mul_pos_right hne
    have h1 := rows_eq_of_stationary hne hβ hs h
    have h4 : rows * rest.prod = rows * 1 := by rw [mul_one, ← h1]
    exact ⟨rfl, Nat.eq_of_mul_eq_mul_left hrows h4⟩
  · obtain ⟨rfl, h⟩ := h
    have aux : ∀ n, n = rows * rest.prod → Stationary (posterior β sigma2)
        (fun q => horseshoeArray .rate n β sigma2 (fun j => q.1 j ^ 2) (q.2 ^ 2)) := by
      rintro _ rfl
      exact stationary_rate β hs
    exact aux rows (by rw [h, mul_one])

example : Stationary (posterior (fun _ : Fin (3 * [1].prod) => 2) 1)
    (fun q => horseshoeArray .rate 3 (fun _ => 2) 1 (fun j => q.1 j ^ 2) (q.2 ^ 2)) :=
  (C58_step_iff_partial .rate 3 [1] (by norm_num) (fun _ => two_ne_zero) one_pos).2.2 ⟨rfl, rfl⟩

/-- **C58 violated.**  Two by two coefficients, all nonzero: `beta.shape[0]` is 2 where the number of
entries is 4.  In neither reading of `srng.exponential` does the global draw have the right law or the step
keep the posterior. -/
theorem C58_violated {β : Fin (2 * [2].prod) → ℝ} (hβ : ∀ j, β j ≠ 0) :
    (∀ (z : ℝ) (w : Fin (2 * [2].prod) → ℝ), 0 < z → (∀ j, 0 < w j) →
      tauDraw 2 β 1 z w ≠ bayes (gammaMeasure (1 / 2) z) (fun t =>
        ENNReal.ofReal (∏ j, normalDens (1 / (w j * t)) (β j)))) ∧
    BayesDefined (prior (2 * [2].prod)) (lik β 1) ∧
    ∀ conv, ¬Stationary (posterior β 1)
      (fun q => horseshoeArray conv 2 β 1 (fun j => q.1 j ^ 2) (q.2 ^ 2)) := by
  refine ⟨fun z w hz hw h => ?_, bayesDefined_posterior hβ one_pos, fun conv h => ?_⟩
  · have := (C58_global_draw_iff_partial 2 [2] (by norm_num) β one_pos hz hw).1 h
    norm_num at this
  · have := ((C58_step_iff_partial conv 2 [2] (by norm_num) hβ one_pos).2.1 h).2
    norm_num at this

example : ¬Stationary (posterior (fun _ : Fin (2 * [2].prod) => 1) 1)
    (fun q => horseshoeArray .rate 2 (fun _ => 1) 1 (fun j => q.1 j ^ 2) (q.2 ^ 2)) :=
  (C58_violated fun _ => one_ne_zero).2.2 .rate

end Verif.Horseshoe
