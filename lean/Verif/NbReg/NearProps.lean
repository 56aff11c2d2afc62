import Verif.Iter.Joint
import Verif.PG.NearProps

/-!
# C101: rounding the current coefficients hardly changes the next draws (negative-binomial model)
-/

open MeasureTheory ProbabilityTheory Matrix
open scoped ENNReal

namespace Verif.NbReg

variable {p n : ℕ}

/-- **C101, coefficients and dispersion together.** The sampler that draws both, started at the same
dispersion `h` and at two values of the coefficients: the probabilities of every event for the pair differ
after every number of calls by at most `∑ (y_i + h) |x_i (β - β')| / 2`.  Missing: the same for two
different values of the dispersion, which enters the Polya-Gamma draw as its shape. -/
theorem C101_joint_partial {la : LinAlg} (hla : la.Sound) {std : Fin p → ℝ} (hs : ∀ j, 0 < std j)
    {a b : ℝ} (ha : 0 < a) (hb : 0 < b) (X : Matrix (Fin n) (Fin p) ℝ) (y : Fin n → ℕ) (β β' : Fin p → ℝ)
    {h : ℝ} (hh : 0 < h) (k : ℕ) {A : Set ((Fin p → ℝ) × ℝ)} (hA : MeasurableSet A) :
    |(calls (sweep la std X a b y) (k + 1) (β, h)).real A -
      (calls (sweep la std X a b y) (k + 1) (β', h)).real A| ≤
        ∑ i, ((y i : ℝ) + h) * |(X *ᵥ (β - β')) i| / 2 := by
  have r := sweep_runs hla hs ha hb X y
  rw [r.calls_eq (θ := (β, h)) hh, r.calls_eq (θ := (β', h)) hh]
  refine near_real_calls (Finset.sum_nonneg fun i _ => by positivity) r.meas r.prob ?_ k hA
  rw [sweepK, sweepK, onFirst_bind_onSecond (measurable_dispK X a b y) (prob_dispK X ha hb y),
    onFirst_bind_onSecond (measurable_dispK X a b y) (prob_dispK X ha hb y),
    ← coefK_eq hla hs X y hh, ← coefK_eq hla hs X y hh, nbinomNormalPosterior_eq]
  dsimp only
  refine Near.bind (near_pgStep hla (fun j => inv_pos.2 (hs j)) X _ (fun i => by positivity) β β')
    ((measurable_onSecond (measurable_dispK X a b y) (prob_dispK X ha hb y)).comp
      measurable_prodMk_right) fun β1 => ?_
  have := prob_dispK X ha hb y (β1, h)
  rw [Measure.map_apply measurable_prodMk_left MeasurableSet.univ, Set.preimage_univ, measure_univ]

/-- Counts 2 and 5, one regressor that is 1, dispersion 3: a coefficient known to within 0.001. -/
example (k : ℕ) {A : Set ((Fin 1 → ℝ) × ℝ)} (hA : MeasurableSet A) :
    |(calls (sweep stdLinAlg (fun _ => 1) (fun _ _ => 1) 2 1 ![2, 5]) (k + 1) (fun _ => 0.123, 3)).real A -
      (calls (sweep stdLinAlg (fun _ => 1) (fun _ _ => 1) 2 1 ![2, 5]) (k + 1) (fun _ => 0.124, 3)).real A| ≤
        0.0065 := by
  refine (C101_joint_partial stdLinAlg_sound (fun _ => one_pos) two_pos one_pos _ _ _ _ three_pos k hA).trans ?_
  simp [mulVec, dotProduct, Fin.sum_univ_two]
  norm_num [abs_of_neg]

end Verif.NbReg
