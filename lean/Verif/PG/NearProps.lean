import Verif.PG.Minor
import Verif.PG.Props
import Verif.Prob.Near

/-!
# C101: rounding the current values hardly changes the next draws (regressions)
-/

open MeasureTheory ProbabilityTheory Matrix Filter
open scoped ENNReal Topology

namespace Verif

variable {p n : ℕ}

theorem bayes_univ_le {Θ : Type*} [MeasurableSpace Θ] (μ : Measure Θ) (l : Θ → ℝ≥0∞) :
    bayes μ l Set.univ ≤ 1 := by
  rw [bayes, Measure.smul_apply, withDensity_apply _ MeasurableSet.univ, Measure.restrict_univ, smul_eq_mul]
  exact ENNReal.inv_mul_le_one _

theorem cosh_ratio_le (x y : ℝ) : Real.cosh y ≤ Real.exp |x - y| * Real.cosh x := by
  have h : ∀ u v : ℝ, Real.exp v ≤ Real.exp |u - v| * Real.exp u := fun u v => by
    rw [← Real.exp_add]
    apply Real.exp_le_exp.2
    have := neg_abs_le (u - v)
    linarith
  rw [Real.cosh_eq, Real.cosh_eq]
  have h1 := h x y
  have h2 := h (-x) (-y)
  rw [show |-x - -y| = |x - y| by rw [← abs_neg]; ring_nf] at h2
  linarith

theorem near_pg {b : ℝ} (hb : 0 < b) (c c' : ℝ) :
    Near (ENNReal.ofReal (b * |c - c'| / 2)) (pg b c) (pg b c') := by
  have key : ∀ c c' : ℝ, c' ^ 2 ≤ c ^ 2 → Near (ENNReal.ofReal (b * |c - c'| / 2)) (pg b c) (pg b c') := by
    intro c c' hc
    have hp := isProbabilityMeasure_pg hb c
    rw [pg_eq_withDensity hb] at hp
    rw [pg_eq_withDensity hb, pg_eq_withDensity hb]
    refine near_withDensity (by fun_prop) (by positivity) ?_
    filter_upwards [ae_pos_pg0 hb] with w hw
    have h1 : Real.exp (-(c ^ 2 / 2 * w)) ≤ Real.exp (-(c' ^ 2 / 2 * w)) := by
      apply Real.exp_le_exp.2
      nlinarith
    have h2 : Real.exp (-(b * |c - c'| / 2)) * (Real.cosh (c / 2) ^ (-b))⁻¹ ≤ (Real.cosh (c' / 2) ^ (-b))⁻¹ := by
      rw [← Real.rpow_neg (Real.cosh_pos _).le, ← Real.rpow_neg (Real.cosh_pos _).le, neg_neg]
      have h3 := cosh_ratio_le (c' / 2) (c / 2)
      have h4 : Real.cosh (c / 2) ^ b ≤ (Real.exp |c' / 2 - c / 2| * Real.cosh (c' / 2)) ^ b :=
        Real.rpow_le_rpow (Real.cosh_pos _).le h3 hb.le
      rw [Real.mul_rpow (Real.exp_pos _).le (Real.cosh_pos _).le, ← Real.exp_mul] at h4
      have e : |c' / 2 - c / 2| * b = b * |c - c'| / 2 := by
        rw [abs_sub_comm, show c / 2 - c' / 2 = (c - c') / 2 by ring, abs_div, abs_two]
        ring
      rw [e] at h4
      calc _ ≤ Real.exp (-(b * |c - c'| / 2)) * (Real.exp (b * |c - c'| / 2) * Real.cosh (c' / 2) ^ b) := by gcongr
        _ = _ := by rw [← mul_assoc, ← Real.exp_add]; simp
    have h5 : 0 ≤ (Real.cosh (c' / 2) ^ (-b))⁻¹ := inv_nonneg.2 (Real.rpow_nonneg (Real.cosh_pos _).le _)
    calc _ = (Real.exp (-(b * |c - c'| / 2)) * (Real.cosh (c / 2) ^ (-b))⁻¹) * Real.exp (-(c ^ 2 / 2 * w)) := by ring
      _ ≤ _ := by gcongr
  rcases le_total (c' ^ 2) (c ^ 2) with h | h
  · exact key c c' h
  · have := isProbabilityMeasure_pg hb c
    have := isProbabilityMeasure_pg hb c'
    rw [abs_sub_comm]
    exact (key c' c h).symm

theorem near_pgStep {la : LinAlg} (hla : la.Sound) {d : Fin p → ℝ} (hd : ∀ j, 0 < d j)
    (X : Matrix (Fin n) (Fin p) ℝ) {b : Fin n → ℝ} (κ : Fin n → ℝ) (hb : ∀ i, 0 < b i) (β β' : Fin p → ℝ) :
    Near (ENNReal.ofReal (∑ i, b i * |(X *ᵥ (β - β')) i| / 2)) (pgStep la d X b κ β) (pgStep la d X b κ β') := by
  have hstep : ∀ β, pgStep la d X b κ β = (Measure.pi fun i => pg (b i) ((X *ᵥ β) i)).bind fun w =>
      bayes (mvn 0 (diagonal d)⁻¹) fun β => pgJoint X κ β w := by
    intro β
    rw [pgStep, pi_pg_eq_withDensity hb]
    refine Measure.bind_congr_right ?_
    filter_upwards [(withDensity_absolutelyContinuous _ _).ae_le (ae_pi_pg0_pos hb)] with w hw
    exact (normalRegression_eq_bayes hla hd X κ hw).2
  rw [hstep, hstep]
  refine Near.bind ?_ (measurable_bayes_pgJoint d X κ) fun w => bayes_univ_le _ _
  rw [ENNReal.ofReal_sum_of_nonneg fun i _ => by have := (hb i).le; positivity]
  refine Near.pi (fun i => isProbabilityMeasure_pg (hb i) _) (fun i => isProbabilityMeasure_pg (hb i) _) fun i => ?_
  rw [mulVec_sub, Pi.sub_apply]
  exact near_pg (hb i) _ _

/-- **C101, negative-binomial regression.** Starting from two different values of the coefficients, the
probabilities of every event differ after the first and after every later call by at most
`∑ (y_i + h_i) |x_i (β - β')| / 2`: a rounding error of the current coefficients has an effect of the same
order, whatever the data and however many calls follow. -/
theorem C101_nbinom {la : LinAlg} (hla : la.Sound) {std : Fin p → ℝ} (hs : ∀ j, 0 < std j)
    (X : Matrix (Fin n) (Fin p) ℝ) {h : Fin n → ℝ} (hh : ∀ i, 0 < h i) (y : Fin n → ℕ) (β β' : Fin p → ℝ)
    (k : ℕ) {A : Set (Fin p → ℝ)} (hA : MeasurableSet A) :
    |(calls (nbinomNormalPosterior la std X h y) (k + 1) β).real A -
      (calls (nbinomNormalPosterior la std X h y) (k + 1) β').real A| ≤
        ∑ i, ((y i : ℝ) + h i) * |(X *ᵥ (β - β')) i| / 2 := by
  have hb : ∀ i, 0 < (y i : ℝ) + h i := fun i => by have := hh i; positivity
  rw [nbinomNormalPosterior_eq]
  obtain ⟨hm, hp, -⟩ := pgStep_minor hla (fun j => inv_pos.2 (hs j)) X
    (fun i => 0.5 * ((y i : ℝ) - h i)) hb
  exact near_real_calls (Finset.sum_nonneg fun i _ => by have := (hb i).le; positivity) hm hp
    (near_pgStep hla (fun j => inv_pos.2 (hs j)) X _ hb β β') k hA

/-- **C101, logistic regression.** The same with `∑ |x_i (β - β')| / 2`. -/
theorem C101_bern {la : LinAlg} (hla : la.Sound) {std : Fin p → ℝ} (hs : ∀ j, 0 < std j)
    (X : Matrix (Fin n) (Fin p) ℝ) (y : Fin n → Bool) (β β' : Fin p → ℝ)
    (k : ℕ) {A : Set (Fin p → ℝ)} (hA : MeasurableSet A) :
    |(calls (bernNormalPosterior la std X y) (k + 1) β).real A -
      (calls (bernNormalPosterior la std X y) (k + 1) β').real A| ≤ ∑ i, |(X *ᵥ (β - β')) i| / 2 := by
  rw [bernNormalPosterior_eq]
  obtain ⟨hm, hp, -⟩ := pgStep_minor hla (fun j => inv_pos.2 (hs j)) X
    (fun i => boolVal (y i) - 0.5) (b := fun _ : Fin n => (1 : ℝ)) fun _ => one_pos
  have := near_pgStep hla (fun j => inv_pos.2 (hs j)) X (fun i => boolVal (y i) - 0.5)
    (b := fun _ : Fin n => (1 : ℝ)) (fun _ => one_pos) β β'
  simp only [one_mul] at this
  exact near_real_calls (Finset.sum_nonneg fun i _ => by positivity) hm hp this k hA

/-- Three Boolean observations of one regressor that is 1: a coefficient rounded to within 0.001. -/
example (y : Fin 3 → Bool) (k : ℕ) {A : Set (Fin 1 → ℝ)} (hA : MeasurableSet A) :
    |(calls (bernNormalPosterior stdLinAlg (fun _ => 2) (fun _ _ => 1) y) (k + 1) fun _ => 0.123).real A -
      (calls (bernNormalPosterior stdLinAlg (fun _ => 2) (fun _ _ => 1) y) (k + 1) fun _ => 0.124).real A| ≤
        0.0015 := by
  refine (C101_bern stdLinAlg_sound (fun _ => two_pos) _ y _ _ k hA).trans ?_
  simp [mulVec, dotProduct]
  norm_num [abs_of_neg]

end Verif
