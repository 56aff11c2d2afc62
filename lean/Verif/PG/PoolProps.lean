import Verif.PG.SymmProps
import Verif.Prob.Laplace

/-!
# C100: counts observed under the same conditions can be added up
-/

open MeasureTheory ProbabilityTheory Matrix
open scoped ENNReal

namespace Verif

variable {p m n : ℕ}

/-! ## Helpers -/

/-- Laplace transform of the Polya-gamma law. -/
theorem integral_exp_pg {b : ℝ} (hb : 0 < b) (c : ℝ) {s : ℝ} (hs : 0 ≤ s) :
    ∫ w, Real.exp (-(s * w)) ∂pg b c =
      (Real.cosh (c / 2) * (Real.cosh (√(c ^ 2 + 2 * s) / 2))⁻¹) ^ b := by
  have hk0 : 0 < Real.cosh (c / 2) ^ (-b) := Real.rpow_pos_of_pos (Real.cosh_pos _) _
  rw [pg_eq_withDensity hb, integral_withDensity_eq_integral_toReal_smul (by fun_prop)
    (ae_of_all _ fun _ => ENNReal.ofReal_lt_top)]
  have e : ∀ w : ℝ, (ENNReal.ofReal ((Real.cosh (c / 2) ^ (-b))⁻¹ * Real.exp (-(c ^ 2 / 2 * w)))).toReal •
      Real.exp (-(s * w)) =
      (Real.cosh (c / 2) ^ (-b))⁻¹ * Real.exp (-(√(c ^ 2 + 2 * s) ^ 2 / 2 * w)) := fun w => by
    rw [ENNReal.toReal_ofReal (by positivity), smul_eq_mul, mul_assoc, ← Real.exp_add,
      Real.sq_sqrt (by positivity)]
    congr 2
    ring
  simp only [e]
  rw [integral_const_mul, integral_eq_lintegral_of_nonneg_ae (ae_of_all _ fun _ => (Real.exp_pos _).le)
    (by fun_prop), lintegral_exp_pg0 hb, ENNReal.toReal_ofReal (Real.rpow_pos_of_pos (Real.cosh_pos _) _).le,
    Real.mul_rpow (Real.cosh_pos _).le (inv_pos.2 (Real.cosh_pos _)).le,
    Real.rpow_neg (Real.cosh_pos _).le, inv_inv, Real.rpow_neg (Real.cosh_pos _).le,
    Real.inv_rpow (Real.cosh_pos _).le]

/-- Sums of independent Polya-gamma variables with the same second parameter. -/
theorem pi_pg_pool {f : Fin n → Fin m} (hf : Function.Surjective f) {b : Fin n → ℝ} (hb : ∀ i, 0 < b i)
    (ψ : Fin m → ℝ) :
    (Measure.pi fun i => pg (b i) (ψ (f i))).map (fun w k => ∑ i with f i = k, w i) =
      Measure.pi fun k => pg (∑ i with f i = k, b i) (ψ k) := by
  have hB : ∀ k, 0 < ∑ i with f i = k, b i := fun k => by
    obtain ⟨i, hi⟩ := hf k
    exact Finset.sum_pos (fun i _ => hb i) ⟨i, by simp [hi]⟩
  have hp : ∀ i, IsProbabilityMeasure (pg (b i) (ψ (f i))) := fun i => isProbabilityMeasure_pg (hb i) _
  have hp' : ∀ k, IsProbabilityMeasure (pg (∑ i with f i = k, b i) (ψ k)) := fun k =>
    isProbabilityMeasure_pg (hB k) _
  have hm : Measurable fun (w : Fin n → ℝ) k => ∑ i with f i = k, w i := by fun_prop
  have hpos : ∀ {r : ℕ} {a : Fin r → ℝ}, (∀ i, 0 < a i) → ∀ c : Fin r → ℝ,
      ∀ᵐ w ∂Measure.pi fun i => pg (a i) (c i), ∀ i, 0 ≤ w i := by
    intro r a ha c
    have hq : ∀ i, IsProbabilityMeasure (pg (a i) (c i)) := fun i => isProbabilityMeasure_pg (ha i) _
    refine ae_all_iff.2 fun i => ?_
    have h0 : ∀ᵐ w ∂pg (a i) (c i), 0 ≤ w := by
      rw [pg_eq_withDensity (ha i)]
      refine (withDensity_absolutelyContinuous _ _).ae_le ?_
      filter_upwards [ae_pos_pg0 (ha i)] with w hw using hw.le
    exact (Measure.quasiMeasurePreserving_eval (μ := fun i => pg (a i) (c i)) i).ae h0
  have : IsProbabilityMeasure ((Measure.pi fun i => pg (b i) (ψ (f i))).map
      fun w k => ∑ i with f i = k, w i) := Measure.isProbabilityMeasure_map hm.aemeasurable
  refine ext_of_laplace ?_ (hpos hB ψ) fun s => ?_
  · refine (ae_map_iff hm.aemeasurable ?_).2 ?_
    · exact MeasurableSet.iInter (fun k => measurableSet_le (measurable_const (a := (0 : ℝ))) (measurable_pi_apply k)) |>.congr
        (by ext x; simp)
    · filter_upwards [hpos hb fun i => ψ (f i)] with w hw k
      exact Finset.sum_nonneg fun i _ => hw i
  · rw [integral_map hm.aemeasurable (Continuous.aestronglyMeasurable (by fun_prop))]
    have e1 : ∀ w : Fin n → ℝ, Real.exp (-∑ k, (s k : ℝ) * ∑ i with f i = k, w i) =
        ∏ i, Real.exp (-((s (f i) : ℝ) * w i)) := fun w => by
      rw [← Real.exp_sum, Finset.sum_neg_distrib]
      congr 2
      rw [← Finset.sum_fiberwise Finset.univ f]
      refine Finset.sum_congr rfl fun k _ => ?_
      rw [Finset.mul_sum]
      refine Finset.sum_congr rfl fun i hi => ?_
      rw [(Finset.mem_filter.1 hi).2]
    have e2 : ∀ w : Fin m → ℝ, Real.exp (-∑ k, (s k : ℝ) * w k) = ∏ k, Real.exp (-((s k : ℝ) * w k)) :=
      fun w => by rw [← Real.exp_sum, Finset.sum_neg_distrib]
    simp only [e1, e2]
    rw [integral_fintype_prod_eq_prod (fun i w => Real.exp (-((s (f i) : ℝ) * w))),
      integral_fintype_prod_eq_prod (fun k w => Real.exp (-((s k : ℝ) * w))),
      ← Finset.prod_fiberwise Finset.univ f]
    refine Finset.prod_congr rfl fun k _ => ?_
    rw [integral_exp_pg (hB k) _ (Nat.cast_nonneg _), Real.rpow_sum_of_pos
      (mul_pos (Real.cosh_pos _) (inv_pos.2 (Real.cosh_pos _)))]
    refine Finset.prod_congr rfl fun i hi => ?_
    rw [integral_exp_pg (hb i) _ (Nat.cast_nonneg _), (Finset.mem_filter.1 hi).2]

/-- Rows of the design that are equal can be pooled. -/
theorem pgStep_pool {la : LinAlg} (hla : la.Sound) {d : Fin p → ℝ} (hd : ∀ j, 0 < d j)
    {f : Fin n → Fin m} (hf : Function.Surjective f) (X : Matrix (Fin m) (Fin p) ℝ) {b : Fin n → ℝ}
    (hb : ∀ i, 0 < b i) (κ : Fin n → ℝ) (β : Fin p → ℝ) :
    pgStep la d (of fun i j => X (f i) j) b κ β =
      pgStep la d X (fun k => ∑ i with f i = k, b i) (fun k => ∑ i with f i = k, κ i) β := by
  have hB : ∀ k, 0 < ∑ i with f i = k, b i := fun k => by
    obtain ⟨i, hi⟩ := hf k
    exact Finset.sum_pos (fun i _ => hb i) ⟨i, by simp [hi]⟩
  have hrow : ∀ (β : Fin p → ℝ) i, ((of fun i j => X (f i) j : Matrix (Fin n) (Fin p) ℝ) *ᵥ β) i =
      (X *ᵥ β) (f i) := fun _ _ => rfl
  rw [pgStep_eq_bayes hla hd _ hb, pgStep_eq_bayes hla hd _ hB]
  simp only [hrow]
  rw [← pi_pg_pool hf hb (X *ᵥ β), bind_of_map (by fun_prop) (measurable_bayes_pgJoint d _ _)]
  refine Measure.bind_congr_right (ae_of_all _ fun w => ?_)
  refine congrArg (bayes (mvn 0 (diagonal d)⁻¹)) (funext fun β' => ?_)
  simp only [pgJoint, hrow]
  congr 1
  rw [← Finset.prod_fiberwise Finset.univ f]
  refine Finset.prod_congr rfl fun k _ => ?_
  rw [Finset.sum_mul, Real.exp_sum, Finset.mul_sum, ← Finset.sum_neg_distrib, Real.exp_sum,
    ← Finset.prod_mul_distrib]
  refine Finset.prod_congr rfl fun i hi => ?_
  rw [(Finset.mem_filter.1 hi).2]

/-! ## The property -/

/-- **C100.** Observation `i` of a negative-binomial regression is made under the conditions `f i`, that
is, with the regressors in row `f i` of `X`.  The step draws the new coefficients as from the total counts
of the observations with the same conditions, whose dispersion parameter is the total of theirs. -/
theorem C100_nbinom_pool {la : LinAlg} (hla : la.Sound) {std : Fin p → ℝ} (hs : ∀ j, 0 < std j)
    {f : Fin n → Fin m} (hf : Function.Surjective f) (X : Matrix (Fin m) (Fin p) ℝ) {h : Fin n → ℝ}
    (hh : ∀ i, 0 < h i) (y : Fin n → ℕ) (β : Fin p → ℝ) :
    nbinomNormalPosterior la std (of fun i j => X (f i) j) h y β =
      nbinomNormalPosterior la std X (fun k => ∑ i with f i = k, h i) (fun k => ∑ i with f i = k, y i) β := by
  rw [nbinomNormalPosterior_eq, nbinomNormalPosterior_eq, pgStep_pool hla (fun j => inv_pos.2 (hs j)) hf X
    (fun i => by have := hh i; positivity)]
  congr 1
  · funext k
    rw [Finset.sum_add_distrib, Nat.cast_sum]
  · funext k
    rw [← Finset.mul_sum, Finset.sum_sub_distrib, Nat.cast_sum]

/-- Three counts, the first and the last made with the same regressors. -/
example (X : Matrix (Fin 2) (Fin 2) ℝ) (β : Fin 2 → ℝ) :
    nbinomNormalPosterior stdLinAlg ![1, 2] (of fun i j => X ((![0, 1, 0] : Fin 3 → Fin 2) i) j) ![3, 4, 1 / 2]
        ![7, 0, 5] β =
      nbinomNormalPosterior stdLinAlg ![1, 2] X ![7 / 2, 4] ![12, 0] β := by
  rw [C100_nbinom_pool stdLinAlg_sound (fun j => by fin_cases j <;> norm_num) (by decide) X
    (fun i => by fin_cases i <;> norm_num)]
  have e2 : ∀ {A : Type} (x y z : A), ![x, y, z] 2 = z := fun _ _ _ => rfl
  congr 1
  · funext k
    fin_cases k <;> norm_num [Finset.sum_filter, Fin.sum_univ_three, e2]
  · funext k
    fin_cases k <;> decide

/-- **C100, trials without a success.** Trials of a Bernoulli regression that all fail are a count of zero
before as many failures: the step draws the new coefficients as that of the negative-binomial regression
with the numbers of trials under the same conditions as dispersion parameters. -/
theorem C100_bern_failures {la : LinAlg} (hla : la.Sound) {std : Fin p → ℝ} (hs : ∀ j, 0 < std j)
    {f : Fin n → Fin m} (hf : Function.Surjective f) (X : Matrix (Fin m) (Fin p) ℝ) (β : Fin p → ℝ) :
    bernNormalPosterior la std (of fun i j => X (f i) j) (fun _ => false) β =
      nbinomNormalPosterior la std X (fun k => ((Finset.univ.filter fun i => f i = k).card : ℝ)) (fun _ => 0) β := by
  rw [bernNormalPosterior_eq, nbinomNormalPosterior_eq, pgStep_pool hla (fun j => inv_pos.2 (hs j)) hf X
    (fun _ => one_pos)]
  congr 1
  · funext k
    simp
  · funext k
    simp [boolVal]
    ring

example (X : Matrix (Fin 2) (Fin 2) ℝ) (β : Fin 2 → ℝ) :
    bernNormalPosterior stdLinAlg ![1, 2] (of fun i j => X ((![0, 1, 0] : Fin 3 → Fin 2) i) j) (fun _ => false) β =
      nbinomNormalPosterior stdLinAlg ![1, 2] X ![2, 1] (fun _ => 0) β := by
  rw [C100_bern_failures stdLinAlg_sound (fun j => by fin_cases j <;> norm_num) (by decide) X]
  congr 1
  funext k
  fin_cases k
  · have : (Finset.univ.filter fun i => (![0, 1, 0] : Fin 3 → Fin 2) i = 0).card = 2 := by decide
    simp [this]
  · have : (Finset.univ.filter fun i => (![0, 1, 0] : Fin 3 → Fin 2) i = 1).card = 1 := by decide
    simp [this]

/-- **C100, normal regression.** Observations with the same regressors can be given as their average,
weighted with the precisions, with the total of the precisions. -/
theorem C100_regression_pool {la : LinAlg} (hla : la.Sound) {d : Fin p → ℝ} (hd : ∀ j, 0 < d j)
    {f : Fin n → Fin m} (hf : Function.Surjective f) (X : Matrix (Fin m) (Fin p) ℝ) {omega : Fin n → ℝ}
    (hω : ∀ i, 0 < omega i) (z : Fin n → ℝ) :
    normalRegression la omega d (of fun i j => X (f i) j) z =
      normalRegression la (fun k => ∑ i with f i = k, omega i) d X
        fun k => (∑ i with f i = k, omega i * z i) / ∑ i with f i = k, omega i := by
  have hB : ∀ k, 0 < ∑ i with f i = k, omega i := fun k => by
    obtain ⟨i, hi⟩ := hf k
    exact Finset.sum_pos (fun i _ => hω i) ⟨i, by simp [hi]⟩
  have hz : z = fun i => (omega i * z i) / omega i := by
    funext i
    rw [mul_div_cancel_left₀ _ (hω i).ne']
  have hrow : ∀ (β : Fin p → ℝ) i, ((of fun i j => X (f i) j : Matrix (Fin n) (Fin p) ℝ) *ᵥ β) i =
      (X *ᵥ β) (f i) := fun _ _ => rfl
  conv_lhs => rw [hz]
  rw [(normalRegression_eq_bayes hla hd _ _ hω).2, (normalRegression_eq_bayes hla hd _ _ hB).2]
  refine congrArg (bayes (mvn 0 (diagonal d)⁻¹)) (funext fun β' => ?_)
  simp only [pgJoint, hrow]
  congr 1
  rw [← Finset.prod_fiberwise Finset.univ f]
  refine Finset.prod_congr rfl fun k _ => ?_
  rw [Finset.sum_mul, Real.exp_sum, Finset.mul_sum, ← Finset.sum_neg_distrib, Real.exp_sum,
    ← Finset.prod_mul_distrib]
  refine Finset.prod_congr rfl fun i hi => ?_
  rw [(Finset.mem_filter.1 hi).2]

example (X : Matrix (Fin 2) (Fin 2) ℝ) :
    normalRegression stdLinAlg ![1, 2, 3] ![1, 5] (of fun i j => X ((![0, 1, 0] : Fin 3 → Fin 2) i) j) ![4, 1, 0] =
      normalRegression stdLinAlg ![4, 2] ![1, 5] X ![1, 1] := by
  have e2 : ∀ {A : Type} (x y z : A), ![x, y, z] 2 = z := fun _ _ _ => rfl
  rw [C100_regression_pool stdLinAlg_sound (fun j => by fin_cases j <;> norm_num) (by decide) X
    (fun i => by fin_cases i <;> norm_num)]
  congr 1
  · funext k
    fin_cases k <;> norm_num [Finset.sum_filter, Fin.sum_univ_three, e2]
  · funext k
    fin_cases k <;> norm_num [Finset.sum_filter, Fin.sum_univ_three, e2]

end Verif
