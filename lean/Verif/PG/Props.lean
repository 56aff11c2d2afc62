import Verif.PG.Lemmas
import Verif.Conj.Lemmas

/-!
# Properties of the Polya-gamma regression steps (C21–C23)
-/

open MeasureTheory ProbabilityTheory Matrix
open scoped ENNReal

namespace Verif

/-- Spec.  Likelihood of `β` when `Y_i ~ NB(h_i, sigmoid(-(X β)_i))` (Aesara's `nbinom(n, p)`) was
observed to be `y`. -/
noncomputable def nbRegLik {p n : ℕ} (X : Matrix (Fin n) (Fin p) ℝ) (h : Fin n → ℝ) (y : Fin n → ℕ)
    (β : Fin p → ℝ) : ℝ≥0∞ :=
  ∏ i, nbMeasure (h i) (sigmoid (-(X *ᵥ β) i)) {y i}

/-- Spec.  Likelihood of `β` when `Y_i ~ Bern(prob ((X β)_i))` was observed to be `y`. -/
noncomputable def bernRegLik {p n : ℕ} (prob : ℝ → ℝ) (X : Matrix (Fin n) (Fin p) ℝ)
    (y : Fin n → Bool) (β : Fin p → ℝ) : ℝ≥0∞ :=
  ∏ i, ENNReal.ofReal (if y i then prob ((X *ᵥ β) i) else 1 - prob ((X *ᵥ β) i))

section

variable {p n : ℕ}

theorem one_add_exp (ψ : ℝ) : 1 + Real.exp ψ = 2 * (Real.exp (ψ / 2) * Real.cosh (ψ / 2)) := by
  rw [Real.cosh_eq]
  have h1 : Real.exp ψ = Real.exp (ψ / 2) * Real.exp (ψ / 2) := by
    rw [← Real.exp_add]
    ring_nf
  have h2 : Real.exp (ψ / 2) * Real.exp (-(ψ / 2)) = 1 := by
    rw [← Real.exp_add, add_neg_cancel, Real.exp_zero]
  linear_combination h1 - h2

theorem nbPMF_sigmoid {h : ℝ} (ψ : ℝ) (y : ℕ) :
    nbPMF h (sigmoid (-ψ)) y =
      Real.Gamma (y + h) / (Real.Gamma h * (Nat.factorial y)) * (2 : ℝ) ^ (-((y : ℝ) + h)) *
        (Real.exp (0.5 * ((y : ℝ) - h) * ψ) * Real.cosh (ψ / 2) ^ (-((y : ℝ) + h))) := by
  have hc := Real.cosh_pos (ψ / 2)
  have he := Real.exp_pos (ψ / 2)
  have hs : sigmoid (-ψ) = (1 + Real.exp ψ)⁻¹ := by simp [sigmoid]
  have hs1 : 1 - (1 + Real.exp ψ)⁻¹ = Real.exp ψ * (1 + Real.exp ψ)⁻¹ := by
    have : (1 + Real.exp ψ) ≠ 0 := by positivity
    field_simp
    ring
  have h0 : 0 < 1 + Real.exp ψ := by positivity
  rw [nbPMF, hs, hs1, mul_pow, ← Real.rpow_natCast ((1 + Real.exp ψ)⁻¹), ← Real.exp_nat_mul]
  have key : (1 + Real.exp ψ)⁻¹ ^ h * (1 + Real.exp ψ)⁻¹ ^ (y : ℝ) =
      (2 : ℝ) ^ (-((y : ℝ) + h)) * (Real.exp (-(((y : ℝ) + h) / 2 * ψ)) *
        Real.cosh (ψ / 2) ^ (-((y : ℝ) + h))) := by
    rw [← Real.rpow_add (by positivity), Real.inv_rpow h0.le, ← Real.rpow_neg h0.le, one_add_exp,
      Real.mul_rpow two_pos.le (by positivity), Real.mul_rpow he.le hc.le, ← Real.exp_mul,
      add_comm h]
    congr 3
    ring
  have e : Real.exp (0.5 * ((y : ℝ) - h) * ψ) =
      Real.exp ((y : ℝ) * ψ) * Real.exp (-(((y : ℝ) + h) / 2 * ψ)) := by
    rw [← Real.exp_add]
    ring_nf
  rw [e]
  linear_combination (Real.Gamma (y + h) / (Real.Gamma h * (Nat.factorial y)) *
    Real.exp ((y : ℝ) * ψ)) * key

theorem nbRegLik_eq (X : Matrix (Fin n) (Fin p) ℝ) {h : Fin n → ℝ} (hh : ∀ i, 0 < h i)
    (y : Fin n → ℕ) : ∃ c : ℝ, 0 < c ∧ ∀ β, nbRegLik X h y β = ENNReal.ofReal
      (c * pgLik X (fun i => (y i : ℝ) + h i) (fun i => 0.5 * ((y i : ℝ) - h i)) β) := by
  refine ⟨∏ i, (Real.Gamma (y i + h i) / (Real.Gamma (h i) * (Nat.factorial (y i))) *
    (2 : ℝ) ^ (-((y i : ℝ) + h i))), Finset.prod_pos fun i _ => ?_, fun β => ?_⟩
  · have h1 := Real.Gamma_pos_of_pos (hh i)
    have h2 : 0 < Real.Gamma (y i + h i) :=
      Real.Gamma_pos_of_pos (by have := hh i; positivity)
    positivity
  · simp only [nbRegLik, Conj.nbMeasure_singleton, nbPMF_sigmoid]
    rw [← ENNReal.ofReal_prod_of_nonneg, pgLik, ← Finset.prod_mul_distrib]
    intro i _
    have h1 := Real.Gamma_pos_of_pos (hh i)
    have h2 : 0 < Real.Gamma (y i + h i) :=
      Real.Gamma_pos_of_pos (by have := hh i; positivity)
    have h3 := Real.cosh_pos ((X *ᵥ β) i / 2)
    positivity

theorem nb_kappa_le {h : Fin n → ℝ} (hh : ∀ i, 0 < h i) (y : Fin n → ℕ) (i : Fin n) :
    |0.5 * ((y i : ℝ) - h i)| ≤ ((y i : ℝ) + h i) / 2 := by
  have h1 := hh i
  have h2 : (0 : ℝ) ≤ y i := by positivity
  rw [abs_le]
  constructor <;> linarith

theorem bayesDefined_nbRegLik (X : Matrix (Fin n) (Fin p) ℝ) {h : Fin n → ℝ} (hh : ∀ i, 0 < h i)
    (y : Fin n → ℕ) (μ : Measure (Fin p → ℝ)) [IsProbabilityMeasure μ] :
    BayesDefined μ (nbRegLik X h y) := by
  obtain ⟨c, hc, hl⟩ := nbRegLik_eq X hh y
  have hd := bayesDefined_pgLik X (nb_kappa_le hh y) μ
  have hm := measurable_pgLik X (fun i => (y i : ℝ) + h i) (fun i => 0.5 * ((y i : ℝ) - h i))
  rw [funext hl]
  simp only [ENNReal.ofReal_mul hc.le]
  rw [BayesDefined, lintegral_const_mul _ hm]
  exact ⟨mul_ne_zero (by simpa using hc) hd.1, ENNReal.mul_ne_top ENNReal.ofReal_ne_top hd.2⟩

theorem nbinomNormalPosterior_eq (la : LinAlg) (std : Fin p → ℝ) (X : Matrix (Fin n) (Fin p) ℝ)
    (h : Fin n → ℝ) (y : Fin n → ℕ) :
    nbinomNormalPosterior la std X h y = pgStep la (fun j => (std j)⁻¹) X
      (fun i => (y i : ℝ) + h i) (fun i => 0.5 * ((y i : ℝ) - h i)) := rfl

/-- **C21 (partial).** `nbinom_normal_posterior` leaves the posterior of the coefficients, given
prior standard deviations `std`, invariant *exactly when every standard deviation is 1*, for all
sizes, designs, counts and dispersions.  The full property asks for the left-hand side for all
`std`. -/
theorem C21_nbinom_step_iff_partial {la : LinAlg} (hla : la.Sound) {std : Fin p → ℝ}
    (hs : ∀ j, 0 < std j) (X : Matrix (Fin n) (Fin p) ℝ) {h : Fin n → ℝ} (hh : ∀ i, 0 < h i)
    (y : Fin n → ℕ) :
    Stationary (bayes (normalPrior std) (nbRegLik X h y)) (nbinomNormalPosterior la std X h y) ↔
      ∀ j, std j = 1 := by
  obtain ⟨c, hc, hl⟩ := nbRegLik_eq X hh y
  rw [nbinomNormalPosterior_eq, pgStep_tilt_iff hla hs X
    (fun i => by have := hh i; positivity) (nb_kappa_le hh y) hc 0
    (fun β => by rw [hl, zero_dotProduct, Real.exp_zero, one_mul])
    (bayesDefined_nbRegLik X hh y _)]
  simp

/-- Two coefficients and three counts: right with standard deviations 1, wrong with 1 and 2. -/
example (X : Matrix (Fin 3) (Fin 2) ℝ) (y : Fin 3 → ℕ) :
    Stationary (bayes (normalPrior fun _ => 1) (nbRegLik X (fun i => i + 1) y))
      (nbinomNormalPosterior stdLinAlg (fun _ => 1) X (fun i => i + 1) y) ∧
    ¬ Stationary (bayes (normalPrior ![1, 2]) (nbRegLik X (fun i => i + 1) y))
      (nbinomNormalPosterior stdLinAlg ![1, 2] X (fun i => i + 1) y) := by
  refine ⟨(C21_nbinom_step_iff_partial stdLinAlg_sound (fun _ => one_pos) X
    (fun i => by positivity) y).2 fun _ => rfl, fun h => ?_⟩
  have : (2 : ℝ) = 1 := (C21_nbinom_step_iff_partial stdLinAlg_sound (fun j => by fin_cases j <;> norm_num) X
    (fun i => by positivity) y).1 h 1
  norm_num at this

/-- **C21 (partial).** What it does target, for all inputs: its only stationary probability law is
the posterior under prior standard deviations `sqrt std` (variance `std` instead of `std^2`). -/
theorem C21_nbinom_step_target_partial {la : LinAlg} (hla : la.Sound) {std : Fin p → ℝ}
    (hs : ∀ j, 0 < std j) (X : Matrix (Fin n) (Fin p) ℝ) {h : Fin n → ℝ} (hh : ∀ i, 0 < h i)
    (y : Fin n → ℕ) (π : Measure (Fin p → ℝ)) [IsProbabilityMeasure π] :
    Stationary π (nbinomNormalPosterior la std X h y) ↔
      π = bayes (normalPrior fun j => Real.sqrt (std j)) (nbRegLik X h y) := by
  obtain ⟨c, hc, hl⟩ := nbRegLik_eq X hh y
  rw [nbinomNormalPosterior_eq, pgStep_stationary_iff hla (fun j => inv_pos.2 (hs j)) X
    (fun i => by have := hh i; positivity) (nb_kappa_le hh y), normalPrior_sqrt hs, funext hl,
    ← bayes_const_mul _ (measurable_pgLik X _ _) (c := ENNReal.ofReal c) (by simpa using hc)
      ENNReal.ofReal_ne_top]
  simp only [ENNReal.ofReal_mul hc.le]

/-- With standard deviation 4 the step keeps the posterior for standard deviation 2. -/
example (X : Matrix (Fin 3) (Fin 1) ℝ) (y : Fin 3 → ℕ) :
    Stationary (bayes (normalPrior fun _ => Real.sqrt 4) (nbRegLik X (fun i => i + 1) y))
      (nbinomNormalPosterior stdLinAlg (fun _ => 4) X (fun i => i + 1) y) :=
  have := isProbabilityMeasure_bayes (bayesDefined_nbRegLik X (h := fun i : Fin 3 => (i : ℝ) + 1)
    (fun i => by positivity) y (normalPrior fun _ => Real.sqrt 4))
  (C21_nbinom_step_target_partial stdLinAlg_sound (fun _ => by norm_num) X (fun i => by positivity) y
    _).2 rfl

/-- **C21 is violated**: one count, one coefficient with prior standard deviation 2. -/
theorem C21_nbinom_step_violated : ∃ (la : LinAlg) (std : Fin 1 → ℝ) (X : Matrix (Fin 1) (Fin 1) ℝ)
    (h : Fin 1 → ℝ) (y : Fin 1 → ℕ), la.Sound ∧ (∀ j, 0 < std j) ∧ (∀ i, 0 < h i) ∧
    BayesDefined (normalPrior std) (nbRegLik X h y) ∧
    ¬ Stationary (bayes (normalPrior std) (nbRegLik X h y))
      (nbinomNormalPosterior la std X h y) := by
  refine ⟨stdLinAlg, fun _ => 2, 1, fun _ => 1, fun _ => 1, stdLinAlg_sound, fun _ => two_pos,
    fun _ => one_pos, bayesDefined_nbRegLik 1 (fun _ => one_pos) _ _, fun hst => ?_⟩
  have := (C21_nbinom_step_iff_partial stdLinAlg_sound (fun _ => two_pos) 1
    (fun _ => one_pos) _).1 hst 0
  norm_num at this

/-- The hypotheses of C21–C23 are met. -/
example : ∃ (la : LinAlg) (std : Fin 2 → ℝ) (h : Fin 3 → ℝ), la.Sound ∧ (∀ j, 0 < std j) ∧
    ∀ i, 0 < h i :=
  ⟨stdLinAlg, fun j => j + 1, fun i => i + 1, stdLinAlg_sound, fun j => by positivity,
    fun i => by positivity⟩

theorem bernFactor_eq (ψ : ℝ) (y : Bool) :
    (if y then sigmoid ψ else 1 - sigmoid ψ) =
      2⁻¹ * (Real.exp ((boolVal y - 0.5) * ψ) * Real.cosh (ψ / 2) ^ (-(1 : ℝ))) := by
  have hc := Real.cosh_pos (ψ / 2)
  have he := Real.exp_pos (ψ / 2)
  have h1 : sigmoid ψ = Real.exp (ψ / 2) * (2 * Real.cosh (ψ / 2))⁻¹ := by
    have := one_add_exp (-ψ)
    rw [neg_div, Real.cosh_neg] at this
    rw [sigmoid, this, Real.exp_neg]
    field_simp
  have h2 : 1 - sigmoid ψ = Real.exp (-(ψ / 2)) * (2 * Real.cosh (ψ / 2))⁻¹ := by
    rw [h1]
    field_simp
    rw [Real.cosh_eq]
    ring
  rw [Real.rpow_neg_one]
  cases y
  · simp only [Bool.false_eq_true, if_false, h2, boolVal]
    rw [show ((0 : ℝ) - 0.5) * ψ = -(ψ / 2) by ring, mul_inv]
    ring
  · simp only [if_true, h1, boolVal]
    rw [show ((1 : ℝ) - 0.5) * ψ = ψ / 2 by ring, mul_inv]
    ring

theorem bernRegLik_eq (X : Matrix (Fin n) (Fin p) ℝ) (y : Fin n → Bool) (β : Fin p → ℝ) :
    bernRegLik sigmoid X y β = ENNReal.ofReal ((∏ _i : Fin n, (2 : ℝ)⁻¹) *
      pgLik X (fun _ => 1) (fun i => boolVal (y i) - 0.5) β) := by
  simp only [bernRegLik, bernFactor_eq]
  rw [← ENNReal.ofReal_prod_of_nonneg, pgLik, ← Finset.prod_mul_distrib]
  intro i _
  have h3 := Real.cosh_pos ((X *ᵥ β) i / 2)
  positivity

theorem bern_kappa_le (y : Bool) : |boolVal y - 0.5| ≤ (1 : ℝ) / 2 := by
  cases y <;> simp only [boolVal] <;> norm_num [abs_le]

theorem bernRegLik_neg (X : Matrix (Fin n) (Fin p) ℝ) (y : Fin n → Bool) (β : Fin p → ℝ) :
    bernRegLik (fun ψ => sigmoid (-ψ)) X y β = bernRegLik sigmoid (-X) y β := by
  simp [bernRegLik, neg_mulVec]

theorem bayesDefined_bernRegLik (X : Matrix (Fin n) (Fin p) ℝ) (y : Fin n → Bool)
    (μ : Measure (Fin p → ℝ)) [IsProbabilityMeasure μ] :
    BayesDefined μ (bernRegLik sigmoid X y) := by
  have hd := bayesDefined_pgLik X (b := fun _ => 1) (fun i => bern_kappa_le (y i)) μ
  have hm := measurable_pgLik X (fun _ => 1) (fun i => boolVal (y i) - 0.5)
  have hc : (0 : ℝ) < ∏ _i : Fin n, (2 : ℝ)⁻¹ := by positivity
  rw [funext (bernRegLik_eq X y)]
  simp only [ENNReal.ofReal_mul hc.le]
  rw [BayesDefined, lintegral_const_mul _ hm]
  exact ⟨mul_ne_zero (by simp) hd.1, ENNReal.mul_ne_top ENNReal.ofReal_ne_top hd.2⟩

theorem bernNormalPosterior_eq (la : LinAlg) (std : Fin p → ℝ) (X : Matrix (Fin n) (Fin p) ℝ)
    (y : Fin n → Bool) :
    bernNormalPosterior la std X y = pgStep la (fun j => (std j)⁻¹) X
      (fun _ => 1) (fun i => boolVal (y i) - 0.5) := rfl

/-- **C22 (partial).** `bern_normal_posterior` leaves the posterior under
`Y ~ Bern(1/(1+exp(-X β)))` and prior standard deviations `std` invariant *exactly when every
standard deviation is 1*.  The full property asks for the left-hand side for all `std`. -/
theorem C22_bern_step_iff_partial {la : LinAlg} (hla : la.Sound) {std : Fin p → ℝ}
    (hs : ∀ j, 0 < std j) (X : Matrix (Fin n) (Fin p) ℝ) (y : Fin n → Bool) :
    Stationary (bayes (normalPrior std) (bernRegLik sigmoid X y))
      (bernNormalPosterior la std X y) ↔ ∀ j, std j = 1 := by
  rw [bernNormalPosterior_eq, pgStep_tilt_iff hla hs X (fun _ => one_pos)
    (fun i => bern_kappa_le (y i)) (c := ∏ _i : Fin n, (2 : ℝ)⁻¹) (by positivity) 0
    (fun β => by rw [bernRegLik_eq, zero_dotProduct, Real.exp_zero, one_mul])
    (bayesDefined_bernRegLik X y _)]
  simp

example (X : Matrix (Fin 3) (Fin 2) ℝ) :
    Stationary (bayes (normalPrior fun _ => 1) (bernRegLik sigmoid X ![true, false, true]))
      (bernNormalPosterior stdLinAlg (fun _ => 1) X ![true, false, true]) ∧
    ¬ Stationary (bayes (normalPrior ![1, 2]) (bernRegLik sigmoid X ![true, false, true]))
      (bernNormalPosterior stdLinAlg ![1, 2] X ![true, false, true]) := by
  refine ⟨(C22_bern_step_iff_partial stdLinAlg_sound (fun _ => one_pos) X _).2 fun _ => rfl,
    fun h => ?_⟩
  have : (2 : ℝ) = 1 :=
    (C22_bern_step_iff_partial stdLinAlg_sound (fun j => by fin_cases j <;> norm_num) X _).1 h 1
  norm_num at this

/-- **C22 (partial).** What it does target, for all inputs: its only stationary probability law is
the posterior under prior standard deviations `sqrt std`. -/
theorem C22_bern_step_target_partial {la : LinAlg} (hla : la.Sound) {std : Fin p → ℝ}
    (hs : ∀ j, 0 < std j) (X : Matrix (Fin n) (Fin p) ℝ) (y : Fin n → Bool)
    (π : Measure (Fin p → ℝ)) [IsProbabilityMeasure π] :
    Stationary π (bernNormalPosterior la std X y) ↔
      π = bayes (normalPrior fun j => Real.sqrt (std j)) (bernRegLik sigmoid X y) := by
  have hc : (0 : ℝ) < ∏ _i : Fin n, (2 : ℝ)⁻¹ := by positivity
  rw [bernNormalPosterior_eq, pgStep_stationary_iff hla (fun j => inv_pos.2 (hs j)) X
    (fun _ => one_pos) (fun i => bern_kappa_le (y i)), normalPrior_sqrt hs,
    funext (bernRegLik_eq X y),
    ← bayes_const_mul _ (measurable_pgLik X _ _) (c := ENNReal.ofReal (∏ _i : Fin n, (2 : ℝ)⁻¹))
      (by simp) ENNReal.ofReal_ne_top]
  simp only [ENNReal.ofReal_mul hc.le]

example (X : Matrix (Fin 3) (Fin 1) ℝ) :
    Stationary (bayes (normalPrior fun _ => Real.sqrt 4) (bernRegLik sigmoid X ![true, false, true]))
      (bernNormalPosterior stdLinAlg (fun _ => 4) X ![true, false, true]) :=
  have := isProbabilityMeasure_bayes
    (bayesDefined_bernRegLik X ![true, false, true] (normalPrior fun _ => Real.sqrt 4))
  (C22_bern_step_target_partial stdLinAlg_sound (fun _ => by norm_num) X _ _).2 rfl

/-- **C22 is violated**: one observation, one coefficient with prior standard deviation 2. -/
theorem C22_bern_step_violated : ∃ (la : LinAlg) (std : Fin 1 → ℝ) (X : Matrix (Fin 1) (Fin 1) ℝ)
    (y : Fin 1 → Bool), la.Sound ∧ (∀ j, 0 < std j) ∧
    BayesDefined (normalPrior std) (bernRegLik sigmoid X y) ∧
    ¬ Stationary (bayes (normalPrior std) (bernRegLik sigmoid X y))
      (bernNormalPosterior la std X y) := by
  refine ⟨stdLinAlg, fun _ => 2, 1, fun _ => true, stdLinAlg_sound, fun _ => two_pos,
    bayesDefined_bernRegLik 1 _ _, fun hst => ?_⟩
  have := (C22_bern_step_iff_partial stdLinAlg_sound (fun _ => two_pos) 1 _).1 hst 0
  norm_num at this

/-- The likelihood the finder matches is the one the step targets times an exponential. -/
theorem bernRegLik_tilt (X : Matrix (Fin n) (Fin p) ℝ) (y : Fin n → Bool) (β : Fin p → ℝ) :
    bernRegLik (fun ψ => sigmoid (-ψ)) X y β = ENNReal.ofReal ((∏ _i : Fin n, (2 : ℝ)⁻¹) *
      (Real.exp ((-(Xᵀ *ᵥ fun i => 2 * boolVal (y i) - 1)) ⬝ᵥ β) *
        pgLik X (fun _ => 1) (fun i => boolVal (y i) - 0.5) β)) := by
  rw [bernRegLik_neg, bernRegLik_eq]
  congr 2
  have e1 : (-(Xᵀ *ᵥ fun i => 2 * boolVal (y i) - 1)) ⬝ᵥ β =
      ∑ i, -((2 * boolVal (y i) - 1) * (X *ᵥ β) i) := by
    rw [neg_dotProduct, dotProduct_comm, dotProduct_mulVec, ← mulVec_transpose,
      transpose_transpose, Finset.sum_neg_distrib]
    simp only [dotProduct]
    congr 1
    exact Finset.sum_congr rfl fun i _ => by ring
  rw [e1, Real.exp_sum, pgLik, pgLik, ← Finset.prod_mul_distrib]
  refine Finset.prod_congr rfl fun i _ => ?_
  rw [neg_mulVec, Pi.neg_apply, neg_div, Real.cosh_neg, ← mul_assoc, ← Real.exp_add]
  congr 2
  ring

/-- **C23 (partial).** The Bernoulli regression finder matches `p = sigmoid(-1 * X β)` and passes
`X` to `bern_normal_posterior` unchanged.  The step then leaves the posterior of the *matched* model
invariant *exactly when* the standard deviations are all 1 and `Xᵀ (2 y - 1) = 0`: with unit
standard deviations it is wrong for every data set whose coefficients the data inform about. -/
theorem C23_bern_finder_step_iff_partial {la : LinAlg} (hla : la.Sound) {std : Fin p → ℝ}
    (hs : ∀ j, 0 < std j) (X : Matrix (Fin n) (Fin p) ℝ) (y : Fin n → Bool) :
    Stationary (bayes (normalPrior std) (bernRegLik (fun ψ => sigmoid (-ψ)) X y))
      (bernNormalPosterior la std X y) ↔
        (∀ j, std j = 1) ∧ (Xᵀ *ᵥ fun i => 2 * boolVal (y i) - 1) = 0 := by
  have hd : BayesDefined (normalPrior std) (bernRegLik (fun ψ => sigmoid (-ψ)) X y) := by
    rw [funext (bernRegLik_neg X y)]
    exact bayesDefined_bernRegLik (-X) y _
  rw [bernNormalPosterior_eq, pgStep_tilt_iff hla hs X (fun _ => one_pos)
    (fun i => bern_kappa_le (y i)) (c := ∏ _i : Fin n, (2 : ℝ)⁻¹) (by positivity)
    (-(Xᵀ *ᵥ fun i => 2 * boolVal (y i) - 1)) (bernRegLik_tilt X y) hd, neg_eq_zero]

/-- Two equal rows with opposite outcomes: right by cancellation. -/
example : Stationary (bayes (normalPrior fun _ => 1)
      (bernRegLik (fun ψ => sigmoid (-ψ)) !![3; 3] ![true, false]))
    (bernNormalPosterior stdLinAlg (fun _ => 1) !![3; 3] ![true, false]) :=
  (C23_bern_finder_step_iff_partial stdLinAlg_sound (fun _ => one_pos) _ _).2 ⟨fun _ => rfl, by
    ext j
    fin_cases j
    norm_num [mulVec, dotProduct, Fin.sum_univ_two, boolVal]⟩

/-- **C23 is violated**, even with unit prior standard deviations: one positive observation. -/
theorem C23_bern_finder_step_violated : ∃ (la : LinAlg) (X : Matrix (Fin 1) (Fin 1) ℝ)
    (y : Fin 1 → Bool), la.Sound ∧
    BayesDefined (normalPrior fun _ => 1) (bernRegLik (fun ψ => sigmoid (-ψ)) X y) ∧
    ¬ Stationary (bayes (normalPrior fun _ => 1) (bernRegLik (fun ψ => sigmoid (-ψ)) X y))
      (bernNormalPosterior la (fun _ => 1) X y) := by
  refine ⟨stdLinAlg, 1, fun _ => true, stdLinAlg_sound, ?_, fun hst => ?_⟩
  · rw [funext (bernRegLik_neg 1 fun _ => true)]
    exact bayesDefined_bernRegLik (-1) _ _
  · have h := ((C23_bern_finder_step_iff_partial stdLinAlg_sound (fun _ => one_pos) 1 _).1 hst).2
    have := congrFun h 0
    norm_num [boolVal] at this

end

end Verif
