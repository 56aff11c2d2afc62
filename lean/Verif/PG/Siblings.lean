import Verif.PG.Other
import Verif.NbReg.Lemmas
import Mathlib.MeasureTheory.Measure.OpenPos

/-!
# C05: regression coefficients with other observed children
-/

open MeasureTheory ProbabilityTheory Matrix
open scoped ENNReal

namespace Verif

section

variable {p n n' : ℕ}

/-- **C05, other children of regression coefficients.** The coefficients have a negative-binomial
regression as one observed child, whose finder's step is used, and `L` is the likelihood of everything
else observed that depends on them.  The step leaves the posterior given *all* observations invariant if
and only if `L` is, up to a constant and almost everywhere, `exp(Σ_j (1/std_j² - 1/std_j) β_j² / 2)`:
with unit standard deviations, if and only if nothing else observed tells anything about the
coefficients.  Missing for the full property: every other model, where the code is wrong
(`C05_two_nbinom_violated`). -/
theorem C05_nbinom_sibling_iff_partial {la : LinAlg} (hla : la.Sound) {std : Fin p → ℝ}
    (hs : ∀ j, 0 < std j) (X : Matrix (Fin n) (Fin p) ℝ) {h : Fin n → ℝ} (hh : ∀ i, 0 < h i)
    (y : Fin n → ℕ) {L : (Fin p → ℝ) → ℝ≥0∞} (hL : Measurable L)
    (hd : BayesDefined (normalPrior std) fun β => nbRegLik X h y β * L β) :
    Stationary (bayes (normalPrior std) fun β => nbRegLik X h y β * L β)
        (nbinomNormalPosterior la std X h y) ↔
      ∃ k : ℝ, 0 < k ∧ ∀ᵐ β, L β =
        ENNReal.ofReal (k * Real.exp (∑ j, ((std j ^ 2)⁻¹ - (std j)⁻¹) * β j ^ 2 / 2)) := by
  obtain ⟨c, hc, hl⟩ := nbRegLik_eq X hh y
  rw [nbinomNormalPosterior_eq, pgStep_other_iff hla hs X
    (fun i => by have := hh i; positivity) (nb_kappa_le hh y) hc 0
    (fun β => by rw [hl, zero_dotProduct, Real.exp_zero, one_mul]) hL hd]
  simp only [zero_dotProduct, sub_zero, priorGap]

/-- **C05, other children of logistic-regression coefficients.** As above, for a Bernoulli regression
`Y ~ Bern(sigmoid(-1 * X β))` as the finder matches it: the step is right if and only if `L` is, up to a
constant and almost everywhere, `exp(Σ_j (1/std_j² - 1/std_j) β_j² / 2 + Σ_i (2 y_i - 1) (X β)_i)`. -/
theorem C05_bern_sibling_iff_partial {la : LinAlg} (hla : la.Sound) {std : Fin p → ℝ}
    (hs : ∀ j, 0 < std j) (X : Matrix (Fin n) (Fin p) ℝ) (y : Fin n → Bool)
    {L : (Fin p → ℝ) → ℝ≥0∞} (hL : Measurable L)
    (hd : BayesDefined (normalPrior std) fun β =>
      bernRegLik (fun ψ => sigmoid (-ψ)) X y β * L β) :
    Stationary (bayes (normalPrior std) fun β => bernRegLik (fun ψ => sigmoid (-ψ)) X y β * L β)
        (bernNormalPosterior la std X y) ↔
      ∃ k : ℝ, 0 < k ∧ ∀ᵐ β, L β =
        ENNReal.ofReal (k * Real.exp (∑ j, ((std j ^ 2)⁻¹ - (std j)⁻¹) * β j ^ 2 / 2 +
          (Xᵀ *ᵥ fun i => 2 * boolVal (y i) - 1) ⬝ᵥ β)) := by
  rw [bernNormalPosterior_eq, pgStep_other_iff hla hs X (fun _ => one_pos)
    (fun i => bern_kappa_le (y i)) (c := ∏ _i : Fin n, (2 : ℝ)⁻¹) (by positivity)
    (-(Xᵀ *ᵥ fun i => 2 * boolVal (y i) - 1)) (bernRegLik_tilt X y) hL hd]
  simp only [neg_dotProduct, sub_neg_eq_add, priorGap]

/-- For continuous likelihoods the condition holds everywhere. -/
theorem ae_gap_iff {L : (Fin p → ℝ) → ℝ≥0∞} {f g : (Fin p → ℝ) → ℝ} (hf : Continuous f)
    (hf0 : ∀ β, 0 ≤ f β) (hL : ∀ β, L β = ENNReal.ofReal (f β)) (hg : Continuous g)
    (hg0 : ∀ β, 0 ≤ g β) :
    (∀ᵐ β, L β = ENNReal.ofReal (g β)) ↔ ∀ β, f β = g β := by
  constructor
  · intro h β
    have h' : L = fun β => ENNReal.ofReal (g β) := by
      rw [funext hL] at h ⊢
      exact Continuous.ae_eq_iff_eq volume (ENNReal.continuous_ofReal.comp hf)
        (ENNReal.continuous_ofReal.comp hg) |>.1 h
    have := congrFun h' β
    rwa [hL, ENNReal.ofReal_eq_ofReal_iff (hf0 β) (hg0 β)] at this
  · intro h
    exact ae_of_all _ fun β => by rw [hL, h]

/-- Two sets of negative-binomial observations of one vector of coefficients: the posterior exists. -/
theorem bayesDefined_two_nb (X : Matrix (Fin n) (Fin p) ℝ) {h : Fin n → ℝ} (hh : ∀ i, 0 < h i)
    (y : Fin n → ℕ) (X' : Matrix (Fin n') (Fin p) ℝ) {h' : Fin n' → ℝ} (hh' : ∀ i, 0 < h' i)
    (y' : Fin n' → ℕ) (μ : Measure (Fin p → ℝ)) [IsProbabilityMeasure μ] :
    BayesDefined μ fun β => nbRegLik X h y β * nbRegLik X' h' y' β := by
  have h1 := bayesDefined_nbRegLik X hh y μ
  have := isProbabilityMeasure_bayes h1
  have h2 := bayesDefined_nbRegLik X' hh' y' (bayes μ (nbRegLik X h y))
  obtain ⟨c, hc, hl⟩ := nbRegLik_eq X hh y
  obtain ⟨c', hc', hl'⟩ := nbRegLik_eq X' hh' y'
  have hm : Measurable (nbRegLik X h y) := by
    rw [funext hl]
    exact ENNReal.measurable_ofReal.comp ((continuous_pgLik X _ _).measurable.const_mul c)
  have hm' : Measurable (nbRegLik X' h' y') := by
    rw [funext hl']
    exact ENNReal.measurable_ofReal.comp ((continuous_pgLik X' _ _).measurable.const_mul c')
  have e : ∫⁻ β, nbRegLik X' h' y' β ∂bayes μ (nbRegLik X h y) =
      (∫⁻ β, nbRegLik X h y β ∂μ)⁻¹ * ∫⁻ β, nbRegLik X h y β * nbRegLik X' h' y' β ∂μ := by
    rw [bayes, lintegral_smul_measure, smul_eq_mul, lintegral_withDensity_eq_lintegral_mul _ hm hm']
    rfl
  rw [BayesDefined, e] at h2
  refine ⟨fun h0 => h2.1 (by rw [h0, mul_zero]), fun h0 => h2.2 ?_⟩
  rw [h0, ENNReal.mul_top (ENNReal.inv_ne_zero.2 h1.2)]

/-- **C05, two negative-binomial regressions on one vector of coefficients.** Whichever of the two
steps is used, it leaves the posterior given both data sets invariant exactly when every standard
deviation is 1 and the design of the other regression is zero: that is, when the other data set says
nothing about the coefficients.  For all sizes, designs, dispersions and counts. -/
theorem C05_two_nbinom_iff_partial {la : LinAlg} (hla : la.Sound) {std : Fin p → ℝ}
    (hs : ∀ j, 0 < std j) (X : Matrix (Fin n) (Fin p) ℝ) {h : Fin n → ℝ} (hh : ∀ i, 0 < h i)
    (y : Fin n → ℕ) (X' : Matrix (Fin n') (Fin p) ℝ) {h' : Fin n' → ℝ} (hh' : ∀ i, 0 < h' i)
    (y' : Fin n' → ℕ) :
    Stationary (bayes (normalPrior std) fun β => nbRegLik X h y β * nbRegLik X' h' y' β)
        (nbinomNormalPosterior la std X h y) ↔
      (∀ j, std j = 1) ∧ X' = 0 := by
  obtain ⟨c, hc, hl⟩ := nbRegLik_eq X' hh' y'
  have hcont := continuous_pgLik X' (fun i => (y' i : ℝ) + h' i)
    (fun i => 0.5 * ((y' i : ℝ) - h' i))
  have hm' : Measurable (nbRegLik X' h' y') := by
    rw [funext hl]
    exact ENNReal.measurable_ofReal.comp (hcont.measurable.const_mul c)
  rw [C05_nbinom_sibling_iff_partial hla hs X hh y hm' (bayesDefined_two_nb X hh y X' hh' y' _)]
  have hgap := pgLik_eq_gap_iff hs X' (fun i => 0.5 * ((y' i : ℝ) - h' i))
    (b := fun i => (y' i : ℝ) + h' i) (fun i => by have := hh' i; positivity) 0
  simp only [zero_dotProduct, Real.exp_zero, one_mul, and_true] at hgap
  rw [← hgap]
  have hg : Continuous fun β : Fin p → ℝ =>
      Real.exp (∑ j, ((std j ^ 2)⁻¹ - (std j)⁻¹) * β j ^ 2 / 2) := by fun_prop
  have hiff : ∀ k : ℝ, 0 < k → ((∀ᵐ β, nbRegLik X' h' y' β = ENNReal.ofReal
      (k * Real.exp (∑ j, ((std j ^ 2)⁻¹ - (std j)⁻¹) * β j ^ 2 / 2))) ↔
      ∀ β, c * pgLik X' (fun i => (y' i : ℝ) + h' i) (fun i => 0.5 * ((y' i : ℝ) - h' i)) β =
        k * Real.exp (priorGap std β)) := fun k hk =>
    ae_gap_iff (hcont.const_mul c) (fun β => mul_nonneg hc.le (pgLik_pos _ _ _ β).le) hl
      (hg.const_mul k) fun β => by positivity
  constructor
  · rintro ⟨k, hk, hk'⟩
    refine ⟨k / c, by positivity, fun β => ?_⟩
    have := (hiff k hk).1 hk' β
    rw [div_mul_eq_mul_div, ← this]
    field_simp
  · rintro ⟨k, hk, hk'⟩
    refine ⟨c * k, by positivity, (hiff _ (by positivity)).2 fun β => ?_⟩
    rw [hk', mul_assoc]

/-- Another observation that says nothing about the coefficients, and one that does. -/
example (X : Matrix (Fin 3) (Fin 2) ℝ) (y : Fin 3 → ℕ) :
    Stationary (bayes (normalPrior fun _ => 1) fun β =>
        nbRegLik X (fun _ => 2) y β * nbRegLik (0 : Matrix (Fin 1) (Fin 2) ℝ) (fun _ => 3) ![7] β)
      (nbinomNormalPosterior stdLinAlg (fun _ => 1) X (fun _ => 2) y) ∧
    ¬ Stationary (bayes (normalPrior fun _ => 1) fun β =>
        nbRegLik X (fun _ => 2) y β * nbRegLik (!![0, 1] : Matrix (Fin 1) (Fin 2) ℝ) (fun _ => 3) ![7] β)
      (nbinomNormalPosterior stdLinAlg (fun _ => 1) X (fun _ => 2) y) := by
  refine ⟨(C05_two_nbinom_iff_partial stdLinAlg_sound (fun _ => one_pos) X (fun _ => two_pos) y 0
    (fun _ => by norm_num) _).2 ⟨fun _ => rfl, rfl⟩, fun h => ?_⟩
  have := ((C05_two_nbinom_iff_partial stdLinAlg_sound (fun _ => one_pos) X (fun _ => two_pos) y _
    (fun _ => by norm_num) _).1 h).2
  have : (1 : ℝ) = 0 := congrFun (congrFun this 0) 1
  norm_num at this

/-- **C05 is violated by two regressions**: one coefficient with unit standard deviation and two
negative-binomial observations `NB(1, sigmoid(-β))` of it that are separate variables of the model. -/
theorem C05_two_nbinom_violated : ∃ (la : LinAlg) (X X' : Matrix (Fin 1) (Fin 1) ℝ)
    (h h' : Fin 1 → ℝ) (y y' : Fin 1 → ℕ), la.Sound ∧ (∀ i, 0 < h i) ∧ (∀ i, 0 < h' i) ∧
    BayesDefined (normalPrior fun _ => 1) (fun β => nbRegLik X h y β * nbRegLik X' h' y' β) ∧
    ¬ Stationary (bayes (normalPrior fun _ => 1) fun β => nbRegLik X h y β * nbRegLik X' h' y' β)
      (nbinomNormalPosterior la (fun _ => 1) X h y) ∧
    ¬ Stationary (bayes (normalPrior fun _ => 1) fun β => nbRegLik X h y β * nbRegLik X' h' y' β)
      (nbinomNormalPosterior la (fun _ => 1) X' h' y') := by
  have h1 : ∀ _ : Fin 1, (0 : ℝ) < 1 := fun _ => one_pos
  have hne : (1 : Matrix (Fin 1) (Fin 1) ℝ) ≠ 0 := one_ne_zero
  refine ⟨stdLinAlg, 1, 1, fun _ => 1, fun _ => 1, fun _ => 1, fun _ => 3, stdLinAlg_sound, h1, h1,
    bayesDefined_two_nb 1 h1 _ 1 h1 _ _, fun hst => ?_, fun hst => ?_⟩
  · exact hne ((C05_two_nbinom_iff_partial stdLinAlg_sound h1 1 h1 _ 1 h1 _).1 hst).2
  · simp only [mul_comm (nbRegLik (1 : Matrix (Fin 1) (Fin 1) ℝ) (fun _ => 1) (fun _ => 1) _)] at hst
    exact hne ((C05_two_nbinom_iff_partial stdLinAlg_sound h1 1 h1 _ 1 h1 _).1 hst).2

/-- **C05, two Bernoulli regressions on one vector of coefficients.** The step for the first is right
exactly when every standard deviation is 1, the second design is zero, and the first data set meets the
condition of C23. -/
theorem C05_two_bern_iff_partial {la : LinAlg} (hla : la.Sound) {std : Fin p → ℝ}
    (hs : ∀ j, 0 < std j) (X : Matrix (Fin n) (Fin p) ℝ) (y : Fin n → Bool)
    (X' : Matrix (Fin n') (Fin p) ℝ) (y' : Fin n' → Bool) :
    Stationary (bayes (normalPrior std) fun β => bernRegLik (fun ψ => sigmoid (-ψ)) X y β *
          bernRegLik (fun ψ => sigmoid (-ψ)) X' y' β)
        (bernNormalPosterior la std X y) ↔
      (∀ j, std j = 1) ∧ X' = 0 ∧ (Xᵀ *ᵥ fun i => 2 * boolVal (y i) - 1) = 0 := by
  have hm' : ∀ {m : ℕ} (Z : Matrix (Fin m) (Fin p) ℝ) (z : Fin m → Bool),
      Measurable (bernRegLik (fun ψ => sigmoid (-ψ)) Z z) := by
    intro m Z z
    rw [funext (bernRegLik_neg Z z), funext (bernRegLik_eq (-Z) z)]
    exact ENNReal.measurable_ofReal.comp ((continuous_pgLik (-Z) _ _).measurable.const_mul _)
  have hle : ∀ {m : ℕ} (Z : Matrix (Fin m) (Fin p) ℝ) (z : Fin m → Bool) (β : Fin p → ℝ),
      bernRegLik (fun ψ => sigmoid (-ψ)) Z z β ≤ 1 := by
    intro m Z z β
    refine Finset.prod_le_one' fun i _ => ?_
    have h1 : 0 < sigmoid (-(Z *ᵥ β) i) := by unfold sigmoid; positivity
    have h2 : sigmoid (-(Z *ᵥ β) i) ≤ 1 := by
      unfold sigmoid
      exact div_le_one_of_le₀ (by linarith [Real.exp_pos (-(-(Z *ᵥ β) i))]) (by positivity)
    rw [ENNReal.ofReal_le_one]
    split_ifs
    · exact h2
    · linarith
  have hne : ∀ {m : ℕ} (Z : Matrix (Fin m) (Fin p) ℝ) (z : Fin m → Bool) (β : Fin p → ℝ),
      bernRegLik (fun ψ => sigmoid (-ψ)) Z z β ≠ 0 := by
    intro m Z z β
    rw [bernRegLik_neg, bernRegLik_eq, Ne, ENNReal.ofReal_eq_zero, not_le]
    have := pgLik_pos (-Z) (fun _ => 1) (fun i => boolVal (z i) - 0.5) β
    positivity
  have hd : BayesDefined (normalPrior std) fun β => bernRegLik (fun ψ => sigmoid (-ψ)) X y β *
      bernRegLik (fun ψ => sigmoid (-ψ)) X' y' β :=
    bayesDefined_of_bounded ((hm' X y).mul (hm' X' y')) (fun β => mul_ne_zero (hne _ _ _) (hne _ _ _))
      (B := 1) ENNReal.one_ne_top fun β => mul_le_one' (hle _ _ _) (hle _ _ _)
  rw [C05_bern_sibling_iff_partial hla hs X y (hm' X' y') hd]
  have hcont := continuous_pgLik (-X') (fun _ => 1) (fun i => boolVal (y' i) - 0.5)
  have hc : (0 : ℝ) < ∏ _i : Fin n', (2 : ℝ)⁻¹ := by positivity
  have hl : ∀ β, bernRegLik (fun ψ => sigmoid (-ψ)) X' y' β = ENNReal.ofReal
      ((∏ _i : Fin n', (2 : ℝ)⁻¹) * pgLik (-X') (fun _ => 1) (fun i => boolVal (y' i) - 0.5) β) :=
    fun β => by rw [bernRegLik_neg, bernRegLik_eq]
  have hgap := pgLik_eq_gap_iff hs (-X') (fun i => boolVal (y' i) - 0.5)
    (b := fun _ => 1) (fun _ => one_pos) (-(Xᵀ *ᵥ fun i => 2 * boolVal (y i) - 1))
  rw [neg_eq_zero, neg_eq_zero] at hgap
  rw [← hgap]
  have hg : Continuous fun β : Fin p → ℝ =>
      Real.exp (∑ j, ((std j ^ 2)⁻¹ - (std j)⁻¹) * β j ^ 2 / 2 +
          (Xᵀ *ᵥ fun i => 2 * boolVal (y i) - 1) ⬝ᵥ β) := by
    have : Continuous fun β : Fin p → ℝ => (Xᵀ *ᵥ fun i => 2 * boolVal (y i) - 1) ⬝ᵥ β :=
      continuous_const.dotProduct continuous_id
    fun_prop
  have hiff : ∀ k : ℝ, 0 < k → ((∀ᵐ β, bernRegLik (fun ψ => sigmoid (-ψ)) X' y' β = ENNReal.ofReal
      (k * Real.exp (∑ j, ((std j ^ 2)⁻¹ - (std j)⁻¹) * β j ^ 2 / 2 +
          (Xᵀ *ᵥ fun i => 2 * boolVal (y i) - 1) ⬝ᵥ β))) ↔
      ∀ β, (∏ _i : Fin n', (2 : ℝ)⁻¹) * pgLik (-X') (fun _ => 1) (fun i => boolVal (y' i) - 0.5) β =
        k * Real.exp (priorGap std β + (Xᵀ *ᵥ fun i => 2 * boolVal (y i) - 1) ⬝ᵥ β)) := fun k hk =>
    ae_gap_iff (hcont.const_mul _) (fun β => mul_nonneg hc.le (pgLik_pos _ _ _ β).le) hl
      (hg.const_mul k) fun β => by positivity
  constructor
  · rintro ⟨k, hk, hk'⟩
    refine ⟨k / ∏ _i : Fin n', (2 : ℝ)⁻¹, by positivity, fun β => ?_⟩
    have := (hiff k hk).1 hk' β
    rw [Real.exp_add] at this
    rw [neg_dotProduct, Real.exp_neg, div_mul_eq_mul_div]
    field_simp
    field_simp at this
    linarith
  · rintro ⟨k, hk, hk'⟩
    refine ⟨(∏ _i : Fin n', (2 : ℝ)⁻¹) * k, by positivity, (hiff _ (by positivity)).2 fun β => ?_⟩
    have := hk' β
    rw [neg_dotProduct, Real.exp_neg] at this
    rw [Real.exp_add, mul_assoc, ← mul_assoc k, ← this]
    field_simp

/-- The hypotheses are met, with unequal designs. -/
example : ∃ (la : LinAlg) (std : Fin 2 → ℝ) (h : Fin 3 → ℝ) (h' : Fin 1 → ℝ), la.Sound ∧
    (∀ j, 0 < std j) ∧ (∀ i, 0 < h i) ∧ ∀ i, 0 < h' i :=
  ⟨stdLinAlg, fun j => j + 1, fun i => i + 1, fun _ => 2, stdLinAlg_sound, fun j => by positivity,
    fun i => by positivity, fun _ => two_pos⟩

/-- The general condition is met by a likelihood that is not constant: with standard deviation 2 the
step happens to be right when the other likelihood is `exp(-β²/8)`. -/
example : BayesDefined (normalPrior fun _ : Fin 1 => 2) (fun β =>
    nbRegLik (1 : Matrix (Fin 1) (Fin 1) ℝ) (fun _ => 1) (fun _ => 1) β *
      ENNReal.ofReal (Real.exp (-(β 0 ^ 2 / 8)))) ∧
    Stationary (bayes (normalPrior fun _ : Fin 1 => 2) fun β =>
      nbRegLik (1 : Matrix (Fin 1) (Fin 1) ℝ) (fun _ => 1) (fun _ => 1) β *
        ENNReal.ofReal (Real.exp (-(β 0 ^ 2 / 8))))
      (nbinomNormalPosterior stdLinAlg (fun _ => 2) (1 : Matrix (Fin 1) (Fin 1) ℝ) (fun _ => 1)
        fun _ => 1) := by
  have h1 : ∀ _ : Fin 1, (0 : ℝ) < 1 := fun _ => one_pos
  obtain ⟨c, hc, hl⟩ := nbRegLik_eq (n := 1) (1 : Matrix (Fin 1) (Fin 1) ℝ) h1 fun _ => 1
  have hm : Measurable (nbRegLik (1 : Matrix (Fin 1) (Fin 1) ℝ) (fun _ => 1) fun _ => 1) := by
    rw [funext hl]
    exact ENNReal.measurable_ofReal.comp ((continuous_pgLik (n := 1) 1 _ _).measurable.const_mul c)
  have hL : Measurable fun β : Fin 1 → ℝ => ENNReal.ofReal (Real.exp (-(β 0 ^ 2 / 8))) := by
    fun_prop
  have hd : BayesDefined (normalPrior fun _ : Fin 1 => 2) (fun β =>
      nbRegLik (1 : Matrix (Fin 1) (Fin 1) ℝ) (fun _ => 1) (fun _ => 1) β *
        ENNReal.ofReal (Real.exp (-(β 0 ^ 2 / 8)))) := by
    refine bayesDefined_of_bounded (hm.mul hL) (fun β => mul_ne_zero ?_ ?_) (B := 1)
      ENNReal.one_ne_top fun β => mul_le_one' ?_ ?_
    · rw [hl, Ne, ENNReal.ofReal_eq_zero, not_le]
      have := pgLik_pos (1 : Matrix (Fin 1) (Fin 1) ℝ) (fun _ => ((1 : ℕ) : ℝ) + 1)
        (fun _ => 0.5 * (((1 : ℕ) : ℝ) - 1)) β
      positivity
    · simp [Real.exp_pos]
    · refine Finset.prod_le_one' fun i _ => ?_
      have hq : 0 < sigmoid (-((1 : Matrix (Fin 1) (Fin 1) ℝ) *ᵥ β) i) := by unfold sigmoid; positivity
      have hq1 : sigmoid (-((1 : Matrix (Fin 1) (Fin 1) ℝ) *ᵥ β) i) < 1 := by
        unfold sigmoid
        rw [div_lt_one (by positivity)]
        linarith [Real.exp_pos (-(-((1 : Matrix (Fin 1) (Fin 1) ℝ) *ᵥ β) i))]
      rw [Conj.nbMeasure_singleton, ENNReal.ofReal_le_one]
      refine (NbReg.nbPMF_le one_pos hq hq1 1).2.trans ?_
      rw [Nat.cast_one, Real.Gamma_add_one one_ne_zero, Real.Gamma_one]
      norm_num
    · rw [ENNReal.ofReal_le_one, Real.exp_le_one_iff]
      have := sq_nonneg (β 0)
      linarith
  refine ⟨hd, (C05_nbinom_sibling_iff_partial stdLinAlg_sound (fun _ => two_pos) (1 : Matrix (Fin 1) (Fin 1) ℝ) h1 _
    hL hd).2
    ⟨1, one_pos, ae_of_all _ fun β => ?_⟩⟩
  rw [one_mul, Fin.sum_univ_one]
  congr 2
  ring

end

end Verif
