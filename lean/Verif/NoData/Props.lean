import Verif.PG.SymmProps
import Verif.CRT.Props
import Verif.FFBS.Symm
import Verif.Conj.OrderProps

/-!
# C91: steps that are given no evidence
-/

open MeasureTheory ProbabilityTheory Matrix
open scoped ENNReal

namespace Verif.NoData

/-! ## Regressions -/

section

variable {p n : ℕ}

/-- Spec.  The coefficients are independent and normal with mean `0` and *variances* `v`. -/
noncomputable def normalWith (v : Fin p → ℝ) : Measure (Fin p → ℝ) :=
  Measure.pi fun j => gaussianReal 0 (v j).toNNReal

theorem normalWith_eq_prior {std : Fin p → ℝ} (hs : ∀ j, 0 < std j) :
    normalWith std = normalPrior fun j => √(std j) := by
  unfold normalWith normalPrior
  congr 1
  funext j
  rw [Real.sq_sqrt (hs j).le]

theorem normalPrior_inj {s t : Fin p → ℝ} (hs : ∀ j, 0 < s j) (ht : ∀ j, 0 < t j)
    (h : normalPrior s = normalPrior t) : s = t := by
  rw [normalPrior_eq_mvn hs, normalPrior_eq_mvn ht] at h
  have d : ∀ {u : Fin p → ℝ}, (∀ j, 0 < u j) → (diagonal fun j => (u j ^ 2)⁻¹).PosDef := fun hu =>
    PosDef.diagonal fun j => by have := hu j; positivity
  have h1 := (mvn_inj (d hs).inv.posSemidef (d ht).inv.posSemidef h).2
  have h2 := congrArg (fun M => M⁻¹) h1
  simp only [nonsing_inv_nonsing_inv _ (isUnit_iff_ne_zero.2 (d hs).det_pos.ne'),
    nonsing_inv_nonsing_inv _ (isUnit_iff_ne_zero.2 (d ht).det_pos.ne')] at h2
  funext j
  have h3 : s j ^ 2 = t j ^ 2 := inv_injective (congrFun (diagonal_injective h2) j)
  exact (pow_left_inj₀ (hs j).le (ht j).le two_ne_zero).1 h3

theorem normalRegression_empty {la : LinAlg} (hla : la.Sound) {std : Fin p → ℝ} (hs : ∀ j, 0 < std j)
    (w : Fin 0 → ℝ) (X : Matrix (Fin 0) (Fin p) ℝ) (z : Fin 0 → ℝ) :
    normalRegression la w (fun j => (std j)⁻¹) X z = normalWith std := by
  rw [normalRegression_law hla (fun i => i.elim0) (fun j => inv_pos.2 (hs j)), normalWith_eq_prior hs,
    normalPrior_eq_mvn fun j => Real.sqrt_pos.2 (hs j)]
  have hX : Xᵀ * diagonal w * X = 0 := by
    ext i j
    simp [Matrix.mul_apply]
  have hz : Xᵀ *ᵥ (diagonal w *ᵥ z) = 0 := by
    funext i
    simp [mulVec, dotProduct]
  rw [hX, hz, add_zero, mulVec_zero]
  congr 2
  refine congrArg diagonal (funext fun j => ?_)
  rw [Real.sq_sqrt (hs j).le]

theorem ne_iff_std {std : Fin p → ℝ} (hs : ∀ j, 0 < std j) :
    normalWith std = normalPrior std ↔ ∀ j, std j = 1 := by
  rw [normalWith_eq_prior hs]
  constructor
  · intro h j
    have h1 := congrFun (normalPrior_inj (fun j => Real.sqrt_pos.2 (hs j)) hs h) j
    have h2 := Real.sq_sqrt (hs j).le
    rw [h1] at h2
    have := hs j
    nlinarith
  · intro h
    rw [show std = fun _ => 1 from funext h]
    simp

theorem nbinom_no_evidence {la : LinAlg} (hla : la.Sound) {std : Fin p → ℝ} (hs : ∀ j, 0 < std j)
    {X : Matrix (Fin n) (Fin p) ℝ} (hX : ∀ i j, X i j = 0) {h : Fin n → ℝ} (hh : ∀ i, 0 < h i)
    (y : Fin n → ℕ) (β : Fin p → ℝ) :
    nbinomNormalPosterior la std X h y β = normalWith std := by
  rw [← C72_nbinom_observations hla hs X hh y (f := (Fin.elim0 : Fin 0 → Fin n)) (fun i => i.elim0)
    (fun i _ => hX i) β]
  unfold nbinomNormalPosterior
  simp only [normalRegression_empty hla hs]
  rw [Measure.pi_of_empty, Measure.dirac_bind measurable_const]

theorem bern_no_evidence {la : LinAlg} (hla : la.Sound) {std : Fin p → ℝ} (hs : ∀ j, 0 < std j)
    {X : Matrix (Fin n) (Fin p) ℝ} (hX : ∀ i j, X i j = 0) (y : Fin n → Bool) (β : Fin p → ℝ) :
    bernNormalPosterior la std X y β = normalWith std := by
  rw [← C72_bern_observations hla hs X y (f := (Fin.elim0 : Fin 0 → Fin n)) (fun i => i.elim0)
    (fun i _ => hX i) β]
  unfold bernNormalPosterior
  simp only [normalRegression_empty hla hs]
  rw [Measure.pi_of_empty, Measure.dirac_bind measurable_const]

/-- **C91 (partial), negative-binomial regression.** With regressors that are all zero (in particular without
any observation), the new coefficients are independent normal variables with *variances* `std`, whatever
the current ones are.  This is the prior exactly if all standard deviations are `1`.  The full property
asks for the prior always. -/
theorem C91_nbinom_iff_partial {la : LinAlg} (hla : la.Sound) {std : Fin p → ℝ} (hs : ∀ j, 0 < std j)
    {X : Matrix (Fin n) (Fin p) ℝ} (hX : ∀ i j, X i j = 0) {h : Fin n → ℝ} (hh : ∀ i, 0 < h i)
    (y : Fin n → ℕ) (β : Fin p → ℝ) :
    nbinomNormalPosterior la std X h y β = (Measure.pi fun j => gaussianReal 0 (std j).toNNReal) ∧
      (nbinomNormalPosterior la std X h y β = normalPrior std ↔ ∀ j, std j = 1) := by
  rw [nbinom_no_evidence hla hs hX hh y β]
  exact ⟨rfl, ne_iff_std hs⟩

/-- Two counts without regressors; and no count at all, with a standard deviation of `3`. -/
example (β : Fin 2 → ℝ) :
    nbinomNormalPosterior stdLinAlg (fun _ => 1) (0 : Matrix (Fin 2) (Fin 2) ℝ) (fun _ => 2) ![0, 5] β =
        normalPrior (fun _ => 1) ∧
      nbinomNormalPosterior stdLinAlg ![1, 3] (0 : Matrix (Fin 0) (Fin 2) ℝ) (fun _ => 2) ![] β ≠
        normalPrior ![1, 3] := by
  refine ⟨(C91_nbinom_iff_partial stdLinAlg_sound (fun _ => one_pos) (fun _ _ => rfl)
    (fun _ => two_pos) _ β).2.2 fun _ => rfl, fun h => ?_⟩
  have := (C91_nbinom_iff_partial stdLinAlg_sound (fun j => by fin_cases j <;> norm_num) (fun _ _ => rfl)
    (fun _ => two_pos) _ β).2.1 h 1
  norm_num at this

/-- **C91 (partial), Bernoulli regression.** -/
theorem C91_bern_iff_partial {la : LinAlg} (hla : la.Sound) {std : Fin p → ℝ} (hs : ∀ j, 0 < std j)
    {X : Matrix (Fin n) (Fin p) ℝ} (hX : ∀ i j, X i j = 0) (y : Fin n → Bool) (β : Fin p → ℝ) :
    bernNormalPosterior la std X y β = (Measure.pi fun j => gaussianReal 0 (std j).toNNReal) ∧
      (bernNormalPosterior la std X y β = normalPrior std ↔ ∀ j, std j = 1) := by
  rw [bern_no_evidence hla hs hX y β]
  exact ⟨rfl, ne_iff_std hs⟩

example (β : Fin 2 → ℝ) :
    bernNormalPosterior stdLinAlg (fun _ => 1) (0 : Matrix (Fin 2) (Fin 2) ℝ) ![true, false] β =
        normalPrior (fun _ => 1) ∧
      bernNormalPosterior stdLinAlg ![1, 3] (0 : Matrix (Fin 0) (Fin 2) ℝ) ![] β ≠ normalPrior ![1, 3] := by
  refine ⟨(C91_bern_iff_partial stdLinAlg_sound (fun _ => one_pos) (fun _ _ => rfl) _ β).2.2 fun _ => rfl,
    fun h => ?_⟩
  have := (C91_bern_iff_partial stdLinAlg_sound (fun j => by fin_cases j <;> norm_num) (fun _ _ => rfl)
    _ β).2.1 h 1
  norm_num at this

/-- **C91 is violated** by the regressions: one coefficient with prior standard deviation `2` and no
observation. -/
theorem C91_regression_violated {la : LinAlg} (hla : la.Sound) (β : Fin 1 → ℝ) :
    nbinomNormalPosterior la (fun _ => 2) (0 : Matrix (Fin 0) (Fin 1) ℝ) ![] ![] β ≠
        normalPrior (fun _ => 2) ∧
      bernNormalPosterior la (fun _ => 2) (0 : Matrix (Fin 0) (Fin 1) ℝ) ![] β ≠ normalPrior (fun _ => 2) := by
  refine ⟨fun h => ?_, fun h => ?_⟩
  · have := (C91_nbinom_iff_partial hla (fun _ => two_pos) (fun _ _ => rfl) (fun i => i.elim0) _ β).2.1 h 0
    norm_num at this
  · have := (C91_bern_iff_partial hla (fun _ => two_pos) (fun _ _ => rfl) _ β).2.1 h 0
    norm_num at this

example : stdLinAlg.Sound := stdLinAlg_sound

end

/-! ## Dispersion -/

/-- **C91, dispersion.** Without counts, the step for the dispersion of a negative-binomial regression draws from
the gamma prior with shape `a` and scale `b`, whatever the current dispersion and coefficients are. -/
theorem C91_dispersion {q : ℕ} (X : Matrix (Fin 0) (Fin q) ℝ) (β : Fin q → ℝ) (a b h : ℝ) :
    CRT.finderDispersion X β a b [] h = gammaMeasure a b⁻¹ := by
  unfold CRT.finderDispersion CRT.dispersionPosterior CRT.crtTotal CRT.sampleCRT CRT.crtScan
  rw [PMF.pure_map, PMF.pure_map, PMF.toMeasure_pure, Measure.dirac_bind (measurable_of_countable _)]
  simp

example (β : Fin 2 → ℝ) : CRT.finderDispersion (0 : Matrix (Fin 0) (Fin 2) ℝ) β 2 3 [] 7 = gammaMeasure 2 3⁻¹ :=
  C91_dispersion _ β 2 3 7

/-! ## Conjugate steps -/

section

open Verif.Conj Verif.Expr

/-- **C91, beta-binomial.** The step draws from the prior exactly if there are no trials. -/
theorem C91_beta_binomial {rng Y latent post : Expr}
    (h : betaBinomialFinder rng Y = some [(latent, post)])
    {sh : SShape} {rY sY dY nE pE : Expr} (hY : Y = .app (.rv .binomial) sh [rY, sY, dY, nE, pE])
    (ρ : Env) {n y : ℕ} (hn : evalE ρ nE = some (n : ℝ)) (hy : ρ Y = y) (hyn : y ≤ n) {a b : ℝ} (ha : 0 < a)
    (hb : 0 < b) (hprior : lawAt ρ latent = some (betaMeasure a b)) :
    lawAt ρ post = lawAt ρ latent ↔ n = 0 := by
  rw [beta_binomial_step_law h hY ρ hn hy hyn ha hb hprior, hprior, Option.some_inj]
  have h2 : (y : ℝ) ≤ n := by exact_mod_cast hyn
  constructor
  · intro he
    obtain ⟨e1, e2⟩ := betaMeasure_inj (by positivity) (by linarith) ha hb he
    have : (n : ℝ) = 0 := by linarith
    exact_mod_cast this
  · rintro rfl
    obtain rfl : y = 0 := by omega
    simp

/-- No trials, and five trials. -/
example : (∃ post, betaBinomialFinder (exRng 0) (exBinomial 0 (exBeta 2 1)) = some [(exBeta 2 1, post)] ∧
      lawAt (fun _ => 0) post = lawAt (fun _ => 0) (exBeta 2 1)) ∧
    ∃ post, betaBinomialFinder (exRng 0) (exBinomial 5 (exBeta 2 1)) = some [(exBeta 2 1, post)] ∧
      lawAt (fun _ => 2) post ≠ lawAt (fun _ => 2) (exBeta 2 1) := by
  have hp : ∀ ρ : Env, lawAt ρ (exBeta 2 1) = some (betaMeasure 2 1) := fun ρ => by
    simp [exBeta, lawAt, exNum, evalE, rvLaw]
  refine ⟨⟨_, rfl, (C91_beta_binomial (rng := exRng 0) (Y := exBinomial 0 (exBeta 2 1)) (latent := exBeta 2 1)
    rfl rfl (fun _ => 0) (n := 0) (y := 0) (by simp [exNum, evalE]) (by simp) le_rfl two_pos one_pos (hp _)).2 rfl⟩,
    ⟨_, rfl, fun h => ?_⟩⟩
  have := (C91_beta_binomial (rng := exRng 0) (Y := exBinomial 5 (exBeta 2 1)) (latent := exBeta 2 1)
    rfl rfl (fun _ => 2) (n := 5) (y := 2) (by simp [exNum, evalE]) (by norm_num) (by norm_num) two_pos one_pos
    (hp _)).1 h
  omega

end

/-! ## Hidden states -/

section

variable {M N : ℕ}

open FFBS

/-- Spec.  The probability that a Markov chain that starts in `k` with probability `γ k` runs through the states
`s 0, s 1, …` in its first steps, the initial state summed out. -/
noncomputable def chainProb (γ : Fin M → ℝ) (Γ : Fin N → Matrix (Fin M) (Fin M) ℝ) (s : Fin N → Fin M) : ℝ :=
  ∑ s₀, γ s₀ * ∏ t : Fin N, Γ t ((Fin.cons s₀ s : Fin (N + 1) → Fin M) t.castSucc) (s t)

theorem weight_flat (γ : Fin M → ℝ) (Γ : Fin N → Matrix (Fin M) (Fin M) ℝ) (d : Fin N → ℝ)
    (s : Fin N → Fin M) :
    weight γ Γ (fun t _ => (d t : WithBot ℝ)) s = Real.exp (∑ t, d t) * chainProb γ Γ s := by
  unfold weight chainProb
  rw [Finset.mul_sum]
  refine Finset.sum_congr rfl fun s₀ _ => ?_
  rw [Finset.prod_mul_distrib, Real.exp_sum]
  simp only [lik]
  ring

theorem chainProb_sum : ∀ {N : ℕ} (γ : Fin M → ℝ) (Γ : Fin N → Matrix (Fin M) (Fin M) ℝ)
    (_ : ∀ t i, ∑ j, Γ t i j = 1), ∑ s, chainProb γ Γ s = ∑ k, γ k := by
  intro N
  induction N with
  | zero =>
    intro γ Γ _
    simp [chainProb]
  | succ N ih =>
    intro γ Γ h
    rw [← ih γ (fun t => Γ t.castSucc) fun t => h _]
    have h0 : ∀ s : Fin (N + 1) → Fin M, chainProb γ Γ s =
        weight γ Γ (fun _ _ => ((0 : ℝ) : WithBot ℝ)) s := fun s => by
      rw [weight_flat γ Γ (fun _ => 0)]
      simp
    have h1 : ∀ s : Fin N → Fin M, chainProb γ (fun t => Γ t.castSucc) s =
        weight γ (fun t => Γ t.castSucc) (fun _ _ => ((0 : ℝ) : WithBot ℝ)) s := fun s => by
      rw [weight_flat γ _ (fun _ => 0)]
      simp
    simp only [h0, h1]
    rw [← Fintype.sum_equiv (Fin.snocEquiv fun _ : Fin (N + 1) => Fin M)
      (fun q => weight γ Γ (fun _ _ => ((0 : ℝ) : WithBot ℝ)) (Fin.snoc q.2 q.1)) _ fun q => rfl,
      Fintype.sum_prod_type_right]
    refine Finset.sum_congr rfl fun s _ => ?_
    rw [weight_last γ Γ (fun _ _ => ((0 : ℝ) : WithBot ℝ)) (h _) (fun _ => rfl) s]
    simp

/-- **C91, hidden states.** When no observation says anything (at each time point all log-likelihoods are equal),
the states are drawn as the Markov chain itself moves. -/
theorem C91_ffbs {γ : Fin M → ℝ} (hγ : ∀ k, 0 ≤ γ k) (hγ1 : ∑ k, γ k = 1)
    {Γ : Fin (N + 1) → Matrix (Fin M) (Fin M) ℝ} (hΓ : ∀ t i j, 0 ≤ Γ t i j) (hΓ1 : ∀ t i, ∑ j, Γ t i j = 1)
    (d : Fin (N + 1) → ℝ) (lb : ℝ) (s : Fin (N + 1) → Fin M) :
    ffbsStep γ (List.ofFn Γ) (List.ofFn fun t _ => (d t : WithBot ℝ)) lb (some (List.ofFn s)) =
      ENNReal.ofReal (∑ s₀, γ s₀ * ∏ t, Γ t ((Fin.cons s₀ s : Fin (N + 2) → Fin M) t.castSucc) (s t)) := by
  have hev : evidence γ Γ (fun t _ => (d t : WithBot ℝ)) = Real.exp (∑ t, d t) := by
    unfold evidence
    simp only [weight_flat]
    rw [← Finset.mul_sum, chainProb_sum γ Γ hΓ1, hγ1, mul_one]
  rw [C33_ffbs_smoothing hγ hΓ _ lb (by rw [hev]; exact Real.exp_pos _) s]
  unfold smoothing
  rw [hev, weight_flat, mul_div_cancel_left₀ _ (Real.exp_pos _).ne']
  rfl

/-- Three uninformative observations of a chain with an impossible transition. -/
example (s : Fin 3 → Fin 2) :
    ffbsStep ![1 / 2, 1 / 2] (List.ofFn fun _ : Fin 3 => !![1, 0; 1 / 3, 2 / 3])
        (List.ofFn fun (t : Fin 3) _ => (((t : ℕ) : ℝ) : WithBot ℝ)) 0 (some (List.ofFn s)) =
      ENNReal.ofReal (∑ s₀ : Fin 2, (![1 / 2, 1 / 2] : Fin 2 → ℝ) s₀ * ∏ t : Fin 3,
        (!![1, 0; 1 / 3, 2 / 3] : Matrix (Fin 2) (Fin 2) ℝ)
          ((Fin.cons s₀ s : Fin 4 → Fin 2) t.castSucc) (s t)) :=
  C91_ffbs (fun k => by fin_cases k <;> norm_num) (by norm_num [Fin.sum_univ_two])
    (fun _ i j => by fin_cases i <;> fin_cases j <;> norm_num)
    (fun _ i => by fin_cases i <;> norm_num [Fin.sum_univ_two]) _ 0 s

end

end Verif.NoData
