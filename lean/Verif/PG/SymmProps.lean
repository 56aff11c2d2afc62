import Verif.PG.Symm

/-!
# C72, C73: what the regression steps owe to the way the data are written down
-/

open MeasureTheory ProbabilityTheory Matrix
open scoped ENNReal

namespace Verif

section

variable {p n m : ℕ}

/-- The matrix taking coefficients to relabelled ones with other signs. -/
def relabel (σ : Equiv.Perm (Fin p)) (s : Fin p → ℝ) : Matrix (Fin p) (Fin p) ℝ :=
  of fun j k => if k = σ j then s j else 0

theorem relabel_mulVec (σ : Equiv.Perm (Fin p)) (s β : Fin p → ℝ) :
    relabel σ s *ᵥ β = fun j => s j * β (σ j) := by
  ext j
  simp [relabel, mulVec, dotProduct]

theorem mul_relabel (σ : Equiv.Perm (Fin p)) {s : Fin p → ℝ} (hs : ∀ j, s j ^ 2 = 1)
    (X : Matrix (Fin n) (Fin p) ℝ) :
    (of fun i j => s j * X i (σ j)) * relabel σ s = X := by
  ext i k
  rw [mul_apply, Finset.sum_eq_single (σ.symm k)]
  · have := hs (σ.symm k)
    simp only [relabel, of_apply, Equiv.apply_symm_apply, if_true]
    linear_combination X i k * this
  · intro j _ hj
    simp only [relabel, of_apply]
    rw [if_neg, mul_zero]
    rintro rfl
    simp at hj
  · simp

theorem relabel_diag (σ : Equiv.Perm (Fin p)) {s std : Fin p → ℝ} (hs : ∀ j, s j ^ 2 = 1)
    (h : ∀ j, 0 < std j) :
    relabel σ s * (diagonal fun j => (std j)⁻¹)⁻¹ * (relabel σ s)ᵀ =
      (diagonal fun j => (std (σ j))⁻¹)⁻¹ := by
  have hinv : ∀ v : Fin p → ℝ, (∀ j, 0 < v j) → (diagonal fun j => (v j)⁻¹)⁻¹ = diagonal v := by
    intro v hv
    refine inv_eq_left_inv ?_
    rw [diagonal_mul_diagonal]
    simp [fun j => mul_inv_cancel₀ (hv j).ne']
  rw [hinv _ h, hinv _ fun j => h (σ j)]
  ext j l
  rw [mul_apply, Finset.sum_eq_single (σ j)]
  · have := hs j
    by_cases hjl : j = l
    · subst hjl
      simp only [relabel, mul_diagonal, transpose_apply, of_apply, if_true, diagonal_apply_eq]
      linear_combination std (σ j) * this
    · simp [relabel, mul_diagonal, hjl]
  · intro k _ hk
    simp [relabel, mul_diagonal, hk]
  · simp

theorem pgStep_relabel {la : LinAlg} (hla : la.Sound) {std : Fin p → ℝ} (h : ∀ j, 0 < std j)
    (X : Matrix (Fin n) (Fin p) ℝ) {b : Fin n → ℝ} (hb : ∀ i, 0 < b i) (κ : Fin n → ℝ)
    (σ : Equiv.Perm (Fin p)) {s : Fin p → ℝ} (hs : ∀ j, s j ^ 2 = 1) (β : Fin p → ℝ) :
    (pgStep la (fun j => (std j)⁻¹) X b κ β).map (fun β j => s j * β (σ j)) =
      pgStep la (fun j => (std (σ j))⁻¹) (of fun i j => s j * X i (σ j)) b κ
        (fun j => s j * β (σ j)) := by
  have := pgStep_linear hla (fun j => inv_pos.2 (h (σ j))) (fun j => inv_pos.2 (h j))
    (of fun i j => s j * X i (σ j)) hb κ (relabel σ s) (relabel_diag σ hs h) β
  simpa only [relabel_mulVec, mul_relabel σ hs] using this

theorem pg_neg (b c : ℝ) : pg b (-c) = pg b c := by
  rw [pg, pg, neg_sq]

/-- Negating the pseudo-data. -/
theorem pgStep_neg {la : LinAlg} (hla : la.Sound) {std : Fin p → ℝ} (h : ∀ j, 0 < std j)
    (X : Matrix (Fin n) (Fin p) ℝ) {b : Fin n → ℝ} (hb : ∀ i, 0 < b i) (κ : Fin n → ℝ)
    (β : Fin p → ℝ) :
    (pgStep la (fun j => (std j)⁻¹) X b κ β).map (fun β => -β) =
      pgStep la (fun j => (std j)⁻¹) X b (fun i => -κ i) (-β) := by
  have h1 := pgStep_relabel hla h X hb κ 1 (s := fun _ => -1) (fun _ => by norm_num) β
  have hX : (of fun i j => (-1 : ℝ) * X i ((1 : Equiv.Perm (Fin p)) j)) = -X := by
    ext i j
    simp
  have hβ : ∀ β : Fin p → ℝ, (fun j => (-1 : ℝ) * β ((1 : Equiv.Perm (Fin p)) j)) = -β := by
    intro β
    ext j
    simp
  rw [hX, hβ, show (fun (β : Fin p → ℝ) j => (-1 : ℝ) * β ((1 : Equiv.Perm (Fin p)) j)) =
    fun β => -β from funext hβ] at h1
  simp only [Equiv.Perm.coe_one, id] at h1
  rw [h1, pgStep_eq_bayes hla (fun j => inv_pos.2 (h j)) _ hb,
    pgStep_eq_bayes hla (fun j => inv_pos.2 (h j)) _ hb]
  simp only [neg_mulVec, mulVec_neg, Pi.neg_apply, neg_neg, pg_neg]
  refine Measure.bind_congr_right (ae_of_all _ fun w => ?_)
  refine congrArg (bayes _) (funext fun β' => ?_)
  simp [pgJoint, neg_mulVec]

/-- **C72, observations of a negative-binomial regression.** Rewriting the data set with its
observations in another order, or leaving out observations all of whose regressors are zero, changes
nothing: from any current coefficients the new ones have the same law.  (`f` lists the observations
that are kept.) -/
theorem C72_nbinom_observations {la : LinAlg} (hla : la.Sound) {std : Fin p → ℝ}
    (hs : ∀ j, 0 < std j) (X : Matrix (Fin n) (Fin p) ℝ) {h : Fin n → ℝ} (hh : ∀ i, 0 < h i)
    (y : Fin n → ℕ) {f : Fin m → Fin n} (hf : Function.Injective f)
    (h0 : ∀ i, i ∉ Set.range f → ∀ j, X i j = 0) (β : Fin p → ℝ) :
    nbinomNormalPosterior la std (of fun i j => X (f i) j) (fun i => h (f i)) (fun i => y (f i)) β =
      nbinomNormalPosterior la std X h y β := by
  rw [nbinomNormalPosterior_eq, nbinomNormalPosterior_eq]
  exact pgStep_rows hla (fun j => inv_pos.2 (hs j)) X (b := fun i => (y i : ℝ) + h i)
    (fun i => by have := hh i; positivity) (fun i => 0.5 * ((y i : ℝ) - h i)) hf h0 β

/-- **C72, observations of a Bernoulli regression.** -/
theorem C72_bern_observations {la : LinAlg} (hla : la.Sound) {std : Fin p → ℝ}
    (hs : ∀ j, 0 < std j) (X : Matrix (Fin n) (Fin p) ℝ)
    (y : Fin n → Bool) {f : Fin m → Fin n} (hf : Function.Injective f)
    (h0 : ∀ i, i ∉ Set.range f → ∀ j, X i j = 0) (β : Fin p → ℝ) :
    bernNormalPosterior la std (of fun i j => X (f i) j) (fun i => y (f i)) β =
      bernNormalPosterior la std X y β := by
  rw [bernNormalPosterior_eq, bernNormalPosterior_eq]
  exact pgStep_rows hla (fun j => inv_pos.2 (hs j)) X (b := fun _ => 1) (fun _ => one_pos)
    (fun i => boolVal (y i) - 0.5) hf h0 β

/-- Two observations in the other order, and a third one without regressors left out. -/
example (y : Fin 3 → Bool) (β : Fin 1 → ℝ) :
    bernNormalPosterior stdLinAlg (fun _ => 1) (of fun i j => !![1; 2; 0] (![1, 0] i : Fin 3) j)
        (fun i : Fin 2 => y (![1, 0] i)) β =
      bernNormalPosterior stdLinAlg (fun _ => 1) !![1; 2; 0] y β :=
  C72_bern_observations stdLinAlg_sound (fun _ => one_pos) _ y (f := ![1, 0]) (by decide)
    (fun i hi j => by
      fin_cases i
      · exact absurd ⟨1, rfl⟩ hi
      · exact absurd ⟨0, rfl⟩ hi
      · fin_cases j; simp) β

/-- **C72, regressors of a negative-binomial regression.** Writing the regressors in another order
(`σ`) and some of them with the opposite sign (`s j = -1`), with the standard deviations reordered
accordingly, has the one effect that the coefficients come in that order with those signs. -/
theorem C72_nbinom_regressors {la : LinAlg} (hla : la.Sound) {std : Fin p → ℝ}
    (hstd : ∀ j, 0 < std j) (X : Matrix (Fin n) (Fin p) ℝ) {h : Fin n → ℝ} (hh : ∀ i, 0 < h i)
    (y : Fin n → ℕ) (σ : Equiv.Perm (Fin p)) {s : Fin p → ℝ} (hs : ∀ j, s j = 1 ∨ s j = -1)
    (β : Fin p → ℝ) :
    nbinomNormalPosterior la (fun j => std (σ j)) (of fun i j => s j * X i (σ j)) h y
        (fun j => s j * β (σ j)) =
      (nbinomNormalPosterior la std X h y β).map fun β j => s j * β (σ j) :=
  (pgStep_relabel hla hstd X (b := fun i => (y i : ℝ) + h i)
    (fun i => by have := hh i; positivity) _ σ
    (fun j => by rcases hs j with h | h <;> simp [h]) β).symm

/-- Two regressors exchanged, the first with the other sign. -/
example (X : Matrix (Fin 3) (Fin 2) ℝ) (y : Fin 3 → ℕ) (β : Fin 2 → ℝ) :
    nbinomNormalPosterior stdLinAlg (fun j => ![1, 2] (Equiv.swap 0 1 j))
        (of fun i j => ![-1, 1] j * X i (Equiv.swap 0 1 j)) (fun _ => 2) y
        (fun j => ![-1, 1] j * β (Equiv.swap 0 1 j)) =
      (nbinomNormalPosterior stdLinAlg ![1, 2] X (fun _ => 2) y β).map
        fun β j => ![-1, 1] j * β (Equiv.swap 0 1 j) :=
  C72_nbinom_regressors stdLinAlg_sound (fun j => by fin_cases j <;> norm_num) X (fun _ => two_pos) y
    (Equiv.swap 0 1) (fun j => by fin_cases j <;> simp) β

/-- **C72, regressors of a Bernoulli regression.** -/
theorem C72_bern_regressors {la : LinAlg} (hla : la.Sound) {std : Fin p → ℝ}
    (hstd : ∀ j, 0 < std j) (X : Matrix (Fin n) (Fin p) ℝ)
    (y : Fin n → Bool) (σ : Equiv.Perm (Fin p)) {s : Fin p → ℝ} (hs : ∀ j, s j = 1 ∨ s j = -1)
    (β : Fin p → ℝ) :
    bernNormalPosterior la (fun j => std (σ j)) (of fun i j => s j * X i (σ j)) y
        (fun j => s j * β (σ j)) =
      (bernNormalPosterior la std X y β).map fun β j => s j * β (σ j) :=
  (pgStep_relabel hla hstd X (b := fun _ => 1) (fun _ => one_pos) _ σ
    (fun j => by rcases hs j with h | h <;> simp [h]) β).symm

/-- **C72, outcomes of a Bernoulli regression.** Calling successes failures and failures successes
negates the coefficients and has no other effect. -/
theorem C72_bern_outcomes {la : LinAlg} (hla : la.Sound) {std : Fin p → ℝ}
    (hstd : ∀ j, 0 < std j) (X : Matrix (Fin n) (Fin p) ℝ) (y : Fin n → Bool) (β : Fin p → ℝ) :
    bernNormalPosterior la std X (fun i => !y i) (-β) =
      (bernNormalPosterior la std X y β).map fun β => -β := by
  have := pgStep_neg hla hstd X (b := fun _ => 1) (fun _ => one_pos)
    (fun i => boolVal (y i) - 0.5) β
  rw [bernNormalPosterior_eq, bernNormalPosterior_eq, this]
  congr 1
  ext i
  cases y i <;> norm_num [boolVal]

/-- A data set with an observation without regressors, listed in another order without it. -/
example {la : LinAlg} (hla : la.Sound) (β : Fin 2 → ℝ) :
    nbinomNormalPosterior la 2 !![3, 4; 1, 2] ![5, 7] ![1, 9] β =
      nbinomNormalPosterior la 2 !![1, 2; 0, 0; 3, 4] ![7, 6, 5] ![9, 0, 1] β := by
  have h := C72_nbinom_observations hla (std := 2) (fun _ => by norm_num) !![1, 2; 0, 0; 3, 4]
    (h := ![7, 6, 5]) (fun i => by fin_cases i <;> norm_num) ![9, 0, 1] (f := ![2, 0])
    (by decide) (fun i hi j => by
      fin_cases i <;> first | (exact absurd ⟨1, rfl⟩ hi) | (exact absurd ⟨0, rfl⟩ hi) |
        (fin_cases j <;> rfl)) β
  rw [← h]
  congr 1
  · ext i j
    fin_cases i <;> fin_cases j <;> rfl
  · ext i
    fin_cases i <;> rfl
  · ext i
    fin_cases i <;> rfl

/-- The second regressor first, with the opposite sign. -/
example {la : LinAlg} (hla : la.Sound) (y : Fin 3 → Bool) (X : Matrix (Fin 3) (Fin 2) ℝ) :
    bernNormalPosterior la ![5, 3] (of fun i => ![-X i 1, X i 0]) y ![-8, 7] =
      (bernNormalPosterior la ![3, 5] X y ![7, 8]).map fun β => ![-β 1, β 0] := by
  have h := C72_bern_regressors hla (std := ![3, 5]) (fun j => by fin_cases j <;> norm_num) X y
    (Equiv.swap 0 1) (s := ![-1, 1]) (fun j => by fin_cases j <;> simp) ![7, 8]
  have e1 : (fun j => (![3, 5] : Fin 2 → ℝ) (Equiv.swap 0 1 j)) = ![5, 3] := by
    ext j
    fin_cases j <;> rfl
  have e2 : (of fun i j => (![-1, 1] : Fin 2 → ℝ) j * X i (Equiv.swap 0 1 j)) =
      of fun i => ![-X i 1, X i 0] := by
    ext i j
    fin_cases j <;> simp
  have e3 : ∀ β : Fin 2 → ℝ, (fun j => (![-1, 1] : Fin 2 → ℝ) j * β (Equiv.swap 0 1 j)) =
      ![-β 1, β 0] := by
    intro β
    ext j
    fin_cases j <;> simp
  rw [e1, e2, e3, funext e3] at h
  simpa using h

/-! ### Other units of measurement -/

theorem pgStep_scale {la : LinAlg} (hla : la.Sound) {std c : Fin p → ℝ} (h : ∀ j, 0 < std j)
    (hc : ∀ j, 0 < c j) (X : Matrix (Fin n) (Fin p) ℝ) {b : Fin n → ℝ} (hb : ∀ i, 0 < b i)
    (κ : Fin n → ℝ) (β : Fin p → ℝ) :
    (pgStep la (fun j => (std j)⁻¹) X b κ β).map (fun β j => β j / c j) =
      pgStep la (fun j => (std j / c j ^ 2)⁻¹) (of fun i j => c j * X i j) b κ
        (fun j => β j / c j) := by
  have hinv : ∀ v : Fin p → ℝ, (∀ j, 0 < v j) → (diagonal fun j => (v j)⁻¹)⁻¹ = diagonal v := by
    intro v hv
    refine inv_eq_left_inv ?_
    rw [diagonal_mul_diagonal]
    simp [fun j => mul_inv_cancel₀ (hv j).ne']
  have hq : ∀ j, 0 < std j / c j ^ 2 := fun j => div_pos (h j) (pow_pos (hc j) 2)
  have hS : (diagonal fun j => (c j)⁻¹) * (diagonal fun j => (std j)⁻¹)⁻¹ *
      (diagonal fun j => (c j)⁻¹)ᵀ = (diagonal fun j => (std j / c j ^ 2)⁻¹)⁻¹ := by
    rw [hinv _ h, hinv _ hq, diagonal_transpose, diagonal_mul_diagonal, diagonal_mul_diagonal]
    congr 1
    ext j
    have := (hc j).ne'
    field_simp
  have hX : (of fun i j => c j * X i j) * (diagonal fun j => (c j)⁻¹) = X := by
    ext i j
    have := (hc j).ne'
    rw [mul_diagonal, of_apply]
    field_simp
  have hβ : ∀ β : Fin p → ℝ, (diagonal fun j => (c j)⁻¹) *ᵥ β = fun j => β j / c j := by
    intro β
    ext j
    rw [mulVec_diagonal, div_eq_inv_mul]
  have := pgStep_linear hla (fun j => inv_pos.2 (hq j)) (fun j => inv_pos.2 (h j))
    (of fun i j => c j * X i j) hb κ _ hS β
  simpa only [hβ, hX] using this

/-- **C73 (partial), units of a negative-binomial regression.** Regressor `j` is measured in a unit
`c j` times smaller, so its values grow by `c j`, and its coefficient and the coefficient's standard
deviation shrink by `c j`.  The step draws the same coefficients in the new units *if and only if the
units are the old ones*: every other choice changes the answer.  The full property asks for the
left-hand side for all `c`. -/
theorem C73_nbinom_units_iff_partial {la : LinAlg} (hla : la.Sound) {std c : Fin p → ℝ}
    (hstd : ∀ j, 0 < std j) (hc : ∀ j, 0 < c j) (X : Matrix (Fin n) (Fin p) ℝ) {h : Fin n → ℝ}
    (hh : ∀ i, 0 < h i) (y : Fin n → ℕ) :
    (∀ β, nbinomNormalPosterior la (fun j => std j / c j) (of fun i j => c j * X i j) h y
        (fun j => β j / c j) =
      (nbinomNormalPosterior la std X h y β).map fun β j => β j / c j) ↔ ∀ j, c j = 1 := by
  have hq : ∀ j, 0 < std j / c j ^ 2 := fun j => div_pos (hstd j) (pow_pos (hc j) 2)
  have hr : ∀ j, 0 < std j / c j := fun j => div_pos (hstd j) (hc j)
  have key : ∀ β, (nbinomNormalPosterior la std X h y β).map (fun β j => β j / c j) =
      nbinomNormalPosterior la (fun j => std j / c j ^ 2) (of fun i j => c j * X i j) h y
        (fun j => β j / c j) := fun β => by
    rw [nbinomNormalPosterior_eq, nbinomNormalPosterior_eq]
    exact pgStep_scale hla hstd hc X (fun i => by have := hh i; positivity) _ β
  constructor
  · intro H
    have hfun : nbinomNormalPosterior la (fun j => std j / c j) (of fun i j => c j * X i j) h y =
        nbinomNormalPosterior la (fun j => std j / c j ^ 2) (of fun i j => c j * X i j) h y := by
      ext1 β
      have h1 := (H fun j => c j * β j).trans (key fun j => c j * β j)
      simpa only [fun j => mul_div_cancel_left₀ (β j) (hc j).ne'] using h1
    have h1 := (C25_nbinom_prior_iff_partial hla hr (of fun i j => c j * X i j) hh y
      (normalLaw 0 fun j => std j / c j)).2 rfl
    rw [hfun, C25_nbinom_prior_iff_partial hla hq _ hh y,
      normalLaw_inj (fun j => (hr j).le) (fun j => (hq j).le)] at h1
    intro j
    have h2 := congrFun h1.2 j
    have h3 := hstd j
    have h4 := hc j
    rw [div_eq_div_iff h4.ne' (pow_pos h4 2).ne'] at h2
    have h5 : std j * c j * (c j - 1) = 0 := by linear_combination h2
    have := (mul_eq_zero.1 h5).resolve_left (mul_pos h3 h4).ne'
    linarith
  · intro H β
    rw [key]
    simp [H]

/-- Centimetres instead of metres. -/
example (X : Matrix (Fin 3) (Fin 1) ℝ) (y : Fin 3 → ℕ) :
    ¬ ∀ β, nbinomNormalPosterior stdLinAlg (fun _ => 2 / 100) (of fun i j => 100 * X i j) (fun _ => 3) y
        (fun j => β j / 100) =
      (nbinomNormalPosterior stdLinAlg (fun _ => 2) X (fun _ => 3) y β).map fun β j => β j / 100 := by
  rw [C73_nbinom_units_iff_partial stdLinAlg_sound (fun _ => by norm_num) (fun _ => by norm_num) X
    (fun _ => by norm_num) y]
  intro h
  have := h 0
  norm_num at this

/-- **C73 (partial), units of a Bernoulli regression.** -/
theorem C73_bern_units_iff_partial {la : LinAlg} (hla : la.Sound) {std c : Fin p → ℝ}
    (hstd : ∀ j, 0 < std j) (hc : ∀ j, 0 < c j) (X : Matrix (Fin n) (Fin p) ℝ) (y : Fin n → Bool) :
    (∀ β, bernNormalPosterior la (fun j => std j / c j) (of fun i j => c j * X i j) y
        (fun j => β j / c j) =
      (bernNormalPosterior la std X y β).map fun β j => β j / c j) ↔ ∀ j, c j = 1 := by
  have hq : ∀ j, 0 < std j / c j ^ 2 := fun j => div_pos (hstd j) (pow_pos (hc j) 2)
  have hr : ∀ j, 0 < std j / c j := fun j => div_pos (hstd j) (hc j)
  have key : ∀ β, (bernNormalPosterior la std X y β).map (fun β j => β j / c j) =
      bernNormalPosterior la (fun j => std j / c j ^ 2) (of fun i j => c j * X i j) y
        (fun j => β j / c j) := fun β => by
    rw [bernNormalPosterior_eq, bernNormalPosterior_eq]
    exact pgStep_scale hla hstd hc X (fun _ => one_pos) _ β
  constructor
  · intro H
    have hfun : bernNormalPosterior la (fun j => std j / c j) (of fun i j => c j * X i j) y =
        bernNormalPosterior la (fun j => std j / c j ^ 2) (of fun i j => c j * X i j) y := by
      ext1 β
      have h1 := (H fun j => c j * β j).trans (key fun j => c j * β j)
      simpa only [fun j => mul_div_cancel_left₀ (β j) (hc j).ne'] using h1
    have h1 := (C25_bern_prior_iff_partial hla hr (of fun i j => c j * X i j) y _).2 rfl
    rw [hfun, C25_bern_prior_iff_partial hla hq _ y,
      normalLaw_inj (fun j => (hr j).le) (fun j => (hq j).le)] at h1
    intro j
    have h2 := congrFun h1.2 j
    have h3 := hstd j
    have h4 := hc j
    rw [div_eq_div_iff h4.ne' (pow_pos h4 2).ne'] at h2
    have h5 : std j * c j * (c j - 1) = 0 := by linear_combination h2
    have := (mul_eq_zero.1 h5).resolve_left (mul_pos h3 h4).ne'
    linarith
  · intro H β
    rw [key]
    simp [H]

example (X : Matrix (Fin 3) (Fin 2) ℝ) (y : Fin 3 → Bool) :
    ¬ ∀ β, bernNormalPosterior stdLinAlg (fun j => 2 / ![1, 100] j) (of fun i j => ![1, 100] j * X i j) y
        (fun j => β j / ![1, 100] j) =
      (bernNormalPosterior stdLinAlg (fun _ => 2) X y β).map fun β j => β j / ![1, 100] j := by
  rw [C73_bern_units_iff_partial stdLinAlg_sound (fun _ => by norm_num)
    (fun j => by fin_cases j <;> norm_num) X y]
  intro h
  have : (100 : ℝ) = 1 := h 1
  norm_num at this

/-- **C73 is violated.** One regressor recorded in centimetres instead of metres: for some current
coefficient the step's draws, converted back, have another law. -/
theorem C73_units_violated {la : LinAlg} (hla : la.Sound) :
    ∃ (X : Matrix (Fin 1) (Fin 1) ℝ) (h : Fin 1 → ℝ) (y : Fin 1 → ℕ) (β : Fin 1 → ℝ),
      nbinomNormalPosterior la (fun _ => 1 / 100) (of fun i j => 100 * X i j) h y
          (fun j => β j / 100) ≠
        (nbinomNormalPosterior la (fun _ => 1) X h y β).map fun β j => β j / 100 := by
  by_contra H
  push Not at H
  have := (C73_nbinom_units_iff_partial hla (std := fun _ => 1) (c := fun _ => 100)
    (fun _ => one_pos) (fun _ => by norm_num) (of fun _ _ => 2) (h := fun _ => 3)
    (fun _ => by norm_num) (fun _ => 4)).1 (fun β => H _ _ _ β) 0
  norm_num at this

end

end Verif
