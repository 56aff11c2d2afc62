import Verif.PG.SymmProps

/-!
# C99: equivalent sets of regressors
-/

open MeasureTheory ProbabilityTheory Matrix
open scoped ENNReal

namespace Verif

variable {p q n : ℕ}

/-! ## Helpers -/

theorem map_mulVec_mvn' (S : Matrix (Fin q) (Fin p) ℝ) {d : Fin p → ℝ} (hd : ∀ j, 0 < d j) :
    (mvn 0 (diagonal d)⁻¹).map (fun β => S *ᵥ β) = mvn 0 (S * (diagonal d)⁻¹ * Sᵀ) := by
  have hC : (diagonal d)⁻¹ = diagonal (fun j => √(d j)⁻¹) * (diagonal fun j => √(d j)⁻¹)ᵀ := by
    refine inv_eq_left_inv ?_
    rw [diagonal_transpose, diagonal_mul_diagonal, diagonal_mul_diagonal, ← diagonal_one]
    congr 1
    ext j
    rw [Real.mul_self_sqrt (inv_pos.2 (hd j)).le, inv_mul_cancel₀ (hd j).ne']
  have h := map_affine_iidNormal (0 : Fin p → ℝ) (diagonal fun j => √(d j)⁻¹)
  have h' := map_affine_iidNormal (0 : Fin q → ℝ) (S * diagonal fun j => √(d j)⁻¹)
  rw [hC, ← h, Measure.map_map (by fun_prop) (by fun_prop)]
  rw [transpose_mul, Matrix.mul_assoc] at h'
  rw [Matrix.mul_assoc, Matrix.mul_assoc, ← h']
  congr 1
  ext1 z
  simp [mulVec_mulVec]

/-- New coefficients that are linear combinations of the old ones, not necessarily as many. -/
theorem pgStep_linear' {la : LinAlg} (hla : la.Sound) {std : Fin p → ℝ} {std' : Fin q → ℝ}
    (hd : ∀ j, 0 < std j) (hd' : ∀ j, 0 < std' j) (X : Matrix (Fin n) (Fin q) ℝ) {b : Fin n → ℝ}
    (hb : ∀ i, 0 < b i) (κ : Fin n → ℝ) (S : Matrix (Fin q) (Fin p) ℝ)
    (hS : S * diagonal std * Sᵀ = diagonal std') (β : Fin p → ℝ) :
    (pgStep la (fun j => (std j)⁻¹) (X * S) b κ β).map (fun β => S *ᵥ β) =
      pgStep la (fun j => (std' j)⁻¹) X b κ (S *ᵥ β) := by
  have hinv : ∀ {r : ℕ} (v : Fin r → ℝ), (∀ j, 0 < v j) → (diagonal fun j => (v j)⁻¹)⁻¹ = diagonal v := by
    intro r v hv
    refine inv_eq_left_inv ?_
    rw [diagonal_mul_diagonal]
    simp [fun j => mul_inv_cancel₀ (hv j).ne']
  have hm : Measurable fun β : Fin p → ℝ => S *ᵥ β := by fun_prop
  rw [pgStep_eq_bayes hla (fun j => inv_pos.2 (hd j)) _ hb, pgStep_eq_bayes hla (fun j => inv_pos.2 (hd' j)) _ hb,
    map_bind (measurable_bayes_pgJoint _ _ _).aemeasurable hm]
  simp only [mulVec_mulVec]
  refine Measure.bind_congr_right (ae_of_all _ fun w => ?_)
  have h1 : (fun β' => pgJoint (X * S) κ β' w) = fun β' => pgJoint X κ (S *ᵥ β') w := by
    ext β'
    simp only [pgJoint, mulVec_mulVec]
  simp only [h1]
  rw [bayes_map (l := fun β' => pgJoint X κ β' w) hm (measurable_pgJoint_right X κ w),
    map_mulVec_mvn' S fun j => inv_pos.2 (hd j), hinv _ hd, hinv _ hd', hS]

theorem rotation_cov {S : Matrix (Fin q) (Fin p) ℝ} (hS : S * Sᵀ = 1) {std : Fin p → ℝ} {std' : Fin q → ℝ}
    (hmix : ∀ k j, S k j ≠ 0 → std' k = std j) : S * diagonal std * Sᵀ = diagonal std' := by
  have h : S * diagonal std = diagonal std' * S := by
    ext k j
    rw [mul_diagonal, diagonal_mul]
    by_cases h0 : S k j = 0
    · rw [h0]; ring
    · rw [hmix k j h0]; ring
  rw [h, Matrix.mul_assoc, hS, Matrix.mul_one]

/-- Spec.  The matrix that adds the coefficients of each group. -/
def groupSum (f : Fin p → Fin q) : Matrix (Fin q) (Fin p) ℝ := of fun k j => if f j = k then 1 else 0

theorem groupSum_mulVec (f : Fin p → Fin q) (β : Fin p → ℝ) :
    groupSum f *ᵥ β = fun k => ∑ j with f j = k, β j := by
  funext k
  simp [groupSum, mulVec, dotProduct, Finset.sum_filter]

theorem mul_groupSum (f : Fin p → Fin q) (X : Matrix (Fin n) (Fin q) ℝ) :
    X * groupSum f = of fun i j => X i (f j) := by
  ext i j
  simp [groupSum, mul_apply]

theorem groupSum_cov (f : Fin p → Fin q) (std : Fin p → ℝ) :
    groupSum f * diagonal std * (groupSum f)ᵀ = diagonal fun k => ∑ j with f j = k, std j := by
  ext k l
  rw [mul_apply]
  simp only [mul_diagonal, transpose_apply, groupSum, of_apply]
  by_cases hkl : k = l
  · subst hkl
    rw [diagonal_apply_eq, Finset.sum_filter]
    refine Finset.sum_congr rfl fun j _ => ?_
    split_ifs <;> simp
  · rw [diagonal_apply_ne _ hkl]
    refine Finset.sum_eq_zero fun j _ => ?_
    by_cases h : f j = k
    · rw [if_neg (h ▸ hkl : f j ≠ l), mul_zero]
    · rw [if_neg h, zero_mul, zero_mul]

theorem groupSum_pos {f : Fin p → Fin q} (hf : Function.Surjective f) {std : Fin p → ℝ} (h : ∀ j, 0 < std j)
    (k : Fin q) : 0 < ∑ j with f j = k, std j := by
  obtain ⟨j, hj⟩ := hf k
  exact Finset.sum_pos (fun j _ => h j) ⟨j, by simp [hj]⟩

theorem groupSum_surj {f : Fin p → Fin q} (hf : Function.Surjective f) (β' : Fin q → ℝ) :
    ∃ β : Fin p → ℝ, groupSum f *ᵥ β = β' := by
  obtain ⟨g, hg⟩ := hf.hasRightInverse
  refine ⟨fun j => if g (f j) = j then β' (f j) else 0, ?_⟩
  rw [groupSum_mulVec]
  funext k
  rw [Finset.sum_eq_single (g k)]
  · rw [hg, if_pos rfl]
  · intro j hj hne
    rw [if_neg]
    intro e
    rw [(Finset.mem_filter.1 hj).2] at e
    exact hne e.symm
  · intro h
    exact absurd (by simp [hg k]) h

/-- Standard deviations add up the way variances do only in groups of one. -/
theorem merge_iff {f : Fin p → Fin q} {std : Fin p → ℝ} (h : ∀ j, 0 < std j) :
    (∀ k, √(∑ j with f j = k, std j ^ 2) = ∑ j with f j = k, std j) ↔ Function.Injective f := by
  constructor
  · intro H a b hab
    by_contra hne
    have h1 := H (f a)
    have hs : 0 ≤ ∑ j with f j = f a, std j ^ 2 := Finset.sum_nonneg fun j _ => sq_nonneg _
    have h2 : ∑ j with f j = f a, std j ^ 2 = (∑ j with f j = f a, std j) ^ 2 := by
      rw [← h1, Real.sq_sqrt hs]
    have h3 : (∑ j with f j = f a, std j) ^ 2 =
        ∑ j with f j = f a, std j * ∑ l with f l = f a, std l := by rw [sq, Finset.sum_mul]
    rw [h3] at h2
    refine absurd h2 (ne_of_lt (Finset.sum_lt_sum (fun j hj => ?_) ⟨a, by simp, ?_⟩))
    · rw [sq]
      exact mul_le_mul_of_nonneg_left (Finset.single_le_sum (fun l _ => (h l).le) hj) (h j).le
    · rw [sq]
      refine mul_lt_mul_of_pos_left ?_ (h a)
      exact Finset.single_lt_sum (i := a) (j := b) (Ne.symm hne) (by simp) (by simp [hab]) (h b)
        fun l _ _ => (h l).le
  · intro hf k
    by_cases hk : ∃ j, f j = k
    · obtain ⟨j, rfl⟩ := hk
      have e : (Finset.univ.filter fun l => f l = f j) = {j} := by
        ext l
        simp [hf.eq_iff]
      rw [e, Finset.sum_singleton, Finset.sum_singleton, Real.sqrt_sq (h j).le]
    · have e : (Finset.univ.filter fun l => f l = k) = ∅ := by
        ext l
        simp only [Finset.mem_filter, Finset.mem_univ, true_and, Finset.notMem_empty, iff_false]
        exact fun h => hk ⟨l, h⟩
      rw [e]
      simp

/-! ## Rotations -/

/-- **C99, rotations of a negative-binomial regression.** Replace the regressors by others of which they
are linear combinations with orthonormal coefficients (`S`), mixing only coefficients with the same prior
standard deviation: the step draws the same fitted regression, that is, from any current coefficients `β`
the new ones, combined by `S`, have the law of those of the other regression from `S β`.  With `S` leaving
out coordinates: a regressor that is always zero does not affect the other coefficients. -/
theorem C99_nbinom_rotation {la : LinAlg} (hla : la.Sound) {std : Fin p → ℝ} {std' : Fin q → ℝ}
    (hs : ∀ j, 0 < std j) (hs' : ∀ k, 0 < std' k) {S : Matrix (Fin q) (Fin p) ℝ} (hS : S * Sᵀ = 1)
    (hmix : ∀ k j, S k j ≠ 0 → std' k = std j) (X : Matrix (Fin n) (Fin q) ℝ) {h : Fin n → ℝ}
    (hh : ∀ i, 0 < h i) (y : Fin n → ℕ) (β : Fin p → ℝ) :
    (nbinomNormalPosterior la std (X * S) h y β).map (fun β => S *ᵥ β) =
      nbinomNormalPosterior la std' X h y (S *ᵥ β) := by
  rw [nbinomNormalPosterior_eq, nbinomNormalPosterior_eq]
  exact pgStep_linear' hla hs hs' X (fun i => by have := hh i; positivity) _ S (rotation_cov hS hmix) β

/-- **C99, rotations of a Bernoulli regression.** -/
theorem C99_bern_rotation {la : LinAlg} (hla : la.Sound) {std : Fin p → ℝ} {std' : Fin q → ℝ}
    (hs : ∀ j, 0 < std j) (hs' : ∀ k, 0 < std' k) {S : Matrix (Fin q) (Fin p) ℝ} (hS : S * Sᵀ = 1)
    (hmix : ∀ k j, S k j ≠ 0 → std' k = std j) (X : Matrix (Fin n) (Fin q) ℝ) (y : Fin n → Bool)
    (β : Fin p → ℝ) :
    (bernNormalPosterior la std (X * S) y β).map (fun β => S *ᵥ β) =
      bernNormalPosterior la std' X y (S *ᵥ β) := by
  rw [bernNormalPosterior_eq, bernNormalPosterior_eq]
  exact pgStep_linear' hla hs hs' X (fun _ => one_pos) _ S (rotation_cov hS hmix) β

/-- Example data.  A rotation of the first two of three regressors. -/
noncomputable def exRot : Matrix (Fin 3) (Fin 3) ℝ := !![3 / 5, 4 / 5, 0; -4 / 5, 3 / 5, 0; 0, 0, 1]

theorem exRotation : exRot * exRotᵀ = 1 := by
  have h : (of ![![3 / 5, 4 / 5, 0], ![-4 / 5, 3 / 5, 0], ![0, 0, 1]] : Matrix (Fin 3) (Fin 3) ℝ)ᵀ =
      !![3 / 5, -4 / 5, 0; 4 / 5, 3 / 5, 0; 0, 0, 1] := by
    ext i j
    fin_cases i <;> fin_cases j <;> rfl
  rw [exRot, h, mul_fin_three, one_fin_three]
  norm_num

theorem exMix (k j : Fin 3) (h : exRot k j ≠ 0) : (![2, 2, 7] : Fin 3 → ℝ) k = ![2, 2, 7] j := by
  fin_cases k <;> fin_cases j <;> simp_all [exRot]

example (X : Matrix (Fin n) (Fin 3) ℝ) (y : Fin n → ℕ) (β : Fin 3 → ℝ) :
    (nbinomNormalPosterior stdLinAlg ![2, 2, 7] (X * exRot) (fun _ => 3) y β).map (fun β => exRot *ᵥ β) =
      nbinomNormalPosterior stdLinAlg ![2, 2, 7] X (fun _ => 3) y (exRot *ᵥ β) :=
  C99_nbinom_rotation stdLinAlg_sound (fun j => by fin_cases j <;> norm_num)
    (fun j => by fin_cases j <;> norm_num) exRotation exMix X (fun _ => by norm_num) y β

example (X : Matrix (Fin n) (Fin 3) ℝ) (y : Fin n → Bool) (β : Fin 3 → ℝ) :
    (bernNormalPosterior stdLinAlg ![2, 2, 7] (X * exRot) y β).map (fun β => exRot *ᵥ β) =
      bernNormalPosterior stdLinAlg ![2, 2, 7] X y (exRot *ᵥ β) :=
  C99_bern_rotation stdLinAlg_sound (fun j => by fin_cases j <;> norm_num)
    (fun j => by fin_cases j <;> norm_num) exRotation exMix X y β

/-- Example data.  Leaving out the second of two regressors. -/
noncomputable def exDrop : Matrix (Fin 1) (Fin 2) ℝ := of fun _ j => if j = 0 then 1 else 0

/-- A second regressor that is always zero. -/
example (X : Matrix (Fin n) (Fin 1) ℝ) (y : Fin n → Bool) (β : Fin 2 → ℝ) :
    (bernNormalPosterior stdLinAlg ![2, 5] (X * exDrop) y β).map (fun β => exDrop *ᵥ β) =
      bernNormalPosterior stdLinAlg ![2] X y (exDrop *ᵥ β) :=
  C99_bern_rotation stdLinAlg_sound (fun j => by fin_cases j <;> norm_num)
    (fun j => by fin_cases j; norm_num)
    (by ext i j; fin_cases i; fin_cases j; simp [mul_apply, exDrop])
    (fun k j => by fin_cases k; fin_cases j <;> simp [exDrop]) X y β

/-! ## Regressors that occur several times -/

/-- **C99 (partial), repeated regressors of a negative-binomial regression.** Regressor `f j` of a design
`X` is listed as column `j`, so several columns may be equal.  Only the sums of their coefficients matter,
which have prior variances that are the sums of the single ones; but the step draws the sums like the
coefficients of the regression on `X` with these variances *if and only if no regressor is repeated*. -/
theorem C99_nbinom_merge_iff_partial {la : LinAlg} (hla : la.Sound) {std : Fin p → ℝ} (hs : ∀ j, 0 < std j)
    {f : Fin p → Fin q} (hf : Function.Surjective f) (X : Matrix (Fin n) (Fin q) ℝ) {h : Fin n → ℝ}
    (hh : ∀ i, 0 < h i) (y : Fin n → ℕ) :
    (∀ β : Fin p → ℝ, (nbinomNormalPosterior la std (of fun i j => X i (f j)) h y β).map
        (fun β k => ∑ j with f j = k, β j) =
      nbinomNormalPosterior la (fun k => √(∑ j with f j = k, std j ^ 2)) X h y
        fun k => ∑ j with f j = k, β j) ↔ Function.Injective f := by
  have hT := groupSum_pos hf hs
  have hR : ∀ k, 0 < √(∑ j with f j = k, std j ^ 2) := fun k =>
    Real.sqrt_pos.2 (groupSum_pos hf (fun j => pow_pos (hs j) 2) k)
  have key : ∀ β : Fin p → ℝ, (nbinomNormalPosterior la std (of fun i j => X i (f j)) h y β).map
      (fun β k => ∑ j with f j = k, β j) =
      nbinomNormalPosterior la (fun k => ∑ j with f j = k, std j) X h y
        fun k => ∑ j with f j = k, β j := fun β => by
    have := pgStep_linear' hla hs hT X (b := fun i => (y i : ℝ) + h i)
      (fun i => by have := hh i; positivity) (fun i => 0.5 * ((y i : ℝ) - h i)) (groupSum f)
      (groupSum_cov f std) β
    rw [nbinomNormalPosterior_eq, nbinomNormalPosterior_eq]
    simpa only [groupSum_mulVec, mul_groupSum] using this
  rw [← merge_iff hs]
  constructor
  · intro H
    have hfun : nbinomNormalPosterior la (fun k => √(∑ j with f j = k, std j ^ 2)) X h y =
        nbinomNormalPosterior la (fun k => ∑ j with f j = k, std j) X h y := by
      ext1 β'
      obtain ⟨β, hβ⟩ := groupSum_surj hf β'
      rw [groupSum_mulVec] at hβ
      rw [← hβ, ← H β, key β]
    have h1 := (C25_nbinom_prior_iff_partial hla hR X hh y
      (normalLaw 0 fun k => √(∑ j with f j = k, std j ^ 2))).2 rfl
    rw [hfun, C25_nbinom_prior_iff_partial hla hT _ hh y,
      normalLaw_inj (fun j => (hR j).le) (fun j => (hT j).le)] at h1
    exact fun k => congrFun h1.2 k
  · intro H β
    rw [key, funext H]

/-- **C99 (partial), repeated regressors of a Bernoulli regression.** -/
theorem C99_bern_merge_iff_partial {la : LinAlg} (hla : la.Sound) {std : Fin p → ℝ} (hs : ∀ j, 0 < std j)
    {f : Fin p → Fin q} (hf : Function.Surjective f) (X : Matrix (Fin n) (Fin q) ℝ) (y : Fin n → Bool) :
    (∀ β : Fin p → ℝ, (bernNormalPosterior la std (of fun i j => X i (f j)) y β).map
        (fun β k => ∑ j with f j = k, β j) =
      bernNormalPosterior la (fun k => √(∑ j with f j = k, std j ^ 2)) X y
        fun k => ∑ j with f j = k, β j) ↔ Function.Injective f := by
  have hT := groupSum_pos hf hs
  have hR : ∀ k, 0 < √(∑ j with f j = k, std j ^ 2) := fun k =>
    Real.sqrt_pos.2 (groupSum_pos hf (fun j => pow_pos (hs j) 2) k)
  have key : ∀ β : Fin p → ℝ, (bernNormalPosterior la std (of fun i j => X i (f j)) y β).map
      (fun β k => ∑ j with f j = k, β j) =
      bernNormalPosterior la (fun k => ∑ j with f j = k, std j) X y
        fun k => ∑ j with f j = k, β j := fun β => by
    have := pgStep_linear' hla hs hT X (b := fun _ => 1) (fun _ => one_pos) (fun i => boolVal (y i) - 0.5)
      (groupSum f) (groupSum_cov f std) β
    rw [bernNormalPosterior_eq, bernNormalPosterior_eq]
    simpa only [groupSum_mulVec, mul_groupSum] using this
  rw [← merge_iff hs]
  constructor
  · intro H
    have hfun : bernNormalPosterior la (fun k => √(∑ j with f j = k, std j ^ 2)) X y =
        bernNormalPosterior la (fun k => ∑ j with f j = k, std j) X y := by
      ext1 β'
      obtain ⟨β, hβ⟩ := groupSum_surj hf β'
      rw [groupSum_mulVec] at hβ
      rw [← hβ, ← H β, key β]
    have h1 := (C25_bern_prior_iff_partial hla hR X y _).2 rfl
    rw [hfun, C25_bern_prior_iff_partial hla hT _ y,
      normalLaw_inj (fun j => (hR j).le) (fun j => (hT j).le)] at h1
    exact fun k => congrFun h1.2 k
  · intro H β
    rw [key, funext H]

/-- **C99 is violated.** The same regressor listed twice. -/
theorem C99_merge_violated {la : LinAlg} (hla : la.Sound) :
    ∃ (X : Matrix (Fin 1) (Fin 1) ℝ) (y : Fin 1 → Bool) (β : Fin 2 → ℝ),
      (bernNormalPosterior la (fun _ => 1) (of fun i (_ : Fin 2) => X i 0) y β).map (fun β (_ : Fin 1) => ∑ j, β j) ≠
        bernNormalPosterior la (fun _ => √2) X y fun _ => ∑ j, β j := by
  by_contra H
  push Not at H
  have h0 : ∀ k j : Fin 1, k = j := fun k j => Subsingleton.elim _ _
  have := (C99_bern_merge_iff_partial hla (std := fun _ : Fin 2 => 1) (fun _ => one_pos)
    (f := fun _ => (0 : Fin 1)) (fun k => ⟨0, h0 _ _⟩) (of fun _ _ => 3) (fun _ => true)).1 (fun β => by
      have e := H (of fun _ _ => 3) (fun _ => true) β
      have e1 : ∀ k : Fin 1, (Finset.univ.filter fun _ : Fin 2 => (0 : Fin 1) = k) = Finset.univ := fun k =>
        Finset.filter_true_of_mem fun _ _ => h0 _ _
      simp only [e1]
      have e2 : (fun _ : Fin 1 => √(∑ _j : Fin 2, (1 : ℝ) ^ 2)) = fun _ => √2 := by
        funext k
        norm_num
      rw [e2]
      exact e)
  exact absurd (this (a₁ := 0) (a₂ := 1) rfl) (by decide)

/-- Three columns, of which the last two are the same regressor. -/
example (X : Matrix (Fin n) (Fin 2) ℝ) (y : Fin n → ℕ) :
    ¬ ∀ β : Fin 3 → ℝ, (nbinomNormalPosterior stdLinAlg ![1, 2, 3] (of fun i j => X i (![0, 1, 1] j))
        (fun _ => 3) y β).map (fun β k => ∑ j with (![0, 1, 1] : Fin 3 → Fin 2) j = k, β j) =
      nbinomNormalPosterior stdLinAlg
        (fun k => √(∑ j with (![0, 1, 1] : Fin 3 → Fin 2) j = k, (![1, 2, 3] : Fin 3 → ℝ) j ^ 2)) X
        (fun _ => 3) y fun k => ∑ j with (![0, 1, 1] : Fin 3 → Fin 2) j = k, β j := by
  rw [C99_nbinom_merge_iff_partial stdLinAlg_sound (fun j => by fin_cases j <;> norm_num)
    (by decide) X (fun _ => by norm_num) y]
  decide

/-! ## The normal regression -/

theorem normalRegression_linear {la : LinAlg} (hla : la.Sound) {std : Fin p → ℝ} {std' : Fin q → ℝ}
    (hd : ∀ j, 0 < std j) (hd' : ∀ j, 0 < std' j) {omega : Fin n → ℝ} (hω : ∀ i, 0 < omega i)
    (X : Matrix (Fin n) (Fin q) ℝ) (z : Fin n → ℝ) (S : Matrix (Fin q) (Fin p) ℝ)
    (hS : S * diagonal std * Sᵀ = diagonal std') :
    (normalRegression la omega (fun j => (std j)⁻¹) (X * S) z).map (fun β => S *ᵥ β) =
      normalRegression la omega (fun j => (std' j)⁻¹) X z := by
  have hinv : ∀ {r : ℕ} (v : Fin r → ℝ), (∀ j, 0 < v j) → (diagonal fun j => (v j)⁻¹)⁻¹ = diagonal v := by
    intro r v hv
    refine inv_eq_left_inv ?_
    rw [diagonal_mul_diagonal]
    simp [fun j => mul_inv_cancel₀ (hv j).ne']
  have hm : Measurable fun β : Fin p → ℝ => S *ᵥ β := by fun_prop
  have hz : z = fun i => (omega i * z i) / omega i := by
    funext i
    rw [mul_div_cancel_left₀ _ (hω i).ne']
  rw [hz, (normalRegression_eq_bayes hla (fun j => inv_pos.2 (hd j)) _ _ hω).2,
    (normalRegression_eq_bayes hla (fun j => inv_pos.2 (hd' j)) _ _ hω).2]
  have h1 : (fun β' => pgJoint (X * S) (fun i => omega i * z i) β' omega) =
      fun β' => pgJoint X (fun i => omega i * z i) (S *ᵥ β') omega := by
    ext β'
    simp only [pgJoint, mulVec_mulVec]
  simp only [h1]
  rw [bayes_map (l := fun β' => pgJoint X (fun i => omega i * z i) β' omega) hm
    (measurable_pgJoint_right X _ omega), map_mulVec_mvn' S fun j => inv_pos.2 (hd j), hinv _ hd, hinv _ hd', hS]

/-- The law of the returned coefficients tells the prior precisions apart. -/
theorem normalRegression_inj {la : LinAlg} (hla : la.Sound) {d d' : Fin p → ℝ} (hd : ∀ j, 0 < d j)
    (hd' : ∀ j, 0 < d' j) {omega : Fin n → ℝ} (hω : ∀ i, 0 < omega i) (X : Matrix (Fin n) (Fin p) ℝ)
    (z : Fin n → ℝ) (h : normalRegression la omega d X z = normalRegression la omega d' X z) : d = d' := by
  rw [normalRegression_law hla hω hd, normalRegression_law hla hω hd'] at h
  have hp1 := posDef_diag_add hd hω X
  have hp2 := posDef_diag_add hd' hω X
  have h1 := (mvn_inj hp1.inv.posSemidef hp2.inv.posSemidef h).2
  have h2 := congrArg (fun M => M⁻¹) h1
  simp only [nonsing_inv_nonsing_inv _ (isUnit_iff_ne_zero.2 hp1.det_pos.ne'),
    nonsing_inv_nonsing_inv _ (isUnit_iff_ne_zero.2 hp2.det_pos.ne'), add_left_inj] at h2
  exact diagonal_injective h2

/-- **C99, rotations of a normal regression.** -/
theorem C99_regression_rotation {la : LinAlg} (hla : la.Sound) {std : Fin p → ℝ} {std' : Fin q → ℝ}
    (hs : ∀ j, 0 < std j) (hs' : ∀ k, 0 < std' k) {S : Matrix (Fin q) (Fin p) ℝ} (hS : S * Sᵀ = 1)
    (hmix : ∀ k j, S k j ≠ 0 → std' k = std j) {omega : Fin n → ℝ} (hω : ∀ i, 0 < omega i)
    (X : Matrix (Fin n) (Fin q) ℝ) (z : Fin n → ℝ) :
    (normalRegression la omega (fun j => (std j)⁻¹) (X * S) z).map (fun β => S *ᵥ β) =
      normalRegression la omega (fun k => (std' k)⁻¹) X z :=
  normalRegression_linear hla hs hs' hω X z S (rotation_cov hS hmix)

example (X : Matrix (Fin 2) (Fin 3) ℝ) (z : Fin 2 → ℝ) :
    (normalRegression stdLinAlg ![1, 3] (fun j => ((![2, 2, 7] : Fin 3 → ℝ) j)⁻¹) (X * exRot) z).map
        (fun β => exRot *ᵥ β) =
      normalRegression stdLinAlg ![1, 3] (fun j => ((![2, 2, 7] : Fin 3 → ℝ) j)⁻¹) X z :=
  C99_regression_rotation stdLinAlg_sound (fun j => by fin_cases j <;> norm_num)
    (fun j => by fin_cases j <;> norm_num) exRotation exMix (fun i => by fin_cases i <;> norm_num) X z

/-- **C99 (partial), repeated regressors of a normal regression.** -/
theorem C99_regression_merge_iff_partial {la : LinAlg} (hla : la.Sound) {std : Fin p → ℝ}
    (hs : ∀ j, 0 < std j) {f : Fin p → Fin q} (hf : Function.Surjective f) {omega : Fin n → ℝ}
    (hω : ∀ i, 0 < omega i) (X : Matrix (Fin n) (Fin q) ℝ) (z : Fin n → ℝ) :
    (normalRegression la omega (fun j => (std j)⁻¹) (of fun i j => X i (f j)) z).map
        (fun β k => ∑ j with f j = k, β j) =
      normalRegression la omega (fun k => (√(∑ j with f j = k, std j ^ 2))⁻¹) X z ↔
        Function.Injective f := by
  have hT := groupSum_pos hf hs
  have hR : ∀ k, 0 < √(∑ j with f j = k, std j ^ 2) := fun k =>
    Real.sqrt_pos.2 (groupSum_pos hf (fun j => pow_pos (hs j) 2) k)
  have key := normalRegression_linear hla hs hT hω X z (groupSum f) (groupSum_cov f std)
  simp only [groupSum_mulVec, mul_groupSum] at key
  rw [key, ← merge_iff hs]
  constructor
  · intro H k
    have := congrFun (normalRegression_inj hla (fun k => inv_pos.2 (hT k)) (fun k => inv_pos.2 (hR k)) hω X z H) k
    exact (inv_injective this).symm
  · intro H
    simp only [H]

example (X : Matrix (Fin 2) (Fin 2) ℝ) (z : Fin 2 → ℝ) :
    (normalRegression stdLinAlg ![1, 3] (fun j => ((![1, 2, 3] : Fin 3 → ℝ) j)⁻¹)
        (of fun i j => X i ((![0, 1, 1] : Fin 3 → Fin 2) j)) z).map
        (fun β k => ∑ j with (![0, 1, 1] : Fin 3 → Fin 2) j = k, β j) ≠
      normalRegression stdLinAlg ![1, 3]
        (fun k => (√(∑ j with (![0, 1, 1] : Fin 3 → Fin 2) j = k, (![1, 2, 3] : Fin 3 → ℝ) j ^ 2))⁻¹) X z := by
  rw [Ne, C99_regression_merge_iff_partial stdLinAlg_sound (fun j => by fin_cases j <;> norm_num)
    (by decide) (fun i => by fin_cases i <;> norm_num) X z]
  decide

end Verif
