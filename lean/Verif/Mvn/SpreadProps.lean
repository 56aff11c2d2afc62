import Verif.Mvn.Props

/-!
# C103: more evidence never makes the draws of a normal regression more spread out
-/

open MeasureTheory ProbabilityTheory Matrix

namespace Verif

variable {p n n' : ℕ}

theorem variance_mvn (m : Fin p → ℝ) {S : Matrix (Fin p) (Fin p) ℝ} (hS : S.PosSemidef) (c : Fin p → ℝ) :
    Var[fun β => ∑ j, c j * β j; mvn m S] = c ⬝ᵥ (S *ᵥ c) := by
  have hc : Measurable fun β : Fin p → ℝ => ∑ j, c j * β j := by fun_prop
  rw [mvn, variance_map hc.aemeasurable (by fun_prop)]
  have h := covarianceBilin_self (μ := multivariateGaussian (WithLp.toLp 2 m) S) IsGaussian.memLp_two_id
    (WithLp.toLp 2 c)
  rw [covarianceBilin_multivariateGaussian hS] at h
  rw [show c ⬝ᵥ (S *ᵥ c) = _ from h]
  congr 1
  funext u
  simp [PiLp.inner_apply, mul_comm]

theorem quad_regression (omega : Fin n → ℝ) (d : Fin p → ℝ) (X : Matrix (Fin n) (Fin p) ℝ) (u : Fin p → ℝ) :
    u ⬝ᵥ ((diagonal d + Xᵀ * diagonal omega * X) *ᵥ u) =
      ∑ i, omega i * (X *ᵥ u) i ^ 2 + ∑ j, d j * u j ^ 2 := by
  rw [add_mulVec, dotProduct_add, add_comm]
  congr 1
  · rw [← mulVec_mulVec, ← mulVec_mulVec, dotProduct_mulVec, vecMul_transpose, dotProduct]
    refine Finset.sum_congr rfl fun i _ => ?_
    rw [mulVec_diagonal]
    ring
  · rw [dotProduct]
    refine Finset.sum_congr rfl fun j _ => ?_
    rw [mulVec_diagonal]
    ring

theorem inv_quad_le {Q Q' : Matrix (Fin p) (Fin p) ℝ} (hQ : Q.PosDef) (hQ' : Q'.PosDef) (c : Fin p → ℝ) :
    c ⬝ᵥ (Q'⁻¹ *ᵥ c) + ((Q'⁻¹ *ᵥ c) ⬝ᵥ (Q' *ᵥ (Q'⁻¹ *ᵥ c)) - (Q'⁻¹ *ᵥ c) ⬝ᵥ (Q *ᵥ (Q'⁻¹ *ᵥ c))) ≤
      c ⬝ᵥ (Q⁻¹ *ᵥ c) := by
  have hsol : ∀ {Q : Matrix (Fin p) (Fin p) ℝ}, Q.PosDef → Q *ᵥ (Q⁻¹ *ᵥ c) = c := fun h => by
    rw [mulVec_mulVec, mul_nonsing_inv _ (isUnit_iff_ne_zero.2 h.det_pos.ne'), one_mulVec]
  have hsymm : ∀ u v, u ⬝ᵥ (Q *ᵥ v) = v ⬝ᵥ (Q *ᵥ u) := fun u v => by
    have := hQ.isHermitian.eq
    rw [conjTranspose_eq_transpose_of_trivial] at this
    rw [dotProduct_mulVec, ← mulVec_transpose, this, dotProduct_comm]
  have h := hQ.posSemidef.dotProduct_mulVec_nonneg (Q⁻¹ *ᵥ c - Q'⁻¹ *ᵥ c)
  rw [star_trivial, mulVec_sub, sub_dotProduct, dotProduct_sub, dotProduct_sub, hsymm (Q⁻¹ *ᵥ c) (Q'⁻¹ *ᵥ c),
    hsol hQ] at h
  rw [hsol hQ', dotProduct_comm c (Q'⁻¹ *ᵥ c), dotProduct_comm c (Q⁻¹ *ᵥ c)]
  linarith

theorem sum_mono_of_kept {e : Fin n → Fin n'} (he : Function.Injective e) {f : Fin n → ℝ} {f' : Fin n' → ℝ}
    (h0 : ∀ i, 0 ≤ f' i) (hf : ∀ i, f i ≤ f' (e i)) {i' : Fin n'} (hi' : ∀ i, e i ≠ i') :
    ∑ i, f i + f' i' ≤ ∑ i, f' i := by
  have h1 : ∑ i, f i ≤ ∑ i ∈ Finset.univ.image e, f' i := by
    rw [Finset.sum_image fun a _ b _ h => he h]
    exact Finset.sum_le_sum fun i _ => hf i
  have h2 : ∑ i ∈ Finset.univ.image e, f' i + f' i' ≤ ∑ i, f' i := by
    rw [add_comm, ← Finset.sum_insert (by simpa using hi')]
    exact Finset.sum_le_sum_of_subset_of_nonneg (Finset.subset_univ _) fun i _ _ => h0 i
  linarith

theorem sum_mono_of_kept' {e : Fin n → Fin n'} (he : Function.Injective e) {f : Fin n → ℝ} {f' : Fin n' → ℝ}
    (h0 : ∀ i, 0 ≤ f' i) (hf : ∀ i, f i ≤ f' (e i)) : ∑ i, f i ≤ ∑ i, f' i := by
  have h1 : ∑ i, f i ≤ ∑ i ∈ Finset.univ.image e, f' i := by
    rw [Finset.sum_image fun a _ b _ h => he h]
    exact Finset.sum_le_sum fun i _ => hf i
  exact h1.trans (Finset.sum_le_sum_of_subset_of_nonneg (Finset.subset_univ _) fun i _ _ => h0 i)

/-- **C103.** A second regression has the observations of the first (the `i`-th is there the `e i`-th), with
precisions that are no smaller, perhaps further observations, and prior weights that are no smaller.  Then
no linear combination of the coefficients is drawn with a larger variance, whatever values are observed.
At the regressors of a further observation the fitted value is drawn with a smaller variance, unless these
are all zero. -/
theorem C103_regression {la : LinAlg} (hla : la.Sound) {omega : Fin n → ℝ} {omega' : Fin n' → ℝ}
    {d d' : Fin p → ℝ} (hω : ∀ i, 0 < omega i) (hω' : ∀ i, 0 < omega' i) (hd : ∀ j, 0 < d j)
    (hdd : ∀ j, d j ≤ d' j) {X : Matrix (Fin n) (Fin p) ℝ} {X' : Matrix (Fin n') (Fin p) ℝ}
    {e : Fin n → Fin n'} (he : Function.Injective e) (hX : ∀ i, X' (e i) = X i)
    (hωω : ∀ i, omega i ≤ omega' (e i)) (z : Fin n → ℝ) (z' : Fin n' → ℝ) :
    (∀ c : Fin p → ℝ, Var[fun β => ∑ j, c j * β j; normalRegression la omega' d' X' z'] ≤
      Var[fun β => ∑ j, c j * β j; normalRegression la omega d X z]) ∧
    ∀ i', (∀ i, e i ≠ i') → X' i' ≠ 0 →
      Var[fun β => ∑ j, X' i' j * β j; normalRegression la omega' d' X' z'] <
        Var[fun β => ∑ j, X' i' j * β j; normalRegression la omega d X z] := by
  have hd' : ∀ j, 0 < d' j := fun j => (hd j).trans_le (hdd j)
  have hP := posDef_diag_add hd hω X
  have hP' := posDef_diag_add hd' hω' X'
  rw [normalRegression_law hla hω hd, normalRegression_law hla hω' hd']
  have hrow : ∀ (u : Fin p → ℝ) i, (X *ᵥ u) i = (X' *ᵥ u) (e i) := fun u i => by
    rw [mulVec, mulVec, hX]
  have hterm : ∀ (u : Fin p → ℝ) i, omega i * (X *ᵥ u) i ^ 2 ≤ omega' (e i) * (X' *ᵥ u) (e i) ^ 2 := fun u i => by
    rw [hrow]
    exact mul_le_mul_of_nonneg_right (hωω i) (sq_nonneg _)
  have hterm0 : ∀ (u : Fin p → ℝ) i, 0 ≤ omega' i * (X' *ᵥ u) i ^ 2 := fun u i =>
    mul_nonneg (hω' i).le (sq_nonneg _)
  have hpr : ∀ u : Fin p → ℝ, ∑ j, d j * u j ^ 2 ≤ ∑ j, d' j * u j ^ 2 := fun u =>
    Finset.sum_le_sum fun j _ => mul_le_mul_of_nonneg_right (hdd j) (sq_nonneg _)
  constructor
  · intro c
    rw [variance_mvn _ hP.inv.posSemidef, variance_mvn _ hP'.inv.posSemidef]
    have h := inv_quad_le hP hP' c
    rw [quad_regression, quad_regression] at h
    have h1 := sum_mono_of_kept' he (hterm0 ((diagonal d' + X'ᵀ * diagonal omega' * X')⁻¹ *ᵥ c)) (hterm _)
    have h2 := hpr ((diagonal d' + X'ᵀ * diagonal omega' * X')⁻¹ *ᵥ c)
    linarith
  · intro i' hi' hne
    rw [variance_mvn _ hP.inv.posSemidef, variance_mvn _ hP'.inv.posSemidef]
    have h := inv_quad_le hP hP' (X' i')
    rw [quad_regression, quad_regression] at h
    have h1 := sum_mono_of_kept he (hterm0 ((diagonal d' + X'ᵀ * diagonal omega' * X')⁻¹ *ᵥ X' i')) (hterm _) hi'
    have h2 := hpr ((diagonal d' + X'ᵀ * diagonal omega' * X')⁻¹ *ᵥ X' i')
    have h3 := hP'.inv.dotProduct_mulVec_pos hne
    rw [star_trivial] at h3
    have h4 : 0 < omega' i' * (X' *ᵥ ((diagonal d' + X'ᵀ * diagonal omega' * X')⁻¹ *ᵥ X' i')) i' ^ 2 :=
      mul_pos (hω' i') (pow_pos h3 2)
    linarith

/-- A second observation with regressors `(2, 1)` makes the fitted value there strictly more certain. -/
example (z : Fin 1 → ℝ) (z' : Fin 2 → ℝ) :
    Var[fun β => ∑ j, ![2, 1] j * β j; normalRegression stdLinAlg (fun _ => 1) (fun _ => 1) !![1, 3; 2, 1] z'] <
      Var[fun β => ∑ j, ![2, 1] j * β j; normalRegression stdLinAlg (fun _ => 1) (fun _ => 1) !![1, 3] z] := by
  refine (C103_regression stdLinAlg_sound (fun _ => one_pos) (fun _ => one_pos) (fun _ => one_pos)
    (fun _ => le_rfl) (e := fun _ : Fin 1 => (0 : Fin 2)) (fun a b _ => Subsingleton.elim _ _) (fun i => ?_)
    (fun _ => le_rfl) z z').2 1 (fun _ => by decide) fun h => ?_
  · fin_cases i
    rfl
  · have := congrFun h 0
    simp at this

end Verif
