import Verif.Mvn.Model
import Verif.Prob.Bayes

/-!
# Helper lemmas for the Gaussian samplers
-/

open MeasureTheory ProbabilityTheory Matrix
open scoped ENNReal

namespace Verif

/-- A linear algebra library meeting the contract exists. -/
noncomputable def stdLinAlg : LinAlg where
  chol := fun Q => open Classical in if h : Q.PosDef then (exists_cholesky h).choose else 0
  solveTri := fun A b _ => A⁻¹ *ᵥ b
  solvePos := fun A b => A⁻¹ *ᵥ b

theorem mulVec_inv_mulVec {n : ℕ} {A : Matrix (Fin n) (Fin n) ℝ} (h : A.det ≠ 0) (b : Fin n → ℝ) :
    A *ᵥ (A⁻¹ *ᵥ b) = b := by
  rw [mulVec_mulVec, mul_nonsing_inv _ (isUnit_iff_ne_zero.2 h), one_mulVec]

theorem det_ne_zero_of_lower {n : ℕ} {A : Matrix (Fin n) (Fin n) ℝ}
    (ht : ∀ i j, i < j → A i j = 0) (hd : ∀ i, A i i ≠ 0) : A.det ≠ 0 := by
  rw [det_of_isLowerTriangular A (fun i j hij => ht i j (OrderDual.toDual_lt_toDual.1 hij))]
  exact Finset.prod_ne_zero_iff.2 fun i _ => hd i

theorem det_ne_zero_of_upper {n : ℕ} {A : Matrix (Fin n) (Fin n) ℝ}
    (ht : ∀ i j, j < i → A i j = 0) (hd : ∀ i, A i i ≠ 0) : A.det ≠ 0 := by
  rw [← det_transpose]
  exact det_ne_zero_of_lower (fun i j h => ht j i h) hd

theorem stdLinAlg_sound : stdLinAlg.Sound where
  chol := fun {n Q} h => by
    have := (exists_cholesky h).choose_spec
    simpa [stdLinAlg, h] using this
  solveLower := fun b ht hd => mulVec_inv_mulVec (det_ne_zero_of_lower ht hd) b
  solveUpper := fun b ht hd => mulVec_inv_mulVec (det_ne_zero_of_upper ht hd) b
  solvePos := fun b h => mulVec_inv_mulVec h.det_pos.ne' b

theorem eq_inv_mulVec {n : ℕ} {A : Matrix (Fin n) (Fin n) ℝ} (h : A.det ≠ 0) {x b : Fin n → ℝ}
    (hx : A *ᵥ x = b) : x = A⁻¹ *ᵥ b := by
  rw [← hx, mulVec_mulVec, nonsing_inv_mul _ (isUnit_iff_ne_zero.2 h), one_mulVec]

theorem setDiagAdd_eq {n : ℕ} (M : Matrix (Fin n) (Fin n) ℝ) (v : Fin n → ℝ) :
    setDiagAdd M v = M + diagonal v := by
  ext i j
  by_cases h : i = j
  · subst h; simp [setDiagAdd]
  · simp [setDiagAdd, h]

theorem rue2005_eq {la : LinAlg} (hla : la.Sound) {n : ℕ} (b : Fin n → ℝ)
    {Q : Matrix (Fin n) (Fin n) ℝ} (hQ : Q.PosDef) :
    ∃ C : Matrix (Fin n) (Fin n) ℝ, C * Cᵀ = Q⁻¹ ∧ ∀ z, rue2005 la b Q z = Q⁻¹ *ᵥ b + C *ᵥ z := by
  obtain ⟨ht, hd, hQL⟩ := hla.chol hQ
  set L := la.chol Q with hL
  have hd' : ∀ i, L i i ≠ 0 := fun i => (hd i).ne'
  have hdet : L.det ≠ 0 := det_ne_zero_of_lower ht hd'
  have hdetT : Lᵀ.det ≠ 0 := by rwa [det_transpose]
  have hinv : Lᵀ⁻¹ * L⁻¹ = Q⁻¹ := by rw [← hQL, Matrix.mul_inv_rev]
  refine ⟨Lᵀ⁻¹, ?_, fun z => ?_⟩
  · rw [transpose_nonsing_inv, transpose_transpose, hinv]
  · have hw := eq_inv_mulVec hdet (hla.solveLower b ht hd')
    have hup : ∀ c, la.solveTri Lᵀ c false = Lᵀ⁻¹ *ᵥ c := fun c =>
      eq_inv_mulVec hdetT (hla.solveUpper c (fun i j h => ht j i h) hd')
    simp only [rue2005, ← hL, hup, hw]
    rw [mulVec_mulVec, hinv]

theorem posDef_diag_add {p n : ℕ} {A : Fin p → ℝ} {omega : Fin n → ℝ} (hA : ∀ i, 0 < A i)
    (hω : ∀ i, 0 < omega i) (phi : Matrix (Fin n) (Fin p) ℝ) :
    (diagonal A + phiᵀ * diagonal omega * phi).PosDef := by
  refine (PosDef.diagonal hA).add_posSemidef ?_
  have := (PosSemidef.diagonal (fun i => (hω i).le)).conjTranspose_mul_mul_same phi
  rwa [conjTranspose_eq_transpose_of_trivial] at this

theorem posDef_B {p n : ℕ} {A : Fin p → ℝ} {omega : Fin n → ℝ} (hA : ∀ i, 0 < A i)
    (hω : ∀ i, 0 < omega i) (phi : Matrix (Fin n) (Fin p) ℝ) :
    (phi * diagonal A⁻¹ * phiᵀ + diagonal omega⁻¹).PosDef := by
  refine PosDef.posSemidef_add ?_ (PosDef.diagonal fun i => by simpa using hω i)
  have := (PosSemidef.diagonal (d := A⁻¹)
    (fun i => by simpa using (hA i).le)).mul_mul_conjTranspose_same phi
  rwa [conjTranspose_eq_transpose_of_trivial] at this

/-- Two blocks of columns side by side, indexed like the concatenated normal vector. -/
def hcat {p n m : ℕ} (M : Matrix (Fin m) (Fin p) ℝ) (N : Matrix (Fin m) (Fin n) ℝ) :
    Matrix (Fin m) (Fin (p + n)) ℝ :=
  fun i k => Fin.addCases (M i) (N i) k

theorem hcat_mulVec {p n m : ℕ} (M : Matrix (Fin m) (Fin p) ℝ) (N : Matrix (Fin m) (Fin n) ℝ)
    (z : Fin (p + n) → ℝ) :
    hcat M N *ᵥ z = M *ᵥ (fun i => z (Fin.castAdd n i)) + N *ᵥ (fun i => z (Fin.natAdd p i)) := by
  ext i
  simp [mulVec, dotProduct, hcat, Fin.sum_univ_add]

theorem hcat_mul_transpose {p n m : ℕ} (M : Matrix (Fin m) (Fin p) ℝ)
    (N : Matrix (Fin m) (Fin n) ℝ) : hcat M N * (hcat M N)ᵀ = M * Mᵀ + N * Nᵀ := by
  ext i j
  simp [mul_apply, hcat, Fin.sum_univ_add]

theorem cong2017_eq {la : LinAlg} (hla : la.Sound) {p n : ℕ} {A : Fin p → ℝ} {omega : Fin n → ℝ}
    (hA : ∀ i, 0 < A i) (hω : ∀ i, 0 < omega i) (phi : Matrix (Fin n) (Fin p) ℝ)
    (t : Fin n → ℝ) :
    ∃ C : Matrix (Fin p) (Fin (p + n)) ℝ,
      C * Cᵀ = (diagonal A + phiᵀ * diagonal omega * phi)⁻¹ ∧
      ∀ z, cong2017 la A omega phi t z =
        (diagonal A + phiᵀ * diagonal omega * phi)⁻¹ *ᵥ (phiᵀ *ᵥ (omega * t)) + C *ᵥ z := by
  set Λ := diagonal A + phiᵀ * diagonal omega * phi with hΛ
  set B := phi * diagonal A⁻¹ * phiᵀ + diagonal omega⁻¹ with hB
  have hΛp : Λ.PosDef := posDef_diag_add hA hω phi
  have hBp : B.PosDef := posDef_B hA hω phi
  have hΛu : IsUnit Λ.det := isUnit_iff_ne_zero.2 hΛp.det_pos.ne'
  have hBu : IsUnit B.det := isUnit_iff_ne_zero.2 hBp.det_pos.ne'
  have hAA : diagonal A * diagonal A⁻¹ = 1 := by
    rw [diagonal_mul_diagonal]
    simp [mul_inv_cancel₀ (hA _).ne']
  have hωω : diagonal omega * diagonal omega⁻¹ = 1 := by
    rw [diagonal_mul_diagonal]
    simp [mul_inv_cancel₀ (hω _).ne']
  -- the gain matrix `A⁻¹ Φᵀ B⁻¹` is `Λ⁻¹ Φᵀ Ω`
  have hG : diagonal A⁻¹ * phiᵀ * B⁻¹ = Λ⁻¹ * (phiᵀ * diagonal omega) := by
    have h1 : Λ * (diagonal A⁻¹ * phiᵀ) = phiᵀ * diagonal omega * B := by
      rw [hΛ, hB, Matrix.add_mul, Matrix.mul_add, ← Matrix.mul_assoc (diagonal A), hAA,
        Matrix.one_mul, Matrix.mul_assoc phiᵀ _ (diagonal omega⁻¹), hωω, Matrix.mul_one,
        add_comm]
      simp only [Matrix.mul_assoc]
    have h2 : Λ⁻¹ * (Λ * (diagonal A⁻¹ * phiᵀ)) * B⁻¹ =
        Λ⁻¹ * (phiᵀ * diagonal omega * B) * B⁻¹ := by rw [h1]
    rw [← Matrix.mul_assoc Λ⁻¹, nonsing_inv_mul _ hΛu, Matrix.one_mul] at h2
    rw [h2, Matrix.mul_assoc, Matrix.mul_assoc (phiᵀ * _), mul_nonsing_inv _ hBu, Matrix.mul_one]
  have hIG : 1 - Λ⁻¹ * (phiᵀ * diagonal omega) * phi = Λ⁻¹ * diagonal A := by
    have : Λ⁻¹ * Λ = 1 := nonsing_inv_mul _ hΛu
    rw [← this, Matrix.mul_assoc, ← Matrix.mul_sub, hΛ, add_sub_cancel_right]
  have hΛsymm : Λᵀ = Λ := by
    have := hΛp.isHermitian.eq
    rwa [conjTranspose_eq_transpose_of_trivial] at this
  have hΛinvT : (Λ⁻¹)ᵀ = Λ⁻¹ := by rw [transpose_nonsing_inv, hΛsymm]
  set s1 : Fin p → ℝ := fun i => Real.sqrt (1 / A i) with hs1
  set s2 : Fin n → ℝ := fun i => 1 / Real.sqrt (omega i) with hs2
  have hd1 : diagonal s1 * diagonal s1 = diagonal A⁻¹ := by
    rw [diagonal_mul_diagonal]
    congr 1
    ext i
    simp only [hs1, Pi.inv_apply]
    rw [Real.mul_self_sqrt (by have := hA i; positivity), one_div]
  have hd2 : diagonal s2 * diagonal s2 = diagonal omega⁻¹ := by
    rw [diagonal_mul_diagonal]
    congr 1
    ext i
    simp only [hs2, Pi.inv_apply]
    rw [div_mul_div_comm, Real.mul_self_sqrt (hω i).le, one_mul, one_div]
  refine ⟨hcat (Λ⁻¹ * diagonal A * diagonal s1) (-(Λ⁻¹ * (phiᵀ * diagonal omega) * diagonal s2)),
    ?_, fun z => ?_⟩
  · rw [hcat_mul_transpose]
    simp only [transpose_mul, transpose_neg, diagonal_transpose, Matrix.neg_mul, Matrix.mul_neg,
      neg_neg, hΛinvT, transpose_transpose]
    have e1 : Λ⁻¹ * diagonal A * diagonal s1 * (diagonal s1 * (diagonal A * Λ⁻¹)) =
        Λ⁻¹ * (diagonal A * Λ⁻¹) := by
      calc _ = Λ⁻¹ * (diagonal A * (diagonal s1 * diagonal s1)) * (diagonal A * Λ⁻¹) := by
            simp only [Matrix.mul_assoc]
        _ = _ := by rw [hd1, hAA, Matrix.mul_one]
    have e2 : Λ⁻¹ * (phiᵀ * diagonal omega) * diagonal s2 *
        (diagonal s2 * (diagonal omega * phi * Λ⁻¹)) =
        Λ⁻¹ * (phiᵀ * diagonal omega * phi * Λ⁻¹) := by
      calc _ = Λ⁻¹ * (phiᵀ * (diagonal omega * (diagonal s2 * diagonal s2)) *
            (diagonal omega * phi * Λ⁻¹)) := by simp only [Matrix.mul_assoc]
        _ = _ := by rw [hd2, hωω, Matrix.mul_one]; simp only [Matrix.mul_assoc]
    rw [e1, e2, ← Matrix.mul_add, ← Matrix.add_mul, ← hΛ, mul_nonsing_inv _ hΛu, Matrix.mul_one]
  · have hBeq : setDiagAdd (phi * (diagonal A⁻¹ * phiᵀ)) (fun i => 1 / omega i) = B := by
      rw [setDiagAdd_eq, hB, Matrix.mul_assoc]
      congr 2
      ext i
      simp
    have hAp : (fun i j => 1 / A i * phi j i) = diagonal A⁻¹ * phiᵀ := by
      ext i j
      simp [diagonal_mul]
    have hsol : ∀ c, la.solvePos B c = B⁻¹ *ᵥ c := fun c =>
      eq_inv_mulVec hBp.det_pos.ne' (hla.solvePos c hBp)
    set z1 : Fin p → ℝ := fun i => z (Fin.castAdd n i) with hz1
    set z2 : Fin n → ℝ := fun i => z (Fin.natAdd p i) with hz2
    have hy1 : (fun i => Real.sqrt (1 / A i) * z (Fin.castAdd n i)) = diagonal s1 *ᵥ z1 := by
      ext i; simp [mulVec_diagonal, hs1, hz1]
    have hy2 : (fun i => 1 / Real.sqrt (omega i) * z (Fin.natAdd p i)) = diagonal s2 *ᵥ z2 := by
      ext i; simp [mulVec_diagonal, hs2, hz2]
    have hωt : omega * t = diagonal omega *ᵥ t := by
      ext i; simp [mulVec_diagonal]
    rw [hcat_mulVec, ← hz1, ← hz2]
    simp only [cong2017, hAp, hBeq, hsol, hy1, hy2, hωt]
    rw [mulVec_mulVec, hG, mulVec_sub, mulVec_sub, mulVec_mulVec, mulVec_mulVec, neg_mulVec,
      ← hIG, Matrix.sub_mul, Matrix.one_mul, sub_mulVec]
    simp only [← mulVec_mulVec]
    abel

end Verif
