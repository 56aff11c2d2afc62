import Verif.Hier.RegLaw
import Mathlib.MeasureTheory.Measure.Lebesgue.EqHaar

/-!
# The likelihoods of the regressions tend to zero along almost every line

For negative-binomial counts this holds when some positive count has a nonzero row of regressors; for binary data
when no line separates the outcomes.
-/

open MeasureTheory ProbabilityTheory Filter Set Matrix
open scoped ENNReal Topology

namespace Verif.Hier

variable {p n : ℕ}

theorem pgFactor_le_exp {b κ ψ : ℝ} (hb : 0 ≤ b) :
    Real.exp (κ * ψ) * Real.cosh (ψ / 2) ^ (-b) ≤ 2 ^ b * Real.exp (κ * ψ - b / 2 * |ψ|) := by
  have h1 : Real.exp (|ψ| / 2) / 2 ≤ Real.cosh (ψ / 2) := by
    rw [← Real.cosh_abs (ψ / 2), Real.cosh_eq, abs_div, abs_two]
    have := Real.exp_pos (-(|ψ| / 2))
    linarith
  have h2 : Real.cosh (ψ / 2) ^ (-b) ≤ (Real.exp (|ψ| / 2) / 2) ^ (-b) :=
    Real.rpow_le_rpow_of_nonpos (by positivity) h1 (by linarith)
  have h3 : (Real.exp (|ψ| / 2) / 2) ^ (-b) = Real.exp (-(b / 2 * |ψ|)) * 2 ^ b := by
    rw [Real.div_rpow (Real.exp_pos _).le two_pos.le, ← Real.exp_mul, Real.rpow_neg two_pos.le,
      div_inv_eq_mul]
    congr 2
    ring
  calc Real.exp (κ * ψ) * Real.cosh (ψ / 2) ^ (-b)
      ≤ Real.exp (κ * ψ) * (Real.exp (-(b / 2 * |ψ|)) * 2 ^ b) :=
        mul_le_mul_of_nonneg_left (h2.trans_eq h3) (Real.exp_pos _).le
    _ = 2 ^ b * Real.exp (κ * ψ - b / 2 * |ψ|) := by
        rw [← mul_assoc, ← Real.exp_add, sub_eq_add_neg, mul_comm]

theorem pgLik_le (X : Matrix (Fin n) (Fin p) ℝ) {b κ : Fin n → ℝ} (hκ : ∀ i, |κ i| ≤ b i / 2)
    (β : Fin p → ℝ) : pgLik X b κ β ≤ ∏ i, (2 : ℝ) ^ b i :=
  Finset.prod_le_prod (fun i _ => by have := Real.cosh_pos ((X *ᵥ β) i / 2); positivity)
    fun i _ => pgFactor_le (hκ i)

/-- The product tends to zero along the line of `β` when one factor does. -/
theorem tendsto_pgLik (X : Matrix (Fin n) (Fin p) ℝ) {b κ : Fin n → ℝ} (hκ : ∀ i, |κ i| ≤ b i / 2)
    {β : Fin p → ℝ} {i : Fin n} (hi : κ i * (X *ᵥ β) i < b i / 2 * |(X *ᵥ β) i|) :
    Tendsto (fun t : ℝ => pgLik X b κ (t • β)) atTop (𝓝 0) := by
  have hb : ∀ i, 0 ≤ b i := fun i => by linarith [abs_nonneg (κ i), hκ i]
  have hle : ∀ t : ℝ, 0 < t → pgLik X b κ (t • β) ≤
      (∏ i, (2 : ℝ) ^ b i) * Real.exp (t * (κ i * (X *ᵥ β) i - b i / 2 * |(X *ᵥ β) i|)) := by
    intro t ht
    unfold pgLik
    rw [← Finset.mul_prod_erase _ _ (Finset.mem_univ i), ← Finset.mul_prod_erase _ _ (Finset.mem_univ i),
      mul_right_comm (_ ^ _)]
    refine mul_le_mul ?_ (Finset.prod_le_prod (fun j _ => ?_) fun j _ => pgFactor_le (hκ j)) ?_ ?_
    · refine (pgFactor_le_exp (hb i)).trans_eq ?_
      congr 2
      rw [mulVec_smul, Pi.smul_apply, smul_eq_mul, abs_mul, abs_of_pos ht]
      ring
    · have := Real.cosh_pos ((X *ᵥ (t • β)) j / 2)
      positivity
    · refine Finset.prod_nonneg fun j _ => ?_
      have := Real.cosh_pos ((X *ᵥ (t • β)) j / 2)
      positivity
    · positivity
  have hlim : Tendsto (fun t : ℝ => (∏ i, (2 : ℝ) ^ b i) *
      Real.exp (t * (κ i * (X *ᵥ β) i - b i / 2 * |(X *ᵥ β) i|))) atTop (𝓝 0) := by
    have : Tendsto (fun t : ℝ => t * (κ i * (X *ᵥ β) i - b i / 2 * |(X *ᵥ β) i|)) atTop atBot :=
      tendsto_id.atTop_mul_const_of_neg (by linarith)
    simpa using (Real.tendsto_exp_atBot.comp this).const_mul (∏ i, (2 : ℝ) ^ b i)
  refine tendsto_of_tendsto_of_tendsto_of_le_of_le' tendsto_const_nhds hlim
    (Eventually.of_forall fun t => (pgLik_pos X b κ _).le) ?_
  filter_upwards [eventually_gt_atTop 0] with t ht using hle t ht

theorem tame_pgLik (X : Matrix (Fin n) (Fin p) ℝ) {b κ : Fin n → ℝ} (hκ : ∀ i, |κ i| ≤ b i / 2) {c : ℝ}
    (hc : 0 < c) : Tame fun β => ENNReal.ofReal (c * pgLik X b κ β) where
  cont := ENNReal.continuous_ofReal.comp (continuous_const.mul (continuous_pgLik X b κ))
  pos β := by
    rw [ne_eq, ENNReal.ofReal_eq_zero, not_le]
    exact mul_pos hc (pgLik_pos X b κ β)
  bdd := ⟨ENNReal.ofReal (c * ∏ i, (2 : ℝ) ^ b i), ENNReal.ofReal_ne_top, fun β =>
    ENNReal.ofReal_le_ofReal (mul_le_mul_of_nonneg_left (pgLik_le X hκ β) hc.le)⟩

theorem fades_pgLik (X : Matrix (Fin n) (Fin p) ℝ) {b κ : Fin n → ℝ} (hκ : ∀ i, |κ i| ≤ b i / 2) {c : ℝ}
    (hc : 0 < c) (h : ∀ᵐ β : Fin p → ℝ, ∃ i, κ i * (X *ᵥ β) i < b i / 2 * |(X *ᵥ β) i|) :
    Fades fun β => ENNReal.ofReal (c * pgLik X b κ β) where
  toTame := tame_pgLik X hκ hc
  fades := by
    filter_upwards [h] with β ⟨i, hi⟩
    have := ENNReal.tendsto_ofReal ((tendsto_pgLik X hκ hi).const_mul c)
    simpa using this

/-- Almost every vector of coefficients has a nonzero linear predictor where the regressors are not zero. -/
theorem ae_mulVec_ne (X : Matrix (Fin n) (Fin p) ℝ) {i : Fin n} (hi : X i ≠ 0) :
    ∀ᵐ β : Fin p → ℝ, (X *ᵥ β) i ≠ 0 := by
  let f : (Fin p → ℝ) →ₗ[ℝ] ℝ := (LinearMap.proj i).comp X.mulVecLin
  have hf : LinearMap.ker f ≠ ⊤ := by
    rw [ne_eq, LinearMap.ker_eq_top]
    intro h0
    obtain ⟨j, hj⟩ := Function.ne_iff.1 hi
    have h1 : f (Pi.single j 1) = 0 := by rw [h0]; rfl
    refine hj ?_
    have h2 : (X *ᵥ Pi.single j 1) i = 0 := h1
    simpa using h2
  have := Measure.addHaar_submodule (volume : Measure (Fin p → ℝ)) (LinearMap.ker f) hf
  rw [ae_iff]
  refine measure_mono_null (fun β hβ => ?_) this
  simp only [ne_eq, not_not, mem_ofPred_eq] at hβ
  exact LinearMap.mem_ker.2 hβ

/-- Negative-binomial counts: some positive count has a nonzero row of regressors. -/
theorem fades_nb (X : Matrix (Fin n) (Fin p) ℝ) {h : Fin n → ℝ} (hh : ∀ i, 0 < h i) {y : Fin n → ℕ}
    (hy : ∃ i, 0 < y i ∧ X i ≠ 0) : Fades (nbRegLik X h y) := by
  obtain ⟨i, hi, hX⟩ := hy
  obtain ⟨c, hc, hl⟩ := nbRegLik_eq X hh y
  rw [show nbRegLik X h y = _ from funext hl]
  refine fades_pgLik X (nb_kappa_le hh y) hc ?_
  filter_upwards [ae_mulVec_ne X hX] with β hβ
  refine ⟨i, ?_⟩
  have h1 := hh i
  have h2 : (0 : ℝ) < y i := by exact_mod_cast hi
  have h3 : |0.5 * ((y i : ℝ) - h i)| < ((y i : ℝ) + h i) / 2 := by
    rw [abs_lt]
    constructor <;> linarith
  refine (le_abs_self _).trans_lt ?_
  rw [abs_mul]
  exact mul_lt_mul_of_pos_right h3 (abs_pos.2 hβ)

/-- Spec.  No line separates the two outcomes: every linear predictor that is not zero is on the wrong side
for some observation.  The probability of a one is `sigmoid (-(X β)_i)`. -/
def Overlap (X : Matrix (Fin n) (Fin p) ℝ) (z : Fin n → Bool) : Prop :=
  X ≠ 0 ∧ ∀ β, X *ᵥ β ≠ 0 → ∃ i, if z i then 0 < (X *ᵥ β) i else (X *ᵥ β) i < 0

theorem bern_eq (X : Matrix (Fin n) (Fin p) ℝ) (z : Fin n → Bool) :
    bernRegLik (fun ψ => sigmoid (-ψ)) X z = fun β => ENNReal.ofReal ((∏ _i : Fin n, (2 : ℝ)⁻¹) *
      pgLik (-X) (fun _ => 1) (fun i => boolVal (z i) - 0.5) β) := funext fun β => by
  rw [bernRegLik_neg, bernRegLik_eq]

theorem tame_bern (X : Matrix (Fin n) (Fin p) ℝ) (z : Fin n → Bool) :
    Tame (bernRegLik (fun ψ => sigmoid (-ψ)) X z) := by
  rw [bern_eq]
  exact tame_pgLik (-X) (fun i => bern_kappa_le (z i)) (by positivity)

theorem tame_nb (X : Matrix (Fin n) (Fin p) ℝ) {h : Fin n → ℝ} (hh : ∀ i, 0 < h i) (y : Fin n → ℕ) :
    Tame (nbRegLik X h y) := by
  obtain ⟨c, hc, hl⟩ := nbRegLik_eq X hh y
  rw [show nbRegLik X h y = _ from funext hl]
  exact tame_pgLik X (nb_kappa_le hh y) hc

/-- Binary data that overlap. -/
theorem fades_bern {X : Matrix (Fin n) (Fin p) ℝ} {z : Fin n → Bool} (hz : Overlap X z) :
    Fades (bernRegLik (fun ψ => sigmoid (-ψ)) X z) := by
  rw [bern_eq]
  refine fades_pgLik (-X) (fun i => bern_kappa_le (z i)) (by positivity) ?_
  obtain ⟨i₀, hi₀⟩ := Function.ne_iff.1 hz.1
  filter_upwards [ae_mulVec_ne X hi₀] with β hβ
  obtain ⟨i, hi⟩ := hz.2 β fun h0 => hβ (by rw [h0]; rfl)
  refine ⟨i, ?_⟩
  rw [neg_mulVec, Pi.neg_apply, abs_neg]
  cases hb : z i <;> simp only [hb, boolVal, if_true, Bool.false_eq_true, if_false] at hi ⊢
  · rw [abs_of_neg hi]
    linarith
  · rw [abs_of_pos hi]
    linarith

end Verif.Hier
