import Mathlib.MeasureTheory.Measure.FiniteMeasureExt
import Mathlib.MeasureTheory.Integral.Pi
import Mathlib.Analysis.SpecialFunctions.Exp

/-!
# Laws of nonnegative vectors are determined by their Laplace transforms
-/

open MeasureTheory BoundedContinuousFunction
open scoped NNReal

namespace Verif

variable {ι : Type} [Fintype ι]

/-- `exp (-∑ s_k x_k)` as a bounded continuous function of nonnegative `x`. -/
noncomputable def expNeg (s : ι → ℕ) : (ι → ℝ≥0) →ᵇ ℝ :=
  BoundedContinuousFunction.ofNormedAddCommGroup (fun x => Real.exp (-∑ k, (s k : ℝ) * x k)) (by fun_prop) 1
    (fun x => by
      rw [Real.norm_of_nonneg (Real.exp_pos _).le, Real.exp_le_one_iff, neg_nonpos]
      exact Finset.sum_nonneg fun k _ => by positivity)

theorem expNeg_apply (s : ι → ℕ) (x : ι → ℝ≥0) : expNeg s x = Real.exp (-∑ k, (s k : ℝ) * x k) := rfl

theorem expNeg_mul (s t : ι → ℕ) : expNeg s * expNeg t = expNeg (s + t) := by
  ext x
  rw [BoundedContinuousFunction.mul_apply, expNeg_apply, expNeg_apply, expNeg_apply, ← Real.exp_add,
    ← neg_add, ← Finset.sum_add_distrib]
  congr 2
  refine Finset.sum_congr rfl fun k _ => ?_
  simp
  ring

theorem ext_of_laplace_nnreal {μ ν : Measure (ι → ℝ≥0)} [IsFiniteMeasure μ] [IsFiniteMeasure ν]
    (h : ∀ s : ι → ℕ, ∫ x, expNeg s x ∂μ = ∫ x, expNeg s x ∂ν) : μ = ν := by
  classical
  let A : StarSubalgebra ℝ ((ι → ℝ≥0) →ᵇ ℝ) :=
    { Algebra.adjoin ℝ (Set.range (expNeg (ι := ι))) with
      star_mem' := fun {a} ha => by
        have : star a = a := by ext x; simp
        rw [this]
        exact ha }
  refine ext_of_forall_mem_subalgebra_integral_eq_of_polish (𝕜 := ℝ) (A := A) ?_ fun g hg => ?_
  · intro x y hxy
    obtain ⟨k, hk⟩ : ∃ k, x k ≠ y k := by
      by_contra hc
      push Not at hc
      exact hxy (funext hc)
    refine ⟨expNeg (Pi.single k 1), ⟨(expNeg (Pi.single k 1)).toContinuousMap, ?_, rfl⟩, ?_⟩
    · exact ⟨expNeg (Pi.single k 1), Algebra.subset_adjoin ⟨_, rfl⟩, rfl⟩
    · rw [expNeg_apply, expNeg_apply]
      simp only [Pi.single_apply, Nat.cast_ite, Nat.cast_one, Nat.cast_zero, ite_mul, one_mul, zero_mul,
        Finset.sum_ite_eq', Finset.mem_univ, if_true]
      intro e
      have := Real.exp_injective e
      exact hk (NNReal.coe_injective (neg_injective this))
  · have hg' : g ∈ Submodule.span ℝ (Submonoid.closure (Set.range (expNeg (ι := ι))) :
        Set ((ι → ℝ≥0) →ᵇ ℝ)) := by
      rw [← Algebra.adjoin_eq_span]
      exact hg
    induction hg' using Submodule.span_induction with
    | mem a ha =>
      have : ∃ s, a = expNeg s := by
        clear hg
        induction ha using Submonoid.closure_induction with
        | mem a ha => exact ⟨ha.choose, ha.choose_spec.symm⟩
        | one => exact ⟨0, by ext x; simp [expNeg_apply]⟩
        | mul a b _ _ iha ihb =>
          obtain ⟨s, rfl⟩ := iha
          obtain ⟨t, rfl⟩ := ihb
          exact ⟨s + t, expNeg_mul s t⟩
      obtain ⟨s, rfl⟩ := this
      exact h s
    | zero => simp
    | add a b ha hb iha ihb =>
      have ha' : a ∈ A := by
        have : a ∈ Algebra.adjoin ℝ (Set.range (expNeg (ι := ι))) := by
          rw [← Subalgebra.mem_toSubmodule, Algebra.adjoin_eq_span]; exact ha
        exact this
      have hb' : b ∈ A := by
        have : b ∈ Algebra.adjoin ℝ (Set.range (expNeg (ι := ι))) := by
          rw [← Subalgebra.mem_toSubmodule, Algebra.adjoin_eq_span]; exact hb
        exact this
      simp only [BoundedContinuousFunction.coe_add, Pi.add_apply]
      rw [integral_add (a.integrable μ) (b.integrable μ), integral_add (a.integrable ν) (b.integrable ν),
        iha ha', ihb hb']
    | smul c a ha iha =>
      have ha' : a ∈ A := by
        have : a ∈ Algebra.adjoin ℝ (Set.range (expNeg (ι := ι))) := by
          rw [← Subalgebra.mem_toSubmodule, Algebra.adjoin_eq_span]; exact ha
        exact this
      simp only [BoundedContinuousFunction.coe_smul, smul_eq_mul]
      rw [integral_const_mul, integral_const_mul, iha ha']

/-- Two laws of nonnegative vectors with the same Laplace transform, at whole arguments, are equal. -/
theorem ext_of_laplace {μ ν : Measure (ι → ℝ)} [IsFiniteMeasure μ] [IsFiniteMeasure ν]
    (hμ : ∀ᵐ x ∂μ, ∀ k, 0 ≤ x k) (hν : ∀ᵐ x ∂ν, ∀ k, 0 ≤ x k)
    (h : ∀ s : ι → ℕ, ∫ x, Real.exp (-∑ k, (s k : ℝ) * x k) ∂μ = ∫ x, Real.exp (-∑ k, (s k : ℝ) * x k) ∂ν) :
    μ = ν := by
  have hm : Measurable fun (x : ι → ℝ) k => (x k).toNNReal := by fun_prop
  have hc : Measurable fun (x : ι → ℝ≥0) k => (x k : ℝ) := by fun_prop
  have back : ∀ {ρ : Measure (ι → ℝ)}, (∀ᵐ x ∂ρ, ∀ k, 0 ≤ x k) →
      (ρ.map fun x k => (x k).toNNReal).map (fun x k => (x k : ℝ)) = ρ := by
    intro ρ hρ
    rw [Measure.map_map hc hm]
    conv_rhs => rw [← Measure.map_id (μ := ρ)]
    refine Measure.map_congr ?_
    filter_upwards [hρ] with x hx
    funext k
    simp [hx k]
  have tr : ∀ {ρ : Measure (ι → ℝ)}, (∀ᵐ x ∂ρ, ∀ k, 0 ≤ x k) → ∀ s : ι → ℕ,
      ∫ x, expNeg s x ∂(ρ.map fun x k => (x k).toNNReal) = ∫ x, Real.exp (-∑ k, (s k : ℝ) * x k) ∂ρ := by
    intro ρ hρ s
    rw [integral_map hm.aemeasurable (expNeg s).continuous.aestronglyMeasurable]
    refine integral_congr_ae ?_
    filter_upwards [hρ] with x hx
    rw [expNeg_apply]
    simp [hx]
  have e : (μ.map fun x k => (x k).toNNReal) = ν.map fun x k => (x k).toNNReal :=
    ext_of_laplace_nnreal fun s => by rw [tr hμ, tr hν, h]
  rw [← back hμ, ← back hν, e]

end Verif
