import Verif.Prob.ChangeVar
import Mathlib.MeasureTheory.Constructions.Pi
import Mathlib.Algebra.BigOperators.Fin

/-!
# Products of measures on blocks of coordinates
-/

open MeasureTheory
open scoped ENNReal

namespace Verif

/-- The integral of a product of functions of the components. -/
theorem lintegral_pi_prod : ∀ {n : ℕ} {α : Fin n → Type} [∀ i, MeasurableSpace (α i)]
    (μ : ∀ i, Measure (α i)) [∀ i, SigmaFinite (μ i)] {f : ∀ i, α i → ℝ≥0∞}, (∀ i, Measurable (f i)) →
    ∫⁻ x, ∏ i, f i (x i) ∂Measure.pi μ = ∏ i, ∫⁻ x, f i x ∂μ i
  | 0, α, _, μ, _, f, _ => by
    simp
  | n + 1, α, _, μ, _, f, hf => by
    have hmp := (measurePreserving_piFinSuccAbove μ 0).symm
    rw [← hmp.lintegral_comp_emb (MeasurableEquiv.measurableEmbedding _)]
    simp only [Fin.prod_univ_succ, Fin.zero_succAbove]
    have := lintegral_prod_mul (μ := μ 0) (ν := Measure.pi fun i => μ (Fin.succ i)) (f := f 0)
      (g := fun x : (∀ i : Fin n, α i.succ) => ∏ i, f i.succ (x i))
      (hf 0).aemeasurable (by
        refine Measurable.aemeasurable ?_
        exact Finset.measurable_prod _ fun i _ => (hf _).comp (measurable_pi_apply i))
    refine this.trans ?_
    rw [lintegral_pi_prod (fun i => μ i.succ) fun i => hf i.succ]

/-- Densities multiply over the components. -/
theorem pi_withDensity_pi {n : ℕ} {α : Fin n → Type} [∀ i, MeasurableSpace (α i)]
    (μ : ∀ i, Measure (α i)) [∀ i, SigmaFinite (μ i)]
    {f : ∀ i, α i → ℝ≥0∞} (hf : ∀ i, Measurable (f i))
    [∀ i, SigmaFinite ((μ i).withDensity (f i))] :
    Measure.pi (fun i => (μ i).withDensity (f i)) =
      (Measure.pi μ).withDensity fun x => ∏ i, f i (x i) := by
  apply Measure.pi_eq
  intro s hs
  rw [withDensity_apply _ (MeasurableSet.univ_pi hs), Measure.restrict_pi_pi,
    lintegral_pi_prod _ hf]
  exact Finset.prod_congr rfl fun i _ => (withDensity_apply _ (hs i)).symm

variable {N : ℕ} (m : Fin N → ℕ)

theorem split_symm (x : ∀ i, Fin (m i) → ℝ) (i : Fin N) (j : Fin (m i)) :
    x (finSigmaFinEquiv.symm (finSigmaFinEquiv ⟨i, j⟩)).1 (finSigmaFinEquiv.symm (finSigmaFinEquiv ⟨i, j⟩)).2 =
      x i j := by
  have : ∀ p : (i : Fin N) × Fin (m i), p = ⟨i, j⟩ → x p.1 p.2 = x i j := by
    rintro _ rfl
    rfl
  exact this _ (Equiv.symm_apply_apply _ _)

/-- A flat vector divided into blocks. -/
def splitEquiv : (Fin (∑ i, m i) → ℝ) ≃ᵐ (∀ i, Fin (m i) → ℝ) where
  toFun q i j := q (finSigmaFinEquiv ⟨i, j⟩)
  invFun x t := x (finSigmaFinEquiv.symm t).1 (finSigmaFinEquiv.symm t).2
  left_inv q := by
    funext t
    simp
  right_inv x := by
    funext i j
    exact split_symm m x i j
  measurable_toFun := by
    refine measurable_pi_lambda _ fun i => measurable_pi_lambda _ fun j => measurable_pi_apply _
  measurable_invFun := by
    refine measurable_pi_lambda _ fun t => ?_
    exact (measurable_pi_apply (finSigmaFinEquiv.symm t).2).comp (measurable_pi_apply _)

theorem splitEquiv_apply (q : Fin (∑ i, m i) → ℝ) (i : Fin N) (j : Fin (m i)) :
    splitEquiv m q i j = q (finSigmaFinEquiv ⟨i, j⟩) := rfl

theorem splitEquiv_add (q q' : Fin (∑ i, m i) → ℝ) :
    splitEquiv m (q + q') = splitEquiv m q + splitEquiv m q' := rfl

theorem splitEquiv_symm_add (x x' : ∀ i, Fin (m i) → ℝ) :
    (splitEquiv m).symm (x + x') = (splitEquiv m).symm x + (splitEquiv m).symm x' := rfl

theorem splitEquiv_symm_preserving : MeasurePreserving (splitEquiv m).symm := by
  refine ⟨(splitEquiv m).symm.measurable, (Measure.pi_eq fun s hs => ?_).symm⟩
  rw [MeasurableEquiv.map_apply]
  have : (splitEquiv m).symm ⁻¹' Set.univ.pi s =
      Set.univ.pi fun i => Set.univ.pi fun j => s (finSigmaFinEquiv ⟨i, j⟩) := by
    ext x
    simp only [Set.mem_preimage, Set.mem_pi, Set.mem_univ, true_implies]
    constructor
    · intro h i j
      have := h (finSigmaFinEquiv ⟨i, j⟩)
      have e : (splitEquiv m).symm x (finSigmaFinEquiv ⟨i, j⟩) = x i j := split_symm m x i j
      rwa [e] at this
    · intro h t
      have := h (finSigmaFinEquiv.symm t).1 (finSigmaFinEquiv.symm t).2
      rw [Sigma.eta, Equiv.apply_symm_apply] at this
      exact this
  rw [this, volume_pi_pi]
  simp only [volume_pi_pi]
  rw [← finSigmaFinEquiv.prod_comp, Fintype.prod_sigma]

theorem splitEquiv_preserving : MeasurePreserving (splitEquiv m) :=
  (splitEquiv_symm_preserving m).symm (splitEquiv m).symm

end Verif
