import Verif.PG.Blocks
import Verif.PG.SymmProps

/-!
# C83: separate regressions, sampled together
-/

open MeasureTheory ProbabilityTheory Matrix
open scoped ENNReal

namespace Verif

section

variable {p₁ p₂ n₁ n₂ : ℕ}

/-- Applying a function entry by entry to a vector in two parts. -/
theorem append_map {α γ : Type*} (f : α → γ) (u : Fin n₁ → α) (v : Fin n₂ → α) :
    (fun i => f (Fin.append u v i)) = Fin.append (fun i => f (u i)) fun i => f (v i) := by
  funext i
  refine Fin.addCases (fun i => ?_) (fun i => ?_) i
  · simp only [Fin.append_left]
  · simp only [Fin.append_right]

theorem append_map₂ {α δ γ : Type*} (f : α → δ → γ) (u : Fin n₁ → α) (v : Fin n₂ → α) (u' : Fin n₁ → δ)
    (v' : Fin n₂ → δ) :
    (fun i => f (Fin.append u v i) (Fin.append u' v' i)) =
      Fin.append (fun i => f (u i) (u' i)) fun i => f (v i) (v' i) := by
  funext i
  refine Fin.addCases (fun i => ?_) (fun i => ?_) i
  · simp only [Fin.append_left]
  · simp only [Fin.append_right]

/-- **C83, negative binomial regressions.** Two regressions with coefficients of their own are written as
one: the observations of the second below those of the first, its regressors beside them, zeros elsewhere.
One call for the whole draws the two vectors of coefficients independently of each other, and each as a
call for its own regression does. -/
theorem C83_nbinom_separate {la : LinAlg} (hla : la.Sound) {std₁ : Fin p₁ → ℝ} (hs₁ : ∀ j, 0 < std₁ j)
    {std₂ : Fin p₂ → ℝ} (hs₂ : ∀ j, 0 < std₂ j) (X₁ : Matrix (Fin n₁) (Fin p₁) ℝ)
    (X₂ : Matrix (Fin n₂) (Fin p₂) ℝ) {h₁ : Fin n₁ → ℝ} (hh₁ : ∀ i, 0 < h₁ i) {h₂ : Fin n₂ → ℝ}
    (hh₂ : ∀ i, 0 < h₂ i) (y₁ : Fin n₁ → ℕ) (y₂ : Fin n₂ → ℕ) (β₁ : Fin p₁ → ℝ) (β₂ : Fin p₂ → ℝ) :
    nbinomNormalPosterior la (Fin.append std₁ std₂) (sideBySide X₁ X₂) (Fin.append h₁ h₂)
        (Fin.append y₁ y₂) (Fin.append β₁ β₂) =
      ((nbinomNormalPosterior la std₁ X₁ h₁ y₁ β₁).prod (nbinomNormalPosterior la std₂ X₂ h₂ y₂ β₂)).map
        fun q => Fin.append q.1 q.2 := by
  rw [nbinomNormalPosterior_eq, nbinomNormalPosterior_eq, nbinomNormalPosterior_eq,
    append_map (fun s : ℝ => s⁻¹), append_map₂ (fun (y : ℕ) (h : ℝ) => (y : ℝ) + h),
    append_map₂ (fun (y : ℕ) (h : ℝ) => 0.5 * ((y : ℝ) - h))]
  exact pgStep_sideBySide hla (fun j => inv_pos.2 (hs₁ j)) (fun j => inv_pos.2 (hs₂ j)) X₁ X₂
    (fun i => by have := hh₁ i; positivity) (fun i => by have := hh₂ i; positivity) _ _ β₁ β₂

/-- Three counts explained by two regressors, and two other counts explained by a third. -/
example (X₁ : Matrix (Fin 3) (Fin 2) ℝ) (X₂ : Matrix (Fin 2) (Fin 1) ℝ) (β₁ : Fin 2 → ℝ) (β₂ : Fin 1 → ℝ) :
    nbinomNormalPosterior stdLinAlg (Fin.append ![1, 2] ![3]) (sideBySide X₁ X₂)
        (Fin.append (fun _ => 2) fun _ => 1) (Fin.append ![0, 4, 1] ![7, 0]) (Fin.append β₁ β₂) =
      ((nbinomNormalPosterior stdLinAlg ![1, 2] X₁ (fun _ => 2) ![0, 4, 1] β₁).prod
        (nbinomNormalPosterior stdLinAlg ![3] X₂ (fun _ => 1) ![7, 0] β₂)).map fun q => Fin.append q.1 q.2 :=
  C83_nbinom_separate stdLinAlg_sound (fun j => by fin_cases j <;> norm_num)
    (fun j => by fin_cases j; norm_num) X₁ X₂ (fun _ => two_pos) (fun _ => one_pos) _ _ β₁ β₂

/-- **C83, Bernoulli regressions.** -/
theorem C83_bern_separate {la : LinAlg} (hla : la.Sound) {std₁ : Fin p₁ → ℝ} (hs₁ : ∀ j, 0 < std₁ j)
    {std₂ : Fin p₂ → ℝ} (hs₂ : ∀ j, 0 < std₂ j) (X₁ : Matrix (Fin n₁) (Fin p₁) ℝ)
    (X₂ : Matrix (Fin n₂) (Fin p₂) ℝ) (y₁ : Fin n₁ → Bool) (y₂ : Fin n₂ → Bool) (β₁ : Fin p₁ → ℝ)
    (β₂ : Fin p₂ → ℝ) :
    bernNormalPosterior la (Fin.append std₁ std₂) (sideBySide X₁ X₂) (Fin.append y₁ y₂)
        (Fin.append β₁ β₂) =
      ((bernNormalPosterior la std₁ X₁ y₁ β₁).prod (bernNormalPosterior la std₂ X₂ y₂ β₂)).map
        fun q => Fin.append q.1 q.2 := by
  have h1 : (fun _ : Fin (n₁ + n₂) => (1 : ℝ)) = Fin.append (fun _ : Fin n₁ => 1) fun _ : Fin n₂ => 1 := by
    funext i
    refine Fin.addCases (fun i => ?_) (fun i => ?_) i
    · simp only [Fin.append_left]
    · simp only [Fin.append_right]
  rw [bernNormalPosterior_eq, bernNormalPosterior_eq, bernNormalPosterior_eq,
    append_map (fun s : ℝ => s⁻¹), append_map (fun y : Bool => boolVal y - 0.5), h1]
  exact pgStep_sideBySide hla (fun j => inv_pos.2 (hs₁ j)) (fun j => inv_pos.2 (hs₂ j)) X₁ X₂
    (fun _ => one_pos) (fun _ => one_pos) _ _ β₁ β₂

example (X₁ : Matrix (Fin 3) (Fin 2) ℝ) (X₂ : Matrix (Fin 2) (Fin 1) ℝ) (β₁ : Fin 2 → ℝ) (β₂ : Fin 1 → ℝ) :
    bernNormalPosterior stdLinAlg (Fin.append ![1, 2] ![3]) (sideBySide X₁ X₂)
        (Fin.append ![true, false, true] ![false, false]) (Fin.append β₁ β₂) =
      ((bernNormalPosterior stdLinAlg ![1, 2] X₁ ![true, false, true] β₁).prod
        (bernNormalPosterior stdLinAlg ![3] X₂ ![false, false] β₂)).map fun q => Fin.append q.1 q.2 :=
  C83_bern_separate stdLinAlg_sound (fun j => by fin_cases j <;> norm_num)
    (fun j => by fin_cases j; norm_num) X₁ X₂ _ _ β₁ β₂

end

end Verif
