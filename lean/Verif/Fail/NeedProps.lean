import Verif.Fail.Props

/-!
# C90: which arguments of the dispersion step make every run fail
-/

open MeasureTheory ProbabilityTheory
open scoped ENNReal

namespace Verif.Fail

open Prog

theorem bind_bind {α β γ : Type} (p : Prog α) (f : α → Prog β) (g : β → Prog γ) :
    (p.bind f).bind g = p.bind fun a => (f a).bind g := by
  induction p with
  | ret a => rfl
  | need P p ih => simp only [Prog.bind, ih]
  | draw d k ih => simp only [Prog.bind, ih]

theorem failure_crt_bind {α : Type} (h : ℝ) : ∀ (ys : List ℤ) (f : List ℤ → Prog α),
    (∀ ls, failure (f ls) = 1) → failure ((crtProg h ys).bind f) = 1
  | [], f, hf => hf []
  | y :: ys, f, hf => by
    rw [crtProg, Prog.bind, Prog.bind, Prog.failure]
    split_ifs with h1
    · rw [Prog.failure]
      split_ifs with h2
      · have : ∀ bs, failure (((crtProg h ys).bind fun ls => .ret (CRT.crtValue y bs :: ls)).bind f) = 1 := by
          intro bs
          rw [bind_bind]
          exact failure_crt_bind h ys _ fun ls => hf _
        simp only [this, lintegral_one]
        exact measure_univ (μ := (CRT.bernVec (CRT.crtProbs y h)).toMeasure)
      · rfl
    · rfl

/-- **C90.** The conditions of the dispersion step are needed as well: whatever the counts and the current
dispersion, a run fails for certain in its first call when a success probability is one or larger, when the
prior scale is zero, or when the rate of the gamma draw is not positive, as with a negative scale close to zero. -/
theorem C90_dispersion_needed (k : ℕ) (ps : List ℝ) (a b : ℝ) (y : List ℤ) (h : ℝ)
    (hbad : (∃ q ∈ ps, 1 ≤ q) ∨ b = 0 ∨ b⁻¹ ≤ (ps.map fun q => Real.log (1 - q)).sum) :
    failure (run (dispersionProg ps a b y) (k + 1) h) = 1 := by
  rw [run, dispersionProg, bind_bind]
  refine failure_crt_bind h y _ fun ls => ?_
  rw [Prog.bind, Prog.failure]
  split_ifs with h1
  · rw [Prog.bind, Prog.failure]
    split_ifs with h2
    · rw [Prog.bind, Prog.failure, if_neg]
      rintro ⟨-, hr⟩
      rcases hbad with ⟨q, hq, hq1⟩ | hb | hb
      · linarith [h2 q hq]
      · exact h1 hb
      · linarith
    · rfl
  · rfl

/-- A success probability of one, and a probability in per cent. -/
example : failure (run (dispersionProg [1 / 2, 1] 1 2 [3, 4]) 5 1) = 1 ∧
    failure (run (dispersionProg [50] 1 2 [3]) 5 1) = 1 :=
  ⟨C90_dispersion_needed 4 _ _ _ _ _ (Or.inl ⟨1, by simp, le_rfl⟩),
    C90_dispersion_needed 4 _ _ _ _ _ (Or.inl ⟨50, by simp, by norm_num⟩)⟩

theorem failure_regression {α : Type} {p n : ℕ} (la : LinAlg) (b c : Fin n → ℝ) (t : (Fin n → ℝ) → Fin n → ℝ)
    {std : Fin p → ℝ} (X : Matrix (Fin n) (Fin p) ℝ) (f : (Fin p → ℝ) → Prog α)
    (hbad : (∃ j, std j = 0) ∨ n < p ∧ ∃ j, std j < 0) :
    failure ((Prog.draw (pgGen b c) fun w => .need (∀ i, w i ≠ 0) <| .need (∀ j, std j ≠ 0) <|
      regressionProg la w (fun j => (std j)⁻¹) X (t w)).bind f) = 1 := by
  rw [Prog.bind, Prog.failure]
  split_ifs with h1
  · have key : ∀ w : Fin n → ℝ, failure ((Prog.need (∀ i, w i ≠ 0) <| .need (∀ j, std j ≠ 0) <|
        regressionProg la w (fun j => (std j)⁻¹) X (t w)).bind f) = 1 := by
      intro w
      rw [Prog.bind, Prog.failure]
      split_ifs with h2
      · rw [Prog.bind, Prog.failure]
        split_ifs with h3
        · rcases hbad with ⟨j, hj⟩ | ⟨hnp, j, hj⟩
          · exact absurd hj (h3 j)
          · rw [regressionProg, if_pos hnp, congProg, Prog.bind, Prog.failure]
            split_ifs with h4
            · rw [Prog.bind, Prog.failure, if_pos (by trivial)]
              have : ∀ z, failure ((Prog.need (∀ i, 0 ≤ 1 / (std i)⁻¹) <| .need (∀ i, 0 ≤ w i) <|
                  .need (∀ i, √(w i) ≠ 0) <| .need (∀ i, w i ≠ 0) <|
                  .need (setDiagAdd (X * (Matrix.of fun i j => 1 / (std i)⁻¹ * X j i)) fun i => 1 / w i).PosDef <|
                  .ret (cong2017 la (fun j => (std j)⁻¹) w X (t w) z)).bind f) = 1 := by
                intro z
                rw [Prog.bind, Prog.failure, if_neg]
                intro hc
                have := hc j
                rw [one_div, inv_inv] at this
                linarith
              simp only [this, lintegral_one]
              exact measure_univ (μ := iidNormal (Fin (p + n)))
            · rfl
        · rfl
      · rfl
    simp only [key, lintegral_one]
    have : ∀ i, IsProbabilityMeasure (pg (b i) (c i)) := fun i => isProbabilityMeasure_pg (h1 i) _
    exact measure_univ (μ := Measure.pi fun i => pg (b i) (c i))
  · rfl

/-- **C90.** Prior standard deviations that are not positive: every run for the coefficients of a
negative-binomial or Bernoulli regression fails for certain in its first call when one of them is zero, and,
with more coefficients than observations, when one of them is negative. -/
theorem C90_scales_needed {p n : ℕ} (la : LinAlg) (k : ℕ) {std : Fin p → ℝ} (X : Matrix (Fin n) (Fin p) ℝ)
    (beta : Fin p → ℝ) (hbad : (∃ j, std j = 0) ∨ n < p ∧ ∃ j, std j < 0) :
    (∀ (h : Fin n → ℝ) (y : Fin n → ℕ), failure (run (nbProg la std X h y) (k + 1) beta) = 1) ∧
      ∀ y : Fin n → Bool, failure (run (bernProg la std X y) (k + 1) beta) = 1 :=
  ⟨fun h y => failure_regression la _ _ (fun w i => 0.5 * ((y i : ℝ) - h i) / w i) X _ hbad,
    fun y => failure_regression la _ _ (fun w i => (boolVal (y i) - 0.5) / w i) X _ hbad⟩

/-- One observation and two coefficients, the second with a negative standard deviation. -/
example : failure (run (bernProg stdLinAlg ![1, -1] !![1, 2] ![true]) 3 ![0, 0]) = 1 :=
  (C90_scales_needed stdLinAlg 2 _ _ (Or.inr ⟨by norm_num, 1, by norm_num⟩)).2 _

end Verif.Fail
