import Verif.CRT.Model

/-!
# C72: what the dispersion step owes to the order of the observations
-/

open MeasureTheory ProbabilityTheory Matrix
open scoped ENNReal

namespace Verif.CRT

theorem crtTotal_cons (y : ℤ) (ys : List ℤ) (h : ℝ) :
    crtTotal (y :: ys) h = (singleCRT y h).bind fun l => (crtTotal ys h).map fun t => l + t := by
  simp only [crtTotal, sampleCRT, crtScan, PMF.map_bind, PMF.pure_map, PMF.map_comp,
    Function.comp_def, List.sum_cons]
  rfl

theorem crtTotal_perm {ys ys' : List ℤ} (hp : ys.Perm ys') (h : ℝ) :
    crtTotal ys h = crtTotal ys' h := by
  induction hp with
  | nil => rfl
  | cons y _ ih => rw [crtTotal_cons, crtTotal_cons, ih]
  | swap y z ys =>
    rw [crtTotal_cons, crtTotal_cons]
    simp only [crtTotal_cons, PMF.map_bind, PMF.map_comp, Function.comp_def]
    rw [PMF.bind_comm]
    simp only [add_left_comm]
  | trans _ _ ih1 ih2 => rw [ih1, ih2]

/-- **C72, the dispersion step.** The order in which counts and success probabilities are listed has
no effect on the new dispersion, whatever the current one. -/
theorem C72_dispersion_observations {ys ys' : List ℤ} {ps ps' : List ℝ} (hy : ys.Perm ys')
    (hp : ps.Perm ps') (a b h : ℝ) :
    dispersionPosterior ps a b ys h = dispersionPosterior ps' a b ys' h := by
  rw [dispersionPosterior, dispersionPosterior, crtTotal_perm hy,
    (hp.map fun q => Real.log (1 - q)).sum_eq]

/-- **C72, the dispersion step of a regression.** As `construct_sampler` uses it: reordering the
observations of the regression (`σ`) has no effect. -/
theorem C72_finder_dispersion_observations {n q : ℕ} (X : Matrix (Fin n) (Fin q) ℝ)
    (beta : Fin q → ℝ) (a b : ℝ) (y : Fin n → ℤ) (h : ℝ) (σ : Equiv.Perm (Fin n)) :
    finderDispersion (of fun i j => X (σ i) j) beta a b (List.ofFn fun i => y (σ i)) h =
      finderDispersion X beta a b (List.ofFn y) h := by
  refine C72_dispersion_observations (σ.ofFn_comp_perm y) ?_ a b h
  exact σ.ofFn_comp_perm fun i => sigmoid (((-X) *ᵥ beta) i)

example : dispersionPosterior [0.5, 0.1] 2 3 [4, 0, 7] 5 =
    dispersionPosterior [0.1, 0.5] 2 3 [7, 4, 0] 5 :=
  C72_dispersion_observations (by decide) (List.Perm.swap _ _ _) 2 3 5

example (X : Matrix (Fin 3) (Fin 2) ℝ) (beta : Fin 2 → ℝ) :
    finderDispersion (of fun i j => X (Equiv.swap 0 2 i) j) beta 2 3
        (List.ofFn fun i => (![4, 0, 7] : Fin 3 → ℤ) (Equiv.swap 0 2 i)) 5 =
      finderDispersion X beta 2 3 (List.ofFn ![4, 0, 7]) 5 :=
  C72_finder_dispersion_observations X beta 2 3 _ 5 _

end Verif.CRT
