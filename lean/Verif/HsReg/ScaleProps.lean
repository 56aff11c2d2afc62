import Verif.HsReg.NearProps
import Verif.PG.ScaleProps

/-!
# C101: rounding old shrinkage parameters that are read as prior scales
-/

open MeasureTheory ProbabilityTheory Matrix
open scoped ENNReal

namespace Verif.HsReg

open Horseshoe (RelClose)

variable {p n : ℕ}

theorem near_readK_old {la : LinAlg} (hla : la.Sound) {X : Matrix (Fin n) (Fin p) ℝ} {b κ : Fin n → ℝ}
    (hb : ∀ i, 0 < b i) {η : ℝ} (hη : 0 ≤ η) (conv : Horseshoe.ExpArg)
    {q q' : (Fin p → ℝ) × ((Fin p → ℝ) × ℝ)}
    (hq : Horseshoe.AllPos q.2) (hq' : Horseshoe.AllPos q'.2) (hβ : ∀ j, RelClose η |q.1 j| |q'.1 j|)
    (hl : ∀ j, RelClose η (q.2.1 j) (q'.2.1 j)) (ht : RelClose η q.2.2 q'.2.2) :
    Near (ENNReal.ofReal ((15 * p + 5) * η + ∑ i, b i * |(X *ᵥ (q.1 - q'.1)) i| / 2 +
        η * ∑ j, (∑ i, X i j * κ i) ^ 2 * (q.2.1 j * q.2.2 + q'.2.1 j * q'.2.2)))
      (readK conv ⟨false, false⟩ (coefK X b κ) q) (readK conv ⟨false, false⟩ (coefK X b κ) q') := by
  have hm := measurable_readInner ⟨false, false⟩ (measurable_coefK X b κ) (prob_coefK X b κ)
  have hm1 : ∀ q, Measurable fun s => readInner ⟨false, false⟩ (coefK X b κ) (q, s) := fun q =>
    hm.comp measurable_prodMk_left
  have hd : ∀ {s : (Fin p → ℝ) × ℝ}, Horseshoe.AllPos s → ∀ j, 0 < (s.1 j * s.2)⁻¹ := fun hs j =>
    inv_pos.2 (mul_pos (hs.1 j) hs.2)
  have hrel : ∀ j, RelClose (η + η) (q.2.1 j * q.2.2)⁻¹ (q'.2.1 j * q'.2.2)⁻¹ := fun j =>
    ((hl j).mul ht (hq.1 j).le (hq'.1 j).le hq.2.le hq'.2.le).inv (mul_pos (hq.1 j) hq.2)
      (mul_pos (hq'.1 j) hq'.2)
  have hS : 0 ≤ ∑ j, (∑ i, X i j * κ i) ^ 2 * (q.2.1 j * q.2.2 + q'.2.1 j * q'.2.2) :=
    Finset.sum_nonneg fun j _ => mul_nonneg (sq_nonneg _) (add_nonneg (mul_pos (hq.1 j) hq.2).le
      (mul_pos (hq'.1 j) hq'.2).le)
  have hB : 0 ≤ ∑ i, b i * |(X *ᵥ (q.1 - q'.1)) i| / 2 :=
    Finset.sum_nonneg fun i _ => by have := (hb i).le; positivity
  have hcoef : Near (ENNReal.ofReal (∑ i, b i * |(X *ᵥ (q.1 - q'.1)) i| / 2) + ENNReal.ofReal ((η + η) *
        (p + ∑ j, (∑ i, X i j * κ i) ^ 2 * (q.2.1 j * q.2.2 + q'.2.1 j * q'.2.2) / 2)))
      (coefK X b κ (q.1, q.2)) (coefK X b κ (q'.1, q'.2)) := by
    rw [← coefK_eq hla X hb κ hq, ← coefK_eq hla X hb κ hq']
    refine (near_pgStep hla (hd hq) X κ hb q.1 q'.1).trans ?_
    have := near_pgStep_scales hla (add_nonneg hη hη) (hd hq) (hd hq') (fun j => (hrel j).1)
      (fun j => (hrel j).2) X κ hb q'.1
    simp only [inv_inv] at this
    exact this
  rw [readK, readK]
  refine (Near.trans ((near_shrinkK hη conv hq hq' hβ hl ht).bind (hm1 q) fun s => ?_)
    (e' := ENNReal.ofReal (∑ i, b i * |(X *ᵥ (q.1 - q'.1)) i| / 2) + ENNReal.ofReal ((η + η) *
        (p + ∑ j, (∑ i, X i j * κ i) ^ 2 * (q.2.1 j * q.2.2 + q'.2.1 j * q'.2.2) / 2))) ?_).mono ?_
  · have := prob_coefK X b κ (q.1, Reads.read ⟨false, false⟩ q.2 s)
    rw [readInner, Measure.map_apply (by fun_prop) MeasurableSet.univ, Set.preimage_univ, measure_univ]
  · have := prob_shrinkK conv q'
    refine Near.bind_right (hm1 q) (hm1 q') (ae_of_all _ fun s => ?_)
    rw [readInner, readInner]
    dsimp only
    refine Near.map ?_ (by fun_prop)
    exact hcoef
  · have hT : ∑ j, (∑ i, X i j * κ i) ^ 2 * (q.2.1 j * q.2.2 + q'.2.1 j * q'.2.2) / 2 =
        (∑ j, (∑ i, X i j * κ i) ^ 2 * (q.2.1 j * q.2.2 + q'.2.1 j * q'.2.2)) / 2 := (Finset.sum_div _ _ _).symm
    rw [hT]
    rw [← ENNReal.ofReal_add hB (by positivity), ← ENNReal.ofReal_add (by positivity) (by positivity)]
    refine ENNReal.ofReal_le_ofReal (le_of_eq ?_)
    ring

/-- **C101, negative-binomial regression with a horseshoe prior, old shrinkage parameters read.** Where the
call reads both old shrinkage parameters for the prior of the coefficients, these may be off by relative
errors of at most `η`, too: the bound then has the additional term
`2 p η + η ∑_j (∑_i x_ij (y_i - h_i) / 2)² (λ_j τ + λ'_j τ')`. -/
theorem C101_nbinom_horseshoe_old {la : LinAlg} (hla : la.Sound) (X : Matrix (Fin n) (Fin p) ℝ)
    {h : Fin n → ℝ} (hh : ∀ i, 0 < h i) (y : Fin n → ℕ) {η : ℝ} (hη : 0 ≤ η) (conv : Horseshoe.ExpArg)
    {q q' : (Fin p → ℝ) × ((Fin p → ℝ) × ℝ)}
    (hq : Horseshoe.AllPos q.2) (hq' : Horseshoe.AllPos q'.2) (hβ : ∀ j, RelClose η |q.1 j| |q'.1 j|)
    (hl : ∀ j, RelClose η (q.2.1 j) (q'.2.1 j)) (ht : RelClose η q.2.2 q'.2.2) (k : ℕ)
    {A : Set ((Fin p → ℝ) × ((Fin p → ℝ) × ℝ))} (hA : MeasurableSet A) :
    |(calls (nbSweep conv ⟨false, false⟩ la X h y) (k + 1) q).real A -
      (calls (nbSweep conv ⟨false, false⟩ la X h y) (k + 1) q').real A| ≤
      (15 * p + 5) * η + ∑ i, ((y i : ℝ) + h i) * |(X *ᵥ (q.1 - q'.1)) i| / 2 +
        η * ∑ j, (∑ i, X i j * (0.5 * ((y i : ℝ) - h i))) ^ 2 * (q.2.1 j * q.2.2 + q'.2.1 j * q'.2.2) := by
  have hb : ∀ i, 0 < (y i : ℝ) + h i := fun i => by have := hh i; positivity
  have r : Runs {q | Horseshoe.AllPos q.2} (nbSweep conv ⟨false, false⟩ la X h y) _ :=
    sweep_runs hla (nbForm X hh y).some conv ⟨false, false⟩
  rw [r.calls_eq hq, r.calls_eq hq']
  refine near_real_calls (add_nonneg (add_nonneg (by positivity)
    (Finset.sum_nonneg fun i _ => by have := (hb i).le; positivity)) (mul_nonneg hη
    (Finset.sum_nonneg fun j _ => mul_nonneg (sq_nonneg _) (add_nonneg (mul_pos (hq.1 j) hq.2).le
      (mul_pos (hq'.1 j) hq'.2).le)))) r.meas r.prob ?_ k hA
  exact near_readK_old hla hb hη conv hq hq' hβ hl ht

/-- **C101, logistic regression with a horseshoe prior, old shrinkage parameters read.** The same with
`y_i - 1/2` for `(y_i - h_i) / 2`. -/
theorem C101_bern_horseshoe_old {la : LinAlg} (hla : la.Sound) (X : Matrix (Fin n) (Fin p) ℝ)
    (y : Fin n → Bool) {η : ℝ} (hη : 0 ≤ η) (conv : Horseshoe.ExpArg)
    {q q' : (Fin p → ℝ) × ((Fin p → ℝ) × ℝ)}
    (hq : Horseshoe.AllPos q.2) (hq' : Horseshoe.AllPos q'.2) (hβ : ∀ j, RelClose η |q.1 j| |q'.1 j|)
    (hl : ∀ j, RelClose η (q.2.1 j) (q'.2.1 j)) (ht : RelClose η q.2.2 q'.2.2) (k : ℕ)
    {A : Set ((Fin p → ℝ) × ((Fin p → ℝ) × ℝ))} (hA : MeasurableSet A) :
    |(calls (bernSweep conv ⟨false, false⟩ la X y) (k + 1) q).real A -
      (calls (bernSweep conv ⟨false, false⟩ la X y) (k + 1) q').real A| ≤
      (15 * p + 5) * η + ∑ i, |(X *ᵥ (q.1 - q'.1)) i| / 2 +
        η * ∑ j, (∑ i, X i j * (boolVal (y i) - 0.5)) ^ 2 * (q.2.1 j * q.2.2 + q'.2.1 j * q'.2.2) := by
  have r : Runs {q | Horseshoe.AllPos q.2} (bernSweep conv ⟨false, false⟩ la X y) _ :=
    sweep_runs hla (bernForm X y).some conv ⟨false, false⟩
  rw [r.calls_eq hq, r.calls_eq hq']
  refine near_real_calls (add_nonneg (add_nonneg (by positivity)
    (Finset.sum_nonneg fun i _ => by positivity)) (mul_nonneg hη
    (Finset.sum_nonneg fun j _ => mul_nonneg (sq_nonneg _) (add_nonneg (mul_pos (hq.1 j) hq.2).le
      (mul_pos (hq'.1 j) hq'.2).le)))) r.meas r.prob ?_ k hA
  have := near_readK_old hla (X := X) (b := fun _ => 1) (κ := fun i => boolVal (y i) - 0.5) (fun _ => one_pos)
    hη conv hq hq' hβ hl ht
  simpa only [one_mul] using this

/-- A local parameter that is off by one in a thousand. -/
example (k : ℕ) {A : Set ((Fin 1 → ℝ) × ((Fin 1 → ℝ) × ℝ))} (hA : MeasurableSet A) :
    |(calls (bernSweep .scale ⟨false, false⟩ stdLinAlg (fun _ _ => 1) ![true, true, false]) (k + 1)
        (fun _ => 1, fun _ => 1, 3)).real A -
      (calls (bernSweep .scale ⟨false, false⟩ stdLinAlg (fun _ _ => 1) ![true, true, false]) (k + 1)
        (fun _ => 1, fun _ => 1.001, 3)).real A| ≤ 0.022 := by
  have hc : RelClose 0.001 (1 : ℝ) 1.001 := by
    constructor
    · have := Real.one_le_exp (show (0 : ℝ) ≤ 0.001 by norm_num)
      nlinarith
    · have := Real.add_one_le_exp (0.001 : ℝ)
      linarith
  refine (C101_bern_horseshoe_old stdLinAlg_sound (fun _ _ => 1) ![true, true, false] (η := 0.001) (by norm_num)
    .scale (q := (fun _ => 1, fun _ => 1, 3)) (q' := (fun _ => 1, fun _ => 1.001, 3))
    ⟨fun _ => one_pos, three_pos⟩ ⟨fun _ => by norm_num, three_pos⟩
    (fun _ => Horseshoe.relClose_self (by norm_num) (abs_nonneg _)) (fun _ => hc)
    (Horseshoe.relClose_self (by norm_num) three_pos.le) k hA).trans ?_
  simp only [Fin.sum_univ_three, boolVal, mulVec, dotProduct, show ![true, true, false] (2 : Fin 3) = false from rfl]
  norm_num

end Verif.HsReg
