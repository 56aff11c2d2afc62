import Verif.Horseshoe.NearProps
import Verif.Iter.Joint
import Verif.PG.NearProps

/-!
# C101: rounding the current values hardly changes the next draws (regressions with a horseshoe prior)
-/

open MeasureTheory ProbabilityTheory Matrix
open scoped ENNReal

namespace Verif.HsReg

open Horseshoe (RelClose)

variable {p n : ℕ}

theorem near_shrinkK {η : ℝ} (hη : 0 ≤ η) (conv : Horseshoe.ExpArg) {q q' : (Fin p → ℝ) × ((Fin p → ℝ) × ℝ)}
    (hq : Horseshoe.AllPos q.2) (hq' : Horseshoe.AllPos q'.2) (hβ : ∀ j, RelClose η |q.1 j| |q'.1 j|)
    (hl : ∀ j, RelClose η (q.2.1 j) (q'.2.1 j)) (ht : RelClose η q.2.2 q'.2.2) :
    Near (ENNReal.ofReal ((13 * p + 5) * η)) (shrinkK conv q) (shrinkK conv q') := by
  have hsq : ∀ {x x' : ℝ}, 0 < x → 0 < x' → RelClose η x x' → RelClose (2 * η) (x ^ 2) (x' ^ 2) :=
    fun hx hx' h => Horseshoe.RelClose.sq (by rwa [abs_of_pos hx, abs_of_pos hx'])
  rw [show q = (q.1, q.2) from rfl, show q' = (q'.1, q'.2) from rfl, ← shrinkK_eq conv q.1 hq,
    ← shrinkK_eq conv q'.1 hq', Horseshoe.horseshoeStep, Horseshoe.horseshoeStep, Horseshoe.horseshoePosterior,
    Horseshoe.horseshoePosterior]
  refine (Horseshoe.near_array (η := 2 * η) (by positivity) conv p one_pos one_pos
    (fun j => pow_pos (hq.1 j) 2) (fun j => pow_pos (hq'.1 j) 2) (pow_pos hq.2 2) (pow_pos hq'.2 2)
    (fun j => (hβ j).mono (abs_nonneg _) (abs_nonneg _) (by linarith))
    (Horseshoe.relClose_self (by positivity) zero_le_one) (fun j => hsq (hq.1 j) (hq'.1 j) (hl j))
    (hsq hq.2 hq'.2 ht)).mono (ENNReal.ofReal_le_ofReal (le_of_eq ?_))
  ring

theorem near_readK {la : LinAlg} (hla : la.Sound) {X : Matrix (Fin n) (Fin p) ℝ} {b κ : Fin n → ℝ}
    (hb : ∀ i, 0 < b i) {η : ℝ} (hη : 0 ≤ η) (conv : Horseshoe.ExpArg) (rd : Reads)
    {q q' : (Fin p → ℝ) × ((Fin p → ℝ) × ℝ)}
    (hq : Horseshoe.AllPos q.2) (hq' : Horseshoe.AllPos q'.2) (hβ : ∀ j, RelClose η |q.1 j| |q'.1 j|)
    (hl : ∀ j, RelClose η (q.2.1 j) (q'.2.1 j)) (ht : RelClose η q.2.2 q'.2.2)
    (hrl : rd.newLambda = false → q.2.1 = q'.2.1) (hrt : rd.newTau = false → q.2.2 = q'.2.2) :
    Near (ENNReal.ofReal ((13 * p + 5) * η + ∑ i, b i * |(X *ᵥ (q.1 - q'.1)) i| / 2))
      (readK conv rd (coefK X b κ) q) (readK conv rd (coefK X b κ) q') := by
  have hm := measurable_readInner rd (measurable_coefK X b κ) (prob_coefK X b κ)
  have hm1 : ∀ q, Measurable fun s => readInner rd (coefK X b κ) (q, s) := fun q =>
    hm.comp measurable_prodMk_left
  have hread : ∀ s, rd.read q'.2 s = rd.read q.2 s := fun s => by
    unfold Reads.read
    refine Prod.ext ?_ ?_ <;> dsimp only
    · split_ifs with h
      · rfl
      · exact (hrl (by simpa using h)).symm
    · split_ifs with h
      · rfl
      · exact (hrt (by simpa using h)).symm
  rw [readK, readK, ENNReal.ofReal_add (by positivity)
    (Finset.sum_nonneg fun i _ => by have := (hb i).le; positivity)]
  refine Near.trans ((near_shrinkK hη conv hq hq' hβ hl ht).bind (hm1 q) fun s => ?_) ?_
  · have := prob_coefK X b κ (q.1, rd.read q.2 s)
    rw [readInner, Measure.map_apply (by fun_prop) MeasurableSet.univ, Set.preimage_univ, measure_univ]
  · have := prob_shrinkK conv q'
    refine Near.bind_right (hm1 q) (hm1 q') ?_
    filter_upwards [Shared.ae_shrinkK_pos conv q'] with s hs
    rw [readInner, readInner]
    dsimp only
    refine Near.map ?_ (by fun_prop)
    have hpos := read_pos rd hq hs
    rw [hread, ← coefK_eq hla X hb κ hpos, ← coefK_eq hla X hb κ hpos]
    exact near_pgStep hla (fun j => inv_pos.2 (mul_pos (hpos.1 j) hpos.2)) X κ hb q.1 q'.1

/-- **C101, negative-binomial regression with a horseshoe prior.** If the current coefficients and
shrinkage parameters are changed by relative errors of at most `η`, the probabilities of every event differ
after every number of calls by at most `(13 p + 5) η + ∑ (y_i + h_i) |x_i (β - β')| / 2`.  Missing: where
the call reads the *old* local (global) parameters for the prior of the coefficients, these have to be
the same at both starts. -/
theorem C101_nbinom_horseshoe_partial {la : LinAlg} (hla : la.Sound) (X : Matrix (Fin n) (Fin p) ℝ)
    {h : Fin n → ℝ} (hh : ∀ i, 0 < h i) (y : Fin n → ℕ) {η : ℝ} (hη : 0 ≤ η) (conv : Horseshoe.ExpArg)
    (rd : Reads) {q q' : (Fin p → ℝ) × ((Fin p → ℝ) × ℝ)}
    (hq : Horseshoe.AllPos q.2) (hq' : Horseshoe.AllPos q'.2) (hβ : ∀ j, RelClose η |q.1 j| |q'.1 j|)
    (hl : ∀ j, RelClose η (q.2.1 j) (q'.2.1 j)) (ht : RelClose η q.2.2 q'.2.2)
    (hrl : rd.newLambda = false → q.2.1 = q'.2.1) (hrt : rd.newTau = false → q.2.2 = q'.2.2) (k : ℕ)
    {A : Set ((Fin p → ℝ) × ((Fin p → ℝ) × ℝ))} (hA : MeasurableSet A) :
    |(calls (nbSweep conv rd la X h y) (k + 1) q).real A - (calls (nbSweep conv rd la X h y) (k + 1) q').real A| ≤
      (13 * p + 5) * η + ∑ i, ((y i : ℝ) + h i) * |(X *ᵥ (q.1 - q'.1)) i| / 2 := by
  have hb : ∀ i, 0 < (y i : ℝ) + h i := fun i => by have := hh i; positivity
  have r : Runs {q | Horseshoe.AllPos q.2} (nbSweep conv rd la X h y) _ :=
    sweep_runs hla (nbForm X hh y).some conv rd
  rw [r.calls_eq hq, r.calls_eq hq']
  exact near_real_calls (add_nonneg (by positivity)
    (Finset.sum_nonneg fun i _ => by have := (hb i).le; positivity)) r.meas r.prob
    (near_readK hla hb hη conv rd hq hq' hβ hl ht hrl hrt) k hA

/-- **C101, logistic regression with a horseshoe prior.** The same with `∑ |x_i (β - β')| / 2`. -/
theorem C101_bern_horseshoe_partial {la : LinAlg} (hla : la.Sound) (X : Matrix (Fin n) (Fin p) ℝ)
    (y : Fin n → Bool) {η : ℝ} (hη : 0 ≤ η) (conv : Horseshoe.ExpArg)
    (rd : Reads) {q q' : (Fin p → ℝ) × ((Fin p → ℝ) × ℝ)}
    (hq : Horseshoe.AllPos q.2) (hq' : Horseshoe.AllPos q'.2) (hβ : ∀ j, RelClose η |q.1 j| |q'.1 j|)
    (hl : ∀ j, RelClose η (q.2.1 j) (q'.2.1 j)) (ht : RelClose η q.2.2 q'.2.2)
    (hrl : rd.newLambda = false → q.2.1 = q'.2.1) (hrt : rd.newTau = false → q.2.2 = q'.2.2) (k : ℕ)
    {A : Set ((Fin p → ℝ) × ((Fin p → ℝ) × ℝ))} (hA : MeasurableSet A) :
    |(calls (bernSweep conv rd la X y) (k + 1) q).real A - (calls (bernSweep conv rd la X y) (k + 1) q').real A| ≤
      (13 * p + 5) * η + ∑ i, |(X *ᵥ (q.1 - q'.1)) i| / 2 := by
  have r : Runs {q | Horseshoe.AllPos q.2} (bernSweep conv rd la X y) _ :=
    sweep_runs hla (bernForm X y).some conv rd
  rw [r.calls_eq hq, r.calls_eq hq']
  refine near_real_calls (add_nonneg (by positivity)
    (Finset.sum_nonneg fun i _ => by positivity)) r.meas r.prob ?_ k hA
  have := near_readK hla (X := X) (b := fun _ => 1) (κ := fun i => boolVal (y i) - 0.5) (fun _ => one_pos)
    hη conv rd hq hq' hβ hl ht hrl hrt
  simpa only [one_mul] using this

/-- One coefficient that is off by one in a thousand and the old parameters read. -/
example (y : Fin 4 → Bool) (k : ℕ) {A : Set ((Fin 1 → ℝ) × ((Fin 1 → ℝ) × ℝ))} (hA : MeasurableSet A) :
    |(calls (bernSweep .scale ⟨false, false⟩ stdLinAlg (fun _ _ => 1) y) (k + 1) (fun _ => 1, fun _ => 2, 3)).real A -
      (calls (bernSweep .scale ⟨false, false⟩ stdLinAlg (fun _ _ => 1) y) (k + 1)
        (fun _ => 1.001, fun _ => 2, 3)).real A| ≤ 0.02 := by
  have hc : RelClose 0.001 (1 : ℝ) 1.001 := by
    constructor
    · have := Real.one_le_exp (show (0 : ℝ) ≤ 0.001 by norm_num)
      nlinarith
    · have := Real.add_one_le_exp (0.001 : ℝ)
      linarith
  refine (C101_bern_horseshoe_partial stdLinAlg_sound (fun _ _ => 1) y (η := 0.001) (by norm_num) .scale
    ⟨false, false⟩ (q := (fun _ => 1, fun _ => 2, 3)) (q' := (fun _ => 1.001, fun _ => 2, 3))
    ⟨fun _ => two_pos, three_pos⟩ ⟨fun _ => two_pos, three_pos⟩ (fun _ => ?_)
    (fun _ => Horseshoe.relClose_self (by norm_num) zero_le_two) (Horseshoe.relClose_self (by norm_num)
      three_pos.le) (fun _ => rfl) (fun _ => rfl) k hA).trans ?_
  · rw [abs_of_pos one_pos, abs_of_pos (by norm_num)]
    exact hc
  · simp [mulVec, dotProduct]
    norm_num [abs_of_neg]

end Verif.HsReg
