import Verif.Horseshoe.Prec
import Verif.Prob.Near

/-!
# C101: rounding the current values hardly changes the next draws (horseshoe)
-/

open MeasureTheory ProbabilityTheory Filter
open scoped ENNReal Topology

namespace Verif.Horseshoe

variable {p : ℕ}

/-- Spec.  Two numbers that agree up to the factor `e^η`: for small `η`, up to the relative error `η`. -/
def RelClose (η x x' : ℝ) : Prop := x ≤ Real.exp η * x' ∧ x' ≤ Real.exp η * x

theorem RelClose.add {η x x' y y' : ℝ} (h : RelClose η x x') (h' : RelClose η y y') :
    RelClose η (x + y) (x' + y') := ⟨by linarith [h.1, h'.1], by linarith [h.2, h'.2]⟩

theorem RelClose.mono {η η' x x' : ℝ} (h : RelClose η x x') (hx : 0 ≤ x) (hx' : 0 ≤ x') (hle : η ≤ η') :
    RelClose η' x x' :=
  ⟨h.1.trans (by gcongr), h.2.trans (by gcongr)⟩

theorem relClose_self {η x : ℝ} (hη : 0 ≤ η) (hx : 0 ≤ x) : RelClose η x x := by
  have h := Real.one_le_exp hη
  exact ⟨by nlinarith, by nlinarith⟩

theorem RelClose.mul {η η' x x' y y' : ℝ} (h : RelClose η x x') (h' : RelClose η' y y') (hx : 0 ≤ x)
    (hx' : 0 ≤ x') (hy : 0 ≤ y) (hy' : 0 ≤ y') : RelClose (η + η') (x * y) (x' * y') := by
  rw [RelClose, Real.exp_add]
  have e := (Real.exp_pos η).le
  constructor
  · calc x * y ≤ (Real.exp η * x') * (Real.exp η' * y') := mul_le_mul h.1 h'.1 hy (by positivity)
      _ = _ := by ring
  · calc x' * y' ≤ (Real.exp η * x) * (Real.exp η' * y) := mul_le_mul h.2 h'.2 hy' (by positivity)
      _ = _ := by ring

theorem RelClose.inv {η x x' : ℝ} (h : RelClose η x x') (hx : 0 < x) (hx' : 0 < x') :
    RelClose η x⁻¹ x'⁻¹ := by
  have e := Real.exp_pos η
  constructor
  · rw [← div_eq_mul_inv, inv_eq_one_div, div_le_div_iff₀ hx hx']
    linarith [h.2]
  · rw [← div_eq_mul_inv, inv_eq_one_div, div_le_div_iff₀ hx' hx]
    linarith [h.1]

theorem RelClose.sum {η : ℝ} {ι : Type*} {s : Finset ι} {x x' : ι → ℝ} (h : ∀ j ∈ s, RelClose η (x j) (x' j)) :
    RelClose η (∑ j ∈ s, x j) (∑ j ∈ s, x' j) := by
  rw [RelClose, Finset.mul_sum, Finset.mul_sum]
  exact ⟨Finset.sum_le_sum fun j hj => (h j hj).1, Finset.sum_le_sum fun j hj => (h j hj).2⟩

theorem RelClose.near {η a r r' : ℝ} (h : RelClose η r r') (ha : 0 < a) (hr : 0 < r) (hr' : 0 < r') :
    Near (ENNReal.ofReal (a * η)) (gammaMeasure a r) (gammaMeasure a r') := by
  refine (near_gamma ha hr hr').mono (ENNReal.ofReal_le_ofReal ?_)
  have h1 := Real.log_le_log hr h.1
  have h2 := Real.log_le_log hr' h.2
  rw [Real.log_mul (Real.exp_pos _).ne' hr'.ne', Real.log_exp] at h1
  rw [Real.log_mul (Real.exp_pos _).ne' hr.ne', Real.log_exp] at h2
  exact mul_le_mul_of_nonneg_left (abs_le.2 ⟨by linarith, by linarith⟩) ha.le

theorem RelClose.eRate {η x x' : ℝ} (conv : ExpArg) (h : RelClose η x x') (hx : 0 < x) (hx' : 0 < x') :
    RelClose η (eRate conv x) (eRate conv x') := by
  cases conv
  · exact h
  · exact h.inv hx hx'

theorem RelClose.sq {η x x' : ℝ} (h : RelClose η |x| |x'|) : RelClose (2 * η) (x ^ 2) (x' ^ 2) := by
  have := h.mul h (abs_nonneg _) (abs_nonneg _) (abs_nonneg _) (abs_nonneg _)
  rwa [← two_mul, abs_mul_abs_self, abs_mul_abs_self, ← pow_two, ← pow_two] at this

theorem near_lastDraw {η : ℝ} (hη : 0 ≤ η) (rows : ℕ) {β β' : Fin p → ℝ} {s s' : ℝ} (hs : 0 < s) (hs' : 0 < s')
    (hβ : ∀ j, RelClose η |β j| |β' j|) (hss : RelClose η s s') {x : (Fin p → ℝ) × ℝ} (hx : AllPos x)
    {w : Fin p → ℝ} (hw : ∀ j, 0 < w j) :
    Near (ENNReal.ofReal (((rows : ℝ) + 1) / 2 * (3 * η))) (lastDraw rows β s (x, w))
      (lastDraw rows β' s' (x, w)) := by
  have hpos : ∀ (β : Fin p → ℝ) {s : ℝ}, 0 < s → 0 < x.2 + ∑ j, β j ^ 2 * w j / (2 * s) := fun β s hs =>
    add_pos_of_pos_of_nonneg hx.2 (Finset.sum_nonneg fun j _ => by
      have := hw j
      positivity)
  unfold lastDraw
  refine Near.map ?_ (by fun_prop)
  dsimp only
  rw [posOr1_of_pos (hpos β hs), posOr1_of_pos (hpos β' hs')]
  refine RelClose.near ?_ (half_pos' rows) (hpos β hs) (hpos β' hs')
  refine (relClose_self (by positivity) hx.2.le).add (RelClose.sum fun j _ => ?_)
  have hw0 := (hw j).le
  have h1 := (((hβ j).sq.mul (relClose_self le_rfl hw0) (sq_nonneg _) (sq_nonneg _) hw0 hw0)).mul
    (((relClose_self le_rfl zero_le_two).mul hss zero_le_two zero_le_two hs.le hs'.le).inv
      (by positivity) (by positivity)) (by positivity) (by positivity) (by positivity) (by positivity)
  rw [show 2 * η + 0 + (0 + η) = 3 * η by ring] at h1
  simpa only [div_eq_mul_inv] using h1

theorem near_lastTwo {η : ℝ} (hη : 0 ≤ η) (conv : ExpArg) (rows : ℕ) {β β' : Fin p → ℝ} {s s' t t' : ℝ}
    (hs : 0 < s) (hs' : 0 < s') (ht : 0 < t) (ht' : 0 < t') (hβ : ∀ j, RelClose η |β j| |β' j|)
    (hss : RelClose η s s') (htt : RelClose η t t') {x : (Fin p → ℝ) × ℝ} (hx : AllPos x) :
    Near (ENNReal.ofReal (4 * p * η + ((rows : ℝ) + 1) / 2 * (3 * η))) (lastTwo conv rows β s t x)
      (lastTwo conv rows β' s' t' x) := by
  have hpos : ∀ (β : Fin p → ℝ) {s t : ℝ}, 0 < s → 0 < t → ∀ j, 0 < x.1 j + β j ^ 2 / (2 * s * t) :=
    fun β s t hs ht j => add_pos_of_pos_of_nonneg (hx.1 j) (by positivity)
  have hpr : ∀ (β : Fin p → ℝ) (s t : ℝ), IsProbabilityMeasure (Measure.pi fun j =>
      gammaMeasure 1 (posOr1 (eRate conv (x.1 j + β j ^ 2 / (2 * s * t))))) := fun β s t =>
    isProbabilityMeasure_pi_gamma (fun _ => one_pos) fun _ => posOr1_pos _
  unfold lastTwo
  rw [ENNReal.ofReal_add (by positivity) (by positivity)]
  refine Near.trans (Near.bind (κ := fun w => lastDraw rows β s (x, w)) ?_
    (measurable_lastDraw_right rows β s x) fun w => ?_) ?_ (μ' := (Measure.pi fun j =>
      gammaMeasure 1 (posOr1 (eRate conv (x.1 j + β' j ^ 2 / (2 * s' * t'))))).bind fun w =>
        lastDraw rows β s (x, w))
  · have e : ENNReal.ofReal (4 * p * η) = ∑ _j : Fin p, ENNReal.ofReal (1 * (4 * η)) := by
      rw [Finset.sum_const, Finset.card_univ, Fintype.card_fin, nsmul_eq_mul, one_mul,
        ← ENNReal.ofReal_natCast, ← ENNReal.ofReal_mul (by positivity)]
      ring_nf
    rw [e]
    refine Near.pi (fun j => isProbabilityMeasure_gammaMeasure one_pos (posOr1_pos _))
      (fun j => isProbabilityMeasure_gammaMeasure one_pos (posOr1_pos _)) fun j => ?_
    have h1 := hpos β hs ht j
    have h2 := hpos β' hs' ht' j
    rw [posOr1_of_pos (eRate_pos conv h1), posOr1_of_pos (eRate_pos conv h2)]
    refine RelClose.near (RelClose.eRate conv ?_ h1 h2) one_pos (eRate_pos conv h1) (eRate_pos conv h2)
    refine (relClose_self (by positivity) (hx.1 j).le).add ?_
    have h3 := (hβ j).sq.mul ((((relClose_self le_rfl zero_le_two).mul hss zero_le_two zero_le_two hs.le
      hs'.le).mul htt (by positivity) (by positivity) ht.le ht'.le).inv (by positivity) (by positivity))
        (sq_nonneg _) (sq_nonneg _) (by positivity) (by positivity)
    rw [show 2 * η + (0 + η + η) = 4 * η by ring] at h3
    simpa only [div_eq_mul_inv] using h3
  · have := isProbabilityMeasure_lastDraw rows β s (x, w)
    exact measure_univ.le
  · have := hpr β' s' t'
    refine Near.bind_right (measurable_lastDraw_right rows β s x) (measurable_lastDraw_right rows β' s' x) ?_
    filter_upwards [ae_pos_pi_gamma one_pos fun j => posOr1_pos _] with w hw
    exact near_lastDraw hη rows hs hs' hβ hss hx hw

theorem isProbabilityMeasure_array (conv : ExpArg) (rows : ℕ) (β : Fin p → ℝ) {s t : ℝ} {l : Fin p → ℝ}
    (hs : 0 < s) (ht : 0 < t) (hl : ∀ j, 0 < l j) : IsProbabilityMeasure (horseshoeArray conv rows β s l t) := by
  rw [horseshoeArray_eq conv rows β hs hl ht]
  have := isProbabilityMeasure_auxLaw conv hl ht
  have : IsProbabilityMeasure (((Measure.pi fun j => expDraw conv (1 + 1 / l j)).prod
      (expDraw conv (1 + 1 / t))).bind (lastTwo conv rows β s t)) :=
    isProbabilityMeasure_bind (measurable_lastTwo conv rows β s t).aemeasurable
      (ae_of_all _ fun x => isProbabilityMeasure_lastTwo conv rows β s t x)
  exact Measure.isProbabilityMeasure_map measurable_ofPrec.aemeasurable

theorem near_array {η : ℝ} (hη : 0 ≤ η) (conv : ExpArg) (rows : ℕ) {β β' : Fin p → ℝ} {s s' : ℝ}
    (hs : 0 < s) (hs' : 0 < s') {l l' : Fin p → ℝ} (hl : ∀ j, 0 < l j) (hl' : ∀ j, 0 < l' j) {t t' : ℝ}
    (ht : 0 < t) (ht' : 0 < t') (hβ : ∀ j, RelClose η |β j| |β' j|) (hss : RelClose η s s')
    (hll : ∀ j, RelClose η (l j) (l' j)) (htt : RelClose η t t') :
    Near (ENNReal.ofReal ((5 * p + 1 + 3 * ((rows : ℝ) + 1) / 2) * η)) (horseshoeArray conv rows β s l t)
      (horseshoeArray conv rows β' s' l' t') := by
  rw [horseshoeArray_eq conv rows β hs hl ht, horseshoeArray_eq conv rows β' hs' hl' ht']
  refine Near.map ?_ measurable_ofPrec
  have hu : ∀ {u : ℝ}, 0 < u → 0 < 1 + 1 / u := fun h => by positivity
  have hrate : ∀ {u u' : ℝ}, 0 < u → 0 < u' → RelClose η u u' →
      Near (ENNReal.ofReal (1 * η)) (expDraw conv (1 + 1 / u)) (expDraw conv (1 + 1 / u')) := by
    intro u u' h h' hc
    rw [expDraw_eq, expDraw_eq]
    refine RelClose.near (RelClose.eRate conv ?_ (hu h) (hu h')) one_pos (eRate_pos conv (hu h))
      (eRate_pos conv (hu h'))
    refine (relClose_self hη zero_le_one).add ?_
    rw [one_div, one_div]
    exact hc.inv h h'
  have hpe : ∀ {u : ℝ}, 0 < u → IsProbabilityMeasure (expDraw conv (1 + 1 / u)) := fun h => by
    rw [expDraw_eq]
    exact isProbabilityMeasure_gammaMeasure one_pos (eRate_pos conv (hu h))
  rw [show (5 * p + 1 + 3 * ((rows : ℝ) + 1) / 2) * η =
    (p * η + 1 * η) + (4 * p * η + ((rows : ℝ) + 1) / 2 * (3 * η)) by ring,
    ENNReal.ofReal_add (by positivity) (by positivity)]
  refine Near.trans (Near.bind ?_ (measurable_lastTwo conv rows β s t) fun x => ?_) ?_
    (μ' := ((Measure.pi fun j => expDraw conv (1 + 1 / l' j)).prod (expDraw conv (1 + 1 / t'))).bind
      (lastTwo conv rows β s t))
  · have i1 := hpe ht
    have i2 := hpe ht'
    have i3 := fun j => hpe (hl j)
    have i4 := fun j => hpe (hl' j)
    rw [ENNReal.ofReal_add (by positivity) (by positivity)]
    refine Near.prod ?_ (hrate ht ht' htt)
    have e : ENNReal.ofReal (p * η) = ∑ _j : Fin p, ENNReal.ofReal (1 * η) := by
      rw [Finset.sum_const, Finset.card_univ, Fintype.card_fin, nsmul_eq_mul, one_mul,
        ← ENNReal.ofReal_natCast, ← ENNReal.ofReal_mul (by positivity)]
    rw [e]
    exact Near.pi i3 i4 fun j => hrate (hl j) (hl' j) (hll j)
  · have := isProbabilityMeasure_lastTwo conv rows β s t x
    exact measure_univ.le
  · have := isProbabilityMeasure_auxLaw conv hl' ht'
    refine Near.bind_right (measurable_lastTwo conv rows β s t) (measurable_lastTwo conv rows β' s' t') ?_
    filter_upwards [ae_pos_auxLaw conv hl' ht'] with x hx
    exact near_lastTwo hη conv rows hs hs' ht ht' hβ hss htt hx

/-- **C101, horseshoe.** If the coefficients, the noise variance and the current shrinkage parameters are
changed by relative errors of at most `η` (agree up to a factor `e^η`), then the probability of every event
for the new shrinkage parameters changes by at most `(5 p + 1 + 3 (rows + 1) / 2) η`, in both readings of the
exponential draw, whatever the values. -/
theorem C101_horseshoe {η : ℝ} (hη : 0 ≤ η) (conv : ExpArg) (rows : ℕ) {β β' : Fin p → ℝ} {s s' : ℝ}
    (hs : 0 < s) (hs' : 0 < s') {l l' : Fin p → ℝ} (hl : ∀ j, 0 < l j) (hl' : ∀ j, 0 < l' j) {t t' : ℝ}
    (ht : 0 < t) (ht' : 0 < t') (hβ : ∀ j, RelClose η |β j| |β' j|) (hss : RelClose η s s')
    (hll : ∀ j, RelClose η (l j) (l' j)) (htt : RelClose η t t') {A : Set ((Fin p → ℝ) × ℝ)}
    (hA : MeasurableSet A) :
    |(horseshoeArray conv rows β s l t).real A - (horseshoeArray conv rows β' s' l' t').real A| ≤
      (5 * p + 1 + 3 * ((rows : ℝ) + 1) / 2) * η := by
  have := isProbabilityMeasure_array conv rows β hs ht hl
  have := isProbabilityMeasure_array conv rows β' hs' ht' hl'
  exact (near_array hη conv rows hs hs' hl hl' ht ht' hβ hss hll htt).real (by positivity) hA

/-- Two coefficients, one of which is zero, and a global parameter with an error of one in a thousand. -/
example {A : Set ((Fin 2 → ℝ) × ℝ)} (hA : MeasurableSet A) :
    |(horseshoeArray .scale 2 ![3, 0] 1 ![1, 2] 1).real A -
      (horseshoeArray .scale 2 ![3, 0] 1 ![1, 2] 1.001).real A| ≤ 0.0155 := by
  have hpos : ∀ j : Fin 2, (0 : ℝ) < ![1, 2] j := fun j => by fin_cases j <;> norm_num
  refine (C101_horseshoe (η := 0.001) (by norm_num) .scale 2 one_pos one_pos hpos hpos one_pos (by norm_num)
    (fun j => relClose_self (by norm_num) (abs_nonneg _)) (relClose_self (by norm_num) zero_le_one)
    (fun j => relClose_self (by norm_num) (hpos j).le) ⟨?_, ?_⟩ hA).trans (by norm_num)
  · have := Real.one_le_exp (x := 0.001) (by norm_num)
    linarith
  · have := Real.add_one_le_exp (0.001 : ℝ)
    linarith

end Verif.Horseshoe
