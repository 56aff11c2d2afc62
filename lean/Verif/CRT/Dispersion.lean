import Verif.CRT.Lemmas
import Verif.Conj.Lemmas
import Verif.Prob.HalfLine
import Verif.PG.Lemmas

/-!
# Lemmas for the dispersion step
-/

open MeasureTheory ProbabilityTheory Polynomial
open scoped ENNReal

namespace Verif.CRT

theorem hasPoly_scan {h : ℝ} (hh : 0 < h) (ys : List ℕ) :
    HasPoly ((crtScan h (ys.map fun y : ℕ => (y : ℤ))).map List.sum)
      (ys.map fun y => ascPochhammer ℕ y).prod (ENNReal.ofReal h) := by
  induction ys with
  | nil =>
    have := hasPoly_pure 0 (ENNReal.ofReal h)
    simpa [crtScan, PMF.pure_map] using this
  | cons y ys ih =>
    have := hasPoly_add (hasPoly_singleCRT hh y) ih
    intro F
    rw [List.map_cons, List.prod_cons, ← this, List.map_cons, crtScan, expect_map, expect_bind,
      expect_bind]
    simp only [expect_bind, expect_pure, expect_map, List.sum_cons]

theorem crtTotal_eq (y : List ℤ) (h : ℝ) : crtTotal y h = (crtScan h y).map List.sum := by
  rw [crtTotal, sampleCRT, PMF.map_comp]
  rfl

/-- The polynomial of the total number of tables. -/
noncomputable def crtPoly {n : ℕ} (y : Fin n → ℕ) : ℕ[X] :=
  ((List.ofFn y).map fun y => ascPochhammer ℕ y).prod

theorem hasPoly_total {h : ℝ} (hh : 0 < h) {n : ℕ} (y : Fin n → ℕ) :
    HasPoly (crtTotal (List.ofFn fun i => (y i : ℤ)) h) (crtPoly y) (ENNReal.ofReal h) := by
  have := hasPoly_scan hh (List.ofFn y)
  rw [List.map_ofFn] at this
  rw [crtTotal_eq]
  exact this

theorem polyVal_crtPoly {h : ℝ} (hh : 0 < h) {n : ℕ} (y : Fin n → ℕ) :
    polyVal (crtPoly y) (ENNReal.ofReal h) =
      ENNReal.ofReal (∏ i, Real.Gamma (h + y i) / Real.Gamma h) := by
  have e : ∀ l : List ℕ, polyVal (l.map fun y => ascPochhammer ℕ y).prod (ENNReal.ofReal h) =
      ENNReal.ofReal ((l.map fun k : ℕ => Real.Gamma (h + k) / Real.Gamma h).prod) := by
    intro l
    induction l with
    | nil => simp [polyVal]
    | cons k l ih =>
      have h1 := Real.Gamma_pos_of_pos hh
      have h2 : 0 < Real.Gamma (h + k) := Real.Gamma_pos_of_pos (by positivity)
      rw [List.map_cons, List.prod_cons, polyVal_mul, ih, polyVal_ascPochhammer hh, List.map_cons,
        List.prod_cons, ENNReal.ofReal_mul (by positivity)]
  rw [crtPoly, e, List.map_ofFn, List.prod_ofFn]
  rfl

theorem prod_gamma_pos {h : ℝ} (hh : 0 < h) {n : ℕ} (y : Fin n → ℕ) :
    0 < ∏ i, Real.Gamma (h + y i) / Real.Gamma h :=
  Finset.prod_pos fun i _ => by
    have h1 := Real.Gamma_pos_of_pos hh
    have h2 : 0 < Real.Gamma (h + y i) := Real.Gamma_pos_of_pos (by positivity)
    positivity

/-- The coefficients as a measure on the number of tables. -/
noncomputable def polyMeas (P : ℕ[X]) : Measure ℕ :=
  ∑ l ∈ P.support, (P.coeff l : ℝ≥0∞) • Measure.dirac l

instance (P : ℕ[X]) : IsFiniteMeasure (polyMeas P) := by
  constructor
  unfold polyMeas
  rw [Measure.finsetSum_apply]
  refine ENNReal.sum_lt_top.2 fun l _ => ?_
  simp

theorem lintegral_polyMeas (P : ℕ[X]) (H : ℝ≥0∞) (F : ℤ → ℝ≥0∞) :
    ∫⁻ l, H ^ l * F l ∂polyMeas P = polyFun P H F := by
  unfold polyMeas polyFun Polynomial.sum
  rw [lintegral_finsetSum_measure]
  refine Finset.sum_congr rfl fun l _ => ?_
  rw [lintegral_smul_measure, lintegral_dirac' _ .of_discrete, smul_eq_mul]
  ring

/-- Joint weight of the dispersion and the number of tables. -/
noncomputable def crtJoint (t : ℝ) (h : ℝ) (l : ℕ) : ℝ≥0∞ :=
  ENNReal.ofReal (posOr1 h) ^ l * ENNReal.ofReal (Real.exp (-(t * posOr1 h)))

theorem measurable_crtJoint (t : ℝ) : Measurable (Function.uncurry (crtJoint t)) := by
  refine measurable_from_prod_countable_left fun l => ?_
  have h1 : Measurable fun h : ℝ => ENNReal.ofReal (posOr1 h) := measurable_posOr1.ennreal_ofReal
  exact (h1.pow_const l).mul
    (Real.measurable_exp.comp ((measurable_posOr1.const_mul t).neg)).ennreal_ofReal

theorem lintegral_crtJoint (t : ℝ) {n : ℕ} (y : Fin n → ℕ) (h : ℝ) :
    ∫⁻ l, crtJoint t h l ∂polyMeas (crtPoly y) =
      ENNReal.ofReal ((∏ i, Real.Gamma (posOr1 h + y i) / Real.Gamma (posOr1 h)) *
        Real.exp (-(t * posOr1 h))) := by
  unfold crtJoint
  have := lintegral_polyMeas (crtPoly y) (ENNReal.ofReal (posOr1 h))
    (fun _ => ENNReal.ofReal (Real.exp (-(t * posOr1 h))))
  rw [this, polyFun_const]
  have e := polyVal_crtPoly (posOr1_pos h) y
  unfold polyVal at e
  rw [e, ENNReal.ofReal_mul (prod_gamma_pos (posOr1_pos h) y).le]

theorem crtJoint_defined (t : ℝ) {n : ℕ} (y : Fin n → ℕ) (h : ℝ) :
    BayesDefined (polyMeas (crtPoly y)) (crtJoint t h) := by
  rw [BayesDefined, lintegral_crtJoint]
  have := prod_gamma_pos (posOr1_pos h) y
  exact ⟨by simp only [ne_eq, ENNReal.ofReal_eq_zero, not_le]; positivity, ENNReal.ofReal_ne_top⟩

theorem crtJoint_gamma {a r t : ℝ} (ha : 0 < a) (hr : 0 < r) (ht : 0 < r + t) (l : ℕ) :
    BayesDefined (gammaMeasure a r) (fun h => crtJoint t h l) ∧
      bayes (gammaMeasure a r) (fun h => crtJoint t h l) = gammaMeasure (a + l) (r + t) := by
  have hm : Measurable fun h => crtJoint t h l :=
    (measurable_crtJoint t).comp (measurable_id.prodMk measurable_const)
  refine bayes_gamma (s := (l : ℝ)) (k := 1) ha hr (by positivity) ht one_pos hm fun x hx => ?_
  rw [crtJoint, posOr1_of_pos hx, one_mul, ← ENNReal.ofReal_pow hx.le,
    ← ENNReal.ofReal_mul (by positivity), Real.rpow_natCast]

theorem lintegral_toMeasure (μ : PMF ℤ) (F : ℤ → ℝ≥0∞) : ∫⁻ z, F z ∂μ.toMeasure = expect μ F := by
  rw [lintegral_countable', expect]
  exact tsum_congr fun z => by
    rw [PMF.toMeasure_apply_singleton _ _ (measurableSet_singleton _), mul_comm]

/-- The rate used by the code. -/
theorem rate_eq {n : ℕ} (p : Fin n → ℝ) (b : ℝ) :
    b⁻¹ - ((List.ofFn p).map fun q => Real.log (1 - q)).sum =
      b⁻¹ + -∑ i, Real.log (1 - p i) := by
  rw [List.map_ofFn, List.sum_ofFn]
  rfl

/-- For positive `h` the code's step is the two-block transition of the joint weight. -/
theorem dispersion_eq {n : ℕ} (p : Fin n → ℝ) (a b : ℝ) (y : Fin n → ℕ) {h : ℝ} (hh : 0 < h) :
    dispersionPosterior (List.ofFn p) a b (List.ofFn fun i => (y i : ℤ)) h =
      (bayes (polyMeas (crtPoly y)) (crtJoint (-∑ i, Real.log (1 - p i)) h)).bind fun l : ℕ =>
        gammaMeasure (a + l) (b⁻¹ + -∑ i, Real.log (1 - p i)) := by
  ext S hS
  rw [dispersionPosterior, rate_eq, Measure.bind_apply hS (Measurable.of_discrete).aemeasurable,
    Measure.bind_apply hS (Measurable.of_discrete).aemeasurable, lintegral_toMeasure,
    lintegral_bayes .of_discrete .of_discrete, lintegral_crtJoint, posOr1_of_pos hh]
  generalize b⁻¹ + -∑ i, Real.log (1 - p i) = r
  generalize (-∑ i, Real.log (1 - p i)) = t
  have hP := hasPoly_total hh y fun L => gammaMeasure (a + L) r S
  have hv := polyVal_crtPoly hh y
  have hpos := prod_gamma_pos hh y
  have e : ∫⁻ l : ℕ, crtJoint t h l * gammaMeasure (a + (l : ℕ)) r S ∂polyMeas (crtPoly y) =
      ENNReal.ofReal (Real.exp (-(t * h))) *
        polyFun (crtPoly y) (ENNReal.ofReal h) (fun L => gammaMeasure (a + L) r S) := by
    rw [← polyFun_mul_const, ← lintegral_polyMeas]
    refine lintegral_congr fun l => ?_
    rw [crtJoint, posOr1_of_pos hh, mul_assoc]
    simp
  rw [e, ← hP, hv, ENNReal.ofReal_mul hpos.le]
  have h0 : ENNReal.ofReal (∏ i, Real.Gamma (h + y i) / Real.Gamma h) ≠ 0 := by
    simpa using hpos
  have h1 : ENNReal.ofReal (Real.exp (-(t * h))) ≠ 0 := by simpa using Real.exp_pos _
  rw [ENNReal.mul_inv (Or.inl h0) (Or.inl ENNReal.ofReal_ne_top)]
  generalize expect _ _ = E
  calc E = (ENNReal.ofReal (∏ i, Real.Gamma (h + y i) / Real.Gamma h))⁻¹ *
        ENNReal.ofReal (∏ i, Real.Gamma (h + y i) / Real.Gamma h) *
        ((ENNReal.ofReal (Real.exp (-(t * h))))⁻¹ * ENNReal.ofReal (Real.exp (-(t * h)))) * E := by
        rw [ENNReal.inv_mul_cancel h0 ENNReal.ofReal_ne_top,
          ENNReal.inv_mul_cancel h1 ENNReal.ofReal_ne_top, one_mul, one_mul]
    _ = _ := by ring

end Verif.CRT
