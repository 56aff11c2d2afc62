import Verif.Horseshoe.Step
import Mathlib.MeasureTheory.Measure.ProbabilityMeasure

/-!
# The law of the precisions, in both readings
-/

open MeasureTheory ProbabilityTheory Real
open scoped ENNReal

namespace Verif.Horseshoe

variable {p : ℕ}

/-- Rate of the exponential draw. -/
noncomputable def eRate : ExpArg → ℝ → ℝ
  | .rate, r => r
  | .scale, s => s⁻¹

theorem expDraw_eq (conv : ExpArg) (r : ℝ) : expDraw conv r = gammaMeasure 1 (eRate conv r) := by
  cases conv <;> rfl

theorem eRate_pos (conv : ExpArg) {r : ℝ} (h : 0 < r) : 0 < eRate conv r := by
  cases conv
  · exact h
  · exact inv_pos.2 h

theorem measurable_eRate (conv : ExpArg) : Measurable (eRate conv) := by
  cases conv
  · exact measurable_id
  · exact measurable_inv

/-- The last draw of the scan, with its rate forced to be positive. -/
noncomputable def lastDraw (rows : ℕ) (β : Fin p → ℝ) (sigma2 : ℝ) (q : ((Fin p → ℝ) × ℝ) × (Fin p → ℝ)) :
    Measure ((Fin p → ℝ) × ℝ) :=
  (gammaMeasure (((rows : ℝ) + 1) / 2)
    (posOr1 (q.1.2 + ∑ j, β j ^ 2 * q.2 j / (2 * sigma2)))).map fun t => (q.2, t)

/-- The last two draws of the scan given the auxiliaries, with rates forced to be positive. -/
noncomputable def lastTwo (conv : ExpArg) (rows : ℕ) (β : Fin p → ℝ) (sigma2 tau2 : ℝ)
    (x : (Fin p → ℝ) × ℝ) : Measure ((Fin p → ℝ) × ℝ) :=
  (Measure.pi fun j =>
    gammaMeasure 1 (posOr1 (eRate conv (x.1 j + β j ^ 2 / (2 * sigma2 * tau2))))).bind fun w =>
      lastDraw rows β sigma2 (x, w)

theorem half_pos' (rows : ℕ) : 0 < ((rows : ℝ) + 1) / 2 := by positivity

theorem measurable_lastDraw (rows : ℕ) (β : Fin p → ℝ) (sigma2 : ℝ) :
    Measurable (lastDraw rows β sigma2) := by
  have hK : Measurable fun q : ((Fin p → ℝ) × ℝ) × (Fin p → ℝ) =>
      gammaMeasure (((rows : ℝ) + 1) / 2) (posOr1 (q.1.2 + ∑ j, β j ^ 2 * q.2 j / (2 * sigma2))) :=
    (measurable_gammaMeasure_rate _).comp (measurable_posOr1.comp (by fun_prop))
  exact measurable_map_param hK
    (fun q => isProbabilityMeasure_gammaMeasure (half_pos' rows) (posOr1_pos _))
    (g := fun r : (((Fin p → ℝ) × ℝ) × (Fin p → ℝ)) × ℝ => (r.1.2, r.2)) (by fun_prop)

theorem measurable_lastDraw_right (rows : ℕ) (β : Fin p → ℝ) (sigma2 : ℝ) (x : (Fin p → ℝ) × ℝ) :
    Measurable fun w => lastDraw rows β sigma2 (x, w) :=
  (measurable_lastDraw rows β sigma2).comp (measurable_const.prodMk measurable_id)

theorem measurable_lastTwo (conv : ExpArg) (rows : ℕ) (β : Fin p → ℝ) (sigma2 tau2 : ℝ) :
    Measurable (lastTwo conv rows β sigma2 tau2) := by
  have hK : Measurable fun x : (Fin p → ℝ) × ℝ => Measure.pi fun j =>
      gammaMeasure 1 (posOr1 (eRate conv (x.1 j + β j ^ 2 / (2 * sigma2 * tau2)))) :=
    measurable_pi_gamma one_pos
      (r := fun (x : (Fin p → ℝ) × ℝ) j => eRate conv (x.1 j + β j ^ 2 / (2 * sigma2 * tau2)))
      (measurable_pi_lambda _ fun j => (measurable_eRate conv).comp (by fun_prop))
  exact measurable_bind_param hK
    (fun x => isProbabilityMeasure_pi_gamma (fun _ => one_pos) fun _ => posOr1_pos _)
    (measurable_lastDraw rows β sigma2)

theorem lastTwo_eq (conv : ExpArg) (rows : ℕ) (β : Fin p → ℝ) {sigma2 tau2 : ℝ} (hs : 0 < sigma2)
    (ht : 0 < tau2) {x : (Fin p → ℝ) × ℝ} (hx : AllPos x) :
    lastTwo conv rows β sigma2 tau2 x =
      (Measure.pi fun j => expDraw conv (x.1 j + β j ^ 2 / (2 * sigma2 * tau2))).bind fun w =>
        (gammaMeasure (((rows : ℝ) + 1) / 2) (x.2 + ∑ j, β j ^ 2 * w j / (2 * sigma2))).map
          fun t => (w, t) := by
  have hpos : ∀ j, 0 < x.1 j + β j ^ 2 / (2 * sigma2 * tau2) := fun j =>
    add_pos_of_pos_of_nonneg (hx.1 j) (by positivity)
  unfold lastTwo
  simp only [expDraw_eq, posOr1_of_pos (eRate_pos conv (hpos _))]
  refine Measure.bind_congr_right ?_
  filter_upwards [ae_pos_pi_gamma one_pos fun j => eRate_pos conv (hpos j)] with w hw
  rw [lastDraw, posOr1_of_pos]
  exact add_pos_of_pos_of_nonneg hx.2 (Finset.sum_nonneg fun j _ => by
    have := hw j
    positivity)

theorem ae_pos_auxLaw (conv : ExpArg) {lambda2 : Fin p → ℝ} (hl : ∀ j, 0 < lambda2 j) {tau2 : ℝ}
    (ht : 0 < tau2) :
    ∀ᵐ x ∂(Measure.pi fun j => expDraw conv (1 + 1 / lambda2 j)).prod (expDraw conv (1 + 1 / tau2)),
      AllPos x := by
  simp only [expDraw_eq]
  exact ae_pos_aux (fun j => eRate_pos conv (add_pos one_pos (one_div_pos.2 (hl j))))
    (eRate_pos conv (add_pos one_pos (one_div_pos.2 ht)))

theorem isProbabilityMeasure_auxLaw (conv : ExpArg) {lambda2 : Fin p → ℝ} (hl : ∀ j, 0 < lambda2 j)
    {tau2 : ℝ} (ht : 0 < tau2) : IsProbabilityMeasure
    ((Measure.pi fun j => expDraw conv (1 + 1 / lambda2 j)).prod (expDraw conv (1 + 1 / tau2))) := by
  simp only [expDraw_eq]
  have i1 : IsProbabilityMeasure (Measure.pi fun j =>
      gammaMeasure 1 (eRate conv (1 + 1 / lambda2 j))) :=
    isProbabilityMeasure_pi_gamma (fun _ => one_pos)
      fun j => eRate_pos conv (add_pos one_pos (one_div_pos.2 (hl j)))
  have i2 := isProbabilityMeasure_gammaMeasure one_pos
    (eRate_pos conv (add_pos one_pos (one_div_pos.2 ht)))
  infer_instance

theorem precisionScan_eq (conv : ExpArg) (β : Fin p → ℝ) {sigma2 : ℝ} (hs : 0 < sigma2)
    {lambda2 : Fin p → ℝ} (hl : ∀ j, 0 < lambda2 j) {tau2 : ℝ} (ht : 0 < tau2) :
    precisionScan (expDraw conv) β sigma2 lambda2 tau2 =
      ((Measure.pi fun j => expDraw conv (1 + 1 / lambda2 j)).prod
        (expDraw conv (1 + 1 / tau2))).bind (lastTwo conv p β sigma2 tau2) := by
  unfold precisionScan
  refine Measure.bind_congr_right ?_
  filter_upwards [ae_pos_auxLaw conv hl ht] with x hx using (lastTwo_eq conv p β hs ht hx).symm

theorem isProbabilityMeasure_lastDraw (rows : ℕ) (β : Fin p → ℝ) (sigma2 : ℝ)
    (q : ((Fin p → ℝ) × ℝ) × (Fin p → ℝ)) : IsProbabilityMeasure (lastDraw rows β sigma2 q) := by
  have := isProbabilityMeasure_gammaMeasure (half_pos' rows)
    (posOr1_pos (q.1.2 + ∑ j, β j ^ 2 * q.2 j / (2 * sigma2)))
  exact Measure.isProbabilityMeasure_map (by fun_prop)

theorem isProbabilityMeasure_lastTwo (conv : ExpArg) (rows : ℕ) (β : Fin p → ℝ) (sigma2 tau2 : ℝ)
    (x : (Fin p → ℝ) × ℝ) : IsProbabilityMeasure (lastTwo conv rows β sigma2 tau2 x) := by
  have i1 : IsProbabilityMeasure (Measure.pi fun j =>
      gammaMeasure 1 (posOr1 (eRate conv (x.1 j + β j ^ 2 / (2 * sigma2 * tau2))))) :=
    isProbabilityMeasure_pi_gamma (fun _ => one_pos) fun _ => posOr1_pos _
  refine isProbabilityMeasure_bind (measurable_lastDraw_right rows β sigma2 x).aemeasurable ?_
  exact ae_of_all _ fun w => isProbabilityMeasure_lastDraw rows β sigma2 (x, w)

theorem measurableSet_allPos : MeasurableSet {q : (Fin p → ℝ) × ℝ | AllPos q} := by
  have e : {q : (Fin p → ℝ) × ℝ | AllPos q} = (⋂ j, {q | 0 < q.1 j}) ∩ {q | 0 < q.2} := by
    ext q
    simp [AllPos]
  have hj : ∀ j, Measurable fun q : (Fin p → ℝ) × ℝ => q.1 j := fun j => by fun_prop
  rw [e]
  exact (MeasurableSet.iInter fun j => measurableSet_lt measurable_const (hj j)).inter
    (measurableSet_lt measurable_const measurable_snd)

theorem ae_pos_lastTwo (conv : ExpArg) (rows : ℕ) (β : Fin p → ℝ) (sigma2 tau2 : ℝ) (x : (Fin p → ℝ) × ℝ) :
    ∀ᵐ q ∂lastTwo conv rows β sigma2 tau2 x, AllPos q := by
  refine ae_bind (measurable_lastDraw_right rows β sigma2 x).aemeasurable measurableSet_allPos ?_
  filter_upwards [ae_pos_pi_gamma one_pos fun j => posOr1_pos _] with w hw
  have hm : Measurable fun t : ℝ => (w, t) := measurable_const.prodMk measurable_id
  rw [lastDraw, ae_map_iff hm.aemeasurable measurableSet_allPos]
  filter_upwards [ae_pos_gammaMeasure] with t ht using ⟨hw, ht⟩

theorem precisionScan_isProb (conv : ExpArg) (β : Fin p → ℝ) {sigma2 : ℝ} (hs : 0 < sigma2)
    {lambda2 : Fin p → ℝ} (hl : ∀ j, 0 < lambda2 j) {tau2 : ℝ} (ht : 0 < tau2) :
    IsProbabilityMeasure (precisionScan (expDraw conv) β sigma2 lambda2 tau2) := by
  rw [precisionScan_eq conv β hs hl ht]
  have := isProbabilityMeasure_auxLaw conv hl ht
  exact isProbabilityMeasure_bind (measurable_lastTwo conv p β sigma2 tau2).aemeasurable
    (ae_of_all _ fun x => isProbabilityMeasure_lastTwo conv p β sigma2 tau2 x)

theorem precisionScan_pos (conv : ExpArg) (β : Fin p → ℝ) {sigma2 : ℝ} (hs : 0 < sigma2)
    {lambda2 : Fin p → ℝ} (hl : ∀ j, 0 < lambda2 j) {tau2 : ℝ} (ht : 0 < tau2) :
    ∀ᵐ q ∂precisionScan (expDraw conv) β sigma2 lambda2 tau2, AllPos q := by
  rw [precisionScan_eq conv β hs hl ht]
  exact ae_bind (measurable_lastTwo conv p β sigma2 tau2).aemeasurable measurableSet_allPos
    (ae_of_all _ fun x => ae_pos_lastTwo conv p β sigma2 tau2 x)

/-- The returned law is the image of the law of the precisions. -/
theorem horseshoeArray_eq (conv : ExpArg) (rows : ℕ) (β : Fin p → ℝ) {sigma2 : ℝ} (hs : 0 < sigma2)
    {lambda2 : Fin p → ℝ} (hl : ∀ j, 0 < lambda2 j) {tau2 : ℝ} (ht : 0 < tau2) :
    horseshoeArray conv rows β sigma2 lambda2 tau2 =
      (((Measure.pi fun j => expDraw conv (1 + 1 / lambda2 j)).prod
        (expDraw conv (1 + 1 / tau2))).bind (lastTwo conv rows β sigma2 tau2)).map ofPrec := by
  rw [map_bind (measurable_lastTwo conv rows β sigma2 tau2).aemeasurable measurable_ofPrec]
  unfold horseshoeArray auxDraw
  simp only [one_div]
  refine Measure.bind_congr_right ?_
  have hpos := ae_pos_auxLaw conv hl ht
  simp only [one_div] at hpos
  filter_upwards [hpos] with x hx
  have hpos : ∀ j, 0 < x.1 j + β j ^ 2 / (2 * sigma2 * tau2) := fun j =>
    add_pos_of_pos_of_nonneg (hx.1 j) (by positivity)
  unfold lastTwo
  rw [map_bind (measurable_lastDraw_right rows β sigma2 x).aemeasurable measurable_ofPrec]
  have e : lambdaDraw conv β sigma2 tau2 x.1 = Measure.pi fun j =>
      gammaMeasure 1 (posOr1 (eRate conv (x.1 j + β j ^ 2 / (2 * sigma2 * tau2)))) := by
    unfold lambdaDraw
    congr 1
    ext1 j
    rw [posOr1_of_pos (eRate_pos conv (hpos j)), expDraw_eq]
    congr 2
    field_simp
    ring
  rw [e]
  refine Measure.bind_congr_right ?_
  filter_upwards [ae_pos_pi_gamma one_pos fun j => posOr1_pos _] with w hw
  have hpair : Measurable fun s : ℝ => (w, s) := measurable_const.prodMk measurable_id
  have h2 : 0 < x.2 + ∑ j, β j ^ 2 * w j / (2 * sigma2) :=
    add_pos_of_pos_of_nonneg hx.2 (Finset.sum_nonneg fun j _ => by
      have := hw j
      positivity)
  have e2 : tauDraw rows β sigma2 x.2 w = gammaMeasure (((rows : ℝ) + 1) / 2)
      (posOr1 (x.2 + ∑ j, β j ^ 2 * w j / (2 * sigma2))) := by
    rw [posOr1_of_pos h2, tauDraw]
    congr 1
    · ring
    · rw [Finset.mul_sum, Finset.sum_div]
      congr 1
      refine Finset.sum_congr rfl fun j _ => ?_
      field_simp
      ring
  rw [e2]
  exact (Measure.map_map measurable_ofPrec hpair).symm

/-- The returned law is the image of the law of the precisions. -/
theorem horseshoePosterior_eq (conv : ExpArg) (β : Fin p → ℝ) {sigma2 : ℝ} (hs : 0 < sigma2)
    {lambda2 : Fin p → ℝ} (hl : ∀ j, 0 < lambda2 j) {tau2 : ℝ} (ht : 0 < tau2) :
    horseshoePosterior conv β sigma2 lambda2 tau2 =
      (precisionScan (expDraw conv) β sigma2 lambda2 tau2).map ofPrec := by
  rw [horseshoePosterior, horseshoeArray_eq conv p β hs hl ht, precisionScan_eq conv β hs hl ht]

end Verif.Horseshoe
