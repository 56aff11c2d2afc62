import Verif.HsDisp.Lemmas

/-!
# Negative moments of a coefficient before and after a call
-/

open MeasureTheory ProbabilityTheory Matrix
open scoped ENNReal

namespace Verif.HsDisp

variable {p n : ℕ}

/-! ## The posterior -/

theorem prob_hsPrior (p : ℕ) : IsProbabilityMeasure (HsReg.hsPrior p) := by
  constructor
  have hm : Measurable fun q : (Fin p → ℝ) × ((Fin p → ℝ) × ℝ) => HsReg.dens q := HsReg.measurable_dens
  rw [HsReg.hsPrior_eq, withDensity_apply _ MeasurableSet.univ, Measure.restrict_univ,
    lintegral_prod_symm' _ hm]
  have h1 : ∀ᵐ s ∂Horseshoe.prior p, ∫⁻ β : Fin p → ℝ, HsReg.dens (β, s) = 1 := by
    filter_upwards [Horseshoe.ae_prior_pos p] with s hs
    have h := HsReg.bayesDefined_slice (lik := fun _ => 1) measurable_const hs
    have := HsReg.prob_normalPrior (p := p) fun j => s.1 j * s.2
    simpa using h
  rw [lintegral_congr_ae h1]
  simp

theorem ae_prior_good (p : ℕ) {a b : ℝ} (ha : 0 < a) (hb : 0 < b) : ∀ᵐ r ∂prior p a b, Good r := by
  have hQ := isProbabilityMeasure_gammaMeasure ha (inv_pos.2 hb)
  have := prob_hsPrior p
  have h1 : ∀ᵐ q ∂HsReg.hsPrior p, Horseshoe.AllPos q.2 := by
    rw [HsReg.hsPrior_eq]
    exact (withDensity_absolutelyContinuous _ _).ae_le HsReg.ae_dens_pos
  have h2 : ∀ᵐ r ∂prior p a b, Horseshoe.AllPos r.1.2 := Measure.quasiMeasurePreserving_fst.ae h1
  have h3 : ∀ᵐ r ∂prior p a b, 0 < r.2 :=
    Measure.quasiMeasurePreserving_snd.ae (ae_pos_gammaMeasure (a := a) (r := b⁻¹))
  filter_upwards [h2, h3] with r h4 h5 using ⟨h4, h5⟩

/-- The likelihood with the dispersion made positive. -/
noncomputable def likS (X : Matrix (Fin n) (Fin p) ℝ) (y : Fin n → ℕ) (r : State p) : ℝ≥0∞ :=
  NbReg.lik' X y (r.1.1, r.2)

theorem measurable_likS (X : Matrix (Fin n) (Fin p) ℝ) (y : Fin n → ℕ) : Measurable (likS X y) :=
  (NbReg.measurable_lik' X y).comp (by fun_prop)

theorem ae_likS (X : Matrix (Fin n) (Fin p) ℝ) (y : Fin n → ℕ) {a b : ℝ} (ha : 0 < a) (hb : 0 < b) :
    likS X y =ᵐ[prior p a b] fun r => NbReg.nbJointLik X y (r.1.1, r.2) :=
  (ae_prior_good p ha hb).mono fun r hr => NbReg.lik'_of_pos X y (q := (r.1.1, r.2)) hr.2

theorem posterior_eq (X : Matrix (Fin n) (Fin p) ℝ) (y : Fin n → ℕ) {a b : ℝ} (ha : 0 < a) (hb : 0 < b) :
    posterior X a b y = bayes (prior p a b) (likS X y) := bayes_congr_ae (ae_likS X y ha hb).symm

/-- Marginal likelihood of the coefficients. -/
noncomputable def margLik (X : Matrix (Fin n) (Fin p) ℝ) (a b : ℝ) (y : Fin n → ℕ) (β : Fin p → ℝ) :
    ℝ≥0∞ := ∫⁻ h, NbReg.lik' X y (β, h) ∂gammaMeasure a b⁻¹

theorem measurable_margLik (X : Matrix (Fin n) (Fin p) ℝ) {a b : ℝ} (ha : 0 < a) (hb : 0 < b)
    (y : Fin n → ℕ) : Measurable (margLik X a b y) := by
  have hQ := isProbabilityMeasure_gammaMeasure ha (inv_pos.2 hb)
  exact (NbReg.measurable_lik' X y).lintegral_prod_right'

theorem nbPMF_ge {h m q : ℝ} (hh : 0 < h) (hm : 0 < m) (hm1 : m < 1) (h1 : m ≤ q) (h2 : m ≤ 1 - q) (k : ℕ) :
    m ^ k * nbPMF h m k ≤ nbPMF h q k := by
  have hG := Real.Gamma_pos_of_pos hh
  have hG2 : 0 < Real.Gamma (k + h) := Real.Gamma_pos_of_pos (by positivity)
  have e1 : 0 ≤ Real.Gamma (k + h) / (Real.Gamma h * (Nat.factorial k)) := by positivity
  have e2 : m ^ h ≤ q ^ h := Real.rpow_le_rpow hm.le h1 hh.le
  have e3 : (1 - m) ^ k ≤ 1 := pow_le_one₀ (by linarith) (by linarith)
  have e4 : m ^ k ≤ (1 - q) ^ k := pow_le_pow_left₀ hm.le h2 k
  have e5 : 0 ≤ (1 - m) ^ k := pow_nonneg (by linarith) k
  unfold nbPMF
  calc m ^ k * (Real.Gamma (k + h) / (Real.Gamma h * (Nat.factorial k)) * m ^ h * (1 - m) ^ k)
      ≤ m ^ k * (Real.Gamma (k + h) / (Real.Gamma h * (Nat.factorial k)) * q ^ h * 1) := by
        gcongr
        exact mul_nonneg e1 (Real.rpow_nonneg (hm.le.trans h1) _)
    _ = Real.Gamma (k + h) / (Real.Gamma h * (Nat.factorial k)) * q ^ h * m ^ k := by ring
    _ ≤ _ := mul_le_mul_of_nonneg_left e4 (mul_nonneg e1 (Real.rpow_nonneg (hm.le.trans h1) _))

theorem sigmoid_mono {x z : ℝ} (h : x ≤ z) : sigmoid x ≤ sigmoid z := by
  unfold sigmoid
  have := Real.exp_pos (-z)
  exact one_div_le_one_div_of_le (by positivity) (by linarith [Real.exp_le_exp.2 (neg_le_neg h)])

theorem one_sub_sigmoid (x : ℝ) : 1 - sigmoid x = sigmoid (-x) := by
  unfold sigmoid
  rw [neg_neg, Real.exp_neg]
  have := Real.exp_pos x
  field_simp
  ring

/-- The linear predictors on the unit box. -/
theorem abs_mulVec_le (X : Matrix (Fin n) (Fin p) ℝ) {β : Fin p → ℝ} (hβ : β ∈ HsReg.unitBox p) (i : Fin n) :
    |(X *ᵥ β) i| ≤ ∑ i, ∑ j, |X i j| := by
  have h1 : |(X *ᵥ β) i| ≤ ∑ j, |X i j| := by
    rw [mulVec, dotProduct]
    refine (Finset.abs_sum_le_sum_abs (fun j => X i j * β j) _).trans (Finset.sum_le_sum fun j _ => ?_)
    rw [abs_mul]
    exact mul_le_of_le_one_right (abs_nonneg _) (abs_le.2 (hβ j trivial))
  exact h1.trans (Finset.single_le_sum (f := fun i => ∑ j, |X i j|)
    (fun i _ => Finset.sum_nonneg fun j _ => abs_nonneg _) (Finset.mem_univ i))

theorem lik'_box_ge (X : Matrix (Fin n) (Fin p) ℝ) (y : Fin n → ℕ) : ∃ (c : ℝ≥0∞) (M : ℝ), c ≠ 0 ∧
    ∀ β ∈ HsReg.unitBox p, ∀ h, c * NbReg.lik' (Matrix.of fun _ _ => 1 : Matrix (Fin n) (Fin 1) ℝ) y (fun _ => M, h) ≤
      NbReg.lik' X y (β, h) := by
  let M : ℝ := ∑ i, ∑ j, |X i j|
  have hm := CRT.sigmoid_pos' (-M)
  refine ⟨∏ i, ENNReal.ofReal (sigmoid (-M) ^ y i), M,
    Finset.prod_ne_zero_iff.2 fun i _ => by simpa using pow_pos hm _, fun β hβ h => ?_⟩
  simp only [NbReg.lik', NbReg.nbJointLik, Conj.nbMeasure_singleton]
  rw [← Finset.prod_mul_distrib]
  refine Finset.prod_le_prod' fun i _ => ?_
  rw [← ENNReal.ofReal_mul (pow_pos hm _).le]
  refine ENNReal.ofReal_le_ofReal ?_
  have e : ((Matrix.of fun _ _ => 1 : Matrix (Fin n) (Fin 1) ℝ) *ᵥ fun _ => M) i = M := by
    simp [mulVec, dotProduct]
  have hb := abs_le.1 (abs_mulVec_le X hβ i)
  rw [e]
  refine nbPMF_ge (posOr1_pos h) hm (CRT.sigmoid_lt_one' _) (sigmoid_mono ?_) ?_ _
  · linarith [hb.2]
  · rw [one_sub_sigmoid, neg_neg]
    exact sigmoid_mono hb.1

/-- The marginal likelihood of the coefficients qualifies for the tail bounds. -/
theorem nonempty_boxLik (X : Matrix (Fin n) (Fin p) ℝ) {a b : ℝ} (ha : 0 < a) (hb : 0 < b)
    (y : Fin n → ℕ) : Nonempty (HsReg.BoxLik (margLik X a b y)) := by
  have hQ := isProbabilityMeasure_gammaMeasure ha (inv_pos.2 hb)
  have pos : ∀ {q : ℕ} (X : Matrix (Fin n) (Fin q) ℝ) (β : Fin q → ℝ),
      ∫⁻ h, NbReg.lik' X y (β, h) ∂gammaMeasure a b⁻¹ ≠ 0 := by
    intro q X β h
    rw [lintegral_eq_zero_iff (f := fun h => NbReg.lik' X y (β, h))
      ((NbReg.measurable_lik' X y).comp measurable_prodMk_left)] at h
    obtain ⟨x, hx⟩ := h.exists
    exact (NbReg.lik'_bounds X y (β, x)).1 hx
  obtain ⟨c, M, hc, hbox⟩ := lik'_box_ge X y
  refine ⟨{
    measurable := measurable_margLik X ha hb y
    ne_zero := fun β => pos X β
    C := ∫⁻ h, CRT.crtMarg 0 y h ∂gammaMeasure a b⁻¹
    hC := (CRT.crtMarg_defined (t := 0) ha (inv_pos.2 hb) (by simpa using hb) y).2
    hle := fun β => lintegral_mono fun h => (NbReg.lik'_bounds X y (β, h)).2
    l := c * ∫⁻ h, NbReg.lik' (Matrix.of fun _ _ => 1 : Matrix (Fin n) (Fin 1) ℝ) y (fun _ => M, h)
      ∂gammaMeasure a b⁻¹
    hl := mul_ne_zero hc (pos _ _)
    hbox := fun β hβ => ?_ }⟩
  rw [← lintegral_const_mul (f := fun h => NbReg.lik' (Matrix.of fun _ _ => 1 : Matrix (Fin n) (Fin 1) ℝ)
    y (fun _ => M, h)) _ ((NbReg.measurable_lik' _ y).comp measurable_prodMk_left)]
  exact lintegral_mono fun h => hbox β hβ h

theorem lintegral_likS (X : Matrix (Fin n) (Fin p) ℝ) {a b : ℝ} (ha : 0 < a) (hb : 0 < b) (y : Fin n → ℕ)
    {f : (Fin p → ℝ) × ((Fin p → ℝ) × ℝ) → ℝ≥0∞} (hf : Measurable f) :
    ∫⁻ r, likS X y r * f r.1 ∂prior p a b = ∫⁻ q, margLik X a b y q.1 * f q ∂HsReg.hsPrior p := by
  have hQ := isProbabilityMeasure_gammaMeasure ha (inv_pos.2 hb)
  have := prob_hsPrior p
  have hm : Measurable fun r : State p => likS X y r * f r.1 :=
    (measurable_likS X y).mul (hf.comp measurable_fst)
  rw [prior, lintegral_prod _ hm.aemeasurable]
  refine lintegral_congr fun q => ?_
  exact lintegral_mul_const (f := fun h => likS X y (q, h)) (f q)
    ((measurable_likS X y).comp measurable_prodMk_left)

theorem posterior_defined (X : Matrix (Fin n) (Fin p) ℝ) {a b : ℝ} (ha : 0 < a) (hb : 0 < b)
    (y : Fin n → ℕ) : BayesDefined (prior p a b) (likS X y) := by
  obtain ⟨F⟩ := nonempty_boxLik X ha hb y
  have h1 := lintegral_likS X ha hb y (f := fun _ => 1) measurable_const
  simp only [mul_one] at h1
  have h2 : ∫⁻ q, margLik X a b y q.1 ∂HsReg.hsPrior p =
      ∫⁻ q, HsReg.dens q * margLik X a b y q.1 ∂volume.prod (Horseshoe.prior p) := by
    rw [HsReg.hsPrior_eq, lintegral_withDensity_eq_lintegral_mul _ HsReg.measurable_dens
      (g := fun q => margLik X a b y q.1) (F.measurable.comp measurable_fst)]
    rfl
  rw [BayesDefined, h1, h2]
  exact F.jointDefined

/-- Marginal of the coefficients and the shrinkage parameters. -/
theorem posterior_map_fst (X : Matrix (Fin n) (Fin p) ℝ) {a b : ℝ} (ha : 0 < a) (hb : 0 < b)
    (y : Fin n → ℕ) : (posterior X a b y).map Prod.fst = HsReg.hsPosterior (margLik X a b y) := by
  obtain ⟨F⟩ := nonempty_boxLik X ha hb y
  refine Measure.ext fun S hS => ?_
  have hi : Measurable (S.indicator (1 : (Fin p → ℝ) × ((Fin p → ℝ) × ℝ) → ℝ≥0∞)) :=
    measurable_one.indicator hS
  have hmL : Measurable fun q : (Fin p → ℝ) × ((Fin p → ℝ) × ℝ) => margLik X a b y q.1 :=
    F.measurable.comp measurable_fst
  have h1 := lintegral_likS X ha hb y (f := fun _ => 1) measurable_const
  simp only [mul_one] at h1
  rw [← lintegral_indicator_one hS, lintegral_map hi measurable_fst, posterior_eq X y ha hb,
    lintegral_bayes (g := fun r : State p => S.indicator 1 r.1) (measurable_likS X y)
      (hi.comp measurable_fst), ← lintegral_indicator_one hS,
    HsReg.hsPosterior, lintegral_bayes hmL hi, h1]
  congr 1
  exact lintegral_likS X ha hb y hi

theorem crtMarg_cons (y : Fin n → ℕ) (h : ℝ) :
    CRT.crtMarg 0 (Fin.cons 1 y : Fin (n + 1) → ℕ) h = CRT.crtMarg 0 y h * ENNReal.ofReal (posOr1 h) := by
  have hh := posOr1_pos h
  rw [CRT.crtMarg, CRT.lintegral_crtJoint, CRT.crtMarg, CRT.lintegral_crtJoint,
    ← ENNReal.ofReal_mul (mul_nonneg (CRT.prod_gamma_pos hh y).le (Real.exp_pos _).le)]
  congr 1
  rw [Fin.prod_univ_succ]
  simp only [Fin.cons_zero, Fin.cons_succ, Nat.cast_one]
  rw [Real.Gamma_add_one hh.ne', mul_div_assoc, div_self (Real.Gamma_pos_of_pos hh).ne']
  ring

/-- The dispersion has a finite mean under the posterior. -/
theorem lintegral_disp (X : Matrix (Fin n) (Fin p) ℝ) {a b : ℝ} (ha : 0 < a) (hb : 0 < b)
    (y : Fin n → ℕ) : ∫⁻ r, ENNReal.ofReal (posOr1 r.2) ∂posterior X a b y ≠ ∞ := by
  have hQ := isProbabilityMeasure_gammaMeasure ha (inv_pos.2 hb)
  have := prob_hsPrior p
  have hm : Measurable fun r : State p => ENNReal.ofReal (posOr1 r.2) :=
    (measurable_posOr1.comp measurable_snd).ennreal_ofReal
  rw [posterior_eq X y ha hb, lintegral_bayes (measurable_likS X y) hm]
  refine ENNReal.mul_ne_top (ENNReal.inv_ne_top.2 (posterior_defined X ha hb y).1) ?_
  refine ne_top_of_le_ne_top (b := ∫⁻ r : State p, CRT.crtMarg 0 (Fin.cons 1 y : Fin (n + 1) → ℕ) r.2
    ∂prior p a b) ?_ (lintegral_mono fun r => ?_)
  · have hc := CRT.measurable_crtMarg 0 (Fin.cons 1 y : Fin (n + 1) → ℕ)
    rw [prior, (measurePreserving_snd (μ := HsReg.hsPrior p) (ν := gammaMeasure a b⁻¹)).lintegral_comp hc]
    exact (CRT.crtMarg_defined (t := 0) ha (inv_pos.2 hb) (by simpa using hb) _).2
  · rw [crtMarg_cons]
    exact mul_le_mul' (NbReg.lik'_bounds X y (r.1.1, r.2)).2 le_rfl

/-! ## The coefficients after the call -/

/-- Part of the bound that comes from the data. -/
noncomputable def dataPart (X : Matrix (Fin n) (Fin p) ℝ) (y : Fin n → ℕ) (j : Fin p) (r : State p) : ℝ≥0∞ :=
  ∑ i, ENNReal.ofReal (X i j ^ 2) * (ENNReal.ofReal (pgMean * y i) + ENNReal.ofReal pgMean * ENNReal.ofReal (posOr1 r.2))

theorem measurable_dataPart (X : Matrix (Fin n) (Fin p) ℝ) (y : Fin n → ℕ) (j : Fin p) :
    Measurable (dataPart X y j) := by
  have hm : Measurable fun r : State p => ENNReal.ofReal (posOr1 r.2) :=
    (measurable_posOr1.comp measurable_snd).ennreal_ofReal
  exact Finset.measurable_sum _ fun i _ => ((hm.const_mul _).const_add _).const_mul _

theorem lintegral_dataPart (X : Matrix (Fin n) (Fin p) ℝ) {a b : ℝ} (ha : 0 < a) (hb : 0 < b)
    (y : Fin n → ℕ) (j : Fin p) : ∫⁻ r, dataPart X y j r ∂posterior X a b y ≠ ∞ := by
  have hm : Measurable fun r : State p => ENNReal.ofReal (posOr1 r.2) :=
    (measurable_posOr1.comp measurable_snd).ennreal_ofReal
  have hpr : IsProbabilityMeasure (posterior X a b y) := by
    rw [posterior_eq X y ha hb]
    exact isProbabilityMeasure_bayes (posterior_defined X ha hb y)
  unfold dataPart
  rw [lintegral_finsetSum _ fun i _ => ((hm.const_mul _).const_add _).const_mul _]
  refine ENNReal.sum_ne_top.2 fun i _ => ?_
  rw [lintegral_const_mul _ ((hm.const_mul _).const_add _), lintegral_add_left measurable_const,
    lintegral_const_mul _ hm, lintegral_const, measure_univ, mul_one]
  exact ENNReal.mul_ne_top ENNReal.ofReal_ne_top (ENNReal.add_ne_top.2 ⟨ENNReal.ofReal_ne_top,
    ENNReal.mul_ne_top ENNReal.ofReal_ne_top (lintegral_disp X ha hb y)⟩)

theorem lintegral_coef_le (rd : Reads) {s : ℝ} (h0 : 0 < s) (h1 : s < 1 / 2)
    (X : Matrix (Fin n) (Fin p) ℝ) (y : Fin n → ℕ) (j : Fin p) {r : State p} (hr : Horseshoe.AllPos r.1.2)
    {t : (Fin p → ℝ) × ℝ} (ht : Horseshoe.AllPos t) :
    ∫⁻ β, negPow s (β j)
      ∂coefP X y (fun j => ((rd.read r.1.2 t).1 j * (rd.read r.1.2 t).2)⁻¹, (r.1.1, r.2)) ≤
      ENNReal.ofReal (3 * (1 - 2 * s)⁻¹) *
        (HsReg.shrinkPow s j t + (HsReg.shrinkPow s j r.1.2 + 1 + dataPart X y j r)) := by
  have hrd := HsReg.read_pos rd hr ht
  have hstep := lintegral_negPow_step h0 h1
    (d := fun j => posOr1 ((rd.read r.1.2 t).1 j * (rd.read r.1.2 t).2)⁻¹) (fun _ => posOr1_pos _) X
    (fun i => 0.5 * ((y i : ℝ) - posOr1 r.2)) (b := fun i => posOr1 (y i + posOr1 r.2))
    (fun _ => posOr1_pos _) (fun i => (X *ᵥ r.1.1) i) j
  refine hstep.trans (mul_le_mul' le_rfl ?_)
  have e1 : posOr1 ((rd.read r.1.2 t).1 j * (rd.read r.1.2 t).2)⁻¹ =
      ((rd.read r.1.2 t).1 j * (rd.read r.1.2 t).2)⁻¹ :=
    posOr1_of_pos (inv_pos.2 (mul_pos (hrd.1 j) hrd.2))
  have e2 : ∑ i, ENNReal.ofReal (X i j ^ 2) * ENNReal.ofReal (pgMean * posOr1 (y i + posOr1 r.2)) =
      dataPart X y j r := by
    refine Finset.sum_congr rfl fun i _ => ?_
    have hp := posOr1_pos r.2
    rw [posOr1_of_pos (NbReg.add_posOr1_pos y r.2 i), mul_add,
      ENNReal.ofReal_add (mul_nonneg pgMean_nonneg (Nat.cast_nonneg _)) (mul_nonneg pgMean_nonneg hp.le),
      ENNReal.ofReal_mul (q := posOr1 r.2) pgMean_nonneg]
  rw [e1, e2]
  have h3 := (HsReg.inv_rpow_le (hrd.1 j) hrd.2 h0).trans (HsReg.read_pow_le rd s j r.1.2 t)
  calc ENNReal.ofReal (((rd.read r.1.2 t).1 j * (rd.read r.1.2 t).2)⁻¹ ^ s) + 1 + dataPart X y j r
      ≤ HsReg.shrinkPow s j t + HsReg.shrinkPow s j r.1.2 + 1 + dataPart X y j r := by gcongr
    _ = _ := by ring

/-- No call keeps the joint posterior. -/
theorem callK_never (conv : Horseshoe.ExpArg) (rd : Reads) (X : Matrix (Fin n) (Fin p) ℝ) {a b : ℝ}
    (ha : 0 < a) (hb : 0 < b) (y : Fin n → ℕ) (j : Fin p) :
    (posterior X a b y).bind (callK conv rd X a b y) ≠ posterior X a b y := by
  intro h
  obtain ⟨F⟩ := nonempty_boxLik X ha hb y
  have hK := measurable_callK conv rd X ha hb y
  have hpr : IsProbabilityMeasure (posterior X a b y) := by
    rw [posterior_eq X y ha hb]
    exact isProbabilityMeasure_bayes (posterior_defined X ha hb y)
  have hgood : ∀ᵐ r ∂posterior X a b y, Good r :=
    (bayes_absolutelyContinuous _ _).ae_le (ae_prior_good p ha hb)
  have hmarg := posterior_map_fst X ha hb y
  obtain ⟨C, hC, hup⟩ := F.marginal_le
  obtain ⟨c, hc0, hcT, hlow⟩ := F.coef_ge j
  -- means of the shrinkage parameters, old and new
  have holdS : ∀ s, ∫⁻ r, HsReg.shrinkPow s j r.1.2 ∂posterior X a b y ≤ C * (2 * Horseshoe.hcPow s) := by
    intro s
    have hG := HsReg.measurable_shrinkPow s j
    have e : ∫⁻ r, HsReg.shrinkPow s j r.1.2 ∂posterior X a b y =
        ∫⁻ q, HsReg.shrinkPow s j q ∂(HsReg.hsPosterior (margLik X a b y)).map Prod.snd := by
      rw [lintegral_map hG measurable_snd, ← hmarg, 
        lintegral_map (f := fun q : (Fin p → ℝ) × ((Fin p → ℝ) × ℝ) => HsReg.shrinkPow s j q.2)
          (hG.comp measurable_snd) measurable_fst]
    rw [e, ← HsReg.lintegral_shrinkPow, ← smul_eq_mul, ← lintegral_smul_measure]
    exact lintegral_mono' hup le_rfl
  have hnewS : ∀ s, ∫⁻ r, ∫⁻ t, HsReg.shrinkPow s j t ∂HsReg.shrinkK conv r.1 ∂posterior X a b y =
      ∫⁻ r, HsReg.shrinkPow s j r.1.2 ∂posterior X a b y := by
    intro s
    have hG := HsReg.measurable_shrinkPow s j
    have hG2 : Measurable fun r : State p => HsReg.shrinkPow s j r.1.2 := hG.comp (by fun_prop)
    conv_rhs => rw [← h, Measure.lintegral_bind hK.aemeasurable hG2.aemeasurable]
    exact lintegral_congr fun r => (lintegral_callK_shrink conv rd X ha hb y r hG).symm
  let W : ℝ≥0∞ := ∫⁻ r, dataPart X y j r ∂posterior X a b y
  have hW : W ≠ ∞ := lintegral_dataPart X ha hb y j
  refine HsReg.no_quadratic (c := c) (A := 12 * C) (B := 3 * (4 * C + 1 + W)) hc0 hcT
    (by finiteness) (by finiteness) fun s hs0 hs1 => ?_
  have hG := HsReg.measurable_shrinkPow s j
  have hmj : Measurable fun β : Fin p → ℝ => negPow s (β j) :=
    (measurable_negPow s).comp (measurable_pi_apply j)
  have hmr : Measurable fun r : State p => negPow s (r.1.1 j) := hmj.comp (by fun_prop)
  have hG2 : Measurable fun r : State p => HsReg.shrinkPow s j r.1.2 := hG.comp (by fun_prop)
  have hD := measurable_dataPart X y j
  have hR : Measurable fun r : State p => HsReg.shrinkPow s j r.1.2 + 1 + dataPart X y j r :=
    (hG2.add_const 1).add hD
  have hS : Measurable fun r : State p => ∫⁻ t, HsReg.shrinkPow s j t ∂HsReg.shrinkK conv r.1 :=
    (Measure.measurable_lintegral hG).comp ((HsReg.measurable_shrinkK conv).comp measurable_fst)
  have hup2 : ∫⁻ r, negPow s (r.1.1 j) ∂posterior X a b y ≤ ENNReal.ofReal (3 * (1 - 2 * s)⁻¹) *
      (4 * C * Horseshoe.hcPow s + 1 + W) := by
    conv_lhs => rw [← h, Measure.lintegral_bind hK.aemeasurable hmr.aemeasurable]
    calc ∫⁻ r, ∫⁻ r', negPow s (r'.1.1 j) ∂callK conv rd X a b y r ∂posterior X a b y
        ≤ ∫⁻ r, ENNReal.ofReal (3 * (1 - 2 * s)⁻¹) * (∫⁻ t, HsReg.shrinkPow s j t ∂HsReg.shrinkK conv r.1 +
            (HsReg.shrinkPow s j r.1.2 + 1 + dataPart X y j r)) ∂posterior X a b y := by
          refine lintegral_mono_ae (hgood.mono fun r hr => ?_)
          have hpk := HsReg.prob_shrinkK conv r.1
          rw [lintegral_callK conv rd X ha hb y r hmr]
          calc ∫⁻ t, ∫⁻ r', negPow s (r'.1.1 j) ∂midK rd X a b y (r, t) ∂HsReg.shrinkK conv r.1
              ≤ ∫⁻ t, ENNReal.ofReal (3 * (1 - 2 * s)⁻¹) * (HsReg.shrinkPow s j t +
                  (HsReg.shrinkPow s j r.1.2 + 1 + dataPart X y j r)) ∂HsReg.shrinkK conv r.1 := by
                refine lintegral_mono_ae ((Shared.ae_shrinkK_pos conv r.1).mono fun t ht => ?_)
                rw [lintegral_midK_coef rd X ha hb y (r, t) hmj]
                exact lintegral_coef_le rd hs0 hs1 X y j hr.1 ht
            _ = _ := by
                rw [lintegral_const_mul _ (hG.add_const _), lintegral_add_left hG]
                simp
      _ = ENNReal.ofReal (3 * (1 - 2 * s)⁻¹) * (∫⁻ r, HsReg.shrinkPow s j r.1.2 ∂posterior X a b y +
            (∫⁻ r, HsReg.shrinkPow s j r.1.2 ∂posterior X a b y + 1 + W)) := by
          have hSR : Measurable fun r : State p => ∫⁻ t, HsReg.shrinkPow s j t ∂HsReg.shrinkK conv r.1 +
            (HsReg.shrinkPow s j r.1.2 + 1 + dataPart X y j r) := hS.add hR
          rw [lintegral_const_mul _ hSR, lintegral_add_left hS, hnewS,
            lintegral_add_left (hG2.add_const 1), lintegral_add_left hG2]
          simp [W]
      _ ≤ ENNReal.ofReal (3 * (1 - 2 * s)⁻¹) * (C * (2 * Horseshoe.hcPow s) +
            (C * (2 * Horseshoe.hcPow s) + 1 + W)) := by
          have := holdS s
          gcongr
      _ = _ := by ring
  have hlow2 : c * (Horseshoe.hcPow1 s * Horseshoe.hcPow1 s * ENNReal.ofReal (1 - 2 * s)⁻¹) ≤
      ∫⁻ r, negPow s (r.1.1 j) ∂posterior X a b y := by
    refine (hlow s hs1).trans (le_of_eq ?_)
    rw [← hmarg, lintegral_map (f := fun q : (Fin p → ℝ) × ((Fin p → ℝ) × ℝ) => negPow s (q.1 j))
      (hmj.comp measurable_fst) measurable_fst]
  have ht : 0 < (1 - 2 * s)⁻¹ := inv_pos.2 (by linarith)
  have hT0 : ENNReal.ofReal (1 - 2 * s)⁻¹ ≠ 0 := by simpa using ht
  have key : ENNReal.ofReal (1 - 2 * s)⁻¹ * (c * (Horseshoe.hcPow1 s * Horseshoe.hcPow1 s)) ≤
      ENNReal.ofReal (1 - 2 * s)⁻¹ * (12 * C * Horseshoe.hcPow1 s + 3 * (4 * C + 1 + W)) := by
    calc ENNReal.ofReal (1 - 2 * s)⁻¹ * (c * (Horseshoe.hcPow1 s * Horseshoe.hcPow1 s))
        = c * (Horseshoe.hcPow1 s * Horseshoe.hcPow1 s * ENNReal.ofReal (1 - 2 * s)⁻¹) := by ring
      _ ≤ ENNReal.ofReal (3 * (1 - 2 * s)⁻¹) * (4 * C * Horseshoe.hcPow s + 1 + W) := hlow2.trans hup2
      _ ≤ ENNReal.ofReal (3 * (1 - 2 * s)⁻¹) * (4 * C * (Horseshoe.hcPow1 s + 1) + 1 + W) := by
          have := Horseshoe.hcPow_le hs0
          gcongr
      _ = _ := by
          rw [ENNReal.ofReal_mul (by norm_num : (0 : ℝ) ≤ 3), ENNReal.ofReal_ofNat]
          ring
  exact (ENNReal.mul_le_mul_iff_right hT0 ENNReal.ofReal_ne_top).1 key

end Verif.HsDisp
