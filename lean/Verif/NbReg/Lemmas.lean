import Verif.NbReg.Model
import Verif.NbReg.Spec
import Verif.PG.Props
import Verif.CRT.Props
import Verif.Prob.JointStep
import Verif.Prob.PGParam

/-!
# Lemmas for the sampler of the negative-binomial regression
-/

open MeasureTheory ProbabilityTheory Matrix
open scoped ENNReal

namespace Verif.NbReg

variable {p n : ℕ}

/-- The likelihood with the dispersion made positive. -/
noncomputable def lik' (X : Matrix (Fin n) (Fin p) ℝ) (y : Fin n → ℕ) (q : (Fin p → ℝ) × ℝ) : ℝ≥0∞ :=
  nbJointLik X y (q.1, posOr1 q.2)

theorem measurable_mulVec_apply (X : Matrix (Fin n) (Fin p) ℝ) (i : Fin n) :
    Measurable fun β : Fin p → ℝ => (X *ᵥ β) i := by
  unfold mulVec dotProduct
  fun_prop

theorem measurable_sigmoid : Measurable sigmoid := by
  unfold sigmoid
  fun_prop

theorem measurable_lik' (X : Matrix (Fin n) (Fin p) ℝ) (y : Fin n → ℕ) : Measurable (lik' X y) := by
  unfold lik' nbJointLik
  refine Finset.measurable_prod _ fun i _ => ?_
  simp only [Conj.nbMeasure_singleton]
  refine Measurable.ennreal_ofReal ?_
  have h1 : Measurable fun q : (Fin p → ℝ) × ℝ => sigmoid (-(X *ᵥ q.1) i) :=
    measurable_sigmoid.comp ((measurable_mulVec_apply X i).comp measurable_fst).neg
  have h2 : Measurable fun q : (Fin p → ℝ) × ℝ => posOr1 q.2 := measurable_posOr1.comp measurable_snd
  have h3 : Measurable fun q : (Fin p → ℝ) × ℝ => Real.Gamma (posOr1 q.2) :=
    measurable_Gamma_posOr1.comp measurable_snd
  have h4 : Measurable fun q : (Fin p → ℝ) × ℝ => Real.Gamma (y i + posOr1 q.2) := by
    have e : (fun q : (Fin p → ℝ) × ℝ => Real.Gamma (y i + posOr1 q.2)) =
        (fun x => Real.Gamma (posOr1 x)) ∘ fun q => (y i : ℝ) + posOr1 q.2 := funext fun q => by
      have := posOr1_pos q.2
      rw [Function.comp_apply, posOr1_of_pos (r := (y i : ℝ) + posOr1 q.2) (by positivity)]
    rw [e]
    exact measurable_Gamma_posOr1.comp (h2.const_add _)
  unfold nbPMF
  fun_prop

theorem nbPMF_le {h q : ℝ} (hh : 0 < h) (hq0 : 0 < q) (hq1 : q < 1) (k : ℕ) :
    0 < nbPMF h q k ∧ nbPMF h q k ≤ Real.Gamma (h + k) / Real.Gamma h := by
  have hG := Real.Gamma_pos_of_pos hh
  have hG2 : 0 < Real.Gamma (k + h) := Real.Gamma_pos_of_pos (by positivity)
  have h0 : 0 < 1 - q := by linarith
  have h1 : q ^ h ≤ 1 := Real.rpow_le_one hq0.le hq1.le hh.le
  have h2 : (1 - q) ^ k ≤ 1 := pow_le_one₀ h0.le (by linarith)
  have h3 : (1 : ℝ) ≤ Nat.factorial k := by exact_mod_cast Nat.factorial_pos k
  constructor
  · unfold nbPMF
    positivity
  · have e1 : Real.Gamma (k + h) / (Real.Gamma h * (Nat.factorial k)) ≤
        Real.Gamma (k + h) / Real.Gamma h :=
      div_le_div_of_nonneg_left hG2.le hG (le_mul_of_one_le_right hG.le h3)
    have e2 : 0 ≤ Real.Gamma (k + h) / (Real.Gamma h * (Nat.factorial k)) := by positivity
    rw [nbPMF, add_comm h (k : ℝ)]
    calc Real.Gamma (k + h) / (Real.Gamma h * (Nat.factorial k)) * q ^ h * (1 - q) ^ k
        ≤ Real.Gamma (k + h) / (Real.Gamma h * (Nat.factorial k)) * 1 * 1 := by gcongr
      _ ≤ _ := by rw [mul_one, mul_one]; exact e1

theorem lik'_bounds (X : Matrix (Fin n) (Fin p) ℝ) (y : Fin n → ℕ) (q : (Fin p → ℝ) × ℝ) :
    lik' X y q ≠ 0 ∧ lik' X y q ≤ CRT.crtMarg 0 y q.2 := by
  have hb := fun i => nbPMF_le (posOr1_pos q.2) (CRT.sigmoid_pos' (-(X *ᵥ q.1) i))
    (CRT.sigmoid_lt_one' (-(X *ᵥ q.1) i)) (y i)
  unfold lik' nbJointLik
  simp only [Conj.nbMeasure_singleton]
  constructor
  · rw [Finset.prod_ne_zero_iff]
    intro i _
    simpa using (hb i).1
  · rw [CRT.crtMarg, CRT.lintegral_crtJoint, zero_mul, neg_zero, Real.exp_zero, mul_one,
      ← ENNReal.ofReal_prod_of_nonneg fun i _ => (hb i).1.le]
    exact ENNReal.ofReal_le_ofReal (Finset.prod_le_prod (fun i _ => (hb i).1.le) fun i _ => (hb i).2)

theorem bayesDefined_lik' (std : Fin p → ℝ) {a b : ℝ} (ha : 0 < a) (hb : 0 < b)
    (X : Matrix (Fin n) (Fin p) ℝ) (y : Fin n → ℕ) : BayesDefined (nbPrior std a b) (lik' X y) := by
  have hQ := isProbabilityMeasure_gammaMeasure ha (inv_pos.2 hb)
  have hprob : IsProbabilityMeasure (nbPrior std a b) := by unfold nbPrior; infer_instance
  constructor
  · intro h
    rw [lintegral_eq_zero_iff (measurable_lik' X y)] at h
    obtain ⟨q, hq⟩ := h.exists
    exact (lik'_bounds X y q).1 hq
  · refine ne_top_of_le_ne_top ?_ (lintegral_mono fun q => (lik'_bounds X y q).2)
    have hm : Measurable fun q : (Fin p → ℝ) × ℝ => CRT.crtMarg 0 y q.2 :=
      (CRT.measurable_crtMarg 0 y).comp measurable_snd
    rw [nbPrior, lintegral_prod _ hm.aemeasurable]
    simp only [lintegral_const, measure_univ, mul_one]
    exact (CRT.crtMarg_defined (t := 0) ha (inv_pos.2 hb) (by simpa using hb) y).2

theorem ae_nbPrior_pos (std : Fin p → ℝ) {a b : ℝ} (ha : 0 < a) (hb : 0 < b) :
    ∀ᵐ q ∂nbPrior std a b, 0 < q.2 := by
  have hQ := isProbabilityMeasure_gammaMeasure ha (inv_pos.2 hb)
  exact Measure.quasiMeasurePreserving_snd.ae (ae_pos_gammaMeasure (a := a) (r := b⁻¹))

theorem lik'_of_pos (X : Matrix (Fin n) (Fin p) ℝ) (y : Fin n → ℕ) {q : (Fin p → ℝ) × ℝ}
    (hq : 0 < q.2) : lik' X y q = nbJointLik X y q := by
  rw [lik', posOr1_of_pos hq]

theorem posterior_eq (std : Fin p → ℝ) {a b : ℝ} (ha : 0 < a) (hb : 0 < b)
    (X : Matrix (Fin n) (Fin p) ℝ) (y : Fin n → ℕ) :
    bayes (nbPrior std a b) (nbJointLik X y) = bayes (nbPrior std a b) (lik' X y) :=
  bayes_congr_ae ((ae_nbPrior_pos std ha hb).mono fun _ hq => (lik'_of_pos X y hq).symm)

/-! ## The step of the coefficients -/

/-- Law of the new coefficients, with the dispersion made positive. -/
noncomputable def coefK (d : Fin p → ℝ) (X : Matrix (Fin n) (Fin p) ℝ) (y : Fin n → ℕ)
    (q : (Fin p → ℝ) × ℝ) : Measure (Fin p → ℝ) :=
  (Measure.pi fun i => pg (posOr1 (y i + posOr1 q.2)) ((X *ᵥ q.1) i)).bind fun w =>
    bayes (mvn 0 (diagonal d)⁻¹) fun β => pgJoint X (fun i => 0.5 * ((y i : ℝ) - posOr1 q.2)) β w

theorem ae_pi_pg_pos {b : Fin n → ℝ} (hb : ∀ i, 0 < b i) (X : Matrix (Fin n) (Fin p) ℝ)
    (β : Fin p → ℝ) : ∀ᵐ w ∂(Measure.pi fun i => pg (b i) ((X *ᵥ β) i)), ∀ i, 0 < w i := by
  rw [(pi_pg_eq X hb 0 β).2.2]
  exact (bayes_absolutelyContinuous _ _).ae_le (ae_pi_pg0_pos hb)

theorem add_posOr1_pos (y : Fin n → ℕ) (h : ℝ) (i : Fin n) : 0 < (y i : ℝ) + posOr1 h := by
  have := posOr1_pos h
  positivity

theorem coefK_eq {la : LinAlg} (hla : la.Sound) {std : Fin p → ℝ} (hs : ∀ j, 0 < std j)
    (X : Matrix (Fin n) (Fin p) ℝ) (y : Fin n → ℕ) {h : ℝ} (hh : 0 < h) (β : Fin p → ℝ) :
    nbinomNormalPosterior la std X (fun _ => h) y β = coefK (fun j => (std j)⁻¹) X y (β, h) := by
  rw [nbinomNormalPosterior_eq, pgStep, coefK]
  simp only [posOr1_of_pos hh, posOr1_of_pos (show 0 < (y _ : ℝ) + h by positivity)]
  refine Measure.bind_congr_right ?_
  filter_upwards [ae_pi_pg_pos (fun i => (by positivity : 0 < (y i : ℝ) + h)) X β] with w hw
  exact (normalRegression_eq_bayes hla (fun j => inv_pos.2 (hs j)) X _ hw).2

theorem measurable_coefK (d : Fin p → ℝ) (X : Matrix (Fin n) (Fin p) ℝ) (y : Fin n → ℕ) :
    Measurable (coefK d X y) := by
  have h2 : Measurable fun q : (Fin p → ℝ) × ℝ => posOr1 q.2 := measurable_posOr1.comp measurable_snd
  have hb : Measurable fun (q : (Fin p → ℝ) × ℝ) (i : Fin n) => (y i : ℝ) + posOr1 q.2 :=
    measurable_pi_lambda _ fun i => h2.const_add _
  have hc : Measurable fun (q : (Fin p → ℝ) × ℝ) (i : Fin n) => (X *ᵥ q.1) i :=
    measurable_pi_lambda _ fun i => (measurable_mulVec_apply X i).comp measurable_fst
  have hJ : Measurable (Function.uncurry fun (r : ((Fin p → ℝ) × ℝ) × (Fin n → ℝ)) (β : Fin p → ℝ) =>
      pgJoint X (fun i => 0.5 * ((y i : ℝ) - posOr1 r.1.2)) β r.2) := by
    have h3 : Measurable fun u : (((Fin p → ℝ) × ℝ) × (Fin n → ℝ)) × (Fin p → ℝ) => posOr1 u.1.1.2 :=
      h2.comp (measurable_fst.comp measurable_fst)
    have h4 : ∀ i, Measurable fun u : (((Fin p → ℝ) × ℝ) × (Fin n → ℝ)) × (Fin p → ℝ) =>
      (X *ᵥ u.2) i := fun i => (measurable_mulVec_apply X i).comp measurable_snd
    have h5 : ∀ i, Measurable fun u : (((Fin p → ℝ) × ℝ) × (Fin n → ℝ)) × (Fin p → ℝ) => u.1.2 i :=
      fun i => (measurable_pi_apply i).comp (measurable_snd.comp measurable_fst)
    unfold pgJoint Function.uncurry
    refine ENNReal.measurable_ofReal.comp (Finset.measurable_prod _ fun i _ => ?_)
    have := h4 i
    have := h5 i
    fun_prop
  have hK := measurable_pi_pg hb hc
  have hF : Measurable fun r : ((Fin p → ℝ) × ℝ) × (Fin n → ℝ) =>
      bayes (mvn 0 (diagonal d)⁻¹) fun β =>
        pgJoint X (fun i => 0.5 * ((y i : ℝ) - posOr1 r.1.2)) β r.2 :=
    measurable_bayes (f := fun (r : ((Fin p → ℝ) × ℝ) × (Fin n → ℝ)) (β : Fin p → ℝ) =>
      pgJoint X (fun i => 0.5 * ((y i : ℝ) - posOr1 r.1.2)) β r.2) hJ
  have hp : ∀ q : (Fin p → ℝ) × ℝ, IsProbabilityMeasure
      (Measure.pi fun i => pg (posOr1 (y i + posOr1 q.2)) ((X *ᵥ q.1) i)) := by
    intro q
    have : ∀ i, IsProbabilityMeasure (pg (posOr1 (y i + posOr1 q.2)) ((X *ᵥ q.1) i)) :=
      fun i => isProbabilityMeasure_pg (posOr1_pos _) _
    infer_instance
  have := measurable_bind_param hK hp hF
  unfold coefK
  exact this

theorem prob_coefK {d : Fin p → ℝ} (hd : ∀ j, 0 < d j) (X : Matrix (Fin n) (Fin p) ℝ)
    (y : Fin n → ℕ) (q : (Fin p → ℝ) × ℝ) : IsProbabilityMeasure (coefK d X y q) := by
  have : ∀ i, IsProbabilityMeasure (pg (posOr1 (y i + posOr1 q.2)) ((X *ᵥ q.1) i)) :=
    fun i => isProbabilityMeasure_pg (posOr1_pos _) _
  refine isProbabilityMeasure_bind (measurable_bayes_pgJoint d X _).aemeasurable ?_
  filter_upwards [ae_pi_pg_pos (fun i => posOr1_pos ((y i : ℝ) + posOr1 q.2)) X q.1] with w hw
  exact isProbabilityMeasure_bayes (normalRegression_eq_bayes stdLinAlg_sound hd X _ hw).1

/-! ## The step of the dispersion -/

/-- Minus the log of the product of the complements of the probabilities handed to the step. -/
noncomputable def rateOf (X : Matrix (Fin n) (Fin p) ℝ) (β : Fin p → ℝ) : ℝ :=
  -∑ i, Real.log (1 - sigmoid (((-X) *ᵥ β) i))

theorem rateOf_nonneg (X : Matrix (Fin n) (Fin p) ℝ) (β : Fin p → ℝ) : 0 ≤ rateOf X β := by
  rw [rateOf, Right.nonneg_neg_iff]
  refine Finset.sum_nonpos fun i _ => Real.log_nonpos ?_ ?_
  · linarith [CRT.sigmoid_lt_one' (((-X) *ᵥ β) i)]
  · linarith [CRT.sigmoid_pos' (((-X) *ᵥ β) i)]

theorem measurable_rateOf (X : Matrix (Fin n) (Fin p) ℝ) : Measurable (rateOf X) := by
  unfold rateOf
  refine (Finset.measurable_sum _ fun i _ => ?_).neg
  exact Real.measurable_log.comp
    ((measurable_sigmoid.comp (measurable_mulVec_apply (-X) i)).const_sub 1)

/-- Law of the new dispersion, with the old one made positive. -/
noncomputable def dispK (X : Matrix (Fin n) (Fin p) ℝ) (a b : ℝ) (y : Fin n → ℕ)
    (q : (Fin p → ℝ) × ℝ) : Measure ℝ := CRT.crtKernel y a b⁻¹ (rateOf X q.1) q.2

theorem dispK_eq (X : Matrix (Fin n) (Fin p) ℝ) (a b : ℝ) (y : Fin n → ℕ) {h : ℝ} (hh : 0 < h)
    (β : Fin p → ℝ) :
    CRT.finderDispersion X β a b (List.ofFn fun i => (y i : ℤ)) h = dispK X a b y (β, h) :=
  CRT.dispersion_eq _ a b y hh

theorem prob_dispK (X : Matrix (Fin n) (Fin p) ℝ) {a b : ℝ} (ha : 0 < a) (hb : 0 < b)
    (y : Fin n → ℕ) (q : (Fin p → ℝ) × ℝ) : IsProbabilityMeasure (dispK X a b y q) :=
  CRT.prob_crtKernel ha (by have := rateOf_nonneg X q.1; positivity) y q.2

theorem measurable_dispK (X : Matrix (Fin n) (Fin p) ℝ) (a b : ℝ) (y : Fin n → ℕ) :
    Measurable (dispK X a b y) := by
  have hr : Measurable fun q : (Fin p → ℝ) × ℝ => rateOf X q.1 :=
    (measurable_rateOf X).comp measurable_fst
  have h2 : Measurable fun q : (Fin p → ℝ) × ℝ => posOr1 q.2 := measurable_posOr1.comp measurable_snd
  have hJ : Measurable (Function.uncurry fun (q : (Fin p → ℝ) × ℝ) (l : ℕ) =>
      CRT.crtJoint (rateOf X q.1) q.2 l) := by
    refine measurable_from_prod_countable_left fun l => ?_
    exact (h2.ennreal_ofReal.pow_const l).mul
      (Real.measurable_exp.comp ((hr.mul h2).neg)).ennreal_ofReal
  have hG : Measurable fun r : ((Fin p → ℝ) × ℝ) × ℕ =>
      gammaMeasure (a + r.2) (b⁻¹ + rateOf X r.1.1) := by
    refine measurable_from_prod_countable_left fun l => ?_
    exact (measurable_gammaMeasure_rate (a + l)).comp (hr.const_add _)
  have hK : Measurable fun q : (Fin p → ℝ) × ℝ =>
      bayes (CRT.polyMeas (CRT.crtPoly y)) (CRT.crtJoint (rateOf X q.1) q.2) :=
    measurable_bayes (f := fun (q : (Fin p → ℝ) × ℝ) (l : ℕ) =>
      CRT.crtJoint (rateOf X q.1) q.2 l) hJ
  have hp : ∀ q : (Fin p → ℝ) × ℝ, IsProbabilityMeasure
      (bayes (CRT.polyMeas (CRT.crtPoly y)) (CRT.crtJoint (rateOf X q.1) q.2)) := fun q =>
    isProbabilityMeasure_bayes (CRT.crtJoint_defined _ y _)
  have := measurable_bind_param hK hp hG
  unfold dispK CRT.crtKernel
  exact this

/-- The coefficients whose linear predictors sum to zero form a null set unless the columns of `X` sum
to zero. -/
theorem ae_sum_zero_iff {std : Fin p → ℝ} (hs : ∀ j, 0 < std j) (X : Matrix (Fin n) (Fin p) ℝ) :
    (∀ᵐ β ∂normalPrior std, ∑ i, (X *ᵥ β) i = 0) ↔ ∀ j, ∑ i, X i j = 0 := by
  have e : ∀ β : Fin p → ℝ, ∑ i, (X *ᵥ β) i = ∑ j, (∑ i, X i j) * β j := by
    intro β
    simp only [mulVec, dotProduct]
    rw [Finset.sum_comm]
    exact Finset.sum_congr rfl fun j _ => by rw [Finset.sum_mul]
  simp only [e]
  constructor
  · intro h j
    by_contra hj
    have hac := (mvn_absolutelyContinuous (0 : Fin p → ℝ)
      (PosDef.diagonal (d := fun j => (std j ^ 2)⁻¹) fun j => by have := hs j; positivity)).2
    rw [← normalPrior_eq_mvn hs] at hac
    have h1 : ∀ᵐ β : Fin p → ℝ, ∑ j, (∑ i, X i j) * β j = 0 := hac.ae_le h
    let f : (Fin p → ℝ) →ₗ[ℝ] ℝ := ∑ j, (∑ i, X i j) • LinearMap.proj j
    have hf : ∀ β, f β = ∑ j, (∑ i, X i j) * β j := fun β => by simp [f]
    have h2 : volume (LinearMap.ker f : Set (Fin p → ℝ)) = 0 := by
      refine Measure.addHaar_submodule _ _ fun ht => hj ?_
      have : Pi.single j (1 : ℝ) ∈ LinearMap.ker f := ht ▸ Submodule.mem_top
      rw [LinearMap.mem_ker, hf] at this
      simpa [Pi.single_apply] using this
    have h3 : ∀ᵐ β : Fin p → ℝ, β ∈ (LinearMap.ker f : Set (Fin p → ℝ)) := h1.mono fun β hβ => by
      change f β = 0
      rw [hf]
      exact hβ
    have h4 : volume (Set.univ : Set (Fin p → ℝ)) = 0 := by
      rw [← Set.union_compl_self (LinearMap.ker f : Set (Fin p → ℝ))]
      exact measure_union_null h2 (ae_iff.1 h3)
    exact NeZero.ne (volume : Measure (Fin p → ℝ)) (Measure.measure_univ_eq_zero.1 h4)
  · intro h
    exact ae_of_all _ fun β => by simp [h]

end Verif.NbReg
