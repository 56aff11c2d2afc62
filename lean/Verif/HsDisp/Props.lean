import Verif.HsDisp.Moments
import Verif.HsReg.Props

/-!
# The negative-binomial regression with a horseshoe prior and an unknown dispersion (C66)
-/

open MeasureTheory ProbabilityTheory Matrix
open scoped ENNReal

namespace Verif.HsDisp

variable {p n : ℕ}

theorem ae_posterior_good (X : Matrix (Fin n) (Fin p) ℝ) {a b : ℝ} (ha : 0 < a) (hb : 0 < b)
    (y : Fin n → ℕ) : ∀ᵐ r ∂posterior X a b y, Good r :=
  (bayes_absolutelyContinuous _ _).ae_le (ae_prior_good p ha hb)

/-- Steps that keep the dispersion, in terms of the conditional law given the dispersion. -/
theorem stationary_first_iff (X : Matrix (Fin n) (Fin p) ℝ) {a b : ℝ} (ha : 0 < a) (hb : 0 < b)
    (y : Fin n → ℕ) {K : State p → Measure ((Fin p → ℝ) × ((Fin p → ℝ) × ℝ))} (hK : Measurable K)
    (hp : ∀ r, IsProbabilityMeasure (K r)) :
    Stationary (posterior X a b y) (onFirst K) ↔ ∀ᵐ h ∂gammaMeasure a b⁻¹,
      Stationary (HsReg.hsPosterior (nbRegLik X (fun _ => h) y)) fun q => K (q, h) := by
  have hQ := isProbabilityMeasure_gammaMeasure ha (inv_pos.2 hb)
  have := prob_hsPrior p
  rw [posterior_eq X y ha hb]
  unfold prior
  rw [stationary_onFirst_iff (measurable_likS X y) (posterior_defined X ha hb y) hK hp]
  refine Filter.eventually_congr ?_
  filter_upwards [ae_pos_gammaMeasure (a := a) (r := b⁻¹)] with h hh
  have e : (fun q : (Fin p → ℝ) × ((Fin p → ℝ) × ℝ) => likS X y (q, h)) =
      fun q => nbRegLik X (fun _ => h) y q.1 := funext fun q => by
    rw [likS, NbReg.lik'_of_pos X y (q := (q.1, h)) hh]
    rfl
  rw [e]
  rfl

/-- The joint posterior the theorems speak about exists. -/
theorem C66_posterior_exists (X : Matrix (Fin n) (Fin p) ℝ) {a b : ℝ} (ha : 0 < a) (hb : 0 < b)
    (y : Fin n → ℕ) :
    BayesDefined (prior p a b) (fun r => NbReg.nbJointLik X y (r.1.1, r.2)) ∧
      IsProbabilityMeasure (posterior X a b y) :=
  ⟨(posterior_defined X ha hb y).congr_ae (ae_likS X y ha hb),
    isProbabilityMeasure_bayes ((posterior_defined X ha hb y).congr_ae (ae_likS X y ha hb))⟩

example : IsProbabilityMeasure (posterior !![1, 0; 2, 1] 2 1 ![0, 4]) :=
  (C66_posterior_exists _ two_pos one_pos _).2

/-- **C66 (partial).** The step of the shrinkage parameters leaves the joint posterior invariant if and
only if `exponential` reads its argument as a rate.  The full property asks for this with the library's
reading, for the other steps and for the whole call. -/
theorem C66_shrink_step_iff_partial (conv : Horseshoe.ExpArg) (hp : 0 < p) (X : Matrix (Fin n) (Fin p) ℝ)
    {a b : ℝ} (ha : 0 < a) (hb : 0 < b) (y : Fin n → ℕ) :
    Stationary (posterior X a b y) (shrinkStep conv) ↔ conv = .rate := by
  have hQ := isProbabilityMeasure_gammaMeasure ha (inv_pos.2 hb)
  let K : State p → Measure ((Fin p → ℝ) × ((Fin p → ℝ) × ℝ)) := fun r => onSecond (HsReg.shrinkK conv) r.1
  have hK : Measurable K :=
    (measurable_onSecond (HsReg.measurable_shrinkK conv) (HsReg.prob_shrinkK conv)).comp measurable_fst
  have hK1 : ∀ r, IsProbabilityMeasure (K r) := fun r => by
    have := HsReg.prob_shrinkK conv r.1
    exact Measure.isProbabilityMeasure_map measurable_prodMk_left.aemeasurable
  have hae : shrinkStep conv =ᵐ[posterior X a b y] onFirst K := by
    filter_upwards [ae_posterior_good X ha hb y] with r hr
    rw [shrinkStep, HsReg.shrinkStep, HsReg.shrinkK_eq conv r.1.1 hr.1]
    rfl
  have h1 : Stationary (posterior X a b y) (shrinkStep conv) ↔ Stationary (posterior X a b y) (onFirst K) :=
    ⟨fun h => h.congr_ae hae, fun h => h.congr_ae hae.symm⟩
  rw [h1, stationary_first_iff X ha hb y hK hK1]
  have h2 : ∀ᵐ h ∂gammaMeasure a b⁻¹,
      (Stationary (HsReg.hsPosterior (nbRegLik X (fun _ => h) y)) fun q => K (q, h)) ↔ conv = .rate := by
    filter_upwards [ae_pos_gammaMeasure (a := a) (r := b⁻¹)] with h hh
    obtain ⟨F⟩ := HsReg.nbForm X (h := fun _ => h) (fun _ => hh) y
    cases conv
    · exact iff_of_true (HsReg.shrink_rate F) rfl
    · exact iff_of_false (HsReg.shrink_scale_never F hp) (by simp)
  rw [Filter.eventually_congr h2, Filter.eventually_const]

example : Stationary (posterior !![1, 0; 2, 1] 2 1 ![0, 4]) (shrinkStep .rate) ∧
    ¬ Stationary (posterior !![1, 0; 2, 1] 2 1 ![0, 4]) (shrinkStep .scale) :=
  ⟨(C66_shrink_step_iff_partial .rate two_pos _ two_pos one_pos _).2 rfl, fun h =>
    absurd ((C66_shrink_step_iff_partial .scale two_pos _ two_pos one_pos _).1 h) (by simp)⟩

/-- **C66 is violated** by the step of the coefficients, for every data set and at least one
coefficient. -/
theorem C66_coef_step_violated {la : LinAlg} (hla : la.Sound) (hp : 0 < p) (X : Matrix (Fin n) (Fin p) ℝ)
    {a b : ℝ} (ha : 0 < a) (hb : 0 < b) (y : Fin n → ℕ) :
    ¬ Stationary (posterior X a b y) (coefStep la X y) := by
  intro hst
  have hQ := isProbabilityMeasure_gammaMeasure ha (inv_pos.2 hb)
  let K0 : State p → Measure (Fin p → ℝ) := fun r =>
    coefP X y (fun j => (r.1.2.1 j * r.1.2.2)⁻¹, (r.1.1, r.2))
  have hK0 : Measurable K0 := (measurable_coefP X y).comp (by fun_prop)
  let K : State p → Measure ((Fin p → ℝ) × ((Fin p → ℝ) × ℝ)) := fun r => (K0 r).map fun β => (β, r.1.2)
  have hK : Measurable K := measurable_map_param hK0 (fun r => prob_coefP X y _)
    (g := fun v : State p × (Fin p → ℝ) => (v.2, v.1.1.2)) (by fun_prop)
  have hK1 : ∀ r, IsProbabilityMeasure (K r) := fun r => by
    have : IsProbabilityMeasure (K0 r) := prob_coefP X y _
    exact Measure.isProbabilityMeasure_map (by fun_prop)
  have hKeq : ∀ q : (Fin p → ℝ) × ((Fin p → ℝ) × ℝ), ∀ h : ℝ, Horseshoe.AllPos q.2 → 0 < h →
      HsReg.nbCoefStep la X (fun _ => h) y q = K (q, h) := by
    intro q h hq hh
    have hd : ∀ j, 0 < q.2.1 j * q.2.2 := fun j => mul_pos (hq.1 j) hq.2
    rw [HsReg.nbCoefStep, NbReg.coefK_eq hla hd X y hh]
    simp only [K, K0, coefP, posOr1_of_pos (inv_pos.2 (hd _))]
  have hae : coefStep la X y =ᵐ[posterior X a b y] onFirst K := by
    filter_upwards [ae_posterior_good X ha hb y] with r hr
    rw [coefStep, hKeq r.1 r.2 hr.1 hr.2]
    rfl
  have h2 := (stationary_first_iff X ha hb y hK hK1).1 (hst.congr_ae hae)
  obtain ⟨h, hh, h3⟩ := ((ae_pos_gammaMeasure (a := a) (r := b⁻¹)).and h2).exists
  obtain ⟨F⟩ := HsReg.nbForm X (h := fun _ => h) (fun _ => hh) y
  refine HsReg.C60_nbinom_coef_step_violated hla hp X (h := fun _ => h) (fun _ => hh) y (h3.congr_ae ?_)
  filter_upwards [HsReg.ae_hsPosterior_pos _ F.measurable] with q hq using (hKeq q h hq hh).symm

example : ¬ Stationary (posterior !![1, 0; 2, 1] 2 1 ![0, 4]) (coefStep stdLinAlg !![1, 0; 2, 1] ![0, 4]) :=
  C66_coef_step_violated stdLinAlg_sound two_pos _ two_pos one_pos _

/-- What holds almost surely under the horseshoe prior and concerns the coefficients only. -/
theorem ae_hsPrior_coef_iff {P : (Fin p → ℝ) → Prop} :
    (∀ᵐ q ∂HsReg.hsPrior p, P q.1) ↔ ∀ᵐ β : Fin p → ℝ, P β := by
  rw [HsReg.hsPrior_eq]
  constructor
  · intro h
    rw [ae_withDensity_iff HsReg.measurable_dens] at h
    have h1 : ∀ᵐ q ∂(volume : Measure (Fin p → ℝ)).prod (Horseshoe.prior p), P q.1 := by
      filter_upwards [h, HsReg.ae_dens_pos] with q hq hpos
      refine hq ?_
      have : 0 < ∏ j, gaussianPDFReal 0 (q.2.1 j ^ 2 * q.2.2 ^ 2 * 1).toNNReal (q.1 j) :=
        Finset.prod_pos fun j _ => gaussianPDFReal_pos _ _ _ (by
          have h2 := hpos.1 j
          have h3 := hpos.2
          have : 0 < q.2.1 j ^ 2 * q.2.2 ^ 2 * 1 := by positivity
          simpa using this)
      simpa [HsReg.dens, Horseshoe.lik] using this
    filter_upwards [Measure.ae_ae_of_ae_prod h1] with β hβ
    exact hβ.exists.choose_spec
  · intro h
    exact (withDensity_absolutelyContinuous _ _).ae_le (Measure.quasiMeasurePreserving_fst.ae h)

/-- **C66 (partial).** The step of the dispersion leaves the joint posterior invariant if and only if every
column of `X` sums to zero.  The full property asks for the left-hand side always. -/
theorem C66_dispersion_step_iff_partial (X : Matrix (Fin n) (Fin p) ℝ) {a b : ℝ} (ha : 0 < a) (hb : 0 < b)
    (y : Fin n → ℕ) :
    Stationary (posterior X a b y) (dispStep X a b y) ↔ ∀ j, ∑ i, X i j = 0 := by
  have hQ := isProbabilityMeasure_gammaMeasure ha (inv_pos.2 hb)
  have := prob_hsPrior p
  let K : State p → Measure ℝ := fun r => NbReg.dispK X a b y (r.1.1, r.2)
  have hK : Measurable K := (NbReg.measurable_dispK X a b y).comp (by fun_prop)
  have hae : dispStep X a b y =ᵐ[posterior X a b y] onSecond K := by
    filter_upwards [ae_posterior_good X ha hb y] with r hr
    rw [dispStep, NbReg.dispK_eq X a b y hr.2 r.1.1]
    rfl
  have h1 : Stationary (posterior X a b y) (dispStep X a b y) ↔ ∀ᵐ q ∂HsReg.hsPrior p,
      Stationary (bayes (gammaMeasure a b⁻¹) fun h => NbReg.lik' X y (q.1, h))
        fun h => NbReg.dispK X a b y (q.1, h) := by
    have h2 : Stationary (posterior X a b y) (dispStep X a b y) ↔
        Stationary (posterior X a b y) (onSecond K) :=
      ⟨fun h => h.congr_ae hae, fun h => h.congr_ae hae.symm⟩
    rw [h2, posterior_eq X y ha hb]
    exact stationary_onSecond_iff (measurable_likS X y) (posterior_defined X ha hb y) hK
      fun r => NbReg.prob_dispK X ha hb y _
  have h3 := NbReg.C59_dispersion_step_iff_partial (std := fun _ : Fin p => (1 : ℝ)) (fun _ => one_pos)
    ha hb X y
  have key : ∀ β : Fin p → ℝ, (Stationary (bayes (gammaMeasure a b⁻¹) fun h => NbReg.lik' X y (β, h))
      fun h => NbReg.dispK X a b y (β, h)) ↔ ∑ i, (X *ᵥ β) i = 0 := by
    intro β
    rw [← CRT.C32_finder_step_iff_partial ha hb X β y]
    have hpos := ae_pos_gammaMeasure (a := a) (r := b⁻¹)
    have e1 : bayes (gammaMeasure a b⁻¹) (fun h => NbReg.lik' X y (β, h)) =
        bayes (gammaMeasure a b⁻¹) (CRT.nbDispLik (fun i => sigmoid (-(X *ᵥ β) i)) y) :=
      bayes_congr_ae (hpos.mono fun h hh => NbReg.lik'_of_pos X y (q := (β, h)) hh)
    rw [e1]
    have e2 : (fun h => NbReg.dispK X a b y (β, h)) =ᵐ[bayes (gammaMeasure a b⁻¹)
        (CRT.nbDispLik (fun i => sigmoid (-(X *ᵥ β) i)) y)]
        CRT.finderDispersion X β a b (List.ofFn fun i => (y i : ℤ)) :=
      (bayes_absolutelyContinuous _ _).ae_le (hpos.mono fun h hh => (NbReg.dispK_eq X a b y hh β).symm)
    exact ⟨fun h => h.congr_ae e2, fun h => h.congr_ae e2.symm⟩
  rw [h1]
  simp only [key]
  rw [ae_hsPrior_coef_iff (P := fun β => ∑ i, (X *ᵥ β) i = 0),
    ← NbReg.ae_sum_zero_iff (std := fun _ : Fin p => (1 : ℝ)) (fun _ => one_pos) X]
  have hac := mvn_absolutelyContinuous (0 : Fin p → ℝ)
    (PosDef.diagonal (d := fun _ => ((1 : ℝ) ^ 2)⁻¹) fun j => by norm_num)
  rw [← normalPrior_eq_mvn (std := fun _ : Fin p => (1 : ℝ)) (fun _ => one_pos)] at hac
  exact ⟨fun h => hac.1.ae_le h, fun h => hac.2.ae_le h⟩

/-- **C66 is violated** by one call of the sampler: for every design, every vector of counts, every gamma
prior, at least one coefficient, both readings of the argument of `exponential`, and whichever of the old
and the new shrinkage parameters the step of the coefficients reads. -/
theorem C66_call_violated (conv : Horseshoe.ExpArg) (rd : Reads) {la : LinAlg} (hla : la.Sound)
    (hp : 0 < p) (X : Matrix (Fin n) (Fin p) ℝ) {a b : ℝ} (ha : 0 < a) (hb : 0 < b) (y : Fin n → ℕ) :
    ¬ Stationary (posterior X a b y) (call conv rd la X a b y) := by
  intro hst
  have r := call_runs (p := p) conv rd hla X ha hb y
  have h := hst.congr_ae (K' := callK conv rd X a b y)
    ((ae_posterior_good X ha hb y).mono fun q hq => r.eq q hq)
  exact callK_never conv rd X ha hb y ⟨0, hp⟩ h.2

/-- **C66 is violated** in the limit too: from no start with positive shrinkage parameters and a positive
dispersion do repeated calls converge to the joint posterior. -/
theorem C66_limit_violated (conv : Horseshoe.ExpArg) (rd : Reads) {la : LinAlg} (hla : la.Sound)
    (hp : 0 < p) (X : Matrix (Fin n) (Fin p) ℝ) {a b : ℝ} (ha : 0 < a) (hb : 0 < b) (y : Fin n → ℕ)
    {r : ((Fin p → ℝ) × ((Fin p → ℝ) × ℝ)) × ℝ} (h1 : ∀ j, 0 < r.1.2.1 j) (h2 : 0 < r.1.2.2)
    (h3 : 0 < r.2) :
    ¬ ConvergesFrom {r} (posterior X a b y) (call conv rd la X a b y) := fun h =>
  C66_call_violated conv rd hla hp X ha hb y
    ((call_runs conv rd hla X ha hb y).stationary (θ := r) ⟨⟨h1, h2⟩, h3⟩ h)

/-- The model of `/repo/tests/test_basic.py`, with three observations of four regressors. -/
example (X : Matrix (Fin 3) (Fin 4) ℝ) :
    ¬ Stationary (posterior X 100 0.01 ![4, 0, 1])
      (call .scale ⟨false, false⟩ stdLinAlg X 100 0.01 ![4, 0, 1]) :=
  C66_call_violated .scale _ stdLinAlg_sound (by norm_num) X (by norm_num) (by norm_num) _

example : ¬ ConvergesFrom {((![0, 1], (![1, 2], 3)), 5)} (posterior !![1, 0; 2, 1] 2 1 ![0, 4])
    (call .rate ⟨false, true⟩ stdLinAlg !![1, 0; 2, 1] 2 1 ![0, 4]) :=
  C66_limit_violated .rate _ stdLinAlg_sound (by norm_num) _ two_pos one_pos _
    (fun j => by fin_cases j <;> norm_num) (by norm_num) (by norm_num)

/-- Designs for which the dispersion step is right and wrong. -/
example (y : Fin 2 → ℕ) : Stationary (posterior !![1; -1] 2 1 y) (dispStep !![1; -1] 2 1 y) ∧
    ¬ Stationary (posterior !![1; 1] 2 1 y) (dispStep !![1; 1] 2 1 y) := by
  constructor
  · rw [C66_dispersion_step_iff_partial _ two_pos one_pos]
    intro j
    fin_cases j
    simp
  · rw [C66_dispersion_step_iff_partial _ two_pos one_pos]
    intro h
    have := h 0
    norm_num [Fin.sum_univ_two] at this

end Verif.HsDisp
