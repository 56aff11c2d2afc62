import Verif.Iter.ErrorProps
import Verif.Prob.Quantiles
import Verif.Conj.OrderProps
import Verif.Calib.Props

/-!
# C95: quantiles and credible limits computed from the draws
-/

open MeasureTheory ProbabilityTheory Matrix Filter
open scoped ENNReal Topology

namespace Verif

variable {p n : ℕ}

/-! ### Where the posteriors have mass -/

theorem posOn_gaussian (m : ℝ) {v : NNReal} (hv : v ≠ 0) : PosOn Set.univ (gaussianReal m v) := by
  have := (gaussianReal_absolutelyContinuous' m hv).isOpenPosMeasure
  exact posOn_of_openPos _ _

theorem posOn_normalPrior {std : Fin p → ℝ} (hs : ∀ j, 0 < std j) : PosOn Set.univ (normalPrior std) := by
  have h := posOn_pi (D := fun _ : Fin p => Set.univ) (μ := fun j => gaussianReal 0 ((std j) ^ 2).toNNReal)
    fun j => posOn_gaussian 0 (by have := hs j; simp; positivity)
  have e : {x : Fin p → ℝ | ∀ j, x j ∈ (Set.univ : Set ℝ)} = Set.univ := Set.eq_univ_of_forall fun x j => trivial
  rwa [e] at h

theorem nbRegLik_ne_zero (X : Matrix (Fin n) (Fin p) ℝ) {h : Fin n → ℝ} (hh : ∀ i, 0 < h i) (y : Fin n → ℕ)
    (β : Fin p → ℝ) : nbRegLik X h y β ≠ 0 := by
  obtain ⟨c, hc, hl⟩ := nbRegLik_eq X hh y
  rw [hl]
  exact (ENNReal.ofReal_pos.2 (mul_pos hc (pgLik_pos _ _ _ _))).ne'

theorem bernRegLik_ne_zero (X : Matrix (Fin n) (Fin p) ℝ) (y : Fin n → Bool) (β : Fin p → ℝ) :
    bernRegLik sigmoid X y β ≠ 0 := by
  rw [bernRegLik_eq]
  exact (ENNReal.ofReal_pos.2 (mul_pos (by positivity) (pgLik_pos _ _ _ _))).ne'

theorem noGap_nbinom {std : Fin p → ℝ} (hs : ∀ j, 0 < std j) (X : Matrix (Fin n) (Fin p) ℝ) {h : Fin n → ℝ}
    (hh : ∀ i, 0 < h i) (y : Fin n → ℕ) {f : (Fin p → ℝ) → ℝ} (hf : Continuous f) :
    NoGap ((bayes (normalPrior std) (nbRegLik X h y)).map f) :=
  ((posOn_normalPrior hs).bayes isOpen_univ (measurable_nbRegLik X hh y) (fun β _ => nbRegLik_ne_zero X hh y β)
    (bayesDefined_nbRegLik X hh y _)).noGap isOpen_univ isPreconnected_univ (ae_of_all _ fun _ => trivial)
    hf.measurable hf.continuousOn

theorem noGap_bern {std : Fin p → ℝ} (hs : ∀ j, 0 < std j) (X : Matrix (Fin n) (Fin p) ℝ) (y : Fin n → Bool)
    {f : (Fin p → ℝ) → ℝ} (hf : Continuous f) :
    NoGap ((bayes (normalPrior std) (bernRegLik sigmoid X y)).map f) :=
  ((posOn_normalPrior hs).bayes isOpen_univ (measurable_bernRegLik X y) (fun β _ => bernRegLik_ne_zero X y β)
    (bayesDefined_bernRegLik X y _)).noGap isOpen_univ isPreconnected_univ (ae_of_all _ fun _ => trivial)
    hf.measurable hf.continuousOn

theorem posOn_gamma {a r : ℝ} (ha : 0 < a) (hr : 0 < r) : PosOn (Set.Ioi 0) (gammaMeasure a r) :=
  (posOn_of_openPos _ (volume : Measure ℝ)).withDensity isOpen_Ioi (measurable_gammaPDFReal a r).ennreal_ofReal
    fun _ hx => (ENNReal.ofReal_pos.2 (gammaPDFReal_pos ha hr hx)).ne'

theorem posOn_beta {a b : ℝ} (ha : 0 < a) (hb : 0 < b) : PosOn (Set.Ioo 0 1) (betaMeasure a b) :=
  (posOn_of_openPos _ (volume : Measure ℝ)).withDensity isOpen_Ioo (measurable_betaPDFReal a b).ennreal_ofReal
    fun _ hx => (ENNReal.ofReal_pos.2 (betaPDFReal_pos hx.1 hx.2 ha hb)).ne'

theorem ae_mem_beta (a b : ℝ) : ∀ᵐ x ∂betaMeasure a b, x ∈ Set.Ioo (0 : ℝ) 1 := by
  have hm : Measurable (betaPDF a b) := (measurable_betaPDFReal a b).ennreal_ofReal
  rw [betaMeasure, ae_withDensity_iff hm]
  refine ae_of_all _ fun x hx => ⟨not_le.1 fun h => hx (betaPDF_eq_zero_of_nonpos h),
    not_le.1 fun h => hx (betaPDF_eq_zero_of_one_le h)⟩

theorem noGap_beta {a b : ℝ} (ha : 0 < a) (hb : 0 < b) {f : ℝ → ℝ} (hf : Measurable f)
    (hc : ContinuousOn f (Set.Ioo 0 1)) : NoGap ((betaMeasure a b).map f) :=
  (posOn_beta ha hb).noGap isOpen_Ioo isPreconnected_Ioo (ae_mem_beta a b) hf hc

theorem noGap_gamma {a r : ℝ} (ha : 0 < a) (hr : 0 < r) {f : ℝ → ℝ} (hf : Measurable f)
    (hc : ContinuousOn f (Set.Ioi 0)) : NoGap ((gammaMeasure a r).map f) :=
  (posOn_gamma ha hr).noGap isOpen_Ioi isPreconnected_Ioi ae_pos_gammaMeasure hf hc

/-- Two laws of a vector that agree on every linear combination are equal. -/
theorem eq_of_map_dotProduct {π π' : Measure (Fin p → ℝ)} [IsProbabilityMeasure π] [IsProbabilityMeasure π']
    (h : ∀ c : Fin p → ℝ, π.map (fun β => c ⬝ᵥ β) = π'.map fun β => c ⬝ᵥ β) : π = π' := by
  refine Measure.ext_of_charFunDual (funext fun L => ?_)
  have e : (L : (Fin p → ℝ) → ℝ) = fun β => (fun j => L (Pi.single j 1)) ⬝ᵥ β := by
    funext β
    conv_lhs => rw [pi_eq_sum_univ' β]
    rw [map_sum]
    refine Finset.sum_congr rfl fun j _ => ?_
    rw [map_smul, smul_eq_mul, mul_comm]
  rw [charFunDual_eq_charFun_map_one, charFunDual_eq_charFun_map_one, e, h]

/-! ### Regressions -/

theorem continuous_dotProduct_left (c : Fin p → ℝ) : Continuous fun β : Fin p → ℝ => c ⬝ᵥ β := by
  unfold dotProduct
  fun_prop

/-- **C95 (partial).** Draws of `nbinom_normal_posterior`: sample quantiles of every continuous quantity of the
coefficients converge, to the quantiles of the posterior for prior standard deviations `sqrt std`. -/
theorem C95_nbinom_partial {la : LinAlg} (hla : la.Sound) {std : Fin p → ℝ} (hs : ∀ j, 0 < std j)
    (X : Matrix (Fin n) (Fin p) ℝ) {h : Fin n → ℝ} (hh : ∀ i, 0 < h i) (y : Fin n → ℕ) {f : (Fin p → ℝ) → ℝ}
    (hf : Continuous f) :
    QuantilesConverge Set.univ (bayes (normalPrior fun j => Real.sqrt (std j)) (nbRegLik X h y))
      (nbinomNormalPosterior la std X h y) f := by
  have hp := isProbabilityMeasure_bayes
    (bayesDefined_nbRegLik X hh y (normalPrior fun j => Real.sqrt (std j)))
  exact (C75_nbinom_strong_partial hla hs X hh y).quantiles hf.measurable
    (noGap_nbinom (fun j => Real.sqrt_pos.2 (hs j)) X hh y hf)

/-- **C95 (partial).** The credible limits of all linear predictors converge to those of the posterior exactly when
every prior standard deviation is 1. -/
theorem C95_nbinom_iff_partial {la : LinAlg} (hla : la.Sound) {std : Fin p → ℝ} (hs : ∀ j, 0 < std j)
    (X : Matrix (Fin n) (Fin p) ℝ) {h : Fin n → ℝ} (hh : ∀ i, 0 < h i) (y : Fin n → ℕ) :
    (∀ c : Fin p → ℝ, QuantilesConverge Set.univ (bayes (normalPrior std) (nbRegLik X h y))
      (nbinomNormalPosterior la std X h y) fun β => c ⬝ᵥ β) ↔ ∀ j, std j = 1 := by
  have hp := isProbabilityMeasure_bayes
    (bayesDefined_nbRegLik X hh y (normalPrior fun j => Real.sqrt (std j)))
  have hp' := isProbabilityMeasure_bayes (bayesDefined_nbRegLik X hh y (normalPrior std))
  constructor
  · intro h1
    have e := eq_of_map_dotProduct fun c => (nbinom_runs hla hs X hh y).quantiles_unique (Set.mem_univ 0)
      (Set.mem_univ 0) (continuous_dotProduct_left c).measurable (h1 c)
      (C95_nbinom_partial hla hs X hh y (continuous_dotProduct_left c))
    exact (C21_nbinom_step_iff_partial hla hs X hh y).1 ((C21_nbinom_step_target_partial hla hs X hh y _).2 e)
  · intro h1 c
    have e : (fun j => Real.sqrt (std j)) = std := funext fun j => by rw [h1 j, Real.sqrt_one]
    have := C95_nbinom_partial hla hs X hh y (continuous_dotProduct_left c)
    rwa [e] at this

/-- Prior standard deviation 1: from a given start there is a run, and in it the medians of the first coefficient over the draws
so far, however chosen, converge to the posterior median. -/
example (X : Matrix (Fin 3) (Fin 2) ℝ) (y : Fin 3 → ℕ) :
    ∃ (q : ℝ) (Ω : Type) (_ : MeasurableSpace Ω) (P : Measure Ω) (Z : ℕ → Ω → Fin 2 → ℝ),
      IsQuantile ((bayes (normalPrior fun _ => 1) (nbRegLik X (fun _ => 2) y)).map fun β => ![1, 0] ⬝ᵥ β) (1 / 2) q ∧
      IsProbabilityMeasure P ∧ IsRun (nbinomNormalPosterior stdLinAlg (fun _ => 1) X (fun _ => 2) y) ![1, 5] P Z ∧
      ∀ᵐ ω ∂P, ∃ s : ℕ → ℝ, (∀ n, 0 < n → IsSampleQuantile (1 / 2) (fun i => ![1, 0] ⬝ᵥ Z i ω) n (s n)) ∧
        Tendsto s atTop (𝓝 q) := by
  have hs : ∀ _ : Fin 2, (0 : ℝ) < 1 := fun _ => one_pos
  obtain ⟨q, hq, -, hc⟩ := (C95_nbinom_iff_partial stdLinAlg_sound hs X (fun _ => two_pos) y).2 (fun _ => rfl)
    ![1, 0] (1 / 2) (by norm_num) (by norm_num)
  obtain ⟨Ω, m, P, Z, hP, hr⟩ := (nbinom_runs stdLinAlg_sound hs X (fun _ => two_pos) y).exists_run
    (Set.mem_univ ![1, 5])
  refine ⟨q, Ω, m, P, Z, hq, hP, hr, ?_⟩
  filter_upwards [hc _ (Set.mem_univ _) Ω P Z hP hr] with ω hω
  choose! s hs' using fun (n : ℕ) (hn : 0 < n) => exists_sampleQuantile (α := 1 / 2) (by norm_num) (by norm_num)
    (fun i => ![1, 0] ⬝ᵥ Z i ω) hn
  exact ⟨s, hs', hω s hs'⟩

/-- Prior standard deviation 4: the limits are those for standard deviation 2, also of nonlinear quantities. -/
example (X : Matrix (Fin 3) (Fin 2) ℝ) (y : Fin 3 → ℕ) :
    QuantilesConverge Set.univ (bayes (normalPrior fun _ => Real.sqrt 4) (nbRegLik X (fun _ => 2) y))
      (nbinomNormalPosterior stdLinAlg (fun _ => 4) X (fun _ => 2) y) fun β => Real.exp (β 0 - β 1) :=
  C95_nbinom_partial stdLinAlg_sound (fun _ => by norm_num) X (fun _ => two_pos) y (by fun_prop)

/-- **C95 (partial).** The same for `bern_normal_posterior`, with success probability `sigmoid (X β)`. -/
theorem C95_bern_partial {la : LinAlg} (hla : la.Sound) {std : Fin p → ℝ} (hs : ∀ j, 0 < std j)
    (X : Matrix (Fin n) (Fin p) ℝ) (y : Fin n → Bool) {f : (Fin p → ℝ) → ℝ} (hf : Continuous f) :
    QuantilesConverge Set.univ (bayes (normalPrior fun j => Real.sqrt (std j)) (bernRegLik sigmoid X y))
      (bernNormalPosterior la std X y) f := by
  have hp := isProbabilityMeasure_bayes
    (bayesDefined_bernRegLik X y (normalPrior fun j => Real.sqrt (std j)))
  exact (C75_bern_strong_partial hla hs X y).quantiles hf.measurable
    (noGap_bern (fun j => Real.sqrt_pos.2 (hs j)) X y hf)

/-- **C95 (partial).** Credible limits of all linear predictors: those of the documented model exactly when every
prior standard deviation is 1; those of the model the finder matches exactly when moreover `Xᵀ (2 y - 1) = 0`. -/
theorem C95_bern_iff_partial {la : LinAlg} (hla : la.Sound) {std : Fin p → ℝ} (hs : ∀ j, 0 < std j)
    (X : Matrix (Fin n) (Fin p) ℝ) (y : Fin n → Bool) :
    ((∀ c : Fin p → ℝ, QuantilesConverge Set.univ (bayes (normalPrior std) (bernRegLik sigmoid X y))
        (bernNormalPosterior la std X y) fun β => c ⬝ᵥ β) ↔ ∀ j, std j = 1) ∧
    ((∀ c : Fin p → ℝ, QuantilesConverge Set.univ (bayes (normalPrior std) (bernRegLik (fun ψ => sigmoid (-ψ)) X y))
        (bernNormalPosterior la std X y) fun β => c ⬝ᵥ β) ↔
      (∀ j, std j = 1) ∧ (Xᵀ *ᵥ fun i => 2 * boolVal (y i) - 1) = 0) := by
  have hpt := isProbabilityMeasure_bayes
    (bayesDefined_bernRegLik X y (normalPrior fun j => Real.sqrt (std j)))
  have hp := isProbabilityMeasure_bayes (bayesDefined_bernRegLik X y (normalPrior std))
  have hd : BayesDefined (normalPrior std) (bernRegLik (fun ψ => sigmoid (-ψ)) X y) := by
    rw [funext (bernRegLik_neg X y)]
    exact bayesDefined_bernRegLik (-X) y _
  have hp' := isProbabilityMeasure_bayes hd
  have key : ∀ π : Measure (Fin p → ℝ), IsProbabilityMeasure π →
      ((∀ c : Fin p → ℝ, QuantilesConverge Set.univ π (bernNormalPosterior la std X y) fun β => c ⬝ᵥ β) ↔
        Stationary π (bernNormalPosterior la std X y)) := by
    intro π hπ
    rw [C22_bern_step_target_partial hla hs X y π]
    constructor
    · exact fun h1 => eq_of_map_dotProduct fun c => (bern_runs hla hs X y).quantiles_unique (Set.mem_univ 0)
        (Set.mem_univ 0) (continuous_dotProduct_left c).measurable (h1 c)
        (C95_bern_partial hla hs X y (continuous_dotProduct_left c))
    · rintro rfl c
      exact C95_bern_partial hla hs X y (continuous_dotProduct_left c)
  rw [key _ hp, key _ hp']
  exact ⟨C22_bern_step_iff_partial hla hs X y, C23_bern_finder_step_iff_partial hla hs X y⟩

/-- Prior standard deviation 1: right for the documented model, wrong for the matched one with one success. -/
example : (∀ c, QuantilesConverge Set.univ (bayes (normalPrior fun _ => 1) (bernRegLik sigmoid !![3] ![true]))
      (bernNormalPosterior stdLinAlg (fun _ => 1) !![3] ![true]) fun β => c ⬝ᵥ β) ∧
    QuantilesConverge Set.univ (bayes (normalPrior fun _ => Real.sqrt 1) (bernRegLik sigmoid !![3] ![true]))
      (bernNormalPosterior stdLinAlg (fun _ => 1) !![3] ![true]) (fun β => β 0 ^ 2) ∧
    ¬ ∀ c, QuantilesConverge Set.univ (bayes (normalPrior fun _ => 1) (bernRegLik (fun ψ => sigmoid (-ψ)) !![3] ![true]))
      (bernNormalPosterior stdLinAlg (fun _ => 1) !![3] ![true]) fun β => c ⬝ᵥ β := by
  obtain ⟨h1, h2⟩ := C95_bern_iff_partial stdLinAlg_sound (std := fun _ => 1) (fun _ => one_pos) !![3] ![true]
  refine ⟨h1.2 fun _ => rfl, C95_bern_partial stdLinAlg_sound (fun _ => one_pos) _ _ (by fun_prop), ?_⟩
  rw [h2]
  rintro ⟨-, h⟩
  have := congrFun h 0
  simp [Matrix.mulVec, dotProduct, boolVal] at this
  norm_num at this

/-- **C95 is violated**: one coefficient with prior standard deviation 2.  Whatever the design and the data, there
are credible limits of the coefficient which the draws of neither regression approach. -/
theorem C95_regression_violated {la : LinAlg} (hla : la.Sound) (X : Matrix (Fin n) (Fin 1) ℝ)
    {h : Fin n → ℝ} (hh : ∀ i, 0 < h i) (y : Fin n → ℕ) (z : Fin n → Bool) :
    ¬ QuantilesConverge Set.univ (bayes (normalPrior fun _ => 2) (nbRegLik X h y))
      (nbinomNormalPosterior la (fun _ => 2) X h y) (fun β => β 0) ∧
    ¬ QuantilesConverge Set.univ (bayes (normalPrior fun _ => 2) (bernRegLik sigmoid X z))
      (bernNormalPosterior la (fun _ => 2) X z) fun β => β 0 := by
  have h2 : ∀ _ : Fin 1, (0 : ℝ) < 2 := fun _ => two_pos
  have hp := isProbabilityMeasure_bayes
    (bayesDefined_nbRegLik X hh y (normalPrior fun _ : Fin 1 => Real.sqrt 2))
  have hp' := isProbabilityMeasure_bayes (bayesDefined_nbRegLik X hh y (normalPrior fun _ => 2))
  have hb := isProbabilityMeasure_bayes
    (bayesDefined_bernRegLik X z (normalPrior fun _ : Fin 1 => Real.sqrt 2))
  have hb' := isProbabilityMeasure_bayes (bayesDefined_bernRegLik X z (normalPrior fun _ => 2))
  have key : ∀ π π' : Measure (Fin 1 → ℝ), IsProbabilityMeasure π → IsProbabilityMeasure π' →
      π.map (fun β => β 0) = π'.map (fun β => β 0) → π = π' := by
    intro π π' _ _ e
    refine eq_of_map_dotProduct fun c => ?_
    have hc : (fun β : Fin 1 → ℝ => c ⬝ᵥ β) = (fun x => c 0 * x) ∘ fun β => β 0 := by
      funext β
      simp [dotProduct]
    have hm : Measurable fun x : ℝ => c 0 * x := by fun_prop
    rw [hc, ← Measure.map_map hm (measurable_pi_apply 0), e, Measure.map_map hm (measurable_pi_apply 0)]
  constructor
  · intro h1
    have e := key _ _ hp' hp ((nbinom_runs hla h2 X hh y).quantiles_unique (Set.mem_univ 0) (Set.mem_univ 0)
      (measurable_pi_apply 0) h1 (C95_nbinom_partial hla h2 X hh y (continuous_apply 0)))
    have := (C21_nbinom_step_iff_partial hla h2 X hh y).1 ((C21_nbinom_step_target_partial hla h2 X hh y _).2 e) 0
    norm_num at this
  · intro h1
    have e := key _ _ hb' hb ((bern_runs hla h2 X z).quantiles_unique (Set.mem_univ 0) (Set.mem_univ 0)
      (measurable_pi_apply 0) h1 (C95_bern_partial hla h2 X z (continuous_apply 0)))
    have := (C22_bern_step_iff_partial hla h2 X z).1 ((C22_bern_step_target_partial hla h2 X z _).2 e) 0
    norm_num at this

example (y : Fin 2 → ℕ) : ¬ QuantilesConverge Set.univ (bayes (normalPrior fun _ => 2) (nbRegLik !![1; 2] (fun _ => 3) y))
      (nbinomNormalPosterior stdLinAlg (fun _ => 2) !![1; 2] (fun _ => 3) y) fun β => β 0 :=
  (C95_regression_violated stdLinAlg_sound _ (fun _ => by norm_num) y fun _ => true).1

/-! ### Dispersion -/

section
open CRT

theorem noGap_dispersion {a b : ℝ} (ha : 0 < a) (hb : 0 < b) {p : Fin n → ℝ} (hp0 : ∀ i, 0 < p i)
    (hp1 : ∀ i, p i < 1) (y : Fin n → ℕ) {f : ℝ → ℝ} (hf : Measurable f) (hc : ContinuousOn f (Set.Ioi 0)) :
    NoGap ((bayes (gammaMeasure a b⁻¹) (nbDispLik p y)).map f) := by
  have hd := posterior_defined ha (inv_pos.2 hb) hp0 hp1 y
  have hae : ∀ᵐ h ∂bayes (gammaMeasure a b⁻¹) (nbDispLik p y), h ∈ Set.Ioi (0 : ℝ) :=
    (bayes_absolutelyContinuous _ _).ae_le ae_pos_gammaMeasure
  obtain ⟨c, hc0, hct, hl⟩ := nbDispLik_eq hp0 hp1 y
  have e : bayes (gammaMeasure a b⁻¹) (nbDispLik p y) =
      bayes (gammaMeasure a b⁻¹) fun h => c * crtMarg (-∑ i, Real.log (p i)) y h :=
    bayes_congr_ae ((ae_pos_gammaMeasure (a := a) (r := b⁻¹)).mono fun h hh => hl h hh)
  have hd' : BayesDefined (gammaMeasure a b⁻¹) fun h => c * crtMarg (-∑ i, Real.log (p i)) y h :=
    hd.congr_ae ((ae_pos_gammaMeasure (a := a) (r := b⁻¹)).mono fun h hh => hl h hh)
  rw [e] at hae ⊢
  exact ((posOn_gamma ha (inv_pos.2 hb)).bayes isOpen_Ioi ((measurable_crtMarg _ y).const_mul c)
    (fun h _ => mul_ne_zero hc0 (crtMarg_ne_zero _ y h)) hd').noGap isOpen_Ioi isPreconnected_Ioi hae hf hc

/-- **C95 (partial).** Draws of `nbinom_dispersion_posterior` from positive starts: every quantity continuous on the
positive numbers, with the posterior for success probabilities `1 - p`. -/
theorem C95_dispersion_partial {a b : ℝ} (ha : 0 < a) (hb : 0 < b) {p : Fin n → ℝ}
    (hp0 : ∀ i, 0 < p i) (hp1 : ∀ i, p i < 1) (y : Fin n → ℕ) {f : ℝ → ℝ} (hf : Measurable f)
    (hc : ContinuousOn f (Set.Ioi 0)) :
    QuantilesConverge (Set.Ioi 0) (bayes (gammaMeasure a b⁻¹) (nbDispLik (fun i => 1 - p i) y))
      (dispersionPosterior (List.ofFn p) a b (List.ofFn fun i => (y i : ℤ))) f := by
  have h0 : ∀ i, 0 < 1 - p i := fun i => by have := hp1 i; linarith
  have h1 : ∀ i, 1 - p i < 1 := fun i => by have := hp0 i; linarith
  have hpr := isProbabilityMeasure_bayes (posterior_defined ha (inv_pos.2 hb) h0 h1 y)
  exact (C75_dispersion_strong_iff_partial ha hb hp0 hp1 y).1.quantiles hf (noGap_dispersion ha hb h0 h1 y hf hc)

/-- **C95 (partial).** Credible limits of the dispersion under the posterior for success probabilities `p` exactly
when `∑ log p = ∑ log (1 - p)`. -/
theorem C95_dispersion_iff_partial {a b : ℝ} (ha : 0 < a) (hb : 0 < b) {p : Fin n → ℝ}
    (hp0 : ∀ i, 0 < p i) (hp1 : ∀ i, p i < 1) (y : Fin n → ℕ) :
    QuantilesConverge (Set.Ioi 0) (bayes (gammaMeasure a b⁻¹) (nbDispLik p y))
      (dispersionPosterior (List.ofFn p) a b (List.ofFn fun i => (y i : ℤ))) id ↔
      ∑ i, Real.log (p i) = ∑ i, Real.log (1 - p i) := by
  have h0 : ∀ i, 0 < 1 - p i := fun i => by have := hp1 i; linarith
  have h1 : ∀ i, 1 - p i < 1 := fun i => by have := hp0 i; linarith
  have hpr := isProbabilityMeasure_bayes (posterior_defined ha (inv_pos.2 hb) h0 h1 y)
  have hpr' := isProbabilityMeasure_bayes (posterior_defined ha (inv_pos.2 hb) hp0 hp1 y)
  have hq := C95_dispersion_partial ha hb hp0 hp1 y measurable_id continuousOn_id
  constructor
  · intro h2
    have e := (dispersion_runs ha hb hp0 hp1 y).2.quantiles_unique (Set.mem_Ioi.2 one_pos) (Set.mem_Ioi.2 one_pos)
      measurable_id h2 hq
    rw [Measure.map_id, Measure.map_id] at e
    refine (C94_dispersion_iff_partial ha hb hp0 hp1 y).1 ?_
    rw [e]
    exact C94_dispersion_partial ha hb hp0 hp1 y
  · intro h2
    rw [posterior_eq hp0 hp1, h2, ← posterior_eq h0 h1]
    exact hq

/-- **C95 is violated**: counts with a common success probability below one half. -/
theorem C95_dispersion_violated {a b : ℝ} (ha : 0 < a) (hb : 0 < b) (hn : 0 < n) {q : ℝ} (hq0 : 0 < q)
    (hq1 : q < 1 / 2) (y : Fin n → ℕ) :
    ¬ QuantilesConverge (Set.Ioi 0) (bayes (gammaMeasure a b⁻¹) (nbDispLik (fun _ => q) y))
      (dispersionPosterior (List.ofFn fun _ : Fin n => q) a b (List.ofFn fun i => (y i : ℤ))) id := by
  rw [C95_dispersion_iff_partial ha hb (fun _ => hq0) (fun _ => by linarith) y,
    ← C94_dispersion_iff_partial ha hb (fun _ => hq0) (fun _ => by linarith) y]
  exact C94_dispersion_violated ha hb hn hq0 hq1 y

/-- Success probabilities 1/4 and 3/4: right; 1/4 and 1/4: converging, but to the limits for 3/4 and 3/4. -/
example (y : Fin 2 → ℕ) :
    QuantilesConverge (Set.Ioi 0) (bayes (gammaMeasure 2 1⁻¹) (nbDispLik ![1 / 4, 3 / 4] y))
      (dispersionPosterior (List.ofFn ![1 / 4, 3 / 4]) 2 1 (List.ofFn fun i => (y i : ℤ))) id ∧
    QuantilesConverge (Set.Ioi 0) (bayes (gammaMeasure 2 1⁻¹) (nbDispLik (fun _ => 1 - 1 / 4) y))
      (dispersionPosterior (List.ofFn fun _ : Fin 2 => 1 / 4) 2 1 (List.ofFn fun i => (y i : ℤ))) Real.log ∧
    ¬ QuantilesConverge (Set.Ioi 0) (bayes (gammaMeasure 2 1⁻¹) (nbDispLik (fun _ => 1 / 4) y))
      (dispersionPosterior (List.ofFn fun _ : Fin 2 => 1 / 4) 2 1 (List.ofFn fun i => (y i : ℤ))) id := by
  refine ⟨(C95_dispersion_iff_partial two_pos one_pos (fun i => ?_) (fun i => ?_) y).2 ?_,
    C95_dispersion_partial two_pos one_pos (p := fun _ => 1 / 4) (fun _ => by norm_num) (fun _ => by norm_num) y
      Real.measurable_log (Real.continuousOn_log.mono fun x hx => ne_of_gt hx),
    C95_dispersion_violated two_pos one_pos (by norm_num) (by norm_num) (by norm_num) y⟩
  · fin_cases i <;> norm_num
  · fin_cases i <;> norm_num
  · rw [Fin.sum_univ_two, Fin.sum_univ_two]
    norm_num
    ring

end

/-! ### Samplers of several unknowns -/

theorem posOn_halfCauchy : PosOn (Set.Ioi 0) Horseshoe.halfCauchy := by
  have h : PosOn (Set.Ioi (0 : ℝ)) (volume.restrict (Set.Ioi (0 : ℝ))) := by
    intro U hU hne
    rw [Measure.restrict_apply hU.measurableSet]
    exact (hU.inter isOpen_Ioi).measure_ne_zero volume hne
  refine h.withDensity isOpen_Ioi (by fun_prop) fun x _ => (ENNReal.ofReal_pos.2 ?_).ne'
  have := Real.pi_pos
  positivity

/-- **C95 (partial).** Horseshoe step, rate reading, from positive starts: every quantity continuous on the positive
shrinkage parameters, given coefficients none of which is 0. -/
theorem C95_horseshoe_partial {β : Fin p → ℝ} (hβ : ∀ j, β j ≠ 0) {f : (Fin p → ℝ) × ℝ → ℝ} (hf : Measurable f)
    (hc : ContinuousOn f {s | (∀ j, 0 < s.1 j) ∧ 0 < s.2}) :
    QuantilesConverge {s | (∀ j, 0 < s.1 j) ∧ 0 < s.2} (Horseshoe.posterior β 1)
      (Horseshoe.horseshoeStep .rate β) f := by
  have hd := (Horseshoe.C28_rate_step_invariant_partial hβ).1
  have hpr : IsProbabilityMeasure (Horseshoe.posterior β 1) := isProbabilityMeasure_bayes hd
  have hD : ({s | (∀ j, 0 < s.1 j) ∧ 0 < s.2} : Set ((Fin p → ℝ) × ℝ)) =
      {x : Fin p → ℝ | ∀ j, x j ∈ Set.Ioi (0 : ℝ)} ×ˢ Set.Ioi 0 := rfl
  have e : {x : Fin p → ℝ | ∀ j, x j ∈ Set.Ioi (0 : ℝ)} = Set.univ.pi fun _ => Set.Ioi 0 := by
    ext x
    exact ⟨fun h j _ => h j, fun h j => h j (Set.mem_univ j)⟩
  have ho : IsOpen {x : Fin p → ℝ | ∀ j, x j ∈ Set.Ioi (0 : ℝ)} := by
    rw [e]
    exact isOpen_set_pi Set.finite_univ fun _ _ => isOpen_Ioi
  have hcv : Convex ℝ {x : Fin p → ℝ | ∀ j, x j ∈ Set.Ioi (0 : ℝ)} := by
    rw [e]
    exact convex_pi fun _ _ => convex_Ioi 0
  refine (C75_horseshoe_strong_partial hβ).quantiles hf ?_
  refine PosOn.noGap (D := {s | (∀ j, 0 < s.1 j) ∧ 0 < s.2}) ?_ ?_ ?_ (Horseshoe.ae_posterior_pos β 1) hf hc
  · rw [hD]
    refine PosOn.bayes (posOn_prod (posOn_pi fun _ => posOn_halfCauchy) posOn_halfCauchy) (ho.prod isOpen_Ioi)
      (Horseshoe.measurable_lik β 1) (fun q hq => ?_) hd
    refine (ENNReal.ofReal_pos.2 (Finset.prod_pos fun j _ => gaussianPDFReal_pos _ _ _ ?_)).ne'
    have h1 : 0 < q.1 j := hq.1 j
    have h2 : 0 < q.2 := hq.2
    exact (Real.toNNReal_pos.2 (by positivity)).ne'
  · rw [hD]
    exact ho.prod isOpen_Ioi
  · rw [hD]
    exact (hcv.prod (convex_Ioi 0)).isPreconnected

/-- The shrinkage factor of the first coefficient. -/
example : QuantilesConverge {s | (∀ j, 0 < s.1 j) ∧ 0 < s.2} (Horseshoe.posterior ![2, -1] 1)
    (Horseshoe.horseshoeStep .rate ![2, -1]) fun s => 1 / (1 + s.1 0 ^ 2 * s.2 ^ 2) := by
  refine C95_horseshoe_partial (fun j => by fin_cases j <;> norm_num) (by fun_prop) ?_
  refine (Continuous.div (by fun_prop) (by fun_prop) fun s => ?_).continuousOn
  positivity

/-- **C95 (partial).** Negative-binomial regression with normal coefficients and a gamma dispersion, when every prior
standard deviation is 1 and every column of the design sums to 0: quantiles of every quantity continuous where the
dispersion is positive converge to those of the joint posterior. -/
theorem C95_nbinom_joint_partial {la : LinAlg} (hla : la.Sound) {a b : ℝ} (ha : 0 < a) (hb : 0 < b)
    {X : Matrix (Fin n) (Fin p) ℝ} (hX : ∀ j, ∑ i, X i j = 0) (y : Fin n → ℕ) {f : (Fin p → ℝ) × ℝ → ℝ}
    (hf : Measurable f) (hc : ContinuousOn f {q | 0 < q.2}) :
    QuantilesConverge {q | 0 < q.2} (bayes (NbReg.nbPrior (fun _ => 1) a b) (NbReg.nbJointLik X y))
      (NbReg.sweep la (fun _ => 1) X a b y) f := by
  have hs : ∀ _ : Fin p, (0 : ℝ) < 1 := fun _ => one_pos
  have hpr := isProbabilityMeasure_bayes (NbReg.C59_posterior_exists (fun _ => 1) ha hb X y)
  have hst : StrongAverages {q | 0 < q.2} (bayes (NbReg.nbPrior (fun _ => 1) a b) (NbReg.nbJointLik X y))
      (NbReg.sweep la (fun _ => 1) X a b y) := fun q hq =>
    (C75_nbinom_joint_strong_iff_partial hla hs ha hb X y hq).2 ⟨fun _ => rfl, hX⟩ q rfl
  have hD : ({q | 0 < q.2} : Set ((Fin p → ℝ) × ℝ)) = Set.univ ×ˢ Set.Ioi 0 := by
    ext q
    exact ⟨fun h => ⟨trivial, h⟩, fun h => h.2⟩
  have ho : IsOpen ({q | 0 < q.2} : Set ((Fin p → ℝ) × ℝ)) := by
    rw [hD]
    exact isOpen_univ.prod isOpen_Ioi
  refine hst.quantiles hf (PosOn.noGap (D := {q | 0 < q.2}) ?_ ho ?_ ?_ hf hc)
  · have e : bayes (NbReg.nbPrior (fun _ : Fin p => 1) a b) (NbReg.nbJointLik X y) =
        bayes (NbReg.nbPrior (fun _ => 1) a b) (NbReg.lik' X y) :=
      bayes_congr_ae ((NbReg.ae_nbPrior_pos _ ha hb).mono fun _ hq => (NbReg.lik'_of_pos X y hq).symm)
    rw [e]
    refine PosOn.bayes ?_ ho (NbReg.measurable_lik' X y) (fun q _ => (NbReg.lik'_bounds X y q).1)
      (NbReg.bayesDefined_lik' _ ha hb X y)
    rw [hD]
    have := isProbabilityMeasure_gammaMeasure ha (inv_pos.2 hb)
    exact posOn_prod (posOn_normalPrior hs) (posOn_gamma ha (inv_pos.2 hb))
  · rw [hD]
    exact (convex_univ.prod (convex_Ioi (0 : ℝ))).isPreconnected
  · exact (bayes_absolutelyContinuous _ _).ae_le (NbReg.ae_nbPrior_pos _ ha hb)

/-- The mean count at a new point, two observations at opposite points. -/
example (y : Fin 2 → ℕ) : QuantilesConverge {q | 0 < q.2}
    (bayes (NbReg.nbPrior (fun _ => 1) 2 1) (NbReg.nbJointLik !![1; -1] y))
    (NbReg.sweep stdLinAlg (fun _ => 1) !![1; -1] 2 1 y) fun q => q.2 * Real.exp (3 * q.1 0) :=
  C95_nbinom_joint_partial stdLinAlg_sound two_pos one_pos
    (fun j => by fin_cases j; simp) y (by fun_prop) (Continuous.continuousOn (by fun_prop))

/-! ### Conjugate steps -/

section
open Conj

theorem freshDraw_quantiles_iff {law π : Measure ℝ} [IsProbabilityMeasure law] [IsProbabilityMeasure π]
    (hg : NoGap (law.map id)) : QuantilesConverge Set.univ π (freshDraw law) id ↔ law = π := by
  have hq := (freshDraw_strong law).quantiles measurable_id hg
  constructor
  · intro h
    have e := (freshDraw_runs law).quantiles_unique (Set.mem_univ 0) (Set.mem_univ 0) measurable_id hq h
    rwa [Measure.map_id, Measure.map_id] at e
  · rintro rfl
    exact hq

/-- **C95, beta-binomial.** Quantiles, over draws from the beta-binomial step, of every quantity continuous between 0
and 1 converge to those of the posterior. -/
theorem C95_beta_binomial {rng Y latent post : Expr}
    (h : betaBinomialFinder rng Y = some [(latent, post)])
    {sh : SShape} {rY sY dY nE pE : Expr} (hY : Y = .app (.rv .binomial) sh [rY, sY, dY, nE, pE])
    (ρ : Env) {n y : ℕ} (hn : evalE ρ nE = some (n : ℝ)) (hread : ¬ Reads latent nE)
    (hy : ρ Y = y) (hyn : y ≤ n) {a b : ℝ} (ha : 0 < a) (hb : 0 < b) (hprior : lawAt ρ latent = some (betaMeasure a b))
    {f : ℝ → ℝ} (hf : Measurable f) (hc : ContinuousOn f (Set.Ioo 0 1)) :
    ∃ law, lawAt ρ post = some law ∧
      QuantilesConverge Set.univ (bayes (betaMeasure a b) (likAt ρ latent Y y)) (freshDraw law) f := by
  obtain ⟨hd, hl⟩ := C12_beta_binomial_exact h hY ρ hn hread hy hyn hprior
  have hpr := isProbabilityMeasure_bayes hd
  refine ⟨_, hl, (freshDraw_strong _).quantiles hf ?_⟩
  have h2 := beta_binomial_step_law h hY ρ hn hy hyn ha hb hprior
  rw [hl, Option.some.injEq] at h2
  rw [h2]
  have : (y : ℝ) ≤ n := by exact_mod_cast hyn
  exact noGap_beta (by positivity) (by linarith) hf hc

/-- Five trials, three successes, prior `Beta(2, 1)`: the log odds. -/
example : ∃ (ρ : Env) (post : Expr) (law : Measure ℝ),
    betaBinomialFinder (exRng 0) (exBinomial 5 (exBeta 2 1)) = some [(exBeta 2 1, post)] ∧
    lawAt ρ post = some law ∧ QuantilesConverge Set.univ
      (bayes (betaMeasure 2 1) (likAt ρ (exBeta 2 1) (exBinomial 5 (exBeta 2 1)) (3 : ℕ)))
      (freshDraw law) fun θ => Real.log (θ / (1 - θ)) := by
  obtain ⟨law, h1, h2⟩ := C95_beta_binomial (rng := exRng 0)
    (Y := exBinomial 5 (exBeta 2 1)) (latent := exBeta 2 1) rfl rfl (fun _ => 3) (n := 5) (y := 3)
    (by simp [exNum, evalE]) (by intro h; cases h) (by norm_num) (by norm_num)
    two_pos one_pos (by simp [exBeta, lawAt, exNum, evalE, rvLaw])
    (f := fun θ => Real.log (θ / (1 - θ))) (by fun_prop) (by
      refine ContinuousOn.log (ContinuousOn.div continuousOn_id (by fun_prop) fun x hx => ?_) fun x hx => ?_
      · exact (sub_pos.2 hx.2).ne'
      · exact (div_pos hx.1 (sub_pos.2 hx.2)).ne')
  exact ⟨_, _, law, rfl, h1, h2⟩

/-- **C95 (partial).** Gamma-Poisson step: exactly when the rate of the prior is 1. -/
theorem C95_gamma_poisson_iff_partial {rng Y latent post : Expr}
    (h : gammaPoissonFinder rng Y = some [(latent, post)]) (ρ : Env) {y : ℕ} (hy : ρ Y = y)
    {sh : SShape} {r sz d aE bE : Expr} (hL : latent = .app (.rv .gamma) sh [r, sz, d, aE, bE])
    {a b : ℝ} (ha : evalE ρ aE = some a) (hb : evalE ρ bE = some (1 / b)) (ha0 : 0 < a) (hb0 : 0 < b) :
    ∃ prior law, lawAt ρ latent = some prior ∧ prior = gammaMeasure a b ∧ lawAt ρ post = some law ∧
      (QuantilesConverge Set.univ (bayes prior (likAt ρ latent Y y)) (freshDraw law) id ↔ b = 1) := by
  have hs : 0 < 1 / b := by positivity
  obtain ⟨-, h2, -⟩ := gamma_poisson_step_law h ρ hy hL ha hb ha0 hs
  obtain ⟨prior, h3, h4, h5, h6⟩ := C13_gamma_poisson_exact_iff_partial h ρ hy hL ha hb ha0 hb0
  have := isProbabilityMeasure_gammaMeasure (a := a + y) (r := 1 / b + 1) (by positivity) (by positivity)
  have := isProbabilityMeasure_bayes h5
  refine ⟨prior, _, h3, h4, h2, ?_⟩
  rw [freshDraw_quantiles_iff (noGap_gamma (by positivity) (by positivity) measurable_id continuousOn_id), ← h6, h2,
    Option.some.injEq]

/-- Prior `Gamma(1, rate 2)`: never. -/
example : ∃ (ρ : Env) (post : Expr) (law : Measure ℝ),
    gammaPoissonFinder (exRng 0) (exPoisson (exGamma 1 (1 / 2))) = some [(exGamma 1 (1 / 2), post)] ∧
    lawAt ρ post = some law ∧
    ¬ QuantilesConverge Set.univ (bayes (gammaMeasure 1 2)
      (likAt ρ (exGamma 1 (1 / 2)) (exPoisson (exGamma 1 (1 / 2))) (7 : ℕ))) (freshDraw law) id := by
  obtain ⟨-, law, -, rfl, h3, h4⟩ := C95_gamma_poisson_iff_partial (rng := exRng 0)
    (Y := exPoisson (exGamma 1 (1 / 2))) rfl (fun _ => 7) (y := 7) (by norm_num)
    (latent := exGamma 1 (1 / 2)) rfl (a := 1) (b := 2) (by simp [exNum, evalE])
    (by simp [exNum, evalE]) (by norm_num) (by norm_num)
  exact ⟨_, _, law, rfl, h3, fun hc => by have := h4.1 hc; norm_num at this⟩

/-- **C95 (partial).** Beta-negative-binomial step: exactly when the count equals the number of successes. -/
theorem C95_beta_nbinom_iff_partial {rng Y latent post : Expr}
    (h : betaNegBinomialFinder rng Y = some [(latent, post)])
    {shY : SShape} {rY sY dY nE pE : Expr} (hY : Y = .app (.rv .nbinom) shY [rY, sY, dY, nE, pE])
    (ρ : Env) {n : ℝ} (hn : evalE ρ nE = some n) (hn0 : 0 < n) (hread : ¬ Reads latent nE)
    {y : ℕ} (hy : ρ Y = y) {prior : Measure ℝ} (hprior : lawAt ρ latent = some prior) :
    ∃ law, lawAt ρ post = some law ∧
      (QuantilesConverge Set.univ (bayes prior (likAt ρ latent Y y)) (freshDraw law) id ↔ (y : ℝ) = n) := by
  obtain ⟨a, b, ha, hb, hp, hd, hl, -, h6⟩ :=
    C14_beta_nbinom_exact_iff_partial h hY ρ hn hn0 hread hy hprior
  have := isProbabilityMeasureBeta (α := a + y) (β := b + n) (by positivity) (by positivity)
  have := isProbabilityMeasure_bayes hd
  refine ⟨_, hl, ?_⟩
  rw [freshDraw_quantiles_iff (noGap_beta (by positivity) (by positivity) measurable_id continuousOn_id), ← h6, hl,
    Option.some.injEq]

/-- Ten required successes and a count of 0. -/
example : ∃ (ρ : Env) (post : Expr) (law : Measure ℝ),
    betaNegBinomialFinder (exRng 0) (exNbinom 10 (exBeta 1 1)) = some [(exBeta 1 1, post)] ∧
    lawAt ρ post = some law ∧
    ¬ QuantilesConverge Set.univ (bayes (betaMeasure 1 1)
      (likAt ρ (exBeta 1 1) (exNbinom 10 (exBeta 1 1)) (0 : ℕ))) (freshDraw law) id := by
  obtain ⟨law, h1, h2⟩ := C95_beta_nbinom_iff_partial (rng := exRng 0)
    (Y := exNbinom 10 (exBeta 1 1)) (latent := exBeta 1 1) rfl rfl (fun _ => 0) (n := 10) (y := 0)
    (by simp [exNum, evalE]) (by norm_num) (by intro h; cases h) (by norm_num)
    (prior := betaMeasure 1 1) (by simp [exBeta, lawAt, exNum, evalE, rvLaw])
  exact ⟨_, _, law, rfl, h1, fun hc => by have := h2.1 hc; norm_num at this⟩

end

end Verif
