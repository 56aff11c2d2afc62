import Verif.Iter.JointProps
import Verif.PG.Other

/-!
# C27: the shrinkage step for other priors than the standard horseshoe
-/

open MeasureTheory ProbabilityTheory Real Set Filter
open scoped ENNReal Topology

namespace Verif.Horseshoe

variable {p : ℕ}

/-- The step keeps no other law of positive parameters than the standard horseshoe's posterior. -/
theorem rate_unique {β : Fin p → ℝ} (hβ : ∀ j, β j ≠ 0) {μ : Measure ((Fin p → ℝ) × ℝ)}
    [IsProbabilityMeasure μ] (hpos : ∀ᵐ q ∂μ, AllPos q) :
    Stationary μ (horseshoeStep .rate β) ↔ μ = posterior β 1 := by
  refine ⟨fun h => ?_, fun h => h ▸ (C28_rate_step_invariant_partial hβ).2⟩
  have r := horseshoe_runs .rate β
  have hc : ConvergesFrom {s | (∀ j, 0 < s.1 j) ∧ 0 < s.2} μ (horseshoeStep .rate β) := by
    refine r.converges (m := Shared.resClass p)
      (fun s => Measure.AbsolutelyContinuous.mk fun T hT h => (Shared.shrinkK_null _ _ hT).1 h)
      (fun s => Measure.AbsolutelyContinuous.mk fun T hT h => (Shared.shrinkK_null _ _ hT).2 h) ?_
    refine (h.congr_ae ?_).2
    filter_upwards [hpos] with s hs using r.eq s hs
  have hc' := C65_horseshoe_converges_partial hβ
  refine Measure.ext fun S hS => ?_
  have h0 : ((fun _ => 1, 1) : (Fin p → ℝ) × ℝ) ∈ {s : (Fin p → ℝ) × ℝ | (∀ j, 0 < s.1 j) ∧ 0 < s.2} :=
    ⟨fun _ => one_pos, one_pos⟩
  exact tendsto_nhds_unique (hc _ h0 S hS) (hc' _ h0 S hS)

theorem lik_pos (β : Fin p → ℝ) {q : (Fin p → ℝ) × ℝ} (hq : AllPos q) : lik β 1 q ≠ 0 := by
  unfold lik
  rw [Ne, ENNReal.ofReal_eq_zero, not_le]
  refine Finset.prod_pos fun j _ => gaussianPDFReal_pos _ _ _ ?_
  have h1 := hq.1 j
  have h2 := hq.2
  have : 0 < q.1 j ^ 2 * q.2 ^ 2 * 1 := by positivity
  exact (Real.toNNReal_pos.2 this).ne'

/-- **C27 (partial), any prior of the shrinkage parameters.** Let the coefficients be `N(0, (λ τ)²)` and
let `(λ, τ)` have any law `ν` on the positive vectors.  In the rate reading (C28) the step leaves the
posterior of `(λ, τ)` given nonzero coefficients invariant *if and only if* `ν` is the standard horseshoe
prior: independent half-Cauchys of scale 1.  The full property asks that the finder fires only for these;
it does not check the scales. -/
theorem C27_any_prior_iff_partial {β : Fin p → ℝ} (hβ : ∀ j, β j ≠ 0) (ν : Measure ((Fin p → ℝ) × ℝ))
    [IsProbabilityMeasure ν] (hpos : ∀ᵐ q ∂ν, (∀ j, 0 < q.1 j) ∧ 0 < q.2)
    (hd : BayesDefined ν (lik β 1)) :
    Stationary (bayes ν (lik β 1)) (horseshoeStep .rate β) ↔ ν = prior p := by
  have hpr := isProbabilityMeasure_bayes hd
  have hac : ∀ᵐ q ∂bayes ν (lik β 1), AllPos q := (bayes_absolutelyContinuous _ _).ae_le hpos
  rw [rate_unique hβ hac, posterior]
  refine ⟨fun h => ?_, fun h => by rw [h]⟩
  have hm : Measurable (lik β 1) := measurable_lik β 1
  have hmp : MeasurableSet {q : (Fin p → ℝ) × ℝ | AllPos q} := by
    have : {q : (Fin p → ℝ) × ℝ | AllPos q} = (⋂ j, {q | 0 < q.1 j}) ∩ {q | 0 < q.2} := by
      ext q
      simp [AllPos]
    rw [this]
    exact (MeasurableSet.iInter fun j => measurableSet_lt measurable_const (by fun_prop)).inter
      (measurableSet_lt measurable_const measurable_snd)
  classical
  -- a version of the likelihood that is positive everywhere
  have e1 : lik β 1 =ᵐ[ν] {q | AllPos q}.piecewise (lik β 1) fun _ => 1 := by
    filter_upwards [hpos] with q hq
    rw [Set.piecewise_eq_of_mem _ _ _ (show q ∈ {q | AllPos q} from hq)]
  have e2 : lik β 1 =ᵐ[prior p] {q | AllPos q}.piecewise (lik β 1) fun _ => 1 := by
    filter_upwards [ae_prior_pos p] with q hq
    rw [Set.piecewise_eq_of_mem _ _ _ (show q ∈ {q | AllPos q} from hq)]
  rw [bayes_congr_ae e1, bayes_congr_ae e2] at h
  refine bayes_prior_inj (hm.piecewise hmp measurable_const) (fun q => ?_) (fun q => ?_)
    ((bayesDefined_posterior hβ one_pos).congr_ae e2) h
  · by_cases hq : q ∈ {q : (Fin p → ℝ) × ℝ | AllPos q}
    · rw [Set.piecewise_eq_of_mem _ _ _ hq]
      exact lik_pos β hq
    · rw [Set.piecewise_eq_of_notMem _ _ _ hq]
      exact one_ne_zero
  · by_cases hq : q ∈ {q : (Fin p → ℝ) × ℝ | AllPos q}
    · rw [Set.piecewise_eq_of_mem _ _ _ hq]
      exact ENNReal.ofReal_ne_top
    · rw [Set.piecewise_eq_of_notMem _ _ _ hq]
      exact ENNReal.one_ne_top

/-! ## Half-Cauchy priors of any scale and normals of any mean -/

/-- Density of a half-Cauchy of scale `s`. -/
noncomputable def hcDens (s x : ℝ) : ℝ := 2 * s / (π * (s ^ 2 + x ^ 2))

/-- Spec.  The half-Cauchy law `C⁺(0, s)`. -/
noncomputable def halfCauchyAt (s : ℝ) : Measure ℝ :=
  (volume.restrict (Set.Ioi 0)).withDensity fun x => ENNReal.ofReal (2 * s / (π * (s ^ 2 + x ^ 2)))

/-- Spec.  Independent half-Cauchy priors of scales `a` for `λ` and `b` for `τ`. -/
noncomputable def priorAt (a : Fin p → ℝ) (b : ℝ) : Measure ((Fin p → ℝ) × ℝ) :=
  (Measure.pi fun j => halfCauchyAt (a j)).prod (halfCauchyAt b)

theorem halfCauchyAt_one : halfCauchyAt 1 = halfCauchy := by
  simp [halfCauchyAt, halfCauchy]

theorem priorAt_one : priorAt (fun _ : Fin p => 1) 1 = prior p := by
  simp [priorAt, prior, halfCauchyAt_one]

theorem hcDens_pos {s : ℝ} (hs : 0 < s) (x : ℝ) : 0 < hcDens s x := by
  unfold hcDens
  have := pi_pos
  positivity

theorem measurable_hcDens (s : ℝ) : Measurable (hcDens s) := by
  unfold hcDens
  fun_prop

theorem hcDens_le {s : ℝ} (hs : 0 < s) (x : ℝ) : hcDens s x ≤ (s + s⁻¹) * hcDens 1 x := by
  unfold hcDens
  have := pi_pos
  rw [← mul_div_assoc, div_le_div_iff₀ (by positivity) (by positivity)]
  have e : (s + s⁻¹) * (2 * 1) * (π * (s ^ 2 + x ^ 2)) - 2 * s * (π * (1 ^ 2 + x ^ 2)) =
      2 * π * (s ^ 3 + s⁻¹ * x ^ 2) := by
    field_simp
    ring
  have : 0 ≤ 2 * π * (s ^ 3 + s⁻¹ * x ^ 2) := by positivity
  linarith

theorem integrable_hcDens {s : ℝ} (hs : 0 < s) : Integrable (hcDens s) volPos := by
  have h1 : Integrable (hcDens 1) volPos := by
    refine ⟨(measurable_hcDens 1).aestronglyMeasurable, ?_⟩
    rw [hasFiniteIntegral_iff_ofReal (ae_of_all _ fun x => (hcDens_pos one_pos x).le)]
    have h := measure_univ (μ := halfCauchy)
    rw [← halfCauchyAt_one, halfCauchyAt, withDensity_apply _ MeasurableSet.univ,
      Measure.restrict_univ] at h
    have h' : ∫⁻ x, ENNReal.ofReal (hcDens 1 x) ∂volPos = 1 := h
    rw [h']
    exact ENNReal.one_lt_top
  refine (h1.const_mul (s + s⁻¹)).mono' (measurable_hcDens s).aestronglyMeasurable (ae_of_all _ fun x => ?_)
  rw [Real.norm_of_nonneg (hcDens_pos hs x).le]
  exact hcDens_le hs x

/-- The joint prior density. -/
noncomputable def jointDens (a : Fin p → ℝ) (b : ℝ) (q : (Fin p → ℝ) × ℝ) : ℝ :=
  (∏ j, hcDens (a j) (q.1 j)) * hcDens b q.2

theorem jointDens_pos {a : Fin p → ℝ} (ha : ∀ j, 0 < a j) {b : ℝ} (hb : 0 < b) (q : (Fin p → ℝ) × ℝ) :
    0 < jointDens a b q :=
  mul_pos (Finset.prod_pos fun j _ => hcDens_pos (ha j) _) (hcDens_pos hb _)

theorem measurable_jointDens (a : Fin p → ℝ) (b : ℝ) : Measurable (jointDens a b) := by
  unfold jointDens
  exact (Finset.measurable_prod _ fun j _ => (measurable_hcDens _).comp
    ((measurable_pi_apply j).comp measurable_fst)).mul ((measurable_hcDens b).comp measurable_snd)

theorem priorAt_eq {a : Fin p → ℝ} (ha : ∀ j, 0 < a j) (b : ℝ) :
    priorAt a b = ((Measure.pi fun _ : Fin p => volPos).prod volPos).withDensity
      fun q => ENNReal.ofReal (jointDens a b q) := by
  have hsf : ∀ j, SigmaFinite (volPos.withDensity fun x => ENNReal.ofReal (hcDens (a j) x)) :=
    fun j => inferInstance
  have e := pi_withDensity_ofReal (fun _ : Fin p => volPos) (f := fun j => hcDens (a j))
    (fun j => integrable_hcDens (ha j)) fun j x => (hcDens_pos (ha j) x).le
  have e' : (Measure.pi fun j => halfCauchyAt (a j)) = (Measure.pi fun _ : Fin p => volPos).withDensity
      fun x => ENNReal.ofReal (∏ j, hcDens (a j) (x j)) := e
  have hm : Measurable fun x : Fin p → ℝ => ENNReal.ofReal (∏ j, hcDens (a j) (x j)) :=
    (Finset.measurable_prod _ fun j _ => (measurable_hcDens _).comp (measurable_pi_apply j)).ennreal_ofReal
  unfold priorAt
  rw [e']
  have hb' : halfCauchyAt b = volPos.withDensity fun x => ENNReal.ofReal (hcDens b x) := rfl
  rw [hb']
  refine (prod_withDensity hm (measurable_hcDens b).ennreal_ofReal).trans ?_
  congr 1
  ext q
  exact (ENNReal.ofReal_mul (Finset.prod_nonneg fun j _ => (hcDens_pos (ha j) _).le)).symm

theorem volPos_prod_eq : (Measure.pi fun _ : Fin p => volPos).prod volPos =
    (volume : Measure ((Fin p → ℝ) × ℝ)).restrict ((Set.univ.pi fun _ => Set.Ioi 0) ×ˢ Set.Ioi 0) := by
  have h : (Measure.pi fun _ : Fin p => volPos) =
      (volume : Measure (Fin p → ℝ)).restrict (Set.univ.pi fun _ => Set.Ioi 0) := by
    rw [volume_pi, Measure.restrict_pi_pi]
    rfl
  rw [h]
  unfold volPos
  rw [Measure.prod_restrict]
  rfl

theorem mem_orthant {q : (Fin p → ℝ) × ℝ} :
    q ∈ (Set.univ.pi fun _ : Fin p => Set.Ioi (0 : ℝ)) ×ˢ Set.Ioi (0 : ℝ) ↔ AllPos q := by
  simp [AllPos]

theorem isOpen_orthant : IsOpen ((Set.univ.pi fun _ : Fin p => Set.Ioi (0 : ℝ)) ×ˢ Set.Ioi (0 : ℝ)) :=
  (isOpen_set_pi Set.finite_univ fun _ _ => isOpen_Ioi).prod isOpen_Ioi

/-- The posterior exists for half-Cauchy priors of any scales, when no coefficient is at its mean. -/
theorem bayesDefined_priorAt {a : Fin p → ℝ} (ha : ∀ j, 0 < a j) {b : ℝ} (hb : 0 < b) {d : Fin p → ℝ}
    (hd : ∀ j, d j ≠ 0) : BayesDefined (priorAt a b) (lik d 1) := by
  have h := bayesDefined_posterior hd one_pos
  have h1 : ∀ _ : Fin p, (0 : ℝ) < 1 := fun _ => one_pos
  rw [← priorAt_one, priorAt_eq h1 1] at h
  rw [priorAt_eq ha b]
  have hm := measurable_lik d 1
  have hj : ∀ (a : Fin p → ℝ) (b : ℝ), Measurable fun q => ENNReal.ofReal (jointDens a b q) :=
    fun a b => (measurable_jointDens a b).ennreal_ofReal
  have hi : ∀ (a : Fin p → ℝ) (b : ℝ), ∫⁻ q, lik d 1 q ∂(((Measure.pi fun _ : Fin p => volPos).prod
      volPos).withDensity fun q => ENNReal.ofReal (jointDens a b q)) =
      ∫⁻ q, ENNReal.ofReal (jointDens a b q) * lik d 1 q ∂(Measure.pi fun _ : Fin p => volPos).prod
        volPos := fun a b => lintegral_withDensity_eq_lintegral_mul _ (hj a b) hm
  unfold BayesDefined at h ⊢
  rw [hi] at h ⊢
  constructor
  · intro h0
    rw [lintegral_eq_zero_iff (f := fun q => ENNReal.ofReal (jointDens a b q) * lik d 1 q)
      ((hj a b).mul hm)] at h0
    refine h.1 ?_
    rw [lintegral_eq_zero_iff (f := fun q => ENNReal.ofReal (jointDens (fun _ => 1) 1 q) * lik d 1 q)
      ((hj _ _).mul hm)]
    filter_upwards [h0] with q hq
    have := jointDens_pos ha hb q
    rcases mul_eq_zero.1 hq with h2 | h2
    · exact absurd h2 (by simpa using this)
    · simp [h2]
  · have hle : ∀ q : (Fin p → ℝ) × ℝ, jointDens a b q ≤
        ((∏ j, (a j + (a j)⁻¹)) * (b + b⁻¹)) * jointDens (fun _ => 1) 1 q := by
      intro q
      have e : ((∏ j, (a j + (a j)⁻¹)) * (b + b⁻¹)) * jointDens (fun _ => 1) 1 q =
          (∏ j, (a j + (a j)⁻¹) * hcDens 1 (q.1 j)) * ((b + b⁻¹) * hcDens 1 q.2) := by
        rw [jointDens, Finset.prod_mul_distrib]
        ring
      rw [e, jointDens]
      refine mul_le_mul (Finset.prod_le_prod (fun j _ => (hcDens_pos (ha j) _).le)
        fun j _ => hcDens_le (ha j) _) (hcDens_le hb _) (hcDens_pos hb _).le ?_
      refine Finset.prod_nonneg fun j _ => ?_
      have := hcDens_pos one_pos (q.1 j)
      have := ha j
      positivity
    refine ne_top_of_le_ne_top (ENNReal.mul_ne_top (ENNReal.ofReal_ne_top
      (r := (∏ j, (a j + (a j)⁻¹)) * (b + b⁻¹))) h.2) ?_
    rw [← lintegral_const_mul (f := fun q => ENNReal.ofReal (jointDens (fun _ => 1) 1 q) * lik d 1 q) _
      ((hj _ _).mul hm)]
    refine lintegral_mono fun q => ?_
    rw [← mul_assoc, ← ENNReal.ofReal_mul]
    · exact mul_le_mul' (ENNReal.ofReal_le_ofReal (hle q)) le_rfl
    · refine mul_nonneg (Finset.prod_nonneg fun j _ => ?_) ?_
      · have := ha j
        positivity
      · positivity

/-- The comparison of densities, cleared of common factors. -/
noncomputable def ratio (a : Fin p → ℝ) (b : ℝ) (e : Fin p → ℝ) (q : (Fin p → ℝ) × ℝ) : ℝ :=
  (∏ j, (a j ^ 2 + q.1 j ^ 2) / (1 + q.1 j ^ 2)) * ((b ^ 2 + q.2 ^ 2) / (1 + q.2 ^ 2)) *
    Real.exp (∑ j, e j / (2 * (q.1 j ^ 2 * q.2 ^ 2)))

theorem continuousOn_ratio (a : Fin p → ℝ) (b : ℝ) (e : Fin p → ℝ) :
    ContinuousOn (ratio a b e) ((Set.univ.pi fun _ : Fin p => Set.Ioi (0 : ℝ)) ×ˢ Set.Ioi (0 : ℝ)) := by
  unfold ratio
  refine ((continuousOn_finsetProd _ fun j _ => ?_).mul ?_).mul (ContinuousOn.rexp
    (continuousOn_finsetSum _ fun j _ => ?_))
  · exact ContinuousOn.div (by fun_prop) (by fun_prop) fun q _ => by positivity
  · exact ContinuousOn.div (by fun_prop) (by fun_prop) fun q _ => by positivity
  · refine ContinuousOn.div (by fun_prop) (by fun_prop) fun q hq => ?_
    have h := mem_orthant.1 hq
    have h1 := h.1 j
    have h2 := h.2
    positivity

/-- The comparison is constant only for unit scales and equal squares. -/
theorem ratio_const {a : Fin p → ℝ} (ha : ∀ j, 0 < a j) {b : ℝ} (hb : 0 < b) {e : Fin p → ℝ} {C : ℝ}
    (h : ∀ q : (Fin p → ℝ) × ℝ, AllPos q → ratio a b e q = C) :
    (∀ j, a j = 1) ∧ b = 1 ∧ ∀ j, e j = 0 := by
  have hfar : ∀ c : ℝ, Tendsto (fun t : ℝ => (c ^ 2 + t ^ 2) / (1 + t ^ 2)) atTop (𝓝 1) := by
    intro c
    have e : ∀ t : ℝ, (c ^ 2 + t ^ 2) / (1 + t ^ 2) = 1 + (c ^ 2 - 1) / (1 + t ^ 2) := fun t => by
      have : (0 : ℝ) < 1 + t ^ 2 := by positivity
      field_simp
      ring
    simp only [e]
    have h1 : Tendsto (fun t : ℝ => 1 + t ^ 2) atTop atTop :=
      tendsto_atTop_add_const_left _ _ (tendsto_pow_atTop two_ne_zero)
    simpa using (h1.const_div_atTop (c ^ 2 - 1)).const_add 1
  have hexp : ∀ c : ℝ, Tendsto (fun t : ℝ => Real.exp (c / t ^ 2)) atTop (𝓝 1) := by
    intro c
    have h1 : Tendsto (fun t : ℝ => t ^ 2) atTop atTop := tendsto_pow_atTop two_ne_zero
    simpa using (h1.const_div_atTop c).rexp
  -- a large global scale leaves the local factors
  have hloc : ∀ x : Fin p → ℝ, (∀ j, 0 < x j) → (∏ j, (a j ^ 2 + x j ^ 2) / (1 + x j ^ 2)) = C := by
    intro x hx
    have h1 : Tendsto (fun t : ℝ => ratio a b e (x, t)) atTop
        (𝓝 ((∏ j, (a j ^ 2 + x j ^ 2) / (1 + x j ^ 2)) * 1 * 1)) := by
      have h2 := ((hfar b).const_mul (∏ j, (a j ^ 2 + x j ^ 2) / (1 + x j ^ 2))).mul
        (hexp (∑ j, e j / (2 * x j ^ 2)))
      refine h2.congr fun t => ?_
      unfold ratio
      congr 2
      rw [Finset.sum_div]
      refine Finset.sum_congr rfl fun j _ => ?_
      rw [div_div, mul_assoc]
    have h3 : Tendsto (fun t : ℝ => ratio a b e (x, t)) atTop (𝓝 C) := by
      refine tendsto_const_nhds.congr' ?_
      filter_upwards [eventually_gt_atTop 0] with t ht
      exact (h _ ⟨hx, ht⟩).symm
    have := tendsto_nhds_unique h1 h3
    simpa using this
  have hupd : ∀ (j : Fin p) (i : Fin p), 0 < Function.update (fun _ : Fin p => (1 : ℝ)) j 2 i := by
    intro j i
    by_cases hi : i = j
    · subst hi
      simp
    · simp [Function.update_of_ne hi]
  have ha1 : ∀ j, a j = 1 := by
    intro j
    have h1 := hloc (fun _ => 1) fun _ => one_pos
    have h2 := hloc (Function.update (fun _ => 1) j 2) (hupd j)
    rw [← Finset.mul_prod_erase _ _ (Finset.mem_univ j)] at h1 h2
    have h3 : (∏ i ∈ Finset.univ.erase j, (a i ^ 2 + Function.update (fun _ : Fin p => (1 : ℝ)) j 2 i ^ 2) /
        (1 + Function.update (fun _ : Fin p => (1 : ℝ)) j 2 i ^ 2)) =
        ∏ i ∈ Finset.univ.erase j, (a i ^ 2 + (1 : ℝ) ^ 2) / (1 + (1 : ℝ) ^ 2) := by
      refine Finset.prod_congr rfl fun i hi => ?_
      rw [Function.update_of_ne (Finset.ne_of_mem_erase hi)]
    rw [h3, Function.update_self] at h2
    have hP : (∏ i ∈ Finset.univ.erase j, (a i ^ 2 + (1 : ℝ) ^ 2) / (1 + (1 : ℝ) ^ 2)) ≠ 0 :=
      Finset.prod_ne_zero_iff.2 fun i _ => by positivity
    have h4 := mul_right_cancel₀ hP (h1.trans h2.symm)
    have h5 := ha j
    have h6 : a j ^ 2 = 1 := by
      norm_num at h4
      linarith
    nlinarith
  have hC : C = 1 := by
    rw [← hloc (fun _ => 1) fun _ => one_pos]
    refine Finset.prod_eq_one fun j _ => ?_
    rw [ha1 j]
    norm_num
  have hglob : ∀ q : (Fin p → ℝ) × ℝ, AllPos q → ((b ^ 2 + q.2 ^ 2) / (1 + q.2 ^ 2)) *
      Real.exp (∑ j, e j / (2 * (q.1 j ^ 2 * q.2 ^ 2))) = 1 := by
    intro q hq
    have h1 := h q hq
    rw [hC, ratio, Finset.prod_eq_one, one_mul] at h1
    · exact h1
    · intro j _
      rw [ha1 j]
      have : (0 : ℝ) < 1 + q.1 j ^ 2 := by positivity
      rw [one_pow, div_self this.ne']
  -- large local scales leave the global factor
  have hb1 : b = 1 := by
    have h1 : Tendsto (fun t : ℝ => ((b ^ 2 + 1 ^ 2) / (1 + 1 ^ 2)) *
        Real.exp ((∑ j, e j / 2) / t ^ 2)) atTop (𝓝 (((b ^ 2 + 1 ^ 2) / (1 + 1 ^ 2)) * 1)) :=
      (hexp _).const_mul _
    have h2 : Tendsto (fun t : ℝ => ((b ^ 2 + 1 ^ 2) / (1 + 1 ^ 2)) *
        Real.exp ((∑ j, e j / 2) / t ^ 2)) atTop (𝓝 1) := by
      refine tendsto_const_nhds.congr' ?_
      filter_upwards [eventually_gt_atTop 0] with t ht
      have h3 := hglob (fun _ => t, 1) ⟨fun _ => ht, one_pos⟩
      refine h3.symm.trans ?_
      refine congrArg (fun z => ((b ^ 2 + 1 ^ 2) / (1 + 1 ^ 2)) * Real.exp z) ?_
      rw [Finset.sum_div]
      refine Finset.sum_congr rfl fun j _ => ?_
      rw [one_pow, mul_one, div_div]
    have h3 := tendsto_nhds_unique h1 h2
    have h4 : b ^ 2 = 1 := by
      norm_num at h3
      linarith
    nlinarith
  refine ⟨ha1, hb1, fun j => ?_⟩
  have hsum : ∀ x : Fin p → ℝ, (∀ j, 0 < x j) → ∑ j, e j / (2 * (x j ^ 2 * 1 ^ 2)) = 0 := by
    intro x hx
    have h1 := hglob (x, 1) ⟨hx, one_pos⟩
    simp only at h1
    rw [hb1, one_pow, show ((1 : ℝ) + 1) / (1 + 1) = 1 by norm_num, one_mul, Real.exp_eq_one_iff] at h1
    simpa using h1
  have h1 := hsum (fun _ => 1) fun _ => one_pos
  have h2 := hsum (Function.update (fun _ => 1) j 2) (hupd j)
  rw [← Finset.add_sum_erase _ _ (Finset.mem_univ j)] at h1 h2
  have h3 : (∑ i ∈ Finset.univ.erase j, e i / (2 * (Function.update (fun _ : Fin p => (1 : ℝ)) j 2 i ^ 2 *
      1 ^ 2))) = ∑ i ∈ Finset.univ.erase j, e i / (2 * ((1 : ℝ) ^ 2 * 1 ^ 2)) := by
    refine Finset.sum_congr rfl fun i hi => ?_
    rw [Function.update_of_ne (Finset.ne_of_mem_erase hi)]
  rw [h3, Function.update_self] at h2
  norm_num at h1 h2
  linarith

theorem hcDens_eq {s : ℝ} (hs : 0 < s) (x : ℝ) :
    hcDens s x * ((s ^ 2 + x ^ 2) / (1 + x ^ 2)) = s * hcDens 1 x := by
  unfold hcDens
  have := pi_pos
  have : (0 : ℝ) < s ^ 2 + x ^ 2 := by positivity
  have : (0 : ℝ) < 1 + x ^ 2 := by positivity
  field_simp

theorem lik_pos_eq (d : Fin p → ℝ) (q : (Fin p → ℝ) × ℝ) :
    lik d 1 q = ENNReal.ofReal ((∏ j, (√(2 * π * (q.1 j ^ 2 * q.2 ^ 2)))⁻¹) *
      Real.exp (-∑ j, d j ^ 2 / (2 * (q.1 j ^ 2 * q.2 ^ 2)))) := by
  unfold lik
  congr 1
  rw [← Finset.sum_neg_distrib, Real.exp_sum, ← Finset.prod_mul_distrib]
  refine Finset.prod_congr rfl fun j _ => ?_
  rw [gaussianPDFReal, mul_one, Real.coe_toNNReal _ (by positivity), sub_zero, neg_div]

/-- **C27 (partial), half-Cauchy priors of any scales and normals of any means.** The finder accepts
`β_j ~ N(m_j, (λ_j τ)²)` with `λ_j ~ C⁺(0, a_j)` and `τ ~ C⁺(0, b)` for all `m`, `a` and `b`.  In the rate
reading (C28) the step leaves the posterior of `(λ, τ)` given `β` invariant *if and only if* every `a_j`
and `b` is 1 and `β_j - m_j = ± β_j` for every `j`: otherwise it is wrong. -/
theorem C27_scales_means_iff_partial {β m : Fin p → ℝ} (hβ : ∀ j, β j ≠ 0) (hm : ∀ j, β j ≠ m j)
    {a : Fin p → ℝ} (ha : ∀ j, 0 < a j) {b : ℝ} (hb : 0 < b) :
    BayesDefined (priorAt a b) (lik (β - m) 1) ∧
    (Stationary (bayes (priorAt a b) (lik (β - m) 1)) (horseshoeStep .rate β) ↔
      (∀ j, a j = 1) ∧ b = 1 ∧ ∀ j, (β j - m j) ^ 2 = β j ^ 2) := by
  have hdm : ∀ j, (β - m) j ≠ 0 := fun j => sub_ne_zero.2 (hm j)
  have hd := bayesDefined_priorAt ha hb hdm
  refine ⟨hd, ?_⟩
  have hpr := isProbabilityMeasure_bayes hd
  have h1 : ∀ _ : Fin p, (0 : ℝ) < 1 := fun _ => one_pos
  have hpos : ∀ᵐ q ∂bayes (priorAt a b) (lik (β - m) 1), AllPos q := by
    refine (bayes_absolutelyContinuous _ _).ae_le ?_
    rw [priorAt_eq ha b]
    exact (withDensity_absolutelyContinuous _ _).ae_le (ae_volPos_prod p)
  have hd' := bayesDefined_posterior hβ one_pos
  rw [rate_unique hβ hpos, posterior]
  rw [← priorAt_one] at hd' ⊢
  rw [priorAt_eq h1 1] at hd' ⊢
  rw [priorAt_eq ha b] at hd ⊢
  rw [bayes_withDensity_eq_iff (measurable_jointDens a b).ennreal_ofReal
    (measurable_jointDens _ _).ennreal_ofReal (measurable_lik _ _) (measurable_lik _ _) hd hd']
  have key : ∀ (r : ℝ), 0 < r → ∀ q : (Fin p → ℝ) × ℝ, AllPos q →
      (ENNReal.ofReal (jointDens a b q) * lik (β - m) 1 q =
        ENNReal.ofReal r * (ENNReal.ofReal (jointDens (fun _ => 1) 1 q) * lik β 1 q) ↔
      ratio a b (fun j => (β j - m j) ^ 2 - β j ^ 2) q = ((∏ j, a j) * b) / r) := by
    intro r hr q hq
    have hJ := jointDens_pos ha hb q
    have hJ1 := jointDens_pos h1 one_pos q
    have hG : 0 < ∏ j, (√(2 * π * (q.1 j ^ 2 * q.2 ^ 2)))⁻¹ := Finset.prod_pos fun j _ => by
      have := hq.1 j
      have := hq.2
      have := pi_pos
      positivity
    have hE : jointDens a b q * ratio a b (fun j => (β j - m j) ^ 2 - β j ^ 2) q =
        ((∏ j, a j) * b) * jointDens (fun _ => 1) 1 q *
          Real.exp (∑ j, ((β j - m j) ^ 2 - β j ^ 2) / (2 * (q.1 j ^ 2 * q.2 ^ 2))) := by
      have e1 : (∏ j, hcDens (a j) (q.1 j)) * ∏ j, (a j ^ 2 + q.1 j ^ 2) / (1 + q.1 j ^ 2) =
          (∏ j, a j) * ∏ j, hcDens 1 (q.1 j) := by
        rw [← Finset.prod_mul_distrib, ← Finset.prod_mul_distrib]
        exact Finset.prod_congr rfl fun j _ => hcDens_eq (ha j) _
      have e2 := hcDens_eq hb q.2
      unfold jointDens ratio
      calc _ = ((∏ j, hcDens (a j) (q.1 j)) * ∏ j, (a j ^ 2 + q.1 j ^ 2) / (1 + q.1 j ^ 2)) *
            (hcDens b q.2 * ((b ^ 2 + q.2 ^ 2) / (1 + q.2 ^ 2))) *
            Real.exp (∑ j, ((β j - m j) ^ 2 - β j ^ 2) / (2 * (q.1 j ^ 2 * q.2 ^ 2))) := by ring
        _ = _ := by rw [e1, e2]; ring
    have hX : Real.exp (-∑ j, β j ^ 2 / (2 * (q.1 j ^ 2 * q.2 ^ 2))) =
        Real.exp (∑ j, ((β j - m j) ^ 2 - β j ^ 2) / (2 * (q.1 j ^ 2 * q.2 ^ 2))) *
          Real.exp (-∑ j, (β - m) j ^ 2 / (2 * (q.1 j ^ 2 * q.2 ^ 2))) := by
      rw [← Real.exp_add]
      congr 1
      rw [← Finset.sum_neg_distrib, ← Finset.sum_neg_distrib, ← Finset.sum_add_distrib]
      refine Finset.sum_congr rfl fun j _ => ?_
      rw [Pi.sub_apply]
      ring
    rw [lik_pos_eq, lik_pos_eq, ← ENNReal.ofReal_mul hJ.le, ← ENNReal.ofReal_mul hJ1.le,
      ← ENNReal.ofReal_mul hr.le, ENNReal.ofReal_eq_ofReal_iff (by positivity) (by positivity), hX]
    have hx := Real.exp_pos (∑ j, ((β j - m j) ^ 2 - β j ^ 2) / (2 * (q.1 j ^ 2 * q.2 ^ 2)))
    have hy := Real.exp_pos (-∑ j, (β - m) j ^ 2 / (2 * (q.1 j ^ 2 * q.2 ^ 2)))
    generalize Real.exp (∑ j, ((β j - m j) ^ 2 - β j ^ 2) / (2 * (q.1 j ^ 2 * q.2 ^ 2))) = x at hx hE ⊢
    generalize Real.exp (-∑ j, (β - m) j ^ 2 / (2 * (q.1 j ^ 2 * q.2 ^ 2))) = y at hy ⊢
    generalize (∏ j, (√(2 * π * (q.1 j ^ 2 * q.2 ^ 2)))⁻¹) = g at hG ⊢
    generalize jointDens a b q = J at hJ hE ⊢
    generalize jointDens (fun _ => 1) 1 q = J1 at hJ1 hE ⊢
    generalize ratio a b (fun j => (β j - m j) ^ 2 - β j ^ 2) q = R at hE ⊢
    have hA : (∏ j, a j) * b ≠ 0 := mul_ne_zero (Finset.prod_ne_zero_iff.2 fun j _ => (ha j).ne') hb.ne'
    generalize (∏ j, a j) * b = A at hE hA ⊢
    have hgy : g * y ≠ 0 := by positivity
    rw [eq_div_iff hr.ne']
    constructor
    · intro h
      have h2 : J = r * (J1 * x) := by
        refine mul_right_cancel₀ hgy ?_
        linear_combination h
      have h3 : J * (R * r) = J * A := by
        rw [← mul_assoc, hE]
        linear_combination (-A) * h2
      exact mul_left_cancel₀ hJ.ne' h3
    · intro h
      have h2 : J * A = r * (J1 * x) * A := by
        linear_combination (-J) * h + r * hE
      rw [mul_right_cancel₀ hA h2]
      ring
  constructor
  · rintro ⟨c, hc0, hc, h⟩
    have hr : 0 < c.toReal := ENNReal.toReal_pos hc0 hc
    refine (ratio_const (C := ((∏ j, a j) * b) / c.toReal) ha hb
      (e := fun j => (β j - m j) ^ 2 - β j ^ 2) ?_).imp_right fun h =>
        ⟨h.1, fun j => sub_eq_zero.1 (h.2 j)⟩
    have hae : ∀ᵐ q ∂(volume : Measure ((Fin p → ℝ) × ℝ)).restrict
        ((Set.univ.pi fun _ => Set.Ioi 0) ×ˢ Set.Ioi 0),
        ratio a b (fun j => (β j - m j) ^ 2 - β j ^ 2) q = ((∏ j, a j) * b) / c.toReal := by
      rw [← volPos_prod_eq]
      filter_upwards [h, ae_volPos_prod p] with q hq hp
      rw [← ENNReal.ofReal_toReal hc] at hq
      exact (key _ hr q hp).1 hq
    have := Measure.eqOn_open_of_ae_eq hae isOpen_orthant (continuousOn_ratio a b _)
      continuousOn_const
    exact fun q hq => this (mem_orthant.2 hq)
  · rintro ⟨ha1, rfl, he⟩
    refine ⟨1, one_ne_zero, ENNReal.one_ne_top, ?_⟩
    filter_upwards [ae_volPos_prod p] with q hq
    have hA : a = fun _ => 1 := funext ha1
    rw [one_mul, lik_pos_eq, lik_pos_eq, hA]
    simp only [Pi.sub_apply, he]

/-- **C27 is violated** in what is sampled, already in the rate reading: with one coefficient equal to 1,
the step accepted for a mean of 3 and the one accepted for a global half-Cauchy of scale 5 do not keep the
posterior. -/
theorem C27_step_violated :
    (BayesDefined (priorAt (fun _ : Fin 1 => 1) 1) (lik ((fun _ => 1) - fun _ => 3) 1) ∧
      ¬ Stationary (bayes (priorAt (fun _ : Fin 1 => 1) 1) (lik ((fun _ => 1) - fun _ => 3) 1))
        (horseshoeStep .rate fun _ => 1)) ∧
    (BayesDefined (priorAt (fun _ : Fin 1 => 1) 5) (lik ((fun _ => 1) - fun _ => 0) 1) ∧
      ¬ Stationary (bayes (priorAt (fun _ : Fin 1 => 1) 5) (lik ((fun _ => 1) - fun _ => 0) 1))
        (horseshoeStep .rate fun _ => 1)) := by
  have h := C27_scales_means_iff_partial (β := fun _ : Fin 1 => 1) (m := fun _ => 3)
    (fun _ => one_ne_zero) (fun _ => by norm_num) (a := fun _ => 1) (fun _ => one_pos) one_pos
  have h' := C27_scales_means_iff_partial (β := fun _ : Fin 1 => 1) (m := fun _ => 0)
    (fun _ => one_ne_zero) (fun _ => by norm_num) (a := fun _ => 1) (fun _ => one_pos)
    (b := 5) (by norm_num)
  refine ⟨⟨h.1, fun hs => ?_⟩, h'.1, fun hs => ?_⟩
  · have := (h.2.1 hs).2.2 0
    norm_num at this
  · have := (h'.2.1 hs).2.1
    norm_num at this

/-- A mean other than zero for which the step happens to be right: twice the coefficient. -/
example : Stationary (bayes (priorAt (fun _ : Fin 2 => 1) 1) (lik (![2, -1] - ![4, -2]) 1))
    (horseshoeStep .rate ![2, -1]) :=
  (C27_scales_means_iff_partial (fun j => by fin_cases j <;> norm_num)
    (fun j => by fin_cases j <;> norm_num) (fun _ => one_pos) one_pos).2.2
    ⟨fun _ => rfl, rfl, fun j => by fin_cases j <;> norm_num⟩

/-- The hypotheses of `C27_any_prior_iff_partial` are met by another prior than the standard one. -/
example : ∃ ν : Measure ((Fin 2 → ℝ) × ℝ), IsProbabilityMeasure ν ∧
    (∀ᵐ q ∂ν, (∀ j, 0 < q.1 j) ∧ 0 < q.2) ∧ BayesDefined ν (lik ![2, -1] 1) ∧ ν ≠ prior 2 := by
  have hq : AllPos ((![1, 3], 2) : (Fin 2 → ℝ) × ℝ) := ⟨fun j => by fin_cases j <;> norm_num, by norm_num⟩
  refine ⟨Measure.dirac (![1, 3], 2), inferInstance, ?_, ?_, fun h => ?_⟩
  · rw [ae_dirac_eq]
    exact hq
  · unfold BayesDefined
    rw [lintegral_dirac]
    exact ⟨lik_pos _ hq, ENNReal.ofReal_ne_top⟩
  · have h1 : (Measure.dirac ((![1, 3], 2) : (Fin 2 → ℝ) × ℝ)) {(![1, 3], 2)} = 1 := by simp
    have h2 : prior 2 {(![1, 3], 2)} = 0 := by
      rw [← priorAt_one, priorAt_eq (fun _ => one_pos) 1, volPos_prod_eq]
      refine ((withDensity_absolutelyContinuous _ _).trans Measure.absolutelyContinuous_restrict) ?_
      have e : ({(![1, 3], 2)} : Set ((Fin 2 → ℝ) × ℝ)) = {![1, 3]} ×ˢ {2} := by simp
      rw [e, Measure.volume_eq_prod, Measure.prod_prod, Real.volume_singleton, mul_zero]
    rw [h, h2] at h1
    exact zero_ne_one h1

end Verif.Horseshoe
