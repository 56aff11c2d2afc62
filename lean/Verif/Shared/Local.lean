import Verif.Shared.Lemmas

/-!
# The local parameters of one group, given the global parameter
-/

open MeasureTheory ProbabilityTheory Real
open scoped ENNReal

namespace Verif.Shared

open HsReg

variable {p p₁ p₂ : ℕ}

/-- From precisions to local parameters. -/
noncomputable def toLocal (w : Fin p → ℝ) : Fin p → ℝ := fun j => (√(w j))⁻¹

theorem measurable_toLocal : Measurable (toLocal (p := p)) := by
  unfold toLocal
  fun_prop

theorem shrinkK_map_fst (conv : Horseshoe.ExpArg) (q : (Fin p → ℝ) × ((Fin p → ℝ) × ℝ)) :
    (shrinkK conv q).map Prod.fst =
      ((auxK conv q).bind fun aux => localK conv (q, aux)).map toLocal := by
  have hm : Measurable fun aux => midK conv (q, aux) :=
    (measurable_midK conv).comp measurable_prodMk_left
  have hl : Measurable fun aux => localK conv (q, aux) :=
    (measurable_localK conv).comp measurable_prodMk_left
  rw [shrinkK_eq_mid]
  change ((auxK conv q).bind fun aux => midK conv (q, aux)).map Prod.fst = _
  rw [map_bind hm.aemeasurable measurable_fst, map_bind hl.aemeasurable measurable_toLocal]
  congr 1
  funext aux
  have hg : Measurable fun w => globalK ((q, aux), w) := measurable_globalK.comp measurable_prodMk_left
  rw [midK, map_bind hg.aemeasurable measurable_fst]
  have e : ∀ w, (globalK ((q, aux), w)).map Prod.fst = Measure.dirac (toLocal w) := fun w => by
    have := isProbabilityMeasure_gammaMeasure (a := 0.5 * ((p : ℝ) + 1)) (by positivity)
      (posOr1_pos (aux.2 + 0.5 * (∑ j, q.1 j ^ 2 * w j) / 1))
    have hm : Measurable fun t : ℝ => ((fun j => (√(w j))⁻¹, (√t)⁻¹) : (Fin p → ℝ) × ℝ) := by fun_prop
    rw [globalK, Measure.map_map measurable_fst hm]
    change Measure.map (fun _ => toLocal w) _ = _
    rw [Measure.map_const, measure_univ, one_smul]
  simp only [e]
  exact Measure.bind_dirac_eq_map _ measurable_toLocal

/-- The posterior of the local parameters of one group given the global parameter. -/
noncomputable def localPost (β : Fin p → ℝ) (τ : ℝ) : Measure (Fin p → ℝ) :=
  bayes (Measure.pi fun _ => Horseshoe.halfCauchy) fun l => Horseshoe.lik β 1 (l, τ)

theorem localPost_map (β : Fin p → ℝ) {τ : ℝ} (hτ : 0 < τ) :
    (localPost β τ).map (fun l j => (l j ^ 2)⁻¹) =
      bayes (Measure.pi fun _ : Fin p => volPos) fun w =>
        ENNReal.ofReal (Horseshoe.marg (fun j => β j ^ 2 / (2 * 1)) (w, (τ ^ 2)⁻¹)) := by
  have hpi := pi_pos
  have ht : 0 < (τ ^ 2)⁻¹ := by positivity
  generalize htt : (τ ^ 2)⁻¹ = t at ht ⊢
  have hg : Measurable fun (l : Fin p → ℝ) j => (l j ^ 2)⁻¹ := by fun_prop
  have hmL : Measurable fun w : Fin p → ℝ => ENNReal.ofReal (Horseshoe.likPrec β 1 (w, t)) :=
    (Horseshoe.measurable_likPrec β 1).ennreal_ofReal.comp measurable_prodMk_right
  have hmM : Measurable fun w : Fin p → ℝ =>
      ENNReal.ofReal (Horseshoe.marg (fun j => β j ^ 2 / (2 * 1)) (w, t)) :=
    (Horseshoe.measurable_marg _).ennreal_ofReal.comp measurable_prodMk_right
  have h1 : localPost β τ = bayes (Measure.pi fun _ => Horseshoe.halfCauchy) fun l =>
      ENNReal.ofReal (Horseshoe.likPrec β 1 ((fun j => (l j ^ 2)⁻¹), t)) := by
    refine bayes_congr_ae ?_
    filter_upwards [ae_pi_halfCauchy p] with l hl
    rw [Horseshoe.lik_eq_likPrec β one_pos (q := (l, τ)) ⟨hl, hτ⟩, ← htt]
    rfl
  rw [h1, bayes_map hg (l := fun w => ENNReal.ofReal (Horseshoe.likPrec β 1 (w, t))) hmL,
    Horseshoe.pi_halfCauchy_map, bayes_withDensity_left ?_ hmL]
  · have hK : 0 < ((√(2 * π * 1))⁻¹ / π) ^ p * √t ^ p * (t ^ (((p : ℝ) - 1) / 2) / (1 + t))⁻¹ := by
      positivity
    rw [← bayes_const_mul _ hmM (c := ENNReal.ofReal
      (((√(2 * π * 1))⁻¹ / π) ^ p * √t ^ p * (t ^ (((p : ℝ) - 1) / 2) / (1 + t))⁻¹))
      (by simpa using hK) ENNReal.ofReal_ne_top]
    refine bayes_congr_ae ?_
    filter_upwards [ae_pi_volPos p] with w hw
    have hd : ∀ j, 0 ≤ Horseshoe.precDens (w j) := fun j => by
      unfold Horseshoe.precDens; have := hw j; positivity
    rw [← ENNReal.ofReal_mul (Finset.prod_nonneg fun j _ => hd j), ← ENNReal.ofReal_mul hK.le]
    congr 1
    have e : ∀ j, Horseshoe.precDens (w j) * ((√(2 * π * 1))⁻¹ *
        (√(w j) * √t * exp (-(β j ^ 2 / (2 * 1) * w j * t)))) =
        ((√(2 * π * 1))⁻¹ / π * √t) * (exp (-(β j ^ 2 / (2 * 1) * w j * t)) / (1 + w j)) := fun j => by
      have := hw j
      have hs' := sqrt_pos.2 this
      rw [Horseshoe.precDens, rpow_neg this.le, ← sqrt_eq_rpow]
      field_simp
    rw [Horseshoe.likPrec, ← Finset.prod_mul_distrib, Finset.prod_congr rfl fun j _ => e j,
      Finset.prod_mul_distrib, Finset.prod_const, Finset.card_fin, mul_pow, Horseshoe.marg]
    have hM : t ^ (((p : ℝ) - 1) / 2) / (1 + t) ≠ 0 := by positivity
    generalize t ^ (((p : ℝ) - 1) / 2) / (1 + t) = M at hM
    generalize (∏ j, exp (-(β j ^ 2 / (2 * 1) * w j * t)) / (1 + w j)) = P
    field_simp
  · exact (Finset.measurable_prod _ fun j _ =>
      Horseshoe.measurable_precDens.comp (measurable_pi_apply j)).ennreal_ofReal

/-- Rate reading: the kernel's draw of the local parameters keeps their law given the global
parameter. -/
theorem local_stationary (β : Fin p → ℝ) {τ : ℝ} (hτ : 0 < τ) :
    Stationary (localPost β τ) fun l => (shrinkK .rate (β, (l, τ))).map Prod.fst := by
  have hc : ∀ j, 0 ≤ β j ^ 2 / (2 * 1) := fun j => by positivity
  have ht : 0 < (τ ^ 2)⁻¹ := by positivity
  have hg : Measurable fun (l : Fin p → ℝ) j => (l j ^ 2)⁻¹ := by fun_prop
  have hpos : ∀ᵐ l ∂localPost β τ, ∀ j, 0 < l j :=
    (bayes_absolutelyContinuous _ _).ae_le (ae_pi_halfCauchy p)
  have hmj : Measurable (Function.uncurry fun (w : Fin p → ℝ) (x : (Fin p → ℝ) × ℝ) =>
      ENNReal.ofReal (Horseshoe.joint (fun j => β j ^ 2 / (2 * 1)) x w (τ ^ 2)⁻¹)) := by
    unfold Horseshoe.joint
    fun_prop
  have hD := stationary_dataAug (μ₀ := Measure.pi fun _ : Fin p => volPos) (ν := Horseshoe.refM p)
    (K₂ := fun x => bayes (Measure.pi fun _ : Fin p => volPos) fun w =>
      ENNReal.ofReal (Horseshoe.joint (fun j => β j ^ 2 / (2 * 1)) x w (τ ^ 2)⁻¹)) hmj
    (by filter_upwards [ae_pi_volPos p] with w hw using (Horseshoe.joint_aux _ (r := (w, _)) ⟨hw, ht⟩).1)
    (by filter_upwards [Horseshoe.ae_volPos_prod p] with x hx using (Horseshoe.joint_local hc hx ht).1)
    (ae_of_all _ fun _ => rfl)
  have e : (localPost β τ).map (fun l j => (l j ^ 2)⁻¹) =
      bayes (Measure.pi fun _ : Fin p => volPos) fun w => ∫⁻ x, ENNReal.ofReal
        (Horseshoe.joint (fun j => β j ^ 2 / (2 * 1)) x w (τ ^ 2)⁻¹) ∂Horseshoe.refM p := by
    rw [localPost_map β hτ]
    refine bayes_congr_ae ?_
    filter_upwards [ae_pi_volPos p] with w hw
    exact (Horseshoe.joint_aux _ (r := (w, _)) ⟨hw, ht⟩).2.2.symm
  rw [← e] at hD
  refine (Stationary.conj hg measurable_toLocal ?_ hD).congr_ae ?_
  · filter_upwards [hpos] with l hl
    funext j
    simp [toLocal, sqrt_sq (hl j).le]
  · filter_upwards [hpos] with l hl
    have hr : Horseshoe.AllPos ((fun j => (l j ^ 2)⁻¹), (τ ^ 2)⁻¹) :=
      ⟨fun j => inv_pos.2 (pow_pos (hl j) 2), ht⟩
    have ha : auxK .rate (β, (l, τ)) = (Measure.pi fun j => gammaMeasure 1 (1 + (l j ^ 2)⁻¹)).prod
        (gammaMeasure 1 (1 + (τ ^ 2)⁻¹)) := by
      unfold auxK expPos
      simp only [rateOf, posOr1_of_pos (add_pos one_pos (hr.1 _)), posOr1_of_pos (add_pos one_pos ht)]
    rw [shrinkK_map_fst, (Horseshoe.joint_aux _ hr).2.1, ← ha]
    congr 1
    refine Measure.bind_congr_right ?_
    rw [ha]
    filter_upwards [Horseshoe.ae_pos_aux (fun j => add_pos one_pos (hr.1 j)) (add_pos one_pos ht)]
      with x hx
    rw [(Horseshoe.joint_local hc hx ht).2]
    unfold localK expPos
    congr 1
    funext j
    have hj : x.1 j + 0.5 * β j ^ 2 * (τ ^ 2)⁻¹ / 1 = x.1 j + β j ^ 2 / (2 * 1) * (τ ^ 2)⁻¹ := by ring
    have hj0 : 0 < x.1 j + β j ^ 2 / (2 * 1) * (τ ^ 2)⁻¹ :=
      add_pos_of_pos_of_nonneg (hx.1 j) (mul_nonneg (hc j) ht.le)
    change _ = gammaMeasure 1 (posOr1 (x.1 j + 0.5 * β j ^ 2 * (τ ^ 2)⁻¹ / 1))
    rw [hj, posOr1_of_pos hj0]

/-- Rate reading: the draw of `λ₁` keeps the joint posterior. -/
theorem localStep_rate {β₁ : Fin p₁ → ℝ} {β₂ : Fin p₂ → ℝ} (h₁ : ∀ j, β₁ j ≠ 0) (h₂ : ∀ j, β₂ j ≠ 0) :
    Stationary (posterior β₁ β₂) (localStep .rate β₁) := by
  have hK : Measurable fun q : (Fin p₁ → ℝ) × ((Fin p₂ → ℝ) × ℝ) =>
      (shrinkK .rate (β₁, (q.1, q.2.2))).map Prod.fst := by
    have hm : Measurable fun q : (Fin p₁ → ℝ) × ((Fin p₂ → ℝ) × ℝ) => shrinkK .rate (β₁, (q.1, q.2.2)) :=
      (measurable_shrinkK .rate).comp (by fun_prop)
    exact (Measure.measurable_map _ measurable_fst).comp hm
  have hp : ∀ q : (Fin p₁ → ℝ) × ((Fin p₂ → ℝ) × ℝ),
      IsProbabilityMeasure ((shrinkK .rate (β₁, (q.1, q.2.2))).map Prod.fst) := fun q => by
    have := prob_shrinkK .rate (β₁, (q.1, q.2.2))
    exact Measure.isProbabilityMeasure_map measurable_fst.aemeasurable
  have h : Stationary (posterior β₁ β₂)
      (onFirst fun q => (shrinkK .rate (β₁, (q.1, q.2.2))).map Prod.fst) := by
    refine (stationary_onFirst_iff (α := Measure.pi fun _ : Fin p₁ => Horseshoe.halfCauchy)
      (β := Horseshoe.prior p₂) (measurable_lik β₁ β₂) (bayesDefined_shared h₁ h₂) hK hp).2 ?_
    filter_upwards [Horseshoe.ae_prior_pos p₂] with s hs
    have e : (bayes (Measure.pi fun _ : Fin p₁ => Horseshoe.halfCauchy) fun l => lik β₁ β₂ (l, s)) =
        localPost β₁ s.2 := by
      have hl1 : Measurable fun l => Horseshoe.lik β₁ 1 (l, s.2) :=
        (Horseshoe.measurable_lik β₁ 1).comp measurable_prodMk_right
      rw [localPost, ← bayes_const_mul _ hl1 (lik_ne_zero β₂ hs)
        (ne_top_of_le_ne_top ENNReal.ofReal_ne_top (lik_le h₂ hs))]
      simp only [lik_eq, mul_comm]
    rw [e]
    exact local_stationary β₁ hs.2
  refine h.congr_ae ?_
  filter_upwards [ae_posterior_pos β₁ β₂] with q hq
  have hm : Measurable fun a : Fin p₁ → ℝ => (a, q.2) := measurable_prodMk_right
  rw [onFirst, localStep, shrinkK_eq .rate β₁ ⟨hq.1, hq.2.2⟩, Measure.map_map hm measurable_fst]
  rfl

end Verif.Shared
