import Verif.Shared.Unique
import Verif.Track.Siblings

/-!
# Lemmas for C61
-/

open MeasureTheory ProbabilityTheory Real
open scoped ENNReal

namespace Verif.Shared

open HsReg

variable {p₁ p₂ : ℕ}

/-- All local parameters and the global parameter are positive. -/
def Pos (q : (Fin p₁ → ℝ) × ((Fin p₂ → ℝ) × ℝ)) : Prop := (∀ j, 0 < q.1 j) ∧ Horseshoe.AllPos q.2

theorem resClass_pos (p : ℕ) : resClass p {s | Horseshoe.AllPos s}ᶜ = 0 := by
  rw [resClass, Measure.map_apply Horseshoe.measurable_ofPrec Horseshoe.measurableSet_allPos.compl]
  refine measure_mono_null ?_ (ae_iff.1 (Horseshoe.ae_volPos_prod p))
  intro r hr h
  exact hr ⟨fun j => inv_pos.2 (sqrt_pos.2 (h.1 j)), inv_pos.2 (sqrt_pos.2 h.2)⟩

theorem ae_shrinkK_pos {p : ℕ} (conv : Horseshoe.ExpArg) (q : (Fin p → ℝ) × ((Fin p → ℝ) × ℝ)) :
    ∀ᵐ s ∂shrinkK conv q, Horseshoe.AllPos s :=
  ae_iff.2 ((shrinkK_null conv q Horseshoe.measurableSet_allPos.compl).2 (resClass_pos p))

theorem read_pos (ord : Order) {a b : ℝ} (ha : 0 < a) (hb : 0 < b) : 0 < ord.read a b := by
  cases ord
  · exact ha
  · exact hb

/-- The new `(λ₂, τ)` is the result of the kernel of the second group. -/
theorem sharedStep_map_snd (conv : Horseshoe.ExpArg) (ord : Order) (β₁ : Fin p₁ → ℝ) (β₂ : Fin p₂ → ℝ)
    {q : (Fin p₁ → ℝ) × ((Fin p₂ → ℝ) × ℝ)} (hq : Pos q) :
    (sharedStep conv ord β₁ β₂ q).map Prod.snd = shrinkK conv (β₂, q.2) := by
  have hr : Measurable fun s : (Fin p₂ → ℝ) × ℝ => ord.read q.2.2 s.2 := by
    cases ord
    · exact measurable_const
    · exact measurable_snd
  have hK : Measurable fun s : (Fin p₂ → ℝ) × ℝ => shrinkK conv (β₁, (q.1, ord.read q.2.2 s.2)) :=
    (measurable_shrinkK conv).comp (measurable_const.prodMk (measurable_const.prodMk hr))
  have hg : Measurable fun r : ((Fin p₂ → ℝ) × ℝ) × ((Fin p₁ → ℝ) × ℝ) => (r.2.1, r.1) := by fun_prop
  have hF := measurable_map_param hK (fun s => prob_shrinkK conv _) hg
  rw [sharedStep, shrinkK_eq conv β₂ hq.2, Measure.bind_congr_right
    (g := fun s => (shrinkK conv (β₁, (q.1, ord.read q.2.2 s.2))).map fun r => (r.1, s)) ?_,
    map_bind hF.aemeasurable measurable_snd]
  · have e : ∀ s : (Fin p₂ → ℝ) × ℝ, ((shrinkK conv (β₁, (q.1, ord.read q.2.2 s.2))).map
        fun r => (r.1, s)).map Prod.snd = Measure.dirac s := fun s => by
      have := prob_shrinkK conv (β₁, (q.1, ord.read q.2.2 s.2))
      have hm : Measurable fun r : (Fin p₁ → ℝ) × ℝ => (r.1, s) := by fun_prop
      rw [Measure.map_map measurable_snd hm]
      change (shrinkK conv (β₁, (q.1, ord.read q.2.2 s.2))).map (fun _ => s) = _
      rw [Measure.map_const, measure_univ, one_smul]
    simp only [e]
    exact Measure.bind_dirac
  · filter_upwards [ae_shrinkK_pos conv (β₂, q.2)] with s hs
    rw [shrinkK_eq conv β₁ ⟨hq.1, read_pos ord hq.2.2 hs.2⟩]

/-- One call with all rates made positive. -/
noncomputable def sharedK (conv : Horseshoe.ExpArg) (ord : Order) (β₁ : Fin p₁ → ℝ) (β₂ : Fin p₂ → ℝ)
    (q : (Fin p₁ → ℝ) × ((Fin p₂ → ℝ) × ℝ)) : Measure ((Fin p₁ → ℝ) × ((Fin p₂ → ℝ) × ℝ)) :=
  (shrinkK conv (β₂, q.2)).bind fun s =>
    (shrinkK conv (β₁, (q.1, ord.read q.2.2 s.2))).map fun r => (r.1, s)

theorem sharedK_eq (conv : Horseshoe.ExpArg) (ord : Order) (β₁ : Fin p₁ → ℝ) (β₂ : Fin p₂ → ℝ)
    {q : (Fin p₁ → ℝ) × ((Fin p₂ → ℝ) × ℝ)} (hq : Pos q) :
    sharedStep conv ord β₁ β₂ q = sharedK conv ord β₁ β₂ q := by
  rw [sharedStep, sharedK, shrinkK_eq conv β₂ hq.2]
  refine Measure.bind_congr_right ?_
  filter_upwards [ae_shrinkK_pos conv (β₂, q.2)] with s hs
  rw [shrinkK_eq conv β₁ ⟨hq.1, read_pos ord hq.2.2 hs.2⟩]

theorem measurable_read (ord : Order) : Measurable fun r : ℝ × ℝ => ord.read r.1 r.2 := by
  cases ord
  · exact measurable_fst
  · exact measurable_snd

/-- The draw of the first group given the current state and the new `(λ₂, τ)`. -/
noncomputable def sharedInner (conv : Horseshoe.ExpArg) (ord : Order) (β₁ : Fin p₁ → ℝ)
    (r : ((Fin p₁ → ℝ) × ((Fin p₂ → ℝ) × ℝ)) × ((Fin p₂ → ℝ) × ℝ)) :
    Measure ((Fin p₁ → ℝ) × ((Fin p₂ → ℝ) × ℝ)) :=
  (shrinkK conv (β₁, (r.1.1, ord.read r.1.2.2 r.2.2))).map fun u => (u.1, r.2)

theorem measurable_sharedInner (conv : Horseshoe.ExpArg) (ord : Order) (β₁ : Fin p₁ → ℝ) :
    Measurable (sharedInner (p₂ := p₂) conv ord β₁) := by
  have hr : Measurable fun r : ((Fin p₁ → ℝ) × ((Fin p₂ → ℝ) × ℝ)) × ((Fin p₂ → ℝ) × ℝ) =>
      ord.read r.1.2.2 r.2.2 :=
    (measurable_read ord).comp (g := fun r : ℝ × ℝ => ord.read r.1 r.2)
      (f := fun r : ((Fin p₁ → ℝ) × ((Fin p₂ → ℝ) × ℝ)) × ((Fin p₂ → ℝ) × ℝ) => (r.1.2.2, r.2.2))
      (by fun_prop)
  have hK : Measurable fun r : ((Fin p₁ → ℝ) × ((Fin p₂ → ℝ) × ℝ)) × ((Fin p₂ → ℝ) × ℝ) =>
      shrinkK conv (β₁, (r.1.1, ord.read r.1.2.2 r.2.2)) :=
    (measurable_shrinkK conv).comp (measurable_const.prodMk
      ((measurable_fst.comp measurable_fst).prodMk hr))
  have hg : Measurable fun v : (((Fin p₁ → ℝ) × ((Fin p₂ → ℝ) × ℝ)) × ((Fin p₂ → ℝ) × ℝ)) ×
      ((Fin p₁ → ℝ) × ℝ) => (v.2.1, v.1.2) := by fun_prop
  exact measurable_map_param hK (fun s => prob_shrinkK conv _) hg

/-- The draw of the second group. -/
noncomputable def sharedOuter (p₁ : ℕ) (conv : Horseshoe.ExpArg) (β₂ : Fin p₂ → ℝ)
    (q : (Fin p₁ → ℝ) × ((Fin p₂ → ℝ) × ℝ)) : Measure ((Fin p₂ → ℝ) × ℝ) :=
  shrinkK conv (β₂, q.2)

theorem measurable_sharedOuter (conv : Horseshoe.ExpArg) (β₂ : Fin p₂ → ℝ) :
    Measurable (sharedOuter p₁ conv β₂) :=
  (measurable_shrinkK conv).comp (measurable_const.prodMk measurable_snd)

theorem sharedK_def (conv : Horseshoe.ExpArg) (ord : Order) (β₁ : Fin p₁ → ℝ) (β₂ : Fin p₂ → ℝ) :
    sharedK conv ord β₁ β₂ = fun q => (sharedOuter p₁ conv β₂ q).bind fun s =>
      sharedInner conv ord β₁ (q, s) := rfl

theorem measurable_sharedK (conv : Horseshoe.ExpArg) (ord : Order) (β₁ : Fin p₁ → ℝ)
    (β₂ : Fin p₂ → ℝ) : Measurable (sharedK conv ord β₁ β₂) := by
  rw [sharedK_def]
  exact measurable_bind_param (measurable_sharedOuter conv β₂) (fun q => prob_shrinkK conv _)
    (measurable_sharedInner conv ord β₁)

theorem aemeasurable_sharedStep (conv : Horseshoe.ExpArg) (ord : Order) (β₁ : Fin p₁ → ℝ)
    (β₂ : Fin p₂ → ℝ) {ν : Measure ((Fin p₁ → ℝ) × ((Fin p₂ → ℝ) × ℝ))} (hpos : ∀ᵐ q ∂ν, Pos q) :
    AEMeasurable (sharedStep conv ord β₁ β₂) ν := by
  refine (measurable_sharedK conv ord β₁ β₂).aemeasurable.congr ?_
  filter_upwards [hpos] with q hq using (sharedK_eq conv ord β₁ β₂ hq).symm

theorem measurableSet_Pos : MeasurableSet {q : (Fin p₁ → ℝ) × ((Fin p₂ → ℝ) × ℝ) | Pos q} := by
  have e : {q : (Fin p₁ → ℝ) × ((Fin p₂ → ℝ) × ℝ) | Pos q} =
      (⋂ j, {q : (Fin p₁ → ℝ) × ((Fin p₂ → ℝ) × ℝ) | 0 < q.1 j}) ∩ Prod.snd ⁻¹' {s | Horseshoe.AllPos s} := by
    ext q
    simp [Pos]
  have hj : ∀ j, Measurable fun q : (Fin p₁ → ℝ) × ((Fin p₂ → ℝ) × ℝ) => q.1 j := fun j => by fun_prop
  rw [e]
  exact (MeasurableSet.iInter fun j => measurableSet_lt measurable_const (hj j)).inter
    (measurable_snd Horseshoe.measurableSet_allPos)

/-- One call gives positive values. -/
theorem ae_pos_bind (conv : Horseshoe.ExpArg) (ord : Order) (β₁ : Fin p₁ → ℝ) (β₂ : Fin p₂ → ℝ)
    {ν : Measure ((Fin p₁ → ℝ) × ((Fin p₂ → ℝ) × ℝ))} (hpos : ∀ᵐ q ∂ν, Pos q) :
    ∀ᵐ q ∂ν.bind (sharedStep conv ord β₁ β₂), Pos q := by
  refine ae_bind (aemeasurable_sharedStep conv ord β₁ β₂ hpos) measurableSet_Pos ?_
  filter_upwards [hpos] with q hq
  rw [sharedK_eq conv ord β₁ β₂ hq]
  have hm : Measurable fun s : (Fin p₂ → ℝ) × ℝ => sharedInner conv ord β₁ (q, s) :=
    (measurable_sharedInner conv ord β₁).comp measurable_prodMk_left
  refine ae_bind hm.aemeasurable measurableSet_Pos ?_
  filter_upwards [ae_shrinkK_pos conv (β₂, q.2)] with s hs
  have hm2 : Measurable fun u : (Fin p₁ → ℝ) × ℝ => (u.1, s) := by fun_prop
  rw [sharedInner, ae_map_iff hm2.aemeasurable measurableSet_Pos]
  filter_upwards [ae_shrinkK_pos conv (β₁, (q.1, ord.read q.2.2 s.2))] with u hu using ⟨hu.1, hs⟩

/-- The law of `(λ₂, τ)` after one call. -/
theorem bind_map_snd (conv : Horseshoe.ExpArg) (ord : Order) (β₁ : Fin p₁ → ℝ) (β₂ : Fin p₂ → ℝ)
    {ν : Measure ((Fin p₁ → ℝ) × ((Fin p₂ → ℝ) × ℝ))} (hpos : ∀ᵐ q ∂ν, Pos q) :
    (ν.bind (sharedStep conv ord β₁ β₂)).map Prod.snd =
      (ν.map Prod.snd).bind fun s => shrinkK conv (β₂, s) := by
  have hm : Measurable fun s => shrinkK conv (β₂, s) := (measurable_shrinkK conv).comp measurable_prodMk_left
  have hm2 : Measurable fun q : (Fin p₁ → ℝ) × ((Fin p₂ → ℝ) × ℝ) => shrinkK conv (β₂, q.2) :=
    hm.comp measurable_snd
  have e1 : (ν.map Prod.snd).bind (fun s => shrinkK conv (β₂, s)) =
      ν.bind fun q => shrinkK conv (β₂, q.2) := by
    refine Measure.ext fun S hS => ?_
    rw [Measure.bind_apply hS hm.aemeasurable, Measure.bind_apply hS hm2.aemeasurable,
      lintegral_map (f := fun s => shrinkK conv (β₂, s) S) ((Measure.measurable_coe hS).comp hm)
        measurable_snd]
  rw [e1, map_bind (aemeasurable_sharedStep conv ord β₁ β₂ hpos) measurable_snd]
  refine Measure.bind_congr_right ?_
  filter_upwards [hpos] with q hq using sharedStep_map_snd conv ord β₁ β₂ hq

/-- The law of `(λ₂, τ)` after one call, with the model's kernel. -/
theorem bind_map_snd' (conv : Horseshoe.ExpArg) (ord : Order) (β₁ : Fin p₁ → ℝ) (β₂ : Fin p₂ → ℝ)
    {ν : Measure ((Fin p₁ → ℝ) × ((Fin p₂ → ℝ) × ℝ))} (hpos : ∀ᵐ q ∂ν, Pos q) :
    (ν.bind (sharedStep conv ord β₁ β₂)).map Prod.snd =
      (ν.map Prod.snd).bind (Horseshoe.horseshoeStep conv β₂) := by
  rw [bind_map_snd conv ord β₁ β₂ hpos]
  refine Measure.bind_congr_right ?_
  have h : ∀ᵐ s ∂ν.map Prod.snd, Horseshoe.AllPos s := by
    rw [ae_map_iff measurable_snd.aemeasurable Horseshoe.measurableSet_allPos]
    filter_upwards [hpos] with q hq using hq.2
  filter_upwards [h] with s hs using (shrinkK_eq conv β₂ hs).symm

/-- A law kept by the sampler has a `(λ₂, τ)`-marginal kept by the kernel of the second group. -/
theorem marginal_kept {conv : Horseshoe.ExpArg} {ord : Order} {β₁ : Fin p₁ → ℝ} {β₂ : Fin p₂ → ℝ}
    {ν : Measure ((Fin p₁ → ℝ) × ((Fin p₂ → ℝ) × ℝ))} (hpos : ∀ᵐ q ∂ν, Pos q)
    (h : Stationary ν (sharedStep conv ord β₁ β₂)) :
    (ν.map Prod.snd).bind (fun s => shrinkK conv (β₂, s)) = ν.map Prod.snd := by
  rw [← bind_map_snd conv ord β₁ β₂ hpos, h.2]

/-- Rate reading: the `(λ₂, τ)`-marginal of a law kept by the sampler is the posterior given the second
group alone. -/
theorem kept_marginal (ord : Order) {β₁ : Fin p₁ → ℝ} {β₂ : Fin p₂ → ℝ}
    (h₂ : ∀ j, β₂ j ≠ 0) {ν : Measure ((Fin p₁ → ℝ) × ((Fin p₂ → ℝ) × ℝ))} [IsProbabilityMeasure ν]
    (hpos : ∀ᵐ q ∂ν, Pos q) (h : Stationary ν (sharedStep .rate ord β₁ β₂)) :
    ν.map Prod.snd = Horseshoe.posterior β₂ 1 := by
  have := Measure.isProbabilityMeasure_map (μ := ν) (f := Prod.snd) measurable_snd.aemeasurable
  have h' : IsProbabilityMeasure (Horseshoe.posterior β₂ 1) :=
    isProbabilityMeasure_bayes (Horseshoe.bayesDefined_posterior h₂ one_pos)
  refine step_unique .rate β₂ (marginal_kept hpos h) ?_
  have hs := (Horseshoe.C28_rate_step_invariant_partial h₂).2
  have he : (fun s => shrinkK .rate (β₂, s)) =ᵐ[Horseshoe.posterior β₂ 1]
      Horseshoe.horseshoeStep .rate β₂ := by
    filter_upwards [Horseshoe.ae_posterior_pos β₂ 1] with s hs using (shrinkK_eq .rate β₂ hs).symm
  rw [Measure.bind_congr_right he]
  exact hs.2

/-! ## The target -/

/-- Density of the first group given the global parameter, its local parameters integrated out. -/
noncomputable def groupLik (β₁ : Fin p₁ → ℝ) (t : ℝ) : ℝ≥0∞ :=
  ∫⁻ l, Horseshoe.lik β₁ 1 (l, t) ∂Measure.pi fun _ => Horseshoe.halfCauchy

theorem lik_eq (β₁ : Fin p₁ → ℝ) (β₂ : Fin p₂ → ℝ) (q : (Fin p₁ → ℝ) × ((Fin p₂ → ℝ) × ℝ)) :
    lik β₁ β₂ q = Horseshoe.lik β₁ 1 (q.1, q.2.2) * Horseshoe.lik β₂ 1 q.2 := by
  simp [lik, Horseshoe.lik]

theorem measurable_lik (β₁ : Fin p₁ → ℝ) (β₂ : Fin p₂ → ℝ) : Measurable (lik β₁ β₂) := by
  unfold lik gaussianPDFReal
  fun_prop

theorem measurable_lik_first (β₁ : Fin p₁ → ℝ) :
    Measurable fun r : ℝ × (Fin p₁ → ℝ) => Horseshoe.lik β₁ 1 (r.2, r.1) :=
  (Horseshoe.measurable_lik β₁ 1).comp measurable_swap

theorem measurable_groupLik (β₁ : Fin p₁ → ℝ) : Measurable (groupLik β₁) :=
  (measurable_lik_first β₁).lintegral_prod_right'

theorem ae_pi_halfCauchy (p : ℕ) :
    ∀ᵐ l ∂(Measure.pi fun _ : Fin p => Horseshoe.halfCauchy), ∀ j, 0 < l j :=
  ae_all_iff.2 fun j => (Measure.quasiMeasurePreserving_eval (μ := fun _ : Fin p => Horseshoe.halfCauchy)
    j).ae Horseshoe.ae_pos_halfCauchy

theorem ae_prior_pos (p₁ p₂ : ℕ) : ∀ᵐ q ∂prior p₁ p₂, Pos q := by
  have h1 := Measure.quasiMeasurePreserving_fst (μ := Measure.pi fun _ : Fin p₁ => Horseshoe.halfCauchy)
    (ν := Horseshoe.prior p₂) |>.ae (ae_pi_halfCauchy p₁)
  have h2 := Measure.quasiMeasurePreserving_snd (μ := Measure.pi fun _ : Fin p₁ => Horseshoe.halfCauchy)
    (ν := Horseshoe.prior p₂) |>.ae (Horseshoe.ae_prior_pos p₂)
  filter_upwards [h1, h2] with q a b using ⟨a, b⟩

instance (p₁ p₂ : ℕ) : IsProbabilityMeasure (prior p₁ p₂) := by unfold prior; infer_instance

/-- A bound of the density of a group. -/
noncomputable def likBound (β₁ : Fin p₁ → ℝ) : ℝ≥0∞ :=
  ENNReal.ofReal (∏ j, (√(2 * π))⁻¹ * |β₁ j|⁻¹)

theorem lik_le {β₁ : Fin p₁ → ℝ} (hβ : ∀ j, β₁ j ≠ 0) {q : (Fin p₁ → ℝ) × ℝ}
    (hq : Horseshoe.AllPos q) : Horseshoe.lik β₁ 1 q ≤ likBound β₁ := by
  refine ENNReal.ofReal_le_ofReal (Finset.prod_le_prod (fun j _ => gaussianPDFReal_nonneg _ _ _)
    fun j _ => Horseshoe.gaussianPDFReal_le ?_ (hβ j))
  have := hq.1 j
  have := hq.2
  positivity

theorem lik_ne_zero (β₁ : Fin p₁ → ℝ) {q : (Fin p₁ → ℝ) × ℝ} (hq : Horseshoe.AllPos q) :
    Horseshoe.lik β₁ 1 q ≠ 0 := by
  rw [Horseshoe.lik, Ne, ENNReal.ofReal_eq_zero, not_le]
  refine Finset.prod_pos fun j _ => gaussianPDFReal_pos _ _ _ ?_
  have := hq.1 j
  have := hq.2
  simp only [ne_eq, toNNReal_eq_zero, not_le]
  positivity

theorem groupLik_ne_zero (β₁ : Fin p₁ → ℝ) {t : ℝ} (ht : 0 < t) : groupLik β₁ t ≠ 0 := by
  intro h
  have hm : Measurable fun l => Horseshoe.lik β₁ 1 (l, t) :=
    (Horseshoe.measurable_lik β₁ 1).comp measurable_prodMk_right
  rw [groupLik, lintegral_eq_zero_iff hm] at h
  obtain ⟨l, hl, h0⟩ := ((ae_pi_halfCauchy p₁).and h).exists
  exact lik_ne_zero β₁ (q := (l, t)) ⟨hl, ht⟩ h0

theorem groupLik_le {β₁ : Fin p₁ → ℝ} (hβ : ∀ j, β₁ j ≠ 0) {t : ℝ} (ht : 0 < t) :
    groupLik β₁ t ≤ likBound β₁ := by
  calc groupLik β₁ t ≤ ∫⁻ _, likBound β₁ ∂Measure.pi fun _ : Fin p₁ => Horseshoe.halfCauchy := by
        refine lintegral_mono_ae ?_
        filter_upwards [ae_pi_halfCauchy p₁] with l hl using lik_le hβ ⟨hl, ht⟩
    _ = likBound β₁ := by simp

theorem bayesDefined_shared {β₁ : Fin p₁ → ℝ} {β₂ : Fin p₂ → ℝ} (h₁ : ∀ j, β₁ j ≠ 0)
    (h₂ : ∀ j, β₂ j ≠ 0) : BayesDefined (prior p₁ p₂) (lik β₁ β₂) := by
  constructor
  · intro h
    rw [lintegral_eq_zero_iff (measurable_lik β₁ β₂)] at h
    obtain ⟨q, hq, h0⟩ := ((ae_prior_pos p₁ p₂).and h).exists
    have h0 : lik β₁ β₂ q = 0 := h0
    rw [lik_eq] at h0
    rcases mul_eq_zero.1 h0 with h | h
    · exact lik_ne_zero β₁ (q := (q.1, q.2.2)) ⟨hq.1, hq.2.2⟩ h
    · exact lik_ne_zero β₂ hq.2 h
  · have hb : ∫⁻ q, lik β₁ β₂ q ∂prior p₁ p₂ ≤ ∫⁻ _, likBound β₁ * likBound β₂ ∂prior p₁ p₂ := by
      refine lintegral_mono_ae ?_
      filter_upwards [ae_prior_pos p₁ p₂] with q hq
      rw [lik_eq]
      exact mul_le_mul' (lik_le h₁ ⟨hq.1, hq.2.2⟩) (lik_le h₂ hq.2)
    refine ne_top_of_le_ne_top ?_ hb
    simp [likBound, ENNReal.mul_eq_top]

theorem ae_posterior_pos (β₁ : Fin p₁ → ℝ) (β₂ : Fin p₂ → ℝ) : ∀ᵐ q ∂posterior β₁ β₂, Pos q :=
  (bayes_absolutelyContinuous _ _).ae_le (ae_prior_pos p₁ p₂)

/-- The `(λ₂, τ)`-marginal of the joint posterior. -/
theorem posterior_map_snd {β₁ : Fin p₁ → ℝ} {β₂ : Fin p₂ → ℝ} (h₂ : ∀ j, β₂ j ≠ 0) :
    (posterior β₁ β₂).map Prod.snd =
      bayes (Horseshoe.posterior β₂ 1) fun s => groupLik β₁ s.2 := by
  have hmg : Measurable fun s : (Fin p₂ → ℝ) × ℝ => groupLik β₁ s.2 :=
    (measurable_groupLik β₁).comp measurable_snd
  have hl2 := Horseshoe.measurable_lik β₂ 1
  rw [Horseshoe.posterior, bayes_bayes hl2 hmg (Horseshoe.bayesDefined_posterior h₂ one_pos)]
  have key : ∀ f : (Fin p₂ → ℝ) × ℝ → ℝ≥0∞, Measurable f →
      ∫⁻ q, lik β₁ β₂ q * f q.2 ∂prior p₁ p₂ =
        ∫⁻ s, Horseshoe.lik β₂ 1 s * groupLik β₁ s.2 * f s ∂Horseshoe.prior p₂ := by
    intro f hf
    have hf2 : Measurable fun q : (Fin p₁ → ℝ) × ((Fin p₂ → ℝ) × ℝ) => lik β₁ β₂ q * f q.2 :=
      (measurable_lik β₁ β₂).mul (hf.comp measurable_snd)
    change ∫⁻ q, lik β₁ β₂ q * f q.2 ∂(Measure.pi fun _ : Fin p₁ => Horseshoe.halfCauchy).prod
      (Horseshoe.prior p₂) = _
    rw [lintegral_prod_symm' _ hf2]
    refine lintegral_congr fun s => ?_
    have hl1 : Measurable fun l => Horseshoe.lik β₁ 1 (l, s.2) :=
      (Horseshoe.measurable_lik β₁ 1).comp measurable_prodMk_right
    simp only [lik_eq]
    rw [groupLik, mul_right_comm, ← lintegral_const_mul _ hl1]
    refine lintegral_congr fun l => ?_
    ring
  refine Measure.ext fun S hS => ?_
  have hi : Measurable (S.indicator (1 : (Fin p₂ → ℝ) × ℝ → ℝ≥0∞)) := measurable_one.indicator hS
  have hi2 : Measurable fun q : (Fin p₁ → ℝ) × ((Fin p₂ → ℝ) × ℝ) =>
      S.indicator (1 : (Fin p₂ → ℝ) × ℝ → ℝ≥0∞) q.2 := hi.comp measurable_snd
  have k1 := key (fun _ => 1) measurable_const
  have k2 := key _ hi
  simp only [mul_one] at k1
  have e1 : (posterior β₁ β₂).map Prod.snd S = ∫⁻ q, S.indicator 1 q.2 ∂posterior β₁ β₂ := by
    rw [← lintegral_indicator_one hS, lintegral_map hi measurable_snd]
  have e2 : bayes (Horseshoe.prior p₂) (fun s => Horseshoe.lik β₂ 1 s * groupLik β₁ s.2) S =
      ∫⁻ s, S.indicator 1 s ∂bayes (Horseshoe.prior p₂)
        fun s => Horseshoe.lik β₂ 1 s * groupLik β₁ s.2 := (lintegral_indicator_one hS).symm
  rw [e1, e2, posterior, lintegral_bayes (measurable_lik β₁ β₂) hi2,
    lintegral_bayes (hl2.fun_mul hmg) hi, k1, k2]

/-- The density of a group that is not empty vanishes as the global parameter grows. -/
theorem groupLik_tendsto (hp : 0 < p₁) {β₁ : Fin p₁ → ℝ} (hβ : ∀ j, β₁ j ≠ 0) :
    Filter.Tendsto (groupLik β₁) Filter.atTop (nhds 0) := by
  have h0 : ∫⁻ _ : Fin p₁ → ℝ, (0 : ℝ≥0∞) ∂(Measure.pi fun _ : Fin p₁ => Horseshoe.halfCauchy) = 0 :=
    lintegral_zero
  rw [← h0]
  refine tendsto_lintegral_filter_of_dominated_convergence (fun _ => likBound β₁) ?_ ?_ ?_ ?_
  · exact Filter.Eventually.of_forall fun t =>
      (Horseshoe.measurable_lik β₁ 1).comp measurable_prodMk_right
  · filter_upwards [Filter.eventually_gt_atTop 0] with t ht
    filter_upwards [ae_pi_halfCauchy p₁] with l hl using lik_le hβ ⟨hl, ht⟩
  · simp [likBound]
  · filter_upwards [ae_pi_halfCauchy p₁] with l hl
    have hj : ∀ j, Filter.Tendsto
        (fun t : ℝ => gaussianPDFReal 0 (l j ^ 2 * t ^ 2 * 1).toNNReal (β₁ j)) Filter.atTop (nhds 0) := by
      intro j
      have hlj := hl j
      have hpi := pi_pos
      have hc : Filter.Tendsto (fun t : ℝ => (√(2 * π) * l j * t)⁻¹) Filter.atTop (nhds 0) :=
        (Filter.tendsto_id.const_mul_atTop (by positivity)).inv_tendsto_atTop
      refine squeeze_zero' (Filter.Eventually.of_forall fun t => gaussianPDFReal_nonneg _ _ _) ?_ hc
      filter_upwards [Filter.eventually_gt_atTop 0] with t ht
      rw [gaussianPDFReal, coe_toNNReal _ (by positivity),
        show 2 * π * (l j ^ 2 * t ^ 2 * 1) = 2 * π * (l j * t) ^ 2 by ring, sqrt_mul (by positivity),
        sqrt_sq (by positivity), ← mul_assoc]
      refine mul_le_of_le_one_right (by positivity) (exp_le_one_iff.2 ?_)
      rw [neg_div]
      exact neg_nonpos.2 (by positivity)
    have hprod := tendsto_finsetProd Finset.univ fun j (_ : j ∈ Finset.univ) => hj j
    have hz : ∏ _j : Fin p₁, (0 : ℝ) = 0 := by
      rw [Finset.prod_const, Finset.card_fin, zero_pow hp.ne']
    rw [hz] at hprod
    have := (ENNReal.continuous_ofReal.tendsto 0).comp hprod
    simpa [Horseshoe.lik, Function.comp_def] using this

/-- The density of a group that is not empty depends on the global parameter. -/
theorem groupLik_not_const (hp : 0 < p₁) {β₁ : Fin p₁ → ℝ} (hβ : ∀ j, β₁ j ≠ 0) (k : ℝ≥0∞) :
    ¬ ∀ᵐ t ∂Horseshoe.halfCauchy, groupLik β₁ t = k := by
  intro h
  have hac : volPos ≪ Horseshoe.halfCauchy := by
    refine withDensity_absolutelyContinuous' ?_ ?_
    · fun_prop
    · refine ae_of_all _ fun x => ?_
      have := pi_pos
      simp only [ne_eq, ENNReal.ofReal_eq_zero, not_le]
      positivity
  have h' : ∀ᵐ t ∂volPos, groupLik β₁ t = k := hac.ae_le h
  have hk : k ≠ 0 := by
    have hne : (ae volPos).NeBot := by
      rw [ae_neBot]
      intro h0
      have := congrArg (fun μ : Measure ℝ => μ Set.univ) h0
      simp [volPos] at this
    obtain ⟨t, ht, h0⟩ := (h'.and ae_volPos).exists
    exact ht ▸ groupLik_ne_zero β₁ h0
  have hev := (groupLik_tendsto hp hβ).eventually_lt_const (pos_iff_ne_zero.2 hk)
  obtain ⟨T, hT⟩ := Filter.eventually_atTop.1 hev
  have h2 : volPos (Set.Ioi (max T 0)) = 0 := by
    refine measure_mono_null (fun t ht => ?_) (ae_iff.1 h')
    have ht : max T 0 < t := ht
    exact (hT t ((le_max_left _ _).trans ht.le)).ne
  rw [volPos, Measure.restrict_apply measurableSet_Ioi,
    Set.inter_eq_left.2 (Set.Ioi_subset_Ioi (le_max_right _ _)), Real.volume_Ioi] at h2
  exact ENNReal.top_ne_zero h2

end Verif.Shared
