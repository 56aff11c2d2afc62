import Verif.Hier.Marginal
import Verif.HsReg.Lemmas
import Verif.PG.Other

/-!
# The posterior of a regression whose coefficients have random standard deviations

Spec and lemmas: the marginal of the standard deviations in the joint posterior is not their prior.
-/

open MeasureTheory ProbabilityTheory Filter Set Matrix
open scoped ENNReal Topology

namespace Verif.Hier

variable {p n : ℕ}

/-- Spec.  A density of a law on the vectors with positive entries that is positive there. -/
structure PosVecDensity (h : (Fin p → ℝ) → ℝ≥0∞) : Prop where
  meas : Measurable h
  one : ∫⁻ s, h s = 1
  zero : ∀ s, ¬ (∀ j, 0 < s j) → h s = 0
  pos : ∀ s, (∀ j, 0 < s j) → h s ≠ 0

/-- Spec.  The density of independent centred normals with standard deviations `s` at `β`. -/
noncomputable def normDensity (s β : Fin p → ℝ) : ℝ≥0∞ :=
  ENNReal.ofReal (∏ j, gaussianPDFReal 0 (s j ^ 2).toNNReal (β j))

/-- Spec.  The joint density of the standard deviations, with density `h`, of the coefficients and of data
with likelihood `L`, at the pair `q = (sigma, beta)`. -/
noncomputable def regDensity (h L : (Fin p → ℝ) → ℝ≥0∞) (q : (Fin p → ℝ) × (Fin p → ℝ)) : ℝ≥0∞ :=
  h q.1 * (normDensity q.1 q.2 * L q.2)

/-- Spec.  The posterior of the standard deviations and the coefficients. -/
noncomputable def regPosterior (h L : (Fin p → ℝ) → ℝ≥0∞) : Measure ((Fin p → ℝ) × (Fin p → ℝ)) :=
  bayes volume (regDensity h L)

/-- Spec.  A likelihood of the coefficients that is continuous, positive and bounded. -/
structure Tame (L : (Fin p → ℝ) → ℝ≥0∞) : Prop where
  cont : Continuous L
  pos : ∀ β, L β ≠ 0
  bdd : ∃ B : ℝ≥0∞, B ≠ ∞ ∧ ∀ β, L β ≤ B

/-- Spec.  A likelihood that also tends to zero along almost every line through zero. -/
structure Fades (L : (Fin p → ℝ) → ℝ≥0∞) : Prop extends Tame L where
  fades : ∀ᵐ β : Fin p → ℝ, Tendsto (fun t : ℝ => L (t • β)) atTop (𝓝 0)

theorem measurable_normDensity : Measurable fun q : (Fin p → ℝ) × (Fin p → ℝ) => normDensity q.1 q.2 := by
  unfold normDensity gaussianPDFReal
  fun_prop

theorem normDensity_pos {s : Fin p → ℝ} (hs : ∀ j, 0 < s j) (β : Fin p → ℝ) : normDensity s β ≠ 0 := by
  rw [normDensity, ne_eq, ENNReal.ofReal_eq_zero, not_le]
  refine Finset.prod_pos fun j _ => gaussianPDFReal_pos _ _ _ ?_
  have := hs j
  simp [this.ne']

variable {h L : (Fin p → ℝ) → ℝ≥0∞}

theorem measurable_lik (hL : Tame L) :
    Measurable fun q : (Fin p → ℝ) × (Fin p → ℝ) => normDensity q.1 q.2 * L q.2 :=
  measurable_normDensity.mul (hL.cont.measurable.comp measurable_snd)

theorem measurable_regDensity (hh : PosVecDensity h) (hL : Tame L) : Measurable (regDensity h L) :=
  (hh.meas.comp measurable_fst).mul (measurable_lik hL)

/-- The probability of the data given the standard deviations. -/
noncomputable def regMarg (L : (Fin p → ℝ) → ℝ≥0∞) (s : Fin p → ℝ) : ℝ≥0∞ :=
  ∫⁻ e, L (fun j => s j * e j) ∂Measure.pi fun _ : Fin p => gaussianReal 0 1

theorem normalPrior_eq_map (s : Fin p → ℝ) :
    normalPrior s = (Measure.pi fun _ : Fin p => gaussianReal 0 1).map fun e j => s j * e j := by
  have e : ∀ j, gaussianReal 0 (s j ^ 2).toNNReal = (gaussianReal 0 1).map fun x => s j * x := by
    intro j
    rw [gaussianReal_map_const_mul]
    congr 1
    · simp
    · ext
      simp [sq_nonneg]
  have hp : ∀ j, SigmaFinite ((gaussianReal 0 1).map fun x => s j * x) := fun j => by
    rw [← e]
    infer_instance
  unfold normalPrior
  simp only [e]
  exact (Measure.pi_map_pi (μ := fun _ : Fin p => gaussianReal 0 1) (f := fun j x => s j * x)
    fun j => (measurable_const_mul (s j)).aemeasurable).symm

theorem normalPrior_eq_normDensity {s : Fin p → ℝ} (hs : ∀ j, 0 < s j) :
    normalPrior s = volume.withDensity (normDensity s) := by
  rw [HsReg.normalPrior_eq_withDensity hs]
  unfold normDensity
  rfl

theorem lintegral_normalPrior {L : (Fin p → ℝ) → ℝ≥0∞} (hL : Measurable L) {s : Fin p → ℝ} (hs : ∀ j, 0 < s j) :
    ∫⁻ β, L β ∂normalPrior s = ∫⁻ β, normDensity s β * L β := by
  have hn : Measurable (normDensity s) := by
    unfold normDensity gaussianPDFReal
    fun_prop
  rw [normalPrior_eq_normDensity hs]
  exact lintegral_withDensity_eq_lintegral_mul volume hn hL

theorem regMarg_eq {L : (Fin p → ℝ) → ℝ≥0∞} (hL : Measurable L) (s : Fin p → ℝ) :
    regMarg L s = ∫⁻ β, L β ∂normalPrior s := by
  have hm : Measurable fun e : Fin p → ℝ => fun j => s j * e j := by fun_prop
  rw [normalPrior_eq_map]
  exact (lintegral_map hL hm).symm

theorem lintegral_lik (hL : Tame L) {s : Fin p → ℝ} (hs : ∀ j, 0 < s j) :
    ∫⁻ β, normDensity s β * L β = regMarg L s := by
  rw [regMarg_eq hL.cont.measurable, lintegral_normalPrior hL.cont.measurable hs]

theorem tendsto_regMarg (hL : Tame L) {ι : Type*} {l : Filter ι} [l.IsCountablyGenerated] {s : ι → Fin p → ℝ}
    {F : (Fin p → ℝ) → ℝ≥0∞}
    (hF : ∀ᵐ e ∂Measure.pi fun _ : Fin p => gaussianReal 0 1,
      Tendsto (fun i => L fun j => s i j * e j) l (𝓝 (F e))) :
    Tendsto (fun i => regMarg L (s i)) l (𝓝 (∫⁻ e, F e ∂Measure.pi fun _ : Fin p => gaussianReal 0 1)) := by
  obtain ⟨B, hB, hLB⟩ := hL.bdd
  refine tendsto_lintegral_filter_of_dominated_convergence (fun _ => B) (Eventually.of_forall fun i => ?_)
    (Eventually.of_forall fun i => ae_of_all _ fun e => hLB _) (by simpa using hB) hF
  exact hL.cont.measurable.comp (by fun_prop)

theorem continuous_regMarg (hL : Tame L) : Continuous (regMarg L) := by
  refine continuous_iff_continuousAt.2 fun s => ?_
  refine tendsto_regMarg hL (F := fun e => L fun j => s j * e j) (ae_of_all _ fun e => ?_)
  exact (hL.cont.tendsto _).comp (Continuous.tendsto (by fun_prop) s)

theorem regMarg_zero : regMarg L 0 = L 0 := by
  unfold regMarg
  simp only [Pi.zero_apply, zero_mul]
  rw [lintegral_const, measure_univ, mul_one]
  rfl

theorem pi_gaussian_ac : (Measure.pi fun _ : Fin p => gaussianReal 0 1) ≪ volume := by
  have : (Measure.pi fun _ : Fin p => gaussianReal 0 1) = normalPrior fun _ => 1 := by
    unfold normalPrior
    simp
  rw [this, HsReg.normalPrior_eq_withDensity fun _ => one_pos]
  exact withDensity_absolutelyContinuous _ _

theorem regMarg_far (hL : Fades L) : Tendsto (fun t : ℝ => regMarg L fun _ => t) atTop (𝓝 0) := by
  have := tendsto_regMarg hL.toTame (s := fun (t : ℝ) (_ : Fin p) => t) (l := atTop) (F := fun _ => 0)
    (by filter_upwards [pi_gaussian_ac.ae_le hL.fades] with e he using he)
  simpa using this

theorem isOpen_pos : IsOpen {s : Fin p → ℝ | ∀ j, 0 < s j} := by
  simp only [ofPred_forall]
  exact isOpen_iInter_of_finite fun j => isOpen_lt continuous_const (continuous_apply j)

/-- If the probability of the data is the same for almost all standard deviations, it is so for all. -/
theorem regMarg_const (hL : Tame L) {c : ℝ≥0∞} (hc : ∀ᵐ s : Fin p → ℝ, (∀ j, 0 < s j) → regMarg L s = c) :
    ∀ s : Fin p → ℝ, (∀ j, 0 < s j) → regMarg L s = c := by
  have h1 : ∀ᵐ s ∂(volume : Measure (Fin p → ℝ)).restrict {s | ∀ j, 0 < s j}, regMarg L s = c :=
    (ae_restrict_iff' isOpen_pos.measurableSet).2 hc
  have h2 : EqOn (regMarg L) (fun _ => c) {s | ∀ j, 0 < s j} :=
    Measure.eqOn_open_of_ae_eq h1 isOpen_pos (continuous_regMarg hL).continuousOn continuous_const.continuousOn
  exact fun s hs => h2 hs

/-- The probability of the data depends on the standard deviations. -/
theorem regMarg_not_const (hL : Fades L) (c : ℝ≥0∞) :
    ¬ ∀ s : Fin p → ℝ, (∀ j, 0 < s j) → regMarg L s = c := by
  intro h2
  have h3 : c = 0 := by
    refine tendsto_nhds_unique (Tendsto.congr' ?_ tendsto_const_nhds) (regMarg_far hL)
    filter_upwards [eventually_gt_atTop 0] with t ht
    exact (h2 _ fun _ => ht).symm
  have h4 : Tendsto (fun t : ℝ => regMarg L fun _ => t) (𝓝[>] 0) (𝓝 (regMarg L 0)) := by
    refine Tendsto.mono_left ?_ nhdsWithin_le_nhds
    exact ((continuous_regMarg hL.toTame).comp
      (show Continuous fun (t : ℝ) (_ : Fin p) => t by fun_prop)).tendsto 0
  have h5 : c = L 0 := by
    rw [← regMarg_zero (L := L)]
    refine tendsto_nhds_unique (Tendsto.congr' ?_ tendsto_const_nhds) h4
    filter_upwards [self_mem_nhdsWithin] with t ht
    exact (h2 _ fun _ => ht).symm
  exact hL.pos 0 (h5.symm.trans h3)

theorem regMarg_pos (hL : Tame L) (s : Fin p → ℝ) : regMarg L s ≠ 0 := by
  have hm : Measurable fun e : Fin p → ℝ => L fun j => s j * e j := hL.cont.measurable.comp (by fun_prop)
  rw [regMarg, ne_eq, lintegral_eq_zero_iff hm]
  intro h0
  have : ∀ᵐ e ∂Measure.pi fun _ : Fin p => gaussianReal 0 1, False := by
    filter_upwards [h0] with e he using hL.pos _ he
  rw [ae_iff] at this
  simp at this

/-- The posterior is well defined. -/
theorem regPosterior_defined (hh : PosVecDensity h) (hL : Tame L) :
    BayesDefined volume (regDensity h L) := by
  have hm := measurable_lik hL
  have e := lintegral_joint (μ := volume) (ν := volume) hh.meas hm
  have e' : ∫⁻ q, regDensity h L q = ∫⁻ s, h s * regMarg L s := by
    refine e.trans (lintegral_congr fun s => ?_)
    by_cases hs : ∀ j, 0 < s j
    · rw [lintegral_lik hL hs]
    · rw [hh.zero s hs, zero_mul, zero_mul]
  have hmm : Measurable fun s => h s * regMarg L s := hh.meas.mul (continuous_regMarg hL).measurable
  rw [BayesDefined, e']
  constructor
  · intro h0
    rw [lintegral_eq_zero_iff hmm] at h0
    have : ∫⁻ s, h s = 0 := by
      rw [lintegral_eq_zero_iff hh.meas]
      filter_upwards [h0] with s hs
      exact (mul_eq_zero.1 hs).resolve_right (regMarg_pos hL s)
    rw [hh.one] at this
    exact one_ne_zero this
  · obtain ⟨B, hB, hLB⟩ := hL.bdd
    refine ne_top_of_le_ne_top (b := B) hB ?_
    calc ∫⁻ s, h s * regMarg L s ≤ ∫⁻ s, h s * B := by
          refine lintegral_mono fun s => mul_le_mul_right ?_ _
          refine (lintegral_mono fun e => hLB _).trans ?_
          simp
      _ = B := by rw [lintegral_mul_const _ hh.meas, hh.one, one_mul]

/-- The posterior law of the standard deviations is their prior exactly when the probability of the data does
not depend on them. -/
theorem map_fst_regPosterior_iff (hh : PosVecDensity h) (hL : Tame L) :
    (regPosterior h L).map Prod.fst = volume.withDensity h ↔
      ∃ c, ∀ s : Fin p → ℝ, (∀ j, 0 < s j) → ∫⁻ β, normDensity s β * L β = c := by
  have hd := regPosterior_defined hh hL
  constructor
  · intro e
    have h1 := ae_const_of_map_fst (μ := volume) (ν := volume) hh.meas
      (by rw [hh.one]; exact ENNReal.one_ne_top) (measurable_lik hL) hd e
    refine ⟨∫⁻ q, h q.1 * (normDensity q.1 q.2 * L q.2) ∂volume.prod volume, fun s hs => ?_⟩
    rw [lintegral_lik hL hs]
    refine regMarg_const hL ?_ s hs
    filter_upwards [h1] with s h2 hs
    rw [← lintegral_lik hL hs]
    exact h2 (hh.pos s hs)
  · rintro ⟨c, hc⟩
    have e1 := lintegral_joint (μ := volume) (ν := volume) hh.meas (measurable_lik hL)
    have e2 : ∀ s, h s * ∫⁻ β, normDensity s β * L β = h s * c := fun s => by
      by_cases hs : ∀ j, 0 < s j
      · rw [hc s hs]
      · rw [hh.zero s hs, zero_mul, zero_mul]
    have e3 : ∫⁻ q, h q.1 * (normDensity q.1 q.2 * L q.2) ∂volume.prod volume = c := by
      refine e1.trans ((lintegral_congr e2).trans ?_)
      rw [lintegral_mul_const _ hh.meas, hh.one, one_mul]
    have hc0 : c ≠ 0 ∧ c ≠ ∞ := by
      rw [← e3]
      exact hd
    refine (map_fst_bayes (μ := volume) (ν := volume) hh.meas (measurable_lik hL)).trans ?_
    congr 1
    funext s
    rw [e3]
    refine (congrArg (c⁻¹ * ·) (e2 s)).trans ?_
    rw [mul_comm (h s), ← mul_assoc, ENNReal.inv_mul_cancel hc0.1 hc0.2, one_mul]

/-- The posterior law of the standard deviations is not their prior. -/
theorem map_fst_regPosterior_ne (hh : PosVecDensity h) (hL : Fades L) :
    (regPosterior h L).map Prod.fst ≠ volume.withDensity h := by
  intro e
  obtain ⟨c, hc⟩ := (map_fst_regPosterior_iff hh hL.toTame).1 e
  refine regMarg_not_const hL c fun s hs => ?_
  rw [← lintegral_lik hL.toTame hs, hc s hs]

/-- The posterior gives probability one to positive standard deviations. -/
theorem ae_regPosterior (hh : PosVecDensity h) (hL : Tame L) :
    ∀ᵐ q ∂regPosterior h L, ∀ j, 0 < q.1 j := by
  refine Measure.ae_smul_measure ?_ _
  rw [ae_withDensity_iff (measurable_regDensity hh hL)]
  refine ae_of_all _ fun q hq => ?_
  by_contra hn
  exact hq (by rw [regDensity, hh.zero _ hn, zero_mul])

end Verif.Hier
