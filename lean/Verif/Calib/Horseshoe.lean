import Verif.Calib.Props
import Verif.Iter.JointProps
import Verif.HsDisp.Props

/-!
# Checks against simulated data (C78): horseshoe regressions
-/

open MeasureTheory ProbabilityTheory Matrix
open scoped ENNReal

namespace Verif

variable {p n : ℕ}

theorem ae_hsPrior_pos (p : ℕ) : ∀ᵐ q ∂HsReg.hsPrior p, Horseshoe.AllPos q.2 := by
  rw [HsReg.hsPrior_eq]
  exact (withDensity_absolutelyContinuous _ _).ae_le (Measure.quasiMeasurePreserving_snd.ae
    (Horseshoe.ae_prior_pos p))

/-- If a sampler fails to keep the posterior for some data of positive probability it fails the check. -/
theorem not_calibrated_of {Θ Y : Type*} [MeasurableSpace Θ] [MeasurableSpace Y] [Countable Y]
    [MeasurableSingletonClass Y] {prior : Measure Θ} [IsFiniteMeasure prior] {data : Θ → Measure Y}
    {lik : Y → Θ → ℝ≥0∞} (hm : ∀ y, Measurable (lik y))
    (hd : ∀ᵐ θ ∂prior, IsProbabilityMeasure (data θ) ∧ ∀ y, data θ {y} = lik y θ)
    {D : Set Θ} (hD : ∀ᵐ θ ∂prior, θ ∈ D) {K : Y → Θ → Measure Θ} (hr : ∀ y, ∃ K', Runs D (K y) K') (y : Y)
    (h0 : BayesDefined prior (lik y)) (hs : ¬ Stationary (bayes prior (lik y)) (K y)) :
    ¬ Calibrated prior data K := by
  choose K' hr using hr
  have hl : ∀ y, (fun θ => data θ {y}) =ᵐ[prior] lik y := fun y => hd.mono fun θ h => h.2 y
  rw [calibrated_iff (aemeasurable_of_singleton fun y => (hm y).aemeasurable.congr (hl y).symm)
    (hd.mono fun θ h => h.1)
    fun y => (hr y).meas.aemeasurable.congr (hD.mono fun θ h => ((hr y).eq θ h).symm)]
  intro h
  refine hs ?_
  rw [← bayes_congr_ae (hl y)]
  exact h y (by rw [lintegral_congr_ae (hl y)]; exact h0.1)

/-- **C78 is violated** by every regression with a horseshoe prior and at least one coefficient, whatever
the design, the dispersion, the number of observations and the reading of the argument of `exponential`. -/
theorem C78_horseshoe_violated (conv : Horseshoe.ExpArg) (rd : HsReg.Reads) {la : LinAlg} (hla : la.Sound)
    (hp : 0 < p) (X : Matrix (Fin n) (Fin p) ℝ) {h : Fin n → ℝ} (hh : ∀ i, 0 < h i) :
    ¬ Calibrated (HsReg.hsPrior p) (fun q => nbRegData X h q.1)
      (fun y => HsReg.nbSweep conv rd la X h y) ∧
    ¬ Calibrated (HsReg.hsPrior p) (fun q => bernRegData (fun ψ => sigmoid (-ψ)) X q.1)
      (fun y => HsReg.bernSweep conv rd la X y) := by
  have := HsDisp.prob_hsPrior p
  have hb := bernRegData_prob (prob := fun ψ => sigmoid (-ψ)) (fun x => (sigmoid_pos _).le)
    (fun x => (sigmoid_lt_one _).le) X
  have hv := HsReg.C60_sweep_violated conv rd hla hp X hh (fun _ => 0) (fun _ => true)
  have hx := HsReg.C60_posterior_exists (p := p) X hh (fun _ => 0) (fun _ => true)
  have hm : ∀ y, Measurable fun q : (Fin p → ℝ) × ((Fin p → ℝ) × ℝ) => nbRegLik X h y q.1 := fun y =>
    (measurable_nbRegLik X hh y).comp measurable_fst
  have hm' : ∀ y, Measurable fun q : (Fin p → ℝ) × ((Fin p → ℝ) × ℝ) =>
      bernRegLik (fun ψ => sigmoid (-ψ)) X y q.1 := fun y => by
    simp only [bernRegLik_neg X y]
    exact (measurable_bernRegLik (-X) y).comp measurable_fst
  have hr : ∀ y, ∃ K', Runs {q : (Fin p → ℝ) × ((Fin p → ℝ) × ℝ) | Horseshoe.AllPos q.2}
      (HsReg.nbSweep conv rd la X h y) K' := fun y =>
    ⟨_, HsReg.sweep_runs hla (HsReg.nbForm X hh y).some conv rd⟩
  have hr' : ∀ y, ∃ K', Runs {q : (Fin p → ℝ) × ((Fin p → ℝ) × ℝ) | Horseshoe.AllPos q.2}
      (HsReg.bernSweep conv rd la X y) K' := fun y =>
    ⟨_, HsReg.sweep_runs hla (HsReg.bernForm X y).some conv rd⟩
  constructor
  · exact not_calibrated_of (prior := HsReg.hsPrior p) (data := fun q => nbRegData X h q.1)
      (K := fun y => HsReg.nbSweep conv rd la X h y) (lik := fun y q => nbRegLik X h y q.1)
      (D := {q | Horseshoe.AllPos q.2}) hm
      (ae_of_all _ fun q => nbRegData_prob X hh q.1) (ae_hsPrior_pos p) hr (fun _ => 0) hx.1 hv.1
  · exact not_calibrated_of (prior := HsReg.hsPrior p)
      (data := fun q => bernRegData (fun ψ => sigmoid (-ψ)) X q.1)
      (K := fun y => HsReg.bernSweep conv rd la X y)
      (lik := fun y q => bernRegLik (fun ψ => sigmoid (-ψ)) X y q.1)
      (D := {q | Horseshoe.AllPos q.2}) hm'
      (ae_of_all _ fun q => hb q.1) (ae_hsPrior_pos p) hr' (fun _ => true) hx.2 hv.2

example (X : Matrix (Fin 5) (Fin 3) ℝ) :
    ¬ Calibrated (HsReg.hsPrior 3) (fun q => nbRegData X (fun _ => 2) q.1)
      (fun y => HsReg.nbSweep .scale ⟨true, true⟩ stdLinAlg X (fun _ => 2) y) :=
  (C78_horseshoe_violated .scale ⟨true, true⟩ stdLinAlg_sound (by norm_num) X fun _ => two_pos).1

/-- **C78 is violated** by the same regression with an unknown dispersion. -/
theorem C78_horseshoe_dispersion_violated (conv : Horseshoe.ExpArg) (rd : HsReg.Reads) {la : LinAlg}
    (hla : la.Sound) (hp : 0 < p) (X : Matrix (Fin n) (Fin p) ℝ) {a b : ℝ} (ha : 0 < a) (hb : 0 < b) :
    ¬ Calibrated (HsDisp.prior p a b) (fun r => nbJointData X (r.1.1, r.2))
      (fun y => HsDisp.call conv rd la X a b y) := by
  have := HsDisp.prob_hsPrior p
  have := isProbabilityMeasure_gammaMeasure ha (inv_pos.2 hb)
  have : IsFiniteMeasure (HsDisp.prior p a b) := by unfold HsDisp.prior; infer_instance
  have hg := HsDisp.ae_prior_good p ha hb
  have e : ∀ y, (fun r : ((Fin p → ℝ) × ((Fin p → ℝ) × ℝ)) × ℝ => NbReg.nbJointLik X y (r.1.1, r.2))
      =ᵐ[HsDisp.prior p a b] fun r => NbReg.lik' X y (r.1.1, r.2) := fun y =>
    hg.mono fun r hr => (NbReg.lik'_of_pos X y hr.2).symm
  have hx := (HsDisp.C66_posterior_exists (p := p) X ha hb fun _ => 0).1
  refine not_calibrated_of (lik := fun y r => NbReg.lik' X y (r.1.1, r.2))
    (fun y => (NbReg.measurable_lik' X y).comp (by fun_prop)) ?_ hg
    (fun y => ⟨_, HsDisp.call_runs conv rd hla X ha hb y⟩) (fun _ => 0) ?_ ?_
  · filter_upwards [hg] with r hr
    refine ⟨(nbJointData_prob X hr.2).1, fun y => ?_⟩
    rw [(nbJointData_prob X hr.2).2, NbReg.lik'_of_pos X y hr.2]
  · rwa [BayesDefined, ← lintegral_congr_ae (e _)]
  · rw [← bayes_congr_ae (e _)]
    exact HsDisp.C66_call_violated conv rd hla hp X ha hb _

/-- The model of `/repo/tests/test_basic.py`, with three observations of four regressors. -/
example (X : Matrix (Fin 3) (Fin 4) ℝ) :
    ¬ Calibrated (HsDisp.prior 4 100 0.01) (fun r => nbJointData X (r.1.1, r.2))
      (fun y => HsDisp.call .scale ⟨false, false⟩ stdLinAlg X 100 0.01 y) :=
  C78_horseshoe_dispersion_violated _ _ stdLinAlg_sound (by norm_num) X (by norm_num) (by norm_num)

end Verif
