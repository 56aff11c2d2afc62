import Verif.Prob.GammaBeta
import Verif.Prob.Mvn
import Verif.Prob.ThreeBlock
import Mathlib.Probability.Kernel.MeasurableLIntegral

/-!
# Densities on the half line

Gamma laws, and products of them, as Bayes posteriors of Lebesgue measure on the half line; pushing
posteriors forward; measurability of kernels made of gamma laws.
-/

open MeasureTheory ProbabilityTheory Real
open scoped ENNReal

namespace Verif

/-- Lebesgue measure on the positive half line. -/
noncomputable def volPos : Measure ℝ := volume.restrict (Set.Ioi 0)

instance : SigmaFinite volPos := by unfold volPos; infer_instance

theorem ae_volPos : ∀ᵐ x ∂volPos, 0 < x := ae_restrict_mem measurableSet_Ioi

theorem ae_pi_volPos (p : ℕ) : ∀ᵐ x ∂Measure.pi (fun _ : Fin p => volPos), ∀ j, 0 < x j :=
  ae_all_iff.2 fun j =>
    (Measure.quasiMeasurePreserving_eval (μ := fun _ : Fin p => volPos) j).ae ae_volPos

/-- A probability law with a density proportional to `lik` is the posterior. -/
theorem bayes_of_density {Θ : Type*} [MeasurableSpace Θ] {m ν : Measure Θ} {g lik : Θ → ℝ≥0∞}
    {c : ℝ≥0∞} [IsProbabilityMeasure ν] (hν : ν = m.withDensity g) (hg : Measurable g)
    (hlik : Measurable lik) (hc0 : c ≠ 0) (hc : c ≠ ∞) (h : ∀ᵐ x ∂m, lik x = c * g x) :
    BayesDefined m lik ∧ bayes m lik = ν ∧ ∫⁻ x, lik x ∂m = c := by
  have hg1 : ∫⁻ x, g x ∂m = 1 := by
    have := measure_univ (μ := ν)
    rwa [hν, withDensity_apply _ MeasurableSet.univ, Measure.restrict_univ] at this
  have := bayes_withDensity (m := m) (f := 1) (g := g) (lik := lik) (c := c) measurable_one hlik hg
    hg1 hc0 hc (by filter_upwards [h] with x hx; simpa using hx)
  rw [withDensity_one] at this
  refine ⟨this.1, this.2.trans hν.symm, ?_⟩
  rw [lintegral_congr_ae h, lintegral_const_mul _ hg, hg1, mul_one]

/-- A density of the prior is a factor of the likelihood. -/
theorem bayes_withDensity_left {Θ : Type*} [MeasurableSpace Θ] {m : Measure Θ} {f lik : Θ → ℝ≥0∞}
    (hf : Measurable f) (hlik : Measurable lik) :
    bayes (m.withDensity f) lik = bayes m fun x => f x * lik x := by
  have h1 : (m.withDensity f).withDensity lik = m.withDensity fun x => f x * lik x :=
    (withDensity_mul _ hf hlik).symm
  have h2 : ∫⁻ x, lik x ∂m.withDensity f = ∫⁻ x, f x * lik x ∂m :=
    lintegral_withDensity_eq_lintegral_mul _ hf hlik
  rw [bayes, bayes, h1, h2]

/-- Posterior in new coordinates. -/
theorem bayes_map {Θ Ψ : Type*} [MeasurableSpace Θ] [MeasurableSpace Ψ] {μ : Measure Θ} {g : Θ → Ψ}
    (hg : Measurable g) {l : Ψ → ℝ≥0∞} (hl : Measurable l) :
    (bayes μ fun θ => l (g θ)).map g = bayes (μ.map g) l := by
  ext S hS
  rw [Measure.map_apply hg hS, bayes, bayes, Measure.smul_apply, Measure.smul_apply,
    withDensity_apply _ (hg hS), withDensity_apply _ hS, lintegral_map hl hg,
    setLIntegral_map hS hl hg]

/-- The image of a mixture. -/
theorem map_bind {A B C : Type*} [MeasurableSpace A] [MeasurableSpace B] [MeasurableSpace C]
    {m : Measure A} {K : A → Measure B} (hK : AEMeasurable K m) {h : B → C} (hh : Measurable h) :
    (m.bind K).map h = m.bind fun x => (K x).map h := by
  ext S hS
  have hK' : AEMeasurable (fun x => (K x).map h) m :=
    (Measure.measurable_map h hh).comp_aemeasurable hK
  rw [Measure.map_apply hh hS, Measure.bind_apply (hh hS) hK, Measure.bind_apply hS hK']
  exact lintegral_congr fun x => (Measure.map_apply hh hS).symm

theorem gammaMeasure_eq_volPos (a r : ℝ) :
    gammaMeasure a r = volPos.withDensity fun x => ENNReal.ofReal (gammaPDFReal a r x) := by
  have h : (gammaMeasure a r).restrict (Set.Ioi 0) = gammaMeasure a r :=
    Measure.restrict_eq_self_of_ae_mem ae_pos_gammaMeasure
  conv_lhs => rw [← h]
  rw [gammaMeasure, restrict_withDensity measurableSet_Ioi]
  rfl

theorem integrable_gammaPDFReal {a r : ℝ} (ha : 0 < a) (hr : 0 < r) :
    Integrable (gammaPDFReal a r) volPos := by
  refine ⟨(measurable_gammaPDFReal a r).aestronglyMeasurable, ?_⟩
  rw [hasFiniteIntegral_iff_ofReal (ae_of_all _ (gammaPDFReal_nonneg ha hr))]
  have := isProbabilityMeasure_gammaMeasure ha hr
  have h1 := measure_univ (μ := gammaMeasure a r)
  rw [gammaMeasure_eq_volPos, withDensity_apply _ MeasurableSet.univ, Measure.restrict_univ] at h1
  rw [h1]
  exact ENNReal.one_lt_top

theorem pi_gammaMeasure_eq {p : ℕ} {a r : Fin p → ℝ} (ha : ∀ j, 0 < a j) (hr : ∀ j, 0 < r j) :
    Measure.pi (fun j => gammaMeasure (a j) (r j)) =
      (Measure.pi fun _ : Fin p => volPos).withDensity
        fun x => ENNReal.ofReal (∏ j, gammaPDFReal (a j) (r j) (x j)) := by
  have hsf : ∀ j, SigmaFinite (volPos.withDensity
      fun x => ENNReal.ofReal (gammaPDFReal (a j) (r j) x)) := fun j => by
    rw [← gammaMeasure_eq_volPos]
    have := isProbabilityMeasure_gammaMeasure (ha j) (hr j)
    infer_instance
  simp only [gammaMeasure_eq_volPos]
  exact pi_withDensity_ofReal (fun _ : Fin p => volPos) (f := fun j => gammaPDFReal (a j) (r j))
    (fun j => integrable_gammaPDFReal (ha j) (hr j)) (fun j => gammaPDFReal_nonneg (ha j) (hr j))

theorem measurable_prod_gammaPDFReal {p : ℕ} (a r : Fin p → ℝ) :
    Measurable fun x : Fin p → ℝ => ∏ j, gammaPDFReal (a j) (r j) (x j) :=
  Finset.measurable_prod _ fun j _ => (measurable_gammaPDFReal _ _).comp (measurable_pi_apply j)

theorem gammaPDFReal_one {r x : ℝ} (hx : 0 < x) : gammaPDFReal 1 r x = r * exp (-(r * x)) := by
  simp [gammaPDFReal, hx.le]

theorem measurable_gammaMeasure_rate (a : ℝ) : Measurable (gammaMeasure a) := by
  refine Measure.measurable_of_measurable_coe _ fun S hS => ?_
  simp only [gammaMeasure, withDensity_apply _ hS]
  have hm : Measurable fun q : ℝ × ℝ => gammaPDF a q.1 q.2 := ?_
  · exact hm.lintegral_prod_right
  refine Measurable.ennreal_ofReal ?_
  refine Measurable.ite (measurableSet_le measurable_const measurable_snd) ?_ measurable_const
  fun_prop

/-- A positive number: itself, anything else: one. -/
noncomputable def posOr1 (r : ℝ) : ℝ := if 0 < r then r else 1

theorem posOr1_pos (r : ℝ) : 0 < posOr1 r := by
  unfold posOr1
  split_ifs with h
  · exact h
  · exact one_pos

theorem posOr1_of_pos {r : ℝ} (h : 0 < r) : posOr1 r = r := if_pos h

theorem measurable_posOr1 : Measurable posOr1 :=
  Measurable.ite (measurableSet_lt measurable_const measurable_id) measurable_id measurable_const

/-- Kernels of independent gamma laws are measurable. -/
theorem measurable_pi_gamma {α : Type*} [MeasurableSpace α] {p : ℕ} {a : ℝ}
    (ha : 0 < a) {r : α → Fin p → ℝ} (hr : Measurable r) :
    Measurable fun x => Measure.pi fun j => gammaMeasure a (posOr1 (r x j)) := by
  have hp : ∀ x j, IsProbabilityMeasure (gammaMeasure a (posOr1 (r x j))) :=
    fun x j => isProbabilityMeasure_gammaMeasure ha (posOr1_pos _)
  refine Measurable.measure_of_isPiSystem_of_isProbabilityMeasure generateFrom_pi.symm
    isPiSystem_pi ?_
  rintro _ ⟨s, hs, rfl⟩
  simp only [Measure.pi_pi]
  refine Finset.measurable_prod _ fun j _ => ?_
  have hsj : MeasurableSet (s j) := hs j (Set.mem_univ j)
  refine (Measure.measurable_coe hsj).comp ((measurable_gammaMeasure_rate a).comp
    (measurable_posOr1.comp ?_))
  exact (measurable_pi_apply j).comp hr

/-- A mixture whose mixing law and components depend on a parameter is measurable in it. -/
theorem measurable_bind_param {A B C : Type*} [MeasurableSpace A] [MeasurableSpace B]
    [MeasurableSpace C] {K : A → Measure B} (hK : Measurable K) (hp : ∀ a, IsProbabilityMeasure (K a))
    {F : A × B → Measure C} (hF : Measurable F) :
    Measurable fun a => (K a).bind fun b => F (a, b) := by
  refine Measure.measurable_of_measurable_coe _ fun S hS => ?_
  have e : ∀ a, ((K a).bind fun b => F (a, b)) S = ∫⁻ b, F (a, b) S ∂K a := fun a =>
    Measure.bind_apply hS (hF.comp (measurable_const.prodMk measurable_id)).aemeasurable
  simp only [e]
  let κ : Kernel A B := ⟨K, hK⟩
  have : IsMarkovKernel κ := ⟨hp⟩
  exact Measurable.lintegral_kernel_prod_right' (κ := κ) (f := fun q => F q S)
    ((Measure.measurable_coe hS).comp hF)

/-- The image of a law depending on a parameter is measurable in it. -/
theorem measurable_map_param {A B C : Type*} [MeasurableSpace A] [MeasurableSpace B]
    [MeasurableSpace C] {K : A → Measure B} (hK : Measurable K) (hp : ∀ a, IsProbabilityMeasure (K a))
    {g : A × B → C} (hg : Measurable g) :
    Measurable fun a => (K a).map fun b => g (a, b) := by
  have e : ∀ a, (K a).map (fun b => g (a, b)) = (K a).bind fun b => Measure.dirac (g (a, b)) :=
    fun a => (Measure.bind_dirac_eq_map _ (hg.comp (measurable_const.prodMk measurable_id))).symm
  simp only [e]
  have hd : Measurable fun q : A × B => Measure.dirac (g q) := Measure.measurable_dirac.comp hg
  exact measurable_bind_param (F := fun q : A × B => Measure.dirac (g q)) hK hp hd

/-- What holds almost surely for almost every component holds almost surely for the mixture. -/
theorem ae_bind {A B : Type*} [MeasurableSpace A] [MeasurableSpace B] {m : Measure A}
    {K : A → Measure B} (hK : AEMeasurable K m) {P : B → Prop} (hP : MeasurableSet {b | P b})
    (h : ∀ᵐ a ∂m, ∀ᵐ b ∂K a, P b) : ∀ᵐ b ∂m.bind K, P b := by
  have hc : {b | ¬P b} = {b | P b}ᶜ := rfl
  rw [ae_iff, hc, Measure.bind_apply hP.compl hK, lintegral_eq_zero_iff' ?_]
  · filter_upwards [h] with a ha using ae_iff.1 ha
  · exact (Measure.measurable_coe hP.compl).comp_aemeasurable hK

theorem ae_pos_pi_gamma {p : ℕ} {a : ℝ} (ha : 0 < a) {r : Fin p → ℝ} (hr : ∀ j, 0 < r j) :
    ∀ᵐ x ∂(Measure.pi fun j => gammaMeasure a (r j)), ∀ j, 0 < x j := by
  have hp : ∀ j, IsProbabilityMeasure (gammaMeasure a (r j)) :=
    fun j => isProbabilityMeasure_gammaMeasure ha (hr j)
  exact ae_all_iff.2 fun j =>
    (Measure.quasiMeasurePreserving_eval (μ := fun j => gammaMeasure a (r j)) j).ae
      ae_pos_gammaMeasure

end Verif
