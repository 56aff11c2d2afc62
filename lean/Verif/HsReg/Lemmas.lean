import Verif.HsReg.Model
import Verif.HsReg.Spec
import Verif.Horseshoe.Props
import Verif.PG.Props
import Verif.NbReg.Lemmas

/-!
# Lemmas for regressions with a horseshoe prior
-/

open MeasureTheory ProbabilityTheory Matrix
open scoped ENNReal

namespace Verif.HsReg

variable {p n : ℕ}

/-- Density of the coefficients given the shrinkage parameters. -/
noncomputable def dens (q : (Fin p → ℝ) × ((Fin p → ℝ) × ℝ)) : ℝ≥0∞ := Horseshoe.lik q.1 1 q.2

theorem measurable_dens : Measurable (dens (p := p)) := by
  unfold dens Horseshoe.lik gaussianPDFReal
  fun_prop

theorem normalPrior_eq_withDensity {std : Fin p → ℝ} (hs : ∀ j, 0 < std j) :
    normalPrior std = volume.withDensity fun β =>
      ENNReal.ofReal (∏ j, gaussianPDFReal 0 (std j ^ 2).toNNReal (β j)) := by
  have h0 : ∀ j, (std j ^ 2).toNNReal ≠ 0 := fun j => by
    have := hs j
    simp [this.ne']
  have h1 : ∀ j, gaussianReal 0 (std j ^ 2).toNNReal = volume.withDensity fun x =>
      ENNReal.ofReal (gaussianPDFReal 0 (std j ^ 2).toNNReal x) := fun j =>
    gaussianReal_of_var_ne_zero 0 (h0 j)
  have hsf : ∀ j, SigmaFinite ((volume : Measure ℝ).withDensity fun x =>
      ENNReal.ofReal (gaussianPDFReal 0 (std j ^ 2).toNNReal x)) := fun j => by
    rw [← h1]
    infer_instance
  unfold normalPrior
  simp only [h1]
  rw [pi_withDensity_ofReal (fun _ => (volume : Measure ℝ))
    (f := fun j => gaussianPDFReal 0 (std j ^ 2).toNNReal)
    (fun _ => integrable_gaussianPDFReal 0 _) (fun _ => gaussianPDFReal_nonneg 0 _)]
  rw [← volume_pi]

theorem normalPrior_eq_dens {s : (Fin p → ℝ) × ℝ} (hs : Horseshoe.AllPos s) :
    (normalPrior fun j => s.1 j * s.2) = volume.withDensity fun β => dens (β, s) := by
  rw [normalPrior_eq_withDensity fun j => mul_pos (hs.1 j) hs.2]
  simp only [dens, Horseshoe.lik, mul_pow, mul_one]

theorem hsPrior_eq : hsPrior p = (volume.prod (Horseshoe.prior p)).withDensity dens := by
  have hm : Measurable fun s : (Fin p → ℝ) × ℝ =>
      (volume.withDensity fun β : Fin p → ℝ => dens (β, s)).map fun β => (β, s) := by
    refine Measure.measurable_of_measurable_coe _ fun S hS => ?_
    have e : ∀ s : (Fin p → ℝ) × ℝ,
        (volume.withDensity fun β : Fin p → ℝ => dens (β, s)).map (fun β => (β, s)) S =
          ∫⁻ β, S.indicator dens (β, s) := fun s => by
      rw [Measure.map_apply (by fun_prop) hS,
        withDensity_apply _ (hS.preimage (by fun_prop)), ← lintegral_indicator
          (hS.preimage (by fun_prop))]
      rfl
    simp only [e]
    exact (measurable_dens.indicator hS).lintegral_prod_left'
  have h1 : hsPrior p = (Horseshoe.prior p).bind fun s =>
      (volume.withDensity fun β : Fin p → ℝ => dens (β, s)).map fun β => (β, s) := by
    refine Measure.bind_congr_right ?_
    filter_upwards [Horseshoe.ae_prior_pos p] with s hs
    rw [normalPrior_eq_dens hs]
  rw [h1]
  refine Measure.ext fun S hS => ?_
  rw [Measure.bind_apply hS hm.aemeasurable, withDensity_apply _ hS, ← lintegral_indicator hS,
    lintegral_prod_symm' _ (measurable_dens.indicator hS)]
  refine lintegral_congr fun s => ?_
  rw [Measure.map_apply (by fun_prop) hS,
    withDensity_apply _ (hS.preimage (by fun_prop)), ← lintegral_indicator
      (hS.preimage (by fun_prop))]
  rfl

theorem ae_dens_pos :
    ∀ᵐ q ∂(volume : Measure (Fin p → ℝ)).prod (Horseshoe.prior p), Horseshoe.AllPos q.2 :=
  Measure.quasiMeasurePreserving_snd.ae (Horseshoe.ae_prior_pos p)

/-- The joint posterior over a product reference measure. -/
theorem hsPosterior_eq {lik : (Fin p → ℝ) → ℝ≥0∞} (hl : Measurable lik) :
    hsPosterior lik = bayes (volume.prod (Horseshoe.prior p)) fun q => dens q * lik q.1 := by
  have hm : Measurable fun q : (Fin p → ℝ) × ((Fin p → ℝ) × ℝ) => lik q.1 := hl.comp measurable_fst
  rw [hsPosterior, hsPrior_eq, bayes_withDensity_left measurable_dens hm]

theorem bayesDefined_slice {lik : (Fin p → ℝ) → ℝ≥0∞} (hl : Measurable lik)
    {s : (Fin p → ℝ) × ℝ} (hs : Horseshoe.AllPos s) :
    ∫⁻ β, dens (β, s) * lik β = ∫⁻ β, lik β ∂normalPrior fun j => s.1 j * s.2 := by
  rw [normalPrior_eq_dens hs, lintegral_withDensity_eq_lintegral_mul _
    (f := fun β => dens (β, s)) (measurable_dens.comp measurable_prodMk_right) hl]
  rfl

theorem bayesDefined_joint {lik : (Fin p → ℝ) → ℝ≥0∞} (hl : Measurable lik) (h0 : ∀ β, lik β ≠ 0)
    {C : ℝ≥0∞} (hC : C ≠ ∞) (h1 : ∀ β, lik β ≤ C) :
    BayesDefined (volume.prod (Horseshoe.prior p)) fun q => dens q * lik q.1 := by
  have hm : Measurable fun q : (Fin p → ℝ) × ((Fin p → ℝ) × ℝ) => dens q * lik q.1 :=
    measurable_dens.mul (hl.comp measurable_fst)
  have e : ∫⁻ q, dens q * lik q.1 ∂volume.prod (Horseshoe.prior p) =
      ∫⁻ s, (∫⁻ β, lik β ∂normalPrior fun j => s.1 j * s.2) ∂Horseshoe.prior p := by
    rw [lintegral_prod_symm' _ hm]
    refine lintegral_congr_ae ?_
    filter_upwards [Horseshoe.ae_prior_pos p] with s hs using bayesDefined_slice hl hs
  have hm2 : Measurable fun s : (Fin p → ℝ) × ℝ => ∫⁻ β, dens (β, s) * lik β :=
    hm.lintegral_prod_left'
  constructor
  · rw [lintegral_prod_symm' _ hm]
    intro h
    rw [lintegral_eq_zero_iff hm2] at h
    obtain ⟨s, hs, hs0⟩ := ((Horseshoe.ae_prior_pos p).and h).exists
    have hs0' : ∫⁻ β, dens (β, s) * lik β = 0 := hs0
    rw [bayesDefined_slice hl hs, lintegral_eq_zero_iff hl] at hs0'
    have hpr : IsProbabilityMeasure (normalPrior fun j => s.1 j * s.2) := by
      unfold normalPrior
      infer_instance
    obtain ⟨β, hβ⟩ := hs0'.exists
    exact h0 β hβ
  · rw [e]
    refine ne_top_of_le_ne_top hC ?_
    calc ∫⁻ s, (∫⁻ β, lik β ∂normalPrior fun j => s.1 j * s.2) ∂Horseshoe.prior p
        ≤ ∫⁻ _s, C ∂Horseshoe.prior p := lintegral_mono fun s => by
          have hpr : IsProbabilityMeasure (normalPrior fun j => s.1 j * s.2) := by
            unfold normalPrior
            infer_instance
          calc ∫⁻ β, lik β ∂normalPrior (fun j => s.1 j * s.2)
              ≤ ∫⁻ _β, C ∂normalPrior (fun j => s.1 j * s.2) := lintegral_mono h1
            _ = C := by simp
      _ = C := by simp

/-! ## The step of the coefficients -/

/-- Precisions used by the step, made positive. -/
noncomputable def precOf (s : (Fin p → ℝ) × ℝ) (j : Fin p) : ℝ := posOr1 (s.1 j * s.2)⁻¹

/-- Joint weight of the coefficients and the Polya-Gamma variables, with the prior weight of the
step. -/
noncomputable def weight (X : Matrix (Fin n) (Fin p) ℝ) (κ : Fin n → ℝ)
    (r : ((Fin p → ℝ) × ((Fin p → ℝ) × ℝ)) × (Fin n → ℝ)) (β : Fin p → ℝ) : ℝ≥0∞ :=
  ENNReal.ofReal (Real.exp (-(∑ j, precOf r.1.2 j * β j ^ 2) / 2)) * pgJoint X κ β r.2

theorem measurable_weight (X : Matrix (Fin n) (Fin p) ℝ) (κ : Fin n → ℝ) :
    Measurable (Function.uncurry (weight X κ)) := by
  have h1 : ∀ j, Measurable fun u : (((Fin p → ℝ) × ((Fin p → ℝ) × ℝ)) × (Fin n → ℝ)) × (Fin p → ℝ) =>
      precOf u.1.1.2 j := fun j => by
    unfold precOf
    refine measurable_posOr1.comp ?_
    fun_prop
  have h2 : Measurable fun u : (((Fin p → ℝ) × ((Fin p → ℝ) × ℝ)) × (Fin n → ℝ)) × (Fin p → ℝ) =>
      pgJoint X κ u.2 u.1.2 :=
    (measurable_pgJoint X κ).comp (f := fun u : (((Fin p → ℝ) × ((Fin p → ℝ) × ℝ)) × (Fin n → ℝ)) ×
      (Fin p → ℝ) => (u.2, u.1.2)) (by fun_prop)
  have h3 : Measurable fun u : (((Fin p → ℝ) × ((Fin p → ℝ) × ℝ)) × (Fin n → ℝ)) × (Fin p → ℝ) =>
      ENNReal.ofReal (Real.exp (-(∑ j, precOf u.1.1.2 j * u.2 j ^ 2) / 2)) := by
    refine ENNReal.measurable_ofReal.comp (Real.measurable_exp.comp ?_)
    have : Measurable fun u : (((Fin p → ℝ) × ((Fin p → ℝ) × ℝ)) × (Fin n → ℝ)) × (Fin p → ℝ) =>
        ∑ j, precOf u.1.1.2 j * u.2 j ^ 2 := by
      refine Finset.measurable_sum _ fun j _ => (h1 j).mul ?_
      fun_prop
    fun_prop
  exact h3.mul h2

theorem bayes_mvn_eq {d : Fin p → ℝ} (hd : ∀ j, 0 < d j) {f : (Fin p → ℝ) → ℝ≥0∞}
    (hf : Measurable f) :
    bayes (mvn 0 (diagonal d)⁻¹) f = bayes volume fun β =>
      ENNReal.ofReal (Real.exp (-(∑ j, d j * β j ^ 2) / 2)) * f β := by
  obtain ⟨c, hc, h⟩ := mvn_eq_withDensity (0 : Fin p → ℝ) (PosDef.diagonal hd)
  have e : ∀ β : Fin p → ℝ, (β - 0) ⬝ᵥ diagonal d *ᵥ (β - 0) = ∑ j, d j * β j ^ 2 := fun β => by
    simp only [sub_zero, dotProduct, mulVec_diagonal]
    exact Finset.sum_congr rfl fun j _ => by ring
  have hm : Measurable fun β : Fin p → ℝ => ENNReal.ofReal (Real.exp (-(∑ j, d j * β j ^ 2) / 2)) := by
    fun_prop
  rw [h]
  simp only [e]
  rw [bayes_withDensity_left (by fun_prop) hf]
  simp only [ENNReal.ofReal_mul hc.le, mul_assoc]
  exact bayes_const_mul _ (hm.mul hf) (by simpa using hc) ENNReal.ofReal_ne_top

/-- Law of the new coefficients, with the standard deviations made positive. -/
noncomputable def coefK (X : Matrix (Fin n) (Fin p) ℝ) (b κ : Fin n → ℝ)
    (q : (Fin p → ℝ) × ((Fin p → ℝ) × ℝ)) : Measure (Fin p → ℝ) :=
  (Measure.pi fun i => pg (posOr1 (b i)) ((X *ᵥ q.1) i)).bind fun w =>
    bayes volume (weight X κ (q, w))

theorem measurable_pgJoint_left (X : Matrix (Fin n) (Fin p) ℝ) (κ : Fin n → ℝ) (w : Fin n → ℝ) :
    Measurable fun β => pgJoint X κ β w :=
  (measurable_pgJoint X κ).comp (f := fun β => (β, w)) (by fun_prop)

theorem coefK_eq {la : LinAlg} (hla : la.Sound) (X : Matrix (Fin n) (Fin p) ℝ) {b : Fin n → ℝ}
    (hb : ∀ i, 0 < b i) (κ : Fin n → ℝ) {s : (Fin p → ℝ) × ℝ} (hs : Horseshoe.AllPos s)
    (β : Fin p → ℝ) :
    pgStep la (fun j => (s.1 j * s.2)⁻¹) X b κ β = coefK X b κ (β, s) := by
  have hd : ∀ j, 0 < (s.1 j * s.2)⁻¹ := fun j => inv_pos.2 (mul_pos (hs.1 j) hs.2)
  rw [pgStep, coefK]
  simp only [posOr1_of_pos (hb _)]
  refine Measure.bind_congr_right ?_
  filter_upwards [NbReg.ae_pi_pg_pos hb X β] with w hw
  rw [(normalRegression_eq_bayes hla hd X κ hw).2,
    bayes_mvn_eq hd (measurable_pgJoint_left X κ w)]
  unfold weight precOf
  simp only [posOr1_of_pos (hd _)]

theorem measurable_coefK (X : Matrix (Fin n) (Fin p) ℝ) (b κ : Fin n → ℝ) :
    Measurable (coefK X b κ) := by
  have hb : Measurable fun (_ : (Fin p → ℝ) × ((Fin p → ℝ) × ℝ)) (i : Fin n) => b i := measurable_const
  have hc : Measurable fun (q : (Fin p → ℝ) × ((Fin p → ℝ) × ℝ)) (i : Fin n) => (X *ᵥ q.1) i :=
    measurable_pi_lambda _ fun i => (NbReg.measurable_mulVec_apply X i).comp measurable_fst
  have hK := measurable_pi_pg hb hc
  have hF : Measurable fun r : ((Fin p → ℝ) × ((Fin p → ℝ) × ℝ)) × (Fin n → ℝ) =>
      bayes volume (weight X κ r) := measurable_bayes (measurable_weight X κ)
  have hp : ∀ q : (Fin p → ℝ) × ((Fin p → ℝ) × ℝ), IsProbabilityMeasure
      (Measure.pi fun i => pg (posOr1 (b i)) ((X *ᵥ q.1) i)) := by
    intro q
    have : ∀ i, IsProbabilityMeasure (pg (posOr1 (b i)) ((X *ᵥ q.1) i)) :=
      fun i => isProbabilityMeasure_pg (posOr1_pos _) _
    infer_instance
  have := measurable_bind_param hK hp hF
  unfold coefK
  exact this

theorem prob_coefK (X : Matrix (Fin n) (Fin p) ℝ) (b κ : Fin n → ℝ)
    (q : (Fin p → ℝ) × ((Fin p → ℝ) × ℝ)) : IsProbabilityMeasure (coefK X b κ q) := by
  have : ∀ i, IsProbabilityMeasure (pg (posOr1 (b i)) ((X *ᵥ q.1) i)) :=
    fun i => isProbabilityMeasure_pg (posOr1_pos _) _
  have hF : Measurable fun r : ((Fin p → ℝ) × ((Fin p → ℝ) × ℝ)) × (Fin n → ℝ) =>
      bayes volume (weight X κ r) := measurable_bayes (measurable_weight X κ)
  have hF2 : Measurable fun w : Fin n → ℝ => bayes volume (weight X κ (q, w)) :=
    hF.comp measurable_prodMk_left
  refine isProbabilityMeasure_bind hF2.aemeasurable ?_
  have hd : ∀ j, 0 < precOf q.2 j := fun j => posOr1_pos _
  filter_upwards [NbReg.ae_pi_pg_pos (fun i => posOr1_pos (b i)) X q.1] with w hw
  have h1 := isProbabilityMeasure_bayes (normalRegression_eq_bayes stdLinAlg_sound hd X κ hw).1
  rw [bayes_mvn_eq hd (measurable_pgJoint_left X κ w)] at h1
  exact h1

/-- Almost surely not all standard deviations are one. -/
theorem ae_std_ne_one (j : Fin p) : ∀ᵐ s ∂Horseshoe.prior p, s.1 j * s.2 ≠ 1 := by
  have hna : NullSingletonClass Horseshoe.halfCauchy := by
    refine ⟨fun x => ?_⟩
    unfold Horseshoe.halfCauchy
    exact withDensity_absolutelyContinuous _ _ (by simp)
  have hS : MeasurableSet {s : (Fin p → ℝ) × ℝ | s.1 j * s.2 = 1} :=
    measurableSet_eq_fun (by fun_prop) measurable_const
  have : Horseshoe.prior p {s | s.1 j * s.2 = 1} = 0 := by
    unfold Horseshoe.prior
    rw [Measure.prod_apply_symm hS]
    refine (lintegral_congr fun t => ?_).trans (lintegral_zero (μ := Horseshoe.halfCauchy))
    refine measure_mono_null (t := {l : Fin p → ℝ | l j = t⁻¹}) ?_
      (Measure.pi_hyperplane (fun _ => Horseshoe.halfCauchy) j t⁻¹)
    intro l hl
    have hl' : l j * t = 1 := hl
    exact eq_inv_of_mul_eq_one_left hl'
  exact measure_eq_zero_iff_ae_notMem.1 this

/-! ## The step of the shrinkage parameters -/

/-- Rate of an exponential draw with the given argument. -/
noncomputable def rateOf : Horseshoe.ExpArg → ℝ → ℝ
  | .rate, r => r
  | .scale, s => s⁻¹

theorem measurable_rateOf (conv : Horseshoe.ExpArg) : Measurable (rateOf conv) := by
  cases conv
  · exact measurable_id
  · exact measurable_inv

theorem rateOf_pos (conv : Horseshoe.ExpArg) {x : ℝ} (hx : 0 < x) : 0 < rateOf conv x := by
  cases conv
  · exact hx
  · exact inv_pos.2 hx

/-- An exponential draw, with the rate made positive. -/
noncomputable def expPos (conv : Horseshoe.ExpArg) (x : ℝ) : Measure ℝ :=
  gammaMeasure 1 (posOr1 (rateOf conv x))

theorem expPos_of_pos (conv : Horseshoe.ExpArg) {x : ℝ} (hx : 0 < x) :
    expPos conv x = Horseshoe.expDraw conv x := by
  rw [expPos, posOr1_of_pos (rateOf_pos conv hx)]
  cases conv <;> rfl

theorem measurable_expPos (conv : Horseshoe.ExpArg) : Measurable (expPos conv) :=
  (measurable_gammaMeasure_rate 1).comp (measurable_posOr1.comp (measurable_rateOf conv))

instance (conv : Horseshoe.ExpArg) (x : ℝ) : IsProbabilityMeasure (expPos conv x) :=
  isProbabilityMeasure_gammaMeasure one_pos (posOr1_pos _)

/-- The auxiliary draws. -/
noncomputable def auxK (conv : Horseshoe.ExpArg) (q : (Fin p → ℝ) × ((Fin p → ℝ) × ℝ)) :
    Measure ((Fin p → ℝ) × ℝ) :=
  (Measure.pi fun j => expPos conv (1 + (q.2.1 j ^ 2)⁻¹)).prod (expPos conv (1 + (q.2.2 ^ 2)⁻¹))

/-- The local precisions. -/
noncomputable def localK (conv : Horseshoe.ExpArg)
    (r : ((Fin p → ℝ) × ((Fin p → ℝ) × ℝ)) × ((Fin p → ℝ) × ℝ)) : Measure (Fin p → ℝ) :=
  Measure.pi fun j => expPos conv (r.2.1 j + 0.5 * r.1.1 j ^ 2 * (r.1.2.2 ^ 2)⁻¹ / 1)

/-- The new shrinkage parameters given the new local precisions. -/
noncomputable def globalK
    (r : (((Fin p → ℝ) × ((Fin p → ℝ) × ℝ)) × ((Fin p → ℝ) × ℝ)) × (Fin p → ℝ)) :
    Measure ((Fin p → ℝ) × ℝ) :=
  (gammaMeasure (0.5 * (p + 1)) (posOr1 (r.1.2.2 + 0.5 * (∑ j, r.1.1.1 j ^ 2 * r.2 j) / 1))).map
    fun t => (fun j => (√(r.2 j))⁻¹, (√t)⁻¹)

/-- The step with all rates made positive. -/
noncomputable def shrinkK (conv : Horseshoe.ExpArg) (q : (Fin p → ℝ) × ((Fin p → ℝ) × ℝ)) :
    Measure ((Fin p → ℝ) × ℝ) :=
  (auxK conv q).bind fun aux => (localK conv (q, aux)).bind fun w => globalK ((q, aux), w)

theorem measurable_auxK (conv : Horseshoe.ExpArg) : Measurable (auxK (p := p) conv) := by
  have h1 : Measurable fun q : (Fin p → ℝ) × ((Fin p → ℝ) × ℝ) =>
      Measure.pi fun j => expPos conv (1 + (q.2.1 j ^ 2)⁻¹) :=
    measurable_pi_of (fun j => (measurable_expPos conv).comp (by fun_prop)) fun _ _ => inferInstance
  have h2 : Measurable fun q : (Fin p → ℝ) × ((Fin p → ℝ) × ℝ) =>
      expPos conv (1 + (q.2.2 ^ 2)⁻¹) := (measurable_expPos conv).comp (by fun_prop)
  let k1 : Kernel ((Fin p → ℝ) × ((Fin p → ℝ) × ℝ)) (Fin p → ℝ) := ⟨_, h1⟩
  let k2 : Kernel ((Fin p → ℝ) × ((Fin p → ℝ) × ℝ)) ℝ := ⟨_, h2⟩
  have i1 : IsMarkovKernel k1 := ⟨fun q => by change IsProbabilityMeasure (Measure.pi _); infer_instance⟩
  have i2 : IsMarkovKernel k2 := ⟨fun q => by change IsProbabilityMeasure (expPos _ _); infer_instance⟩
  have e : auxK (p := p) conv = fun q => (k1 ×ₖ k2) q := funext fun q => by
    rw [Kernel.prod_apply]
    rfl
  rw [e]
  exact (k1 ×ₖ k2).measurable

theorem measurable_localK (conv : Horseshoe.ExpArg) : Measurable (localK (p := p) conv) :=
  measurable_pi_of (fun j => (measurable_expPos conv).comp (by fun_prop)) fun _ _ => inferInstance

theorem measurable_globalK : Measurable (globalK (p := p)) := by
  have h1 : Measurable fun r : (((Fin p → ℝ) × ((Fin p → ℝ) × ℝ)) × ((Fin p → ℝ) × ℝ)) × (Fin p → ℝ) =>
      gammaMeasure (0.5 * ((p : ℝ) + 1))
        (posOr1 (r.1.2.2 + 0.5 * (∑ j, r.1.1.1 j ^ 2 * r.2 j) / 1)) :=
    (measurable_gammaMeasure_rate _).comp (measurable_posOr1.comp (by fun_prop))
  have h2 : Measurable fun u : ((((Fin p → ℝ) × ((Fin p → ℝ) × ℝ)) × ((Fin p → ℝ) × ℝ)) ×
      (Fin p → ℝ)) × ℝ => ((fun j => (√(u.1.2 j))⁻¹, (√u.2)⁻¹) : (Fin p → ℝ) × ℝ) := by
    fun_prop
  have hp : ∀ r : (((Fin p → ℝ) × ((Fin p → ℝ) × ℝ)) × ((Fin p → ℝ) × ℝ)) × (Fin p → ℝ),
      IsProbabilityMeasure (gammaMeasure (0.5 * ((p : ℝ) + 1))
        (posOr1 (r.1.2.2 + 0.5 * (∑ j, r.1.1.1 j ^ 2 * r.2 j) / 1))) := fun r =>
    isProbabilityMeasure_gammaMeasure (by positivity) (posOr1_pos _)
  exact measurable_map_param h1 hp h2

theorem prob_globalK (r : (((Fin p → ℝ) × ((Fin p → ℝ) × ℝ)) × ((Fin p → ℝ) × ℝ)) × (Fin p → ℝ)) :
    IsProbabilityMeasure (globalK r) := by
  have := isProbabilityMeasure_gammaMeasure (a := 0.5 * ((p : ℝ) + 1)) (by positivity)
    (posOr1_pos (r.1.2.2 + 0.5 * (∑ j, r.1.1.1 j ^ 2 * r.2 j) / 1))
  exact Measure.isProbabilityMeasure_map (by fun_prop)

theorem prob_localK (conv : Horseshoe.ExpArg)
    (r : ((Fin p → ℝ) × ((Fin p → ℝ) × ℝ)) × ((Fin p → ℝ) × ℝ)) :
    IsProbabilityMeasure (localK conv r) := by
  unfold localK
  infer_instance

theorem prob_auxK (conv : Horseshoe.ExpArg) (q : (Fin p → ℝ) × ((Fin p → ℝ) × ℝ)) :
    IsProbabilityMeasure (auxK conv q) := by
  unfold auxK
  infer_instance

theorem measurable_shrink_mid (conv : Horseshoe.ExpArg) :
    Measurable fun r : ((Fin p → ℝ) × ((Fin p → ℝ) × ℝ)) × ((Fin p → ℝ) × ℝ) =>
      (localK conv r).bind fun w => globalK (r, w) :=
  measurable_bind_param (measurable_localK conv) (prob_localK conv) measurable_globalK

/-- The last two draws. -/
noncomputable def midK (conv : Horseshoe.ExpArg)
    (r : ((Fin p → ℝ) × ((Fin p → ℝ) × ℝ)) × ((Fin p → ℝ) × ℝ)) : Measure ((Fin p → ℝ) × ℝ) :=
  (localK conv r).bind fun w => globalK (r, w)

theorem measurable_midK (conv : Horseshoe.ExpArg) : Measurable (midK (p := p) conv) :=
  measurable_shrink_mid conv

theorem prob_midK (conv : Horseshoe.ExpArg)
    (r : ((Fin p → ℝ) × ((Fin p → ℝ) × ℝ)) × ((Fin p → ℝ) × ℝ)) :
    IsProbabilityMeasure (midK conv r) := by
  have := prob_localK conv r
  have hm2 : Measurable fun w => globalK (r, w) := measurable_globalK.comp measurable_prodMk_left
  exact isProbabilityMeasure_bind hm2.aemeasurable (ae_of_all _ fun w => prob_globalK _)

theorem shrinkK_eq_mid (conv : Horseshoe.ExpArg) :
    shrinkK (p := p) conv = fun q => (auxK conv q).bind fun aux => midK conv (q, aux) := rfl

theorem measurable_shrinkK (conv : Horseshoe.ExpArg) : Measurable (shrinkK (p := p) conv) := by
  rw [shrinkK_eq_mid]
  exact measurable_bind_param (measurable_auxK conv) (prob_auxK conv) (measurable_midK conv)

theorem prob_shrinkK (conv : Horseshoe.ExpArg) (q : (Fin p → ℝ) × ((Fin p → ℝ) × ℝ)) :
    IsProbabilityMeasure (shrinkK conv q) := by
  have := prob_auxK conv q
  have hm : Measurable fun aux => midK conv (q, aux) := (measurable_midK conv).comp measurable_prodMk_left
  rw [shrinkK_eq_mid]
  exact isProbabilityMeasure_bind hm.aemeasurable (ae_of_all _ fun aux => prob_midK conv _)

theorem shrinkK_eq (conv : Horseshoe.ExpArg) (β : Fin p → ℝ) {s : (Fin p → ℝ) × ℝ}
    (hs : Horseshoe.AllPos s) : Horseshoe.horseshoeStep conv β s = shrinkK conv (β, s) := by
  have h1 : ∀ j, 0 < 1 + (s.1 j ^ 2)⁻¹ := fun j => by
    have := hs.1 j
    positivity
  have h2 : 0 < 1 + (s.2 ^ 2)⁻¹ := by
    have := hs.2
    positivity
  have e : Horseshoe.auxDraw conv (fun j => s.1 j ^ 2) (s.2 ^ 2) = auxK conv (β, s) := by
    unfold Horseshoe.auxDraw auxK
    simp only [expPos_of_pos conv (h1 _), expPos_of_pos conv h2]
  rw [Horseshoe.horseshoeStep, Horseshoe.horseshoePosterior, Horseshoe.horseshoeArray, shrinkK, e]
  refine Measure.bind_congr_right ?_
  have hae : ∀ᵐ x ∂auxK conv (β, s), Horseshoe.AllPos x :=
    Horseshoe.ae_pos_aux (fun j => posOr1_pos _) (posOr1_pos _)
  filter_upwards [hae] with aux ha
  have h3 : ∀ j, 0 < aux.1 j + 0.5 * β j ^ 2 * (s.2 ^ 2)⁻¹ / 1 := fun j => by
    have := ha.1 j
    have := hs.2
    positivity
  have e2 : Horseshoe.lambdaDraw conv β 1 (s.2 ^ 2) aux.1 = localK conv ((β, s), aux) := by
    unfold Horseshoe.lambdaDraw localK
    simp only [expPos_of_pos conv (h3 _)]
  rw [e2]
  refine Measure.bind_congr_right ?_
  have hw : ∀ᵐ w ∂localK conv ((β, s), aux), ∀ j, 0 < w j :=
    ae_pos_pi_gamma one_pos fun j => posOr1_pos _
  filter_upwards [hw] with w hw
  have h4 : 0 < aux.2 + 0.5 * (∑ j, β j ^ 2 * w j) / 1 := by
    have : 0 ≤ ∑ j, β j ^ 2 * w j := Finset.sum_nonneg fun j _ => by
      have := hw j
      positivity
    have := ha.2
    positivity
  rw [globalK, posOr1_of_pos h4]
  rfl

end Verif.HsReg
