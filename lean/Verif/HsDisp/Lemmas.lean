import Verif.HsDisp.Model
import Verif.HsDisp.Spec
import Verif.HsReg.Reads
import Verif.Iter.Joint

/-!
# Lemmas for the negative-binomial regression with a horseshoe prior and an unknown dispersion
-/

open MeasureTheory ProbabilityTheory Matrix
open scoped ENNReal

namespace Verif.HsDisp

variable {p n : ℕ}

/-! ## The kernel -/

/-- Law of the new coefficients, jointly in the precisions and the state. -/
noncomputable def coefP (X : Matrix (Fin n) (Fin p) ℝ) (y : Fin n → ℕ)
    (v : (Fin p → ℝ) × ((Fin p → ℝ) × ℝ)) : Measure (Fin p → ℝ) :=
  NbReg.coefK (fun j => posOr1 (v.1 j)) X y v.2

theorem prob_coefP (X : Matrix (Fin n) (Fin p) ℝ) (y : Fin n → ℕ) (v : (Fin p → ℝ) × ((Fin p → ℝ) × ℝ)) :
    IsProbabilityMeasure (coefP X y v) := NbReg.prob_coefK (fun _ => posOr1_pos _) X y v.2

theorem measurable_coefP (X : Matrix (Fin n) (Fin p) ℝ) (y : Fin n → ℕ) : Measurable (coefP X y) := by
  have h2 : Measurable fun v : (Fin p → ℝ) × ((Fin p → ℝ) × ℝ) => posOr1 v.2.2 :=
    measurable_posOr1.comp (measurable_snd.comp measurable_snd)
  have hb : Measurable fun (v : (Fin p → ℝ) × ((Fin p → ℝ) × ℝ)) (i : Fin n) => (y i : ℝ) + posOr1 v.2.2 :=
    measurable_pi_lambda _ fun i => h2.const_add _
  have hc : Measurable fun (v : (Fin p → ℝ) × ((Fin p → ℝ) × ℝ)) (i : Fin n) => (X *ᵥ v.2.1) i :=
    measurable_pi_lambda _ fun i =>
      (NbReg.measurable_mulVec_apply X i).comp (measurable_fst.comp measurable_snd)
  have hJ : Measurable (Function.uncurry
      fun (r : ((Fin p → ℝ) × ((Fin p → ℝ) × ℝ)) × (Fin n → ℝ)) (β : Fin p → ℝ) =>
        ENNReal.ofReal (Real.exp (-(∑ j, posOr1 (r.1.1 j) * β j ^ 2) / 2)) *
          pgJoint X (fun i => 0.5 * ((y i : ℝ) - posOr1 r.1.2.2)) β r.2) := by
    have h1 : ∀ j, Measurable fun u : (((Fin p → ℝ) × ((Fin p → ℝ) × ℝ)) × (Fin n → ℝ)) × (Fin p → ℝ) =>
        posOr1 (u.1.1.1 j) := fun j => measurable_posOr1.comp (by fun_prop)
    have h3 : Measurable fun u : (((Fin p → ℝ) × ((Fin p → ℝ) × ℝ)) × (Fin n → ℝ)) × (Fin p → ℝ) =>
        posOr1 u.1.1.2.2 := measurable_posOr1.comp (by fun_prop)
    have h4 : ∀ i, Measurable fun u : (((Fin p → ℝ) × ((Fin p → ℝ) × ℝ)) × (Fin n → ℝ)) × (Fin p → ℝ) =>
      (X *ᵥ u.2) i := fun i => (NbReg.measurable_mulVec_apply X i).comp measurable_snd
    have h5 : ∀ i, Measurable fun u : (((Fin p → ℝ) × ((Fin p → ℝ) × ℝ)) × (Fin n → ℝ)) × (Fin p → ℝ) =>
      u.1.2 i := fun i => (measurable_pi_apply i).comp (measurable_snd.comp measurable_fst)
    have h6 : Measurable fun u : (((Fin p → ℝ) × ((Fin p → ℝ) × ℝ)) × (Fin n → ℝ)) × (Fin p → ℝ) =>
        ∑ j, posOr1 (u.1.1.1 j) * u.2 j ^ 2 :=
      Finset.measurable_sum _ fun j _ => (h1 j).mul (by fun_prop)
    have h7 : Measurable fun u : (((Fin p → ℝ) × ((Fin p → ℝ) × ℝ)) × (Fin n → ℝ)) × (Fin p → ℝ) =>
        pgJoint X (fun i => 0.5 * ((y i : ℝ) - posOr1 u.1.1.2.2)) u.2 u.1.2 := by
      unfold pgJoint
      refine ENNReal.measurable_ofReal.comp (Finset.measurable_prod _ fun i _ => ?_)
      have := h4 i
      have := h5 i
      fun_prop
    refine Measurable.mul ?_ h7
    exact ENNReal.measurable_ofReal.comp (Real.measurable_exp.comp (by fun_prop))
  have hK := measurable_pi_pg hb hc
  have hF : Measurable fun r : ((Fin p → ℝ) × ((Fin p → ℝ) × ℝ)) × (Fin n → ℝ) =>
      bayes volume fun β : Fin p → ℝ =>
        ENNReal.ofReal (Real.exp (-(∑ j, posOr1 (r.1.1 j) * β j ^ 2) / 2)) *
          pgJoint X (fun i => 0.5 * ((y i : ℝ) - posOr1 r.1.2.2)) β r.2 :=
    measurable_bayes (f := fun (r : ((Fin p → ℝ) × ((Fin p → ℝ) × ℝ)) × (Fin n → ℝ)) (β : Fin p → ℝ) =>
        ENNReal.ofReal (Real.exp (-(∑ j, posOr1 (r.1.1 j) * β j ^ 2) / 2)) *
          pgJoint X (fun i => 0.5 * ((y i : ℝ) - posOr1 r.1.2.2)) β r.2) hJ
  have hp : ∀ v : (Fin p → ℝ) × ((Fin p → ℝ) × ℝ), IsProbabilityMeasure
      (Measure.pi fun i => pg (posOr1 (y i + posOr1 v.2.2)) ((X *ᵥ v.2.1) i)) := by
    intro v
    have : ∀ i, IsProbabilityMeasure (pg (posOr1 (y i + posOr1 v.2.2)) ((X *ᵥ v.2.1) i)) :=
      fun i => isProbabilityMeasure_pg (posOr1_pos _) _
    infer_instance
  have := measurable_bind_param hK hp hF
  unfold coefP NbReg.coefK
  simp only [HsReg.bayes_mvn_eq (fun j => posOr1_pos _) (HsReg.measurable_pgJoint_left X _ _)]
  exact this

/-- The state of the sampler. -/
abbrev State (p : ℕ) : Type := ((Fin p → ℝ) × ((Fin p → ℝ) × ℝ)) × ℝ

/-- New dispersion, with the other parts of the new state. -/
noncomputable def tailK (X : Matrix (Fin n) (Fin p) ℝ) (a b : ℝ) (y : Fin n → ℕ)
    (u : (State p × ((Fin p → ℝ) × ℝ)) × (Fin p → ℝ)) : Measure (State p) :=
  (NbReg.dispK X a b y (u.2, u.1.1.2)).map fun h => ((u.2, u.1.2), h)

theorem measurable_tailK (X : Matrix (Fin n) (Fin p) ℝ) {a b : ℝ} (ha : 0 < a) (hb : 0 < b)
    (y : Fin n → ℕ) : Measurable (tailK X a b y) := by
  have hK : Measurable fun u : (State p × ((Fin p → ℝ) × ℝ)) × (Fin p → ℝ) =>
      NbReg.dispK X a b y (u.2, u.1.1.2) := (NbReg.measurable_dispK X a b y).comp (by fun_prop)
  exact measurable_map_param hK (fun u => NbReg.prob_dispK X ha hb y _)
    (g := fun v : ((State p × ((Fin p → ℝ) × ℝ)) × (Fin p → ℝ)) × ℝ => ((v.1.2, v.1.1.2), v.2))
    (by fun_prop)

theorem prob_tailK (X : Matrix (Fin n) (Fin p) ℝ) {a b : ℝ} (ha : 0 < a) (hb : 0 < b)
    (y : Fin n → ℕ) (u) : IsProbabilityMeasure (tailK X a b y u) := by
  have := NbReg.prob_dispK X ha hb y (u.2, u.1.1.2)
  exact Measure.isProbabilityMeasure_map (by fun_prop)

/-- New coefficients and dispersion. -/
noncomputable def midK (rd : Reads) (X : Matrix (Fin n) (Fin p) ℝ) (a b : ℝ) (y : Fin n → ℕ)
    (t : State p × ((Fin p → ℝ) × ℝ)) : Measure (State p) :=
  (coefP X y (fun j => ((rd.read t.1.1.2 t.2).1 j * (rd.read t.1.1.2 t.2).2)⁻¹,
    (t.1.1.1, t.1.2))).bind fun β => tailK X a b y (t, β)

theorem measurable_midK (rd : Reads) (X : Matrix (Fin n) (Fin p) ℝ) {a b : ℝ} (ha : 0 < a) (hb : 0 < b)
    (y : Fin n → ℕ) : Measurable (midK rd X a b y) := by
  have hr : Measurable fun t : State p × ((Fin p → ℝ) × ℝ) => rd.read t.1.1.2 t.2 :=
    (HsReg.measurable_read rd).comp (f := fun t : State p × ((Fin p → ℝ) × ℝ) => (t.1.1.2, t.2)) (by fun_prop)
  have hK : Measurable fun t : State p × ((Fin p → ℝ) × ℝ) =>
      coefP X y (fun j => ((rd.read t.1.1.2 t.2).1 j * (rd.read t.1.1.2 t.2).2)⁻¹, (t.1.1.1, t.1.2)) := by
    refine (measurable_coefP X y).comp (Measurable.prodMk ?_ (by fun_prop))
    refine measurable_pi_lambda _ fun j => Measurable.inv (Measurable.mul ?_ ?_)
    · exact (measurable_pi_apply j).comp (measurable_fst.comp hr)
    · exact measurable_snd.comp hr
  exact measurable_bind_param hK (fun _ => prob_coefP X y _) (measurable_tailK X ha hb y)

theorem prob_midK (rd : Reads) (X : Matrix (Fin n) (Fin p) ℝ) {a b : ℝ} (ha : 0 < a) (hb : 0 < b)
    (y : Fin n → ℕ) (t) : IsProbabilityMeasure (midK rd X a b y t) := by
  have := prob_coefP X y (fun j => ((rd.read t.1.1.2 t.2).1 j * (rd.read t.1.1.2 t.2).2)⁻¹,
    (t.1.1.1, t.1.2))
  exact isProbabilityMeasure_bind ((measurable_tailK X ha hb y).comp measurable_prodMk_left).aemeasurable
    (ae_of_all _ fun β => prob_tailK X ha hb y _)

/-- The call, with every parameter made positive. -/
noncomputable def callK (conv : Horseshoe.ExpArg) (rd : Reads) (X : Matrix (Fin n) (Fin p) ℝ) (a b : ℝ)
    (y : Fin n → ℕ) (r : State p) : Measure (State p) :=
  (HsReg.shrinkK conv r.1).bind fun s => midK rd X a b y (r, s)

theorem measurable_callK (conv : Horseshoe.ExpArg) (rd : Reads) (X : Matrix (Fin n) (Fin p) ℝ) {a b : ℝ}
    (ha : 0 < a) (hb : 0 < b) (y : Fin n → ℕ) : Measurable (callK conv rd X a b y) := by
  have hK : Measurable fun r : State p => HsReg.shrinkK conv r.1 :=
    (HsReg.measurable_shrinkK conv).comp measurable_fst
  exact measurable_bind_param hK (fun _ => HsReg.prob_shrinkK conv _) (measurable_midK rd X ha hb y)

theorem prob_callK (conv : Horseshoe.ExpArg) (rd : Reads) (X : Matrix (Fin n) (Fin p) ℝ) {a b : ℝ}
    (ha : 0 < a) (hb : 0 < b) (y : Fin n → ℕ) (r : State p) :
    IsProbabilityMeasure (callK conv rd X a b y r) := by
  have := HsReg.prob_shrinkK conv r.1
  exact isProbabilityMeasure_bind ((measurable_midK rd X ha hb y).comp measurable_prodMk_left).aemeasurable
    (ae_of_all _ fun s => prob_midK rd X ha hb y _)

/-- The states the sampler is meant for. -/
def Good (r : State p) : Prop := Horseshoe.AllPos r.1.2 ∧ 0 < r.2

theorem call_eq (conv : Horseshoe.ExpArg) (rd : Reads) {la : LinAlg} (hla : la.Sound)
    (X : Matrix (Fin n) (Fin p) ℝ) (a b : ℝ) (y : Fin n → ℕ) {r : State p} (hr : Good r) :
    call conv rd la X a b y r = callK conv rd X a b y r := by
  rw [call, callK, HsReg.shrinkK_eq conv r.1.1 hr.1]
  refine Measure.bind_congr_right ?_
  filter_upwards [Shared.ae_shrinkK_pos conv (r.1.1, r.1.2)] with s hs
  have hrd := HsReg.read_pos rd hr.1 hs
  have hd : ∀ j, 0 < (rd.read r.1.2 s).1 j * (rd.read r.1.2 s).2 := fun j => mul_pos (hrd.1 j) hrd.2
  rw [NbReg.coefK_eq hla hd X y hr.2, midK, coefP]
  simp only [posOr1_of_pos (inv_pos.2 (hd _))]
  refine Measure.bind_congr_right (ae_of_all _ fun β => ?_)
  simp only [NbReg.dispK_eq X a b y hr.2 β]
  rfl

theorem lintegral_midK (rd : Reads) (X : Matrix (Fin n) (Fin p) ℝ) {a b : ℝ} (ha : 0 < a) (hb : 0 < b)
    (y : Fin n → ℕ) (t : State p × ((Fin p → ℝ) × ℝ)) {f : State p → ℝ≥0∞} (hf : Measurable f) :
    ∫⁻ r', f r' ∂midK rd X a b y t = ∫⁻ β, ∫⁻ h, f ((β, t.2), h) ∂NbReg.dispK X a b y (β, t.1.2)
      ∂coefP X y (fun j => ((rd.read t.1.1.2 t.2).1 j * (rd.read t.1.1.2 t.2).2)⁻¹, (t.1.1.1, t.1.2)) := by
  have hm : Measurable fun β => tailK X a b y (t, β) :=
    (measurable_tailK X ha hb y).comp measurable_prodMk_left
  rw [midK, Measure.lintegral_bind hm.aemeasurable hf.aemeasurable]
  refine lintegral_congr fun β => ?_
  rw [tailK, lintegral_map hf (by fun_prop)]

theorem lintegral_callK (conv : Horseshoe.ExpArg) (rd : Reads) (X : Matrix (Fin n) (Fin p) ℝ) {a b : ℝ}
    (ha : 0 < a) (hb : 0 < b) (y : Fin n → ℕ) (r : State p) {f : State p → ℝ≥0∞} (hf : Measurable f) :
    ∫⁻ r', f r' ∂callK conv rd X a b y r =
      ∫⁻ s, ∫⁻ r', f r' ∂midK rd X a b y (r, s) ∂HsReg.shrinkK conv r.1 := by
  have hm : Measurable fun s => midK rd X a b y (r, s) :=
    (measurable_midK rd X ha hb y).comp measurable_prodMk_left
  rw [callK, Measure.lintegral_bind hm.aemeasurable hf.aemeasurable]

/-- What depends on the new coefficients only. -/
theorem lintegral_midK_coef (rd : Reads) (X : Matrix (Fin n) (Fin p) ℝ) {a b : ℝ} (ha : 0 < a)
    (hb : 0 < b) (y : Fin n → ℕ) (t : State p × ((Fin p → ℝ) × ℝ)) {f : (Fin p → ℝ) → ℝ≥0∞}
    (hf : Measurable f) :
    ∫⁻ r', f r'.1.1 ∂midK rd X a b y t = ∫⁻ β, f β
      ∂coefP X y (fun j => ((rd.read t.1.1.2 t.2).1 j * (rd.read t.1.1.2 t.2).2)⁻¹, (t.1.1.1, t.1.2)) := by
  rw [lintegral_midK rd X ha hb y t (f := fun r' => f r'.1.1) (by fun_prop)]
  refine lintegral_congr fun β => ?_
  have := NbReg.prob_dispK X ha hb y (β, t.1.2)
  simp

/-- What depends on the new shrinkage parameters only. -/
theorem lintegral_callK_shrink (conv : Horseshoe.ExpArg) (rd : Reads) (X : Matrix (Fin n) (Fin p) ℝ)
    {a b : ℝ} (ha : 0 < a) (hb : 0 < b) (y : Fin n → ℕ) (r : State p) {f : (Fin p → ℝ) × ℝ → ℝ≥0∞}
    (hf : Measurable f) :
    ∫⁻ r', f r'.1.2 ∂callK conv rd X a b y r = ∫⁻ s, f s ∂HsReg.shrinkK conv r.1 := by
  rw [lintegral_callK conv rd X ha hb y r (f := fun r' => f r'.1.2) (by fun_prop)]
  refine lintegral_congr fun s => ?_
  rw [lintegral_midK rd X ha hb y _ (f := fun r' => f r'.1.2) (by fun_prop)]
  have h1 : ∀ β, ∫⁻ _h, f s ∂NbReg.dispK X a b y (β, r.2) = f s := fun β => by
    have := NbReg.prob_dispK X ha hb y (β, r.2)
    simp
  simp only [h1]
  have := prob_coefP X y (fun j => ((rd.read r.1.2 s).1 j * (rd.read r.1.2 s).2)⁻¹, (r.1.1, r.2))
  rw [lintegral_const, measure_univ, mul_one]

theorem measurableSet_good : MeasurableSet {r : State p | Good r} :=
  ((measurable_snd.comp measurable_fst) Horseshoe.measurableSet_allPos).inter
    (measurable_snd measurableSet_Ioi)

theorem call_runs (conv : Horseshoe.ExpArg) (rd : Reads) {la : LinAlg} (hla : la.Sound)
    (X : Matrix (Fin n) (Fin p) ℝ) {a b : ℝ} (ha : 0 < a) (hb : 0 < b) (y : Fin n → ℕ) :
    Runs {r : State p | Good r} (call conv rd la X a b y) (callK conv rd X a b y) where
  meas := measurable_callK conv rd X ha hb y
  prob := prob_callK conv rd X ha hb y
  eq _ hr := call_eq conv rd hla X a b y hr
  stays r := by
    refine ae_bind ((measurable_midK rd X ha hb y).comp measurable_prodMk_left).aemeasurable
      measurableSet_good ?_
    filter_upwards [Shared.ae_shrinkK_pos conv r.1] with s hs
    refine ae_bind ((measurable_tailK X ha hb y).comp measurable_prodMk_left).aemeasurable
      measurableSet_good (ae_of_all _ fun β => ?_)
    refine (ae_map_iff (by fun_prop) measurableSet_good).2 ?_
    have h0 : NbReg.dispK X a b y (β, r.2) {h | ¬ 0 < h} = 0 := by
      rw [NbReg.dispK_null ha hb]
      exact ae_iff.1 ae_volPos
    filter_upwards [ae_iff.2 h0] with h hh
    exact ⟨hs, hh⟩
  measD := measurableSet_good

end Verif.HsDisp
