import Verif.Iter.Runs
import Verif.NbReg.Props
import Verif.HsReg.Props
import Verif.Shared.Props

/-!
# The samplers that move several variables, as steps that stay among the good states
-/

open MeasureTheory ProbabilityTheory Matrix
open scoped ENNReal

namespace Verif

variable {p n : ℕ}

/-! ## The horseshoe step -/

theorem horseshoe_runs (conv : Horseshoe.ExpArg) (β : Fin p → ℝ) :
    Runs {s | Horseshoe.AllPos s} (Horseshoe.horseshoeStep conv β) fun s => HsReg.shrinkK conv (β, s) where
  meas := (HsReg.measurable_shrinkK conv).comp measurable_prodMk_left
  prob _ := HsReg.prob_shrinkK conv _
  eq _ hs := HsReg.shrinkK_eq conv β hs
  stays _ := Shared.ae_shrinkK_pos conv _
  measD := Horseshoe.measurableSet_allPos

/-! ## The whole call of the negative-binomial regression -/

namespace NbReg

/-- The call with everything made positive. -/
noncomputable def sweepK (std : Fin p → ℝ) (X : Matrix (Fin n) (Fin p) ℝ) (a b : ℝ) (y : Fin n → ℕ)
    (q : (Fin p → ℝ) × ℝ) : Measure ((Fin p → ℝ) × ℝ) :=
  (onFirst (coefK (fun j => (std j)⁻¹) X y) q).bind (onSecond (dispK X a b y))

theorem sweepK_apply {std : Fin p → ℝ} {a b : ℝ} (ha : 0 < a) (hb : 0 < b)
    (X : Matrix (Fin n) (Fin p) ℝ) (y : Fin n → ℕ) (q : (Fin p → ℝ) × ℝ) {S : Set ((Fin p → ℝ) × ℝ)}
    (hS : MeasurableSet S) : sweepK std X a b y q S =
      ∫⁻ β, dispK X a b y (β, q.2) (Prod.mk β ⁻¹' S) ∂coefK (fun j => (std j)⁻¹) X y q := by
  rw [sweepK, Measure.bind_apply hS
    (measurable_onSecond (measurable_dispK X a b y) (prob_dispK X ha hb y)).aemeasurable, onFirst,
    lintegral_map (f := fun r => onSecond (dispK X a b y) r S) ((Measure.measurable_coe hS).comp
      (measurable_onSecond (measurable_dispK X a b y) (prob_dispK X ha hb y))) measurable_prodMk_right]
  refine lintegral_congr fun β => ?_
  rw [onSecond, Measure.map_apply measurable_prodMk_left hS]

theorem dispK_null {a b : ℝ} (ha : 0 < a) (hb : 0 < b) (X : Matrix (Fin n) (Fin p) ℝ)
    (y : Fin n → ℕ) (q : (Fin p → ℝ) × ℝ) (T : Set ℝ) :
    dispK X a b y q T = 0 ↔ volPos T = 0 := by
  have hr : 0 < b⁻¹ := inv_pos.2 hb
  have ht : 0 < b⁻¹ + rateOf X q.1 := by
    have := rateOf_nonneg X q.1
    positivity
  exact ⟨fun h => CRT.ac_crtKernel ha ht y q.2 h, fun h => CRT.crtKernel_ac y q.2 h⟩

theorem coefK_null {d : Fin p → ℝ} (hd : ∀ j, 0 < d j) (X : Matrix (Fin n) (Fin p) ℝ) (y : Fin n → ℕ)
    (q : (Fin p → ℝ) × ℝ) {T : Set (Fin p → ℝ)} (hT : MeasurableSet T) :
    coefK d X y q T = 0 ↔ volume T = 0 := by
  have : ∀ i, IsProbabilityMeasure (pg (posOr1 (y i + posOr1 q.2)) ((X *ᵥ q.1) i)) :=
    fun i => isProbabilityMeasure_pg (posOr1_pos _) _
  have hm := measurable_bayes_pgJoint d X (fun i => 0.5 * ((y i : ℝ) - posOr1 q.2))
  have key : ∀ w : Fin n → ℝ, (∀ i, 0 < w i) →
      (bayes (mvn 0 (diagonal d)⁻¹) (fun β => pgJoint X (fun i => 0.5 * ((y i : ℝ) - posOr1 q.2)) β w) T
        = 0 ↔ volume T = 0) := by
    intro w hw
    have hdef := (normalRegression_eq_bayes stdLinAlg_sound hd X
      (fun i => 0.5 * ((y i : ℝ) - posOr1 q.2)) hw).1
    have hmv := mvn_absolutelyContinuous 0 (PosDef.diagonal hd)
    refine ⟨fun h => hmv.2 ?_, fun h => (bayes_absolutelyContinuous _ _) (hmv.1 h)⟩
    refine ((withDensity_absolutelyContinuous' (measurable_pgJoint_right X _ w).aemeasurable
      (ae_of_all _ fun β => ?_)).trans
      (Measure.absolutelyContinuous_smul (ENNReal.inv_ne_zero.2 hdef.2))) h
    rw [pgJoint, Ne, ENNReal.ofReal_eq_zero, not_le]
    exact Finset.prod_pos fun i _ => mul_pos (Real.exp_pos _) (Real.exp_pos _)
  have hpos := ae_pi_pg_pos (fun i => posOr1_pos ((y i : ℝ) + posOr1 q.2)) X q.1
  rw [coefK, Measure.bind_apply hT hm.aemeasurable]
  rw [lintegral_eq_zero_iff (f := fun w => bayes (mvn 0 (diagonal d)⁻¹)
    (fun β => pgJoint X (fun i => 0.5 * ((y i : ℝ) - posOr1 q.2)) β w) T)
    ((Measure.measurable_coe hT).comp hm)]
  constructor
  · intro h
    obtain ⟨w, hw, hw0⟩ := (hpos.and h).exists
    exact (key w hw).1 hw0
  · intro h
    filter_upwards [hpos] with w hw using (key w hw).2 h

theorem sweepK_null {std : Fin p → ℝ} (hs : ∀ j, 0 < std j) {a b : ℝ} (ha : 0 < a) (hb : 0 < b)
    (X : Matrix (Fin n) (Fin p) ℝ) (y : Fin n → ℕ) (q : (Fin p → ℝ) × ℝ) {S : Set ((Fin p → ℝ) × ℝ)}
    (hS : MeasurableSet S) :
    sweepK std X a b y q S = 0 ↔ ((volume : Measure (Fin p → ℝ)).prod volPos) S = 0 := by
  have hd : ∀ j, 0 < (std j)⁻¹ := fun j => inv_pos.2 (hs j)
  have hm := measurable_measure_prodMk_left (ν := volPos) hS
  have hT : MeasurableSet {β : Fin p → ℝ | volPos (Prod.mk β ⁻¹' S) = 0} :=
    hm (measurableSet_singleton 0)
  have hm2 : Measurable fun β => dispK X a b y (β, q.2) (Prod.mk β ⁻¹' S) := by
    have e : ∀ β, dispK X a b y (β, q.2) (Prod.mk β ⁻¹' S) = onSecond (dispK X a b y) (β, q.2) S :=
      fun β => by rw [onSecond, Measure.map_apply measurable_prodMk_left hS]
    simp only [e]
    exact (Measure.measurable_coe hS).comp
      ((measurable_onSecond (measurable_dispK X a b y) (prob_dispK X ha hb y)).comp
        measurable_prodMk_right)
  rw [sweepK_apply ha hb X y q hS, Measure.prod_apply hS, lintegral_eq_zero_iff hm2,
    lintegral_eq_zero_iff hm, Filter.EventuallyEq, Filter.EventuallyEq]
  simp only [Pi.zero_apply, dispK_null ha hb]
  rw [ae_iff, ae_iff]
  exact coefK_null hd X y q hT.compl

theorem sweep_runs {la : LinAlg} (hla : la.Sound) {std : Fin p → ℝ} (hs : ∀ j, 0 < std j)
    {a b : ℝ} (ha : 0 < a) (hb : 0 < b) (X : Matrix (Fin n) (Fin p) ℝ) (y : Fin n → ℕ) :
    Runs {q | 0 < q.2} (sweep la std X a b y) (sweepK std X a b y) where
  meas := by
    have hm := measurable_onSecond (measurable_dispK X a b y) (prob_dispK X ha hb y)
    exact (Measure.measurable_bind' hm).comp (measurable_onFirst (measurable_coefK _ X y)
      (prob_coefK (fun j => inv_pos.2 (hs j)) X y))
  prob q := by
    have h1 := prob_coefK (fun j => inv_pos.2 (hs j)) X y q
    have h2 : IsProbabilityMeasure (onFirst (coefK (fun j => (std j)⁻¹) X y) q) :=
      Measure.isProbabilityMeasure_map measurable_prodMk_right.aemeasurable
    refine isProbabilityMeasure_bind (measurable_onSecond (measurable_dispK X a b y)
      (prob_dispK X ha hb y)).aemeasurable (ae_of_all _ fun r => ?_)
    have := prob_dispK X ha hb y r
    exact Measure.isProbabilityMeasure_map measurable_prodMk_left.aemeasurable
  eq q hq := by
    rw [sweepK, sweep, coefK_eq hla hs X y hq,
      onFirst_bind_onSecond (measurable_dispK X a b y) (prob_dispK X ha hb y)]
    simp only [dispK_eq X a b y hq]
  stays q := by
    have hm : MeasurableSet {q : (Fin p → ℝ) × ℝ | 0 < q.2} := measurableSet_lt measurable_const measurable_snd
    rw [ae_iff]
    refine (sweepK_null hs ha hb X y q hm.compl).2 ?_
    have : {q : (Fin p → ℝ) × ℝ | 0 < q.2}ᶜ = Set.univ ×ˢ (Set.Ioi 0)ᶜ := by
      ext q
      simp
    rw [this, Measure.prod_prod, show volPos (Set.Ioi 0)ᶜ = 0 from ae_iff.1 ae_volPos, mul_zero]
  measD := measurableSet_lt measurable_const measurable_snd

end NbReg

/-! ## The whole call of a regression with a horseshoe prior -/

namespace HsReg

theorem measurableSet_good : MeasurableSet
    {q : (Fin p → ℝ) × ((Fin p → ℝ) × ℝ) | Horseshoe.AllPos q.2} :=
  measurable_snd Horseshoe.measurableSet_allPos

theorem sweep_runs {la : LinAlg} (hla : la.Sound) {X : Matrix (Fin n) (Fin p) ℝ} {b κ : Fin n → ℝ}
    {lik : (Fin p → ℝ) → ℝ≥0∞} (F : PGForm X b κ lik) (conv : Horseshoe.ExpArg) (rd : Reads) :
    Runs {q | Horseshoe.AllPos q.2}
      (fun q => (Horseshoe.horseshoeStep conv q.1 q.2).bind fun s =>
        (pgStep la (fun j => ((rd.read q.2 s).1 j * (rd.read q.2 s).2)⁻¹) X b κ q.1).map fun β => (β, s))
      (readK conv rd (coefK X b κ)) where
  meas := measurable_readK conv rd (measurable_coefK X b κ) (prob_coefK X b κ)
  prob := prob_readK conv rd (measurable_coefK X b κ) (prob_coefK X b κ)
  eq q hq := readK_ae F hla conv rd hq
  stays q := by
    refine ae_bind ((measurable_readInner rd (measurable_coefK X b κ) (prob_coefK X b κ)).comp
      measurable_prodMk_left).aemeasurable measurableSet_good ?_
    filter_upwards [Shared.ae_shrinkK_pos conv q] with s hs
    refine (ae_map_iff (by fun_prop) measurableSet_good).2 ?_
    exact ae_of_all _ fun _ => hs
  measD := measurableSet_good

end HsReg

/-! ## Two groups with a shared global parameter -/

namespace Shared

variable {p₁ p₂ : ℕ}

theorem shared_runs (conv : Horseshoe.ExpArg) (ord : Order) (β₁ : Fin p₁ → ℝ) (β₂ : Fin p₂ → ℝ) :
    Runs {q | Pos q} (sharedStep conv ord β₁ β₂) (sharedK conv ord β₁ β₂) where
  meas := measurable_sharedK conv ord β₁ β₂
  prob q := by
    have := HsReg.prob_shrinkK conv (β₂, q.2)
    have hm : Measurable fun s : (Fin p₂ → ℝ) × ℝ => sharedInner conv ord β₁ (q, s) :=
      (measurable_sharedInner conv ord β₁).comp measurable_prodMk_left
    refine isProbabilityMeasure_bind hm.aemeasurable (ae_of_all _ fun s => ?_)
    have := HsReg.prob_shrinkK conv (β₁, (q.1, ord.read q.2.2 s.2))
    have hm2 : Measurable fun u : (Fin p₁ → ℝ) × ℝ => (u.1, s) := by fun_prop
    exact Measure.isProbabilityMeasure_map hm2.aemeasurable
  eq q hq := sharedK_eq conv ord β₁ β₂ hq
  stays q := by
    have hm : Measurable fun s : (Fin p₂ → ℝ) × ℝ => sharedInner conv ord β₁ (q, s) :=
      (measurable_sharedInner conv ord β₁).comp measurable_prodMk_left
    refine ae_bind hm.aemeasurable measurableSet_Pos ?_
    filter_upwards [ae_shrinkK_pos conv (β₂, q.2)] with s hs
    have hm2 : Measurable fun u : (Fin p₁ → ℝ) × ℝ => (u.1, s) := by fun_prop
    rw [sharedInner, ae_map_iff hm2.aemeasurable measurableSet_Pos]
    filter_upwards [ae_shrinkK_pos conv (β₁, (q.1, ord.read q.2.2 s.2))] with u hu using ⟨hu.1, hs⟩
  measD := measurableSet_Pos

end Shared
end Verif
