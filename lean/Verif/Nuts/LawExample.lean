import Verif.Nuts.Law
import Verif.Nuts.LawCoords
import Mathlib.MeasureTheory.Group.Measure
import Mathlib.MeasureTheory.Group.Pointwise
import Mathlib.Probability.Distributions.Gaussian.Real
import Mathlib.Probability.Distributions.Exponential

/-!
# C54: an example, and the failure when a bound is a random variable
-/

open MeasureTheory
open scoped ENNReal

namespace Verif.Nuts

open Verif.Py

/-! ## A kernel that keeps every target -/

/-- The noise: uniform on the unit interval. -/
noncomputable def unif : Measure ℝ := volume.restrict (Set.Icc 0 1)

instance : IsProbabilityMeasure unif := ⟨by simp [unif]⟩

/-- The Metropolis kernel whose proposal changes the sign of the position. -/
noncomputable def flipKernel (u : ℝ) (f : List ℝ → Option ℝ) (q : List ℝ) : List ℝ :=
  match f q, f (q.map (- ·)) with
  | some a, some b => if u ≤ Real.exp (b - a) then q.map (- ·) else q
  | _, _ => q

theorem flipKernel_length (u : ℝ) (f : List ℝ → Option ℝ) (q : List ℝ) :
    (flipKernel u f q).length = q.length := by
  unfold flipKernel
  split
  · split
    · simp
    · rfl
  · rfl

theorem flipKernel_vec {n : ℕ} (u : ℝ) (ℓ : (Fin n → ℝ) → ℝ) (q : Fin n → ℝ) :
    vec n (flipKernel u (fun q => if n ≤ q.length then some (ℓ (vec n q)) else none) (List.ofFn q)) =
      if u ≤ Real.exp (ℓ (-q) - ℓ q) then -q else q := by
  have h : (List.ofFn q).map (- ·) = List.ofFn (-q) := by
    rw [List.map_ofFn]
    rfl
  simp only [flipKernel, h, List.length_ofFn, le_refl, if_true, vec_ofFn]
  split <;> rw [vec_ofFn]

theorem unif_Iic (t : ℝ) : unif {u | u ≤ t} = ENNReal.ofReal (min 1 t) := by
  have : {u : ℝ | u ≤ t} ∩ Set.Icc 0 1 = Set.Icc 0 (min 1 t) := by
    ext u
    simp only [Set.mem_inter_iff, Set.mem_Icc, le_min_iff]
    constructor
    · rintro ⟨h1, h2, h3⟩
      exact ⟨h2, h3, h1⟩
    · rintro ⟨h1, h2, h3⟩
      exact ⟨h3, h1, h2⟩
  have hm : MeasurableSet {u : ℝ | u ≤ t} := measurableSet_Iic
  rw [unif, Measure.restrict_apply hm]
  rw [this, Real.volume_Icc, sub_zero]

theorem flipKernel_keeps : KeepsTargets unif flipKernel := by
  refine ⟨flipKernel_length, fun n ℓ hℓ _ => ?_⟩
  simp only [flipKernel_vec]
  have hneg : Measurable fun q : Fin n → ℝ => -q := measurable_neg
  have hset : MeasurableSet {p : ℝ × (Fin n → ℝ) | p.1 ≤ Real.exp (ℓ (-p.2) - ℓ p.2)} :=
    measurableSet_le measurable_fst (Real.measurable_exp.comp
      ((hℓ.comp (hneg.comp measurable_snd)).sub (hℓ.comp measurable_snd)))
  have hk : Measurable fun p : ℝ × (Fin n → ℝ) =>
      if p.1 ≤ Real.exp (ℓ (-p.2) - ℓ p.2) then -p.2 else p.2 :=
    Measurable.ite hset (hneg.comp measurable_snd) measurable_snd
  let e : (Fin n → ℝ) → ℝ≥0∞ := fun q => ENNReal.ofReal (Real.exp (ℓ q))
  let α : (Fin n → ℝ) → ℝ≥0∞ := fun q => ENNReal.ofReal (min 1 (Real.exp (ℓ (-q) - ℓ q)))
  have he : Measurable e := (Real.measurable_exp.comp hℓ).ennreal_ofReal
  have hα : Measurable α := (measurable_const.min
    (Real.measurable_exp.comp ((hℓ.comp hneg).sub hℓ))).ennreal_ofReal
  have hα1 : ∀ q, α q ≤ 1 := fun q => by
    rw [← ENNReal.ofReal_one]
    exact ENNReal.ofReal_le_ofReal (min_le_left _ _)
  have hsym : ∀ q, e (-q) * α (-q) = e q * α q := by
    intro q
    have hs : ∀ q, e q * α q = ENNReal.ofReal (min (Real.exp (ℓ q)) (Real.exp (ℓ (-q)))) := by
      intro q
      simp only [e, α]
      rw [← ENNReal.ofReal_mul (Real.exp_pos _).le, mul_min_of_nonneg _ _ (Real.exp_pos _).le, mul_one,
        ← Real.exp_add, add_sub_cancel]
    rw [hs, hs, neg_neg, min_comm]
  refine Measure.ext_of_lintegral _ fun φ hφ => ?_
  have hφk : Measurable fun p : ℝ × (Fin n → ℝ) =>
      φ (if p.1 ≤ Real.exp (ℓ (-p.2) - ℓ p.2) then -p.2 else p.2) := hφ.comp hk
  have hφn : Measurable fun q => φ (-q) := hφ.comp hneg
  have hinner : ∀ q : Fin n → ℝ, ∫⁻ u, φ (if u ≤ Real.exp (ℓ (-q) - ℓ q) then -q else q) ∂unif =
      α q * φ (-q) + (1 - α q) * φ q := by
    intro q
    have hm : MeasurableSet {u : ℝ | u ≤ Real.exp (ℓ (-q) - ℓ q)} := measurableSet_Iic
    have h1 := unif_Iic (Real.exp (ℓ (-q) - ℓ q))
    rw [← lintegral_add_compl _ hm]
    congr 1
    · rw [setLIntegral_congr_fun (g := fun _ => φ (-q)) hm fun u hu => by
        simp only [if_pos (show u ≤ Real.exp (ℓ (-q) - ℓ q) from hu)], setLIntegral_const, h1, mul_comm]
    · rw [setLIntegral_congr_fun (g := fun _ => φ q) hm.compl fun u hu => by
        simp only [if_neg (show ¬ u ≤ Real.exp (ℓ (-q) - ℓ q) from hu)], setLIntegral_const,
        prob_compl_eq_one_sub hm, h1, mul_comm]
  rw [lintegral_map hφ hk, lintegral_prod_symm' _ hφk]
  simp only [hinner]
  have hs1 : Measurable fun q => α q * φ (-q) + (1 - α q) * φ q :=
    (hα.mul hφn).add ((measurable_const.sub hα).mul hφ)
  rw [lintegral_withDensity_eq_lintegral_mul _ he hs1, lintegral_withDensity_eq_lintegral_mul _ he hφ]
  have m1 : Measurable fun q => e q * α q * φ (-q) := (he.mul hα).mul hφn
  have m2 : Measurable fun q => e q * α q * φ q := (he.mul hα).mul hφ
  have h1 : ∫⁻ q, (e * fun q => α q * φ (-q) + (1 - α q) * φ q) q =
      (∫⁻ q, e q * α q * φ (-q)) + ∫⁻ q, e q * (1 - α q) * φ q := by
    rw [← lintegral_add_left m1]
    refine lintegral_congr fun q => ?_
    simp only [Pi.mul_apply]
    ring
  have h2 : ∫⁻ q, e q * α q * φ (-q) = ∫⁻ q, e q * α q * φ q := by
    rw [← (Measure.measurePreserving_neg (volume : Measure (Fin n → ℝ))).lintegral_comp m2]
    refine lintegral_congr fun q => ?_
    show e q * α q * φ (-q) = e (-q) * α (-q) * φ (-q)
    rw [hsym]
  rw [h1, h2, ← lintegral_add_left m2]
  refine lintegral_congr fun q => ?_
  simp only [Pi.mul_apply, e]
  rw [← add_mul, ← mul_add, add_tsub_cancel_of_le (hα1 q), mul_one]

/-! ## A positive variable, a real variable and a realised variable -/

/-- One positive entry, one real entry. -/
noncomputable abbrev exCs : List Coord := [logCoord, idCoord]

/-- `θ` exponential and `z` normal around the realised value. -/
noncomputable def exW (r : ℝ) (x : Fin exCs.length → ℝ) : ℝ :=
  Real.exp (-x ⟨0, Nat.zero_lt_succ _⟩) * ProbabilityTheory.gaussianPDFReal r 1 (x ⟨1, Nat.le_refl _⟩)

/-- The model: variable 0 is `θ`, variable 1 is `z`, variable 2 the realised one. -/
noncomputable def lawModel : Model Nat ℝ where
  transform v := if v = 0 then some logTransform else none
  inputs _ _ := []
  logprob σ := transformedLog exCs (exW ((σ 2).data.getD 0 0))
    (vec exCs.length ((σ 10).data ++ (σ 11).data))

/-- The joint law. -/
noncomputable def exLaw : Measure (ℝ × (Fin exCs.length → ℝ)) :=
  ((ProbabilityTheory.gaussianReal 0 1).prod (volume.restrict (support exCs))).withDensity
    fun p => ENNReal.ofReal (exW p.1 p.2)

theorem exW_measurable : Measurable fun p : ℝ × (Fin exCs.length → ℝ) => exW p.1 p.2 := by
  unfold exW ProbabilityTheory.gaussianPDFReal
  fun_prop

theorem exW_pos (r : ℝ) (x : Fin exCs.length → ℝ) : 0 < exW r x :=
  mul_pos (Real.exp_pos _) (ProbabilityTheory.gaussianPDFReal_pos _ _ _ one_ne_zero)

theorem lintegral_exp_neg : ∫⁻ x in Set.Ioi (0 : ℝ), ENNReal.ofReal (Real.exp (-x)) = 1 := by
  rw [← ofReal_integral_eq_lintegral_ofReal (by
    have := exp_neg_integrableOn_Ioi 0 (one_pos : (0 : ℝ) < 1)
    simp only [neg_mul, one_mul] at this
    exact this) (ae_of_all _ fun x => (Real.exp_pos _).le), integral_exp_neg_Ioi_zero, ENNReal.ofReal_one]

instance : IsProbabilityMeasure exLaw := ⟨by
  have hm := exW_measurable.ennreal_ofReal
  rw [exLaw, withDensity_apply _ MeasurableSet.univ, Measure.restrict_univ,
    lintegral_prod _ hm.aemeasurable]
  have hin : ∀ r : ℝ, ∫⁻ x, ENNReal.ofReal (exW r x) ∂(volume.restrict (support exCs)) = 1 := by
    intro r
    let f : Fin exCs.length → ℝ → ℝ≥0∞ := fun i => if i.1 = 0 then fun x => ENNReal.ofReal (Real.exp (-x))
      else ProbabilityTheory.gaussianPDF r 1
    have hf : ∀ i, Measurable (f i) := by
      intro i
      simp only [f]
      split
      · fun_prop
      · exact ProbabilityTheory.measurable_gaussianPDF _ _
    have h1 := lintegral_fin_prod (fun i => volume.restrict (exCs[i].S)) hf
    rw [← Measure.restrict_pi_pi] at h1
    have h2 : ∀ x : Fin exCs.length → ℝ, ∏ i, f i (x i) = ENNReal.ofReal (exW r x) := by
      intro x
      rw [exW, ENNReal.ofReal_mul (Real.exp_pos _).le]
      exact Fin.prod_univ_two _
    simp only [h2] at h1
    rw [support]
    refine h1.trans ?_
    refine (Fin.prod_univ_two _).trans ?_
    have a1 : ∫⁻ x, f 0 x ∂volume.restrict (exCs[(0 : Fin 2)].S) = 1 := lintegral_exp_neg
    have a2 : ∫⁻ x, f 1 x ∂volume.restrict (exCs[(1 : Fin 2)].S) = 1 := by
      show ∫⁻ x, ProbabilityTheory.gaussianPDF r 1 x ∂volume.restrict Set.univ = 1
      rw [Measure.restrict_univ]
      exact ProbabilityTheory.lintegral_gaussianPDF_eq_one _ one_ne_zero
    exact (congrArg₂ (· * ·) a1 a2).trans (one_mul 1)
  simp only [hin]
  simp⟩

/-- The current values. -/
def exValues (x : Fin exCs.length → ℝ) : Dict Nat (Arr ℝ) :=
  [(0, ⟨[], [x ⟨0, Nat.zero_lt_succ _⟩]⟩), (1, ⟨[], [x ⟨1, Nat.le_refl _⟩]⟩)]

theorem flat_exValues (x : Fin exCs.length → ℝ) : flat exCs.length (exValues x) = x := by
  funext i
  match i with
  | ⟨0, _⟩ => rfl
  | ⟨1, _⟩ => rfl

/-- The hypotheses of `C54_invariant_partial` are met: the realised variable is normal, `θ` and `z` have
their joint law, the draws in the graph are equal to the noise of the kernel, which moves the state. -/
example : ∃ res : (ℝ × (Fin exCs.length → ℝ)) × ℝ → Dict Nat (Arr ℝ),
    (∀ ω, step lawModel (flipKernel ω.2) (fun v => if v = 2 then ⟨[], [ω.1.1]⟩ else ⟨[], [ω.2]⟩)
      (exValues ω.1.2) [10, 11] = some (res ω)) ∧
    (exLaw.prod unif).map (fun ω => (ω.1.1, flat exCs.length (res ω))) = exLaw := by
  obtain ⟨res, h1, h2⟩ := C54_invariant_partial (exLaw.prod unif) (ProbabilityTheory.gaussianReal 0 1) unif
    lawModel flipKernel_keeps (rvs := [0, 1]) (placeholders := [10, 11]) (by decide) (by decide) rfl
    (shape := fun _ => []) (coord := fun v _ => if v = 0 then logCoord else idCoord)
    (fun rv hrv j _ => by
      rcases List.mem_cons.1 hrv with rfl | h
      · exact logCoord_changeVar
      · rw [List.mem_singleton.1 h]
        exact idCoord_changeVar)
    (cs := exCs) rfl exW_measurable (fun r x _ => exW_pos r x) 1
    (r := fun ω => ω.1.1) (u := fun ω => ω.2)
    (env := fun ω v => if v = 2 then ⟨[], [ω.1.1]⟩ else ⟨[], [ω.2]⟩) (X := fun ω => exValues ω.1.2)
    (fun _ => rfl)
    (fun ω p hp => by
      rcases List.mem_cons.1 hp with rfl | h
      · exact ⟨rfl, rfl⟩
      · rw [List.mem_singleton.1 h]
        exact ⟨rfl, rfl⟩)
    (fun ω rv hrv => by
      rcases List.mem_cons.1 hrv with rfl | h
      · exact (entrywise_log rfl).1
      · rw [List.mem_singleton.1 h]
        exact (entrywise_none rfl).1)
    (fun ω rv hrv => by
      rcases List.mem_cons.1 hrv with rfl | h
      · exact (entrywise_log rfl).2
      · rw [List.mem_singleton.1 h]
        exact (entrywise_none rfl).2)
    (fun ω d hk hs hwf => by
      match d, hk with
      | [(a, x), (b, y)], hk =>
        have hab : a = 10 ∧ b = 11 := by simpa [Dict.keys] using hk
        obtain ⟨rfl, rfl⟩ := hab
        simp [lawModel, override, Dict.get?, flat])
    (by
      simp only [flipKernel_vec]
      have hneg : Measurable fun q : Fin exCs.length → ℝ => -q := measurable_neg
      have hl : Measurable fun p : ℝ × (Fin exCs.length → ℝ) => transformedLog exCs (exW p.1) p.2 := by
        have hci : ∀ i : Fin exCs.length, ChangeVar exCs[i].f exCs[i].g exCs[i].dg exCs[i].S := by
          intro i
          match i with
          | ⟨0, _⟩ => exact logCoord_changeVar
          | ⟨1, _⟩ => exact idCoord_changeVar
        have hsnd : ∀ i, Measurable fun p : ℝ × (Fin exCs.length → ℝ) => p.2 i := fun i =>
          (measurable_pi_apply i).comp measurable_snd
        have hin : Measurable fun p : ℝ × (Fin exCs.length → ℝ) =>
            (p.1, fun i : Fin exCs.length => exCs[i].g (p.2 i)) :=
          measurable_fst.prodMk (measurable_pi_lambda _ fun i => (hci i).measurable.comp (hsnd i))
        refine Measurable.add (Real.measurable_log.comp ?_) (Finset.measurable_sum _ fun i _ => ?_)
        · exact exW_measurable.comp hin
        · exact Real.measurable_log.comp ((hci i).meas_d.comp (hsnd i))
      have h2 : Measurable fun p : ℝ × ℝ × (Fin exCs.length → ℝ) => -p.2.2 :=
        hneg.comp (measurable_snd.comp measurable_snd)
      have h3 : Measurable fun p : ℝ × ℝ × (Fin exCs.length → ℝ) =>
          Real.exp (transformedLog exCs (exW p.2.1) (-p.2.2) - transformedLog exCs (exW p.2.1) p.2.2) :=
        Real.measurable_exp.comp ((hl.comp ((measurable_fst.comp measurable_snd).prodMk h2)).sub
          (hl.comp measurable_snd))
      exact Measurable.ite (measurableSet_le measurable_fst h3) h2 (measurable_snd.comp measurable_snd))
    (by
      simp only [flat_exValues]
      exact measurable_id)
    (by
      simp only [flat_exValues, one_smul]
      exact Measure.map_id)
  refine ⟨res, fun ω => (h1 ω).1, ?_⟩
  rw [h2, one_smul]
  rfl

/-! ## A bound that is a random variable -/

/-- `x ~ Uniform(0, θ)`: variable 0 is `x`, variable 1 is `θ`, realised with the value 1. -/
noncomputable def bndModel : Model Nat ℝ where
  transform v := if v = 0 then some intervalTransform else none
  inputs v σ := if v = 0 then [⟨[], [0]⟩, σ 1] else []
  logprob σ := transformedLog [intervalCoord 0 1] (fun _ => 1) (vec 1 (σ 10).data)

theorem sigmoid_neg (y : ℝ) : sigmoid (-y) = 1 - sigmoid y := by
  have h1 : (0 : ℝ) < 1 + Real.exp (-y) := by positivity
  rw [sigmoid, sigmoid, neg_neg]
  have : Real.exp y * Real.exp (-y) = 1 := by rw [← Real.exp_add]; simp
  have h2 : (0 : ℝ) < 1 + Real.exp y := by positivity
  field_simp
  linarith

/-- C54 fails for `x ~ Uniform(0, θ)` with `θ` realised, value 1: the posterior of `x` is uniform on
`(0, 1)`, the log density is that of the model in the transformed space, and the kernel keeps every target,
but the transforms use the draw of `θ` made in the graph (here 4), so that every value `x` in `(0, 1)` moves
to `4 - x`, outside the support. -/
theorem C54_violated :
    KeepsTargets unif flipKernel ∧
    (∀ σ, bndModel.logprob σ = transformedLog [intervalCoord 0 1] (fun _ => 1) (vec 1 (σ 10).data)) ∧
    ∀ u ≤ 1, ∀ x : ℝ, 0 < x → x < 1 →
      step bndModel (flipKernel u) (fun _ => ⟨[], [4]⟩) [(0, ⟨[], [x]⟩)] [10] =
        some [(0, ⟨[], [4 - x]⟩)] ∧ ¬ (4 - x < 1) := by
  refine ⟨flipKernel_keeps, fun _ => rfl, fun u hu x h0 h1 => ⟨?_, by linarith⟩⟩
  have hq : ∀ q : ℝ, flipKernel u (logprobFn bndModel (fun _ => ⟨[], [4]⟩) [10] [[]]) [q] = [-q] := by
    intro q
    have hf : ∀ q : ℝ, logprobFn bndModel (fun _ => ⟨[], [4]⟩) [10] [[]] [q] =
        some (transformedLog [intervalCoord 0 1] (fun _ => 1) (vec 1 [q])) := fun q => rfl
    have hsym : transformedLog [intervalCoord 0 1] (fun _ => 1) (vec 1 [-q]) =
        transformedLog [intervalCoord 0 1] (fun _ => 1) (vec 1 [q]) := by
      unfold transformedLog
      congr 1
      refine Finset.sum_congr rfl fun i _ => ?_
      match i with
      | ⟨0, _⟩ =>
        show Real.log (sigmoid (-q) * (1 - sigmoid (-q)) * (1 - 0)) =
          Real.log (sigmoid q * (1 - sigmoid q) * (1 - 0))
        rw [sigmoid_neg]
        congr 1
        ring
    simp only [flipKernel, hf, List.map_cons, List.map_nil, hsym, sub_self, Real.exp_zero]
    rw [if_pos hu]
  have := step_eq bndModel (flipKernel u) (fun _ => ⟨[], [4]⟩) (toSample := [(0, ⟨[], [x]⟩)])
    (placeholders := [10]) (List.nodup_singleton 0) (by decide) rfl
    (ys := [⟨[], [-(Real.log (x - 0) - Real.log (4 - x))]⟩]) rfl (by
      have e : transformed bndModel (fun _ => ⟨[], [4]⟩) [(0, ⟨[], [x]⟩)] =
          [⟨[], [Real.log (x - 0) - Real.log (4 - x)]⟩] := rfl
      rw [e]
      simp only [List.map_cons, List.map_nil, ravel, List.flatMap_cons, List.flatMap_nil, List.append_nil,
        hq]
      rfl)
  rw [this]
  have hs : sigmoid (-(Real.log (x - 0) - Real.log (4 - x))) = (4 - x) / 4 := by
    rw [neg_sub, sigmoid_log (by linarith) (by linarith)]
    congr 1
    ring
  show some [((0 : ℕ), (⟨[], [sigmoid (-(Real.log (x - 0) - Real.log (4 - x))) * 4 +
    (1 - sigmoid (-(Real.log (x - 0) - Real.log (4 - x)))) * 0]⟩ : Arr ℝ))] = _
  rw [hs]
  congr 4
  ring_nf

end Verif.Nuts
