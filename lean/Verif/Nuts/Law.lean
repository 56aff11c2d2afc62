import Verif.Nuts.LawLemmas

/-!
# C54: the NUTS step keeps the posterior
-/

open MeasureTheory
open scoped ENNReal

namespace Verif.Nuts

open Verif.Py

variable {V : Type} [DecidableEq V]

theorem exp_transformedLog {cs : List Coord} {w : (Fin cs.length → ℝ) → ℝ}
    (hc : ∀ i : Fin cs.length, ChangeVar cs[i].f cs[i].g cs[i].dg cs[i].S)
    (hpos : ∀ x ∈ support cs, 0 < w x) (q : Fin cs.length → ℝ) :
    ENNReal.ofReal (Real.exp (transformedLog cs w q)) =
      ENNReal.ofReal (w fun i => cs[i].g (q i)) * ∏ i : Fin cs.length, ENNReal.ofReal (cs[i].dg (q i)) := by
  have hS : (fun i => cs[i].g (q i)) ∈ support cs := by
    intro i _
    show _ ∈ cs[i].S
    rw [← (hc i).range]
    exact ⟨q i, rfl⟩
  rw [transformedLog, Real.exp_add, Real.exp_log (hpos _ hS), Real.exp_sum,
    ENNReal.ofReal_mul (hpos _ hS).le, ENNReal.ofReal_prod_of_nonneg fun i _ => (Real.exp_pos _).le]
  congr 1
  exact Finset.prod_congr rfl fun i _ => by rw [Real.exp_log ((hc i).pos _)]

/-- C54.  The realised values are distributed by `r`, the current values of the sampled variables by `X`;
their joint law has density `c · w` in the original space, over the product of the supports.  If the kernel
keeps every law it is given by its log density, and the log density of the model in the transformed space is
`log w` plus the logarithms of the factors for the change of variables, then the realised values and the
new values have the same joint law.  The draws in the graph (`env`) may be anything.

Missing for the full property: transforms whose parameters are random variables, for which the code is wrong
(`C54_violated`).  Transforms that do not work entry by entry or are not one to one (the simplex and the
circle) are in `C54_blocks_partial`. -/
theorem C54_invariant_partial {Ω R U : Type} [MeasurableSpace Ω] [MeasurableSpace R] [MeasurableSpace U]
    (P : Measure Ω) [IsProbabilityMeasure P] (μR : Measure R) [SFinite μR] (μU : Measure U)
    [IsProbabilityMeasure μU] (M : Model V ℝ) {K : U → (List ℝ → Option ℝ) → List ℝ → List ℝ}
    (hK : KeepsTargets μU K) {rvs placeholders : List V} (hn : rvs.Nodup) (hp : placeholders.Nodup)
    (hl : placeholders.length = rvs.length) {shape : V → List Nat} {coord : V → ℕ → Coord}
    (hc : ∀ rv ∈ rvs, ∀ j < (shape rv).prod,
      ChangeVar (coord rv j).f (coord rv j).g (coord rv j).dg (coord rv j).S)
    {cs : List Coord} (hcs : cs = coords rvs shape coord)
    {w : R → (Fin cs.length → ℝ) → ℝ} (hw : Measurable fun p : R × (Fin cs.length → ℝ) => w p.1 p.2)
    (hpos : ∀ r, ∀ x ∈ support cs, 0 < w r x) (c : ℝ≥0∞)
    {r : Ω → R} {u : Ω → U} {env : Ω → V → Arr ℝ} {X : Ω → Dict V (Arr ℝ)}
    (hkeys : ∀ ω, (X ω).keys = rvs) (hX : ∀ ω, ∀ p ∈ X ω, p.2.WF ∧ p.2.shape = shape p.1)
    (hF : ∀ ω, ∀ rv ∈ rvs, Entrywise (fun x => transformForward M (env ω) rv x (M.transform rv))
      (shape rv) fun j => (coord rv j).f)
    (hG : ∀ ω, ∀ rv ∈ rvs, Entrywise (fun x => transformBackward M (env ω) rv x (M.transform rv))
      (shape rv) fun j => (coord rv j).g)
    (hlog : ∀ ω, ∀ d : Dict V (Arr ℝ), d.keys = placeholders →
      d.map (fun p => p.2.shape) = rvs.map shape → (∀ p ∈ d, p.2.WF) →
      M.logprob (override (env ω) d) = transformedLog cs (w (r ω)) (flat cs.length d))
    (hmeas : Measurable fun p : U × R × (Fin cs.length → ℝ) => vec cs.length
      (K p.1 (fun q => if cs.length ≤ q.length then
        some (transformedLog cs (w p.2.1) (vec cs.length q)) else none) (List.ofFn p.2.2)))
    (hXm : Measurable fun ω => ((r ω, flat cs.length (X ω)), u ω))
    (hlaw : P.map (fun ω => ((r ω, flat cs.length (X ω)), u ω)) =
      (c • (μR.prod (volume.restrict (support cs))).withDensity
        fun p => ENNReal.ofReal (w p.1 p.2)).prod μU) :
    ∃ res : Ω → Dict V (Arr ℝ),
      (∀ ω, step M (K (u ω)) (env ω) (X ω) placeholders = some (res ω) ∧ (res ω).keys = rvs ∧
        ∀ p ∈ res ω, p.2.WF ∧ p.2.shape = shape p.1) ∧
      P.map (fun ω => (r ω, flat cs.length (res ω))) =
        c • (μR.prod (volume.restrict (support cs))).withDensity fun p => ENNReal.ofReal (w p.1 p.2) := by
  have hci : ∀ i : Fin cs.length, ChangeVar cs[i].f cs[i].g cs[i].dg cs[i].S := by
    intro i
    have hm : cs[i] ∈ coords rvs shape coord := by
      rw [← hcs]
      exact List.getElem_mem _
    obtain ⟨rv, hrv, h⟩ := List.mem_flatMap.1 hm
    obtain ⟨j, hj, h⟩ := List.mem_map.1 h
    rw [← h]
    exact hc rv hrv j (List.mem_range.1 hj)
  have hstep := fun ω => step_flat M (K (u ω)) (hK.1 (u ω)) (env ω) hn hp hl (hkeys ω) (hX ω) (hF ω)
    (hG ω) hcs (hlog ω)
  choose res h1 h2 h3 h4 using hstep
  refine ⟨res, fun ω => ⟨h1 ω, h2 ω, h3 ω⟩, ?_⟩
  have hw' : Measurable fun p : R × (Fin cs.length → ℝ) => ENNReal.ofReal (w p.1 p.2) := hw.ennreal_ofReal
  have hfin : ∫⁻ p, ENNReal.ofReal (w p.1 p.2) ∂(μR.prod (volume.restrict (support cs))) ≠ ∞ := by
    have := congrArg (fun ν => ν Set.univ) hlaw
    simp only [Measure.map_apply hXm MeasurableSet.univ, Set.preimage_univ, measure_univ] at this
    rw [Measure.prod_smul_left, Measure.smul_apply, ← Set.univ_prod_univ, Measure.prod_prod,
      measure_univ (μ := μU), mul_one, withDensity_apply _ MeasurableSet.univ, Measure.restrict_univ, smul_eq_mul] at this
    intro h
    rw [h] at this
    by_cases h0 : c = 0
    · simp [h0] at this
    · rw [ENNReal.mul_top h0] at this
      simp at this
  have hkeep := keeps_original hci μR μU hw' hfin hmeas fun r hr => by
    have hell : Measurable (transformedLog cs (w r)) := by
      refine Measurable.add (Real.measurable_log.comp ?_) (Finset.measurable_sum _ fun i _ => ?_)
      · refine hw.comp (measurable_const.prodMk (measurable_pi_lambda _ fun i => ?_))
        exact (hci i).measurable.comp (measurable_pi_apply i)
      · exact Real.measurable_log.comp ((hci i).meas_d.comp (measurable_pi_apply i))
    have hint : Integrable fun q => Real.exp (transformedLog cs (w r) q) := by
      refine ⟨(Real.measurable_exp.comp hell).aestronglyMeasurable, ?_⟩
      rw [hasFiniteIntegral_iff_ofReal (ae_of_all _ fun q => (Real.exp_pos _).le)]
      simp only [exp_transformedLog hci (hpos r)]
      exact lt_top_iff_ne_top.2 hr
    have := hK.2 cs.length _ hell hint
    simp only [exp_transformedLog hci (hpos r)] at this
    exact this
  have hΦ : Measurable fun p : (R × (Fin cs.length → ℝ)) × U =>
      (p.1.1, fun i : Fin cs.length => cs[i].g (vec cs.length (K p.2
        (fun q => if cs.length ≤ q.length then
          some (transformedLog cs (w p.1.1) (vec cs.length q)) else none)
          (List.ofFn fun i => cs[i].f (p.1.2 i))) i)) := by
    refine (measurable_fst.comp measurable_fst).prodMk (measurable_pi_lambda _ fun i => ?_)
    have hin : Measurable fun p : (R × (Fin cs.length → ℝ)) × U =>
        (p.2, p.1.1, fun i : Fin cs.length => cs[i].f (p.1.2 i)) := by
      refine measurable_snd.prodMk ((measurable_fst.comp measurable_fst).prodMk
        (measurable_pi_lambda _ fun i => ?_))
      exact (hci i).meas.comp ((measurable_pi_apply i).comp (measurable_snd.comp measurable_fst))
    exact (hci i).measurable.comp ((measurable_pi_apply i).comp (hmeas.comp hin))
  have hcomp : (fun ω => (r ω, flat cs.length (res ω))) =
      (fun p : (R × (Fin cs.length → ℝ)) × U =>
      (p.1.1, fun i : Fin cs.length => cs[i].g (vec cs.length (K p.2
        (fun q => if cs.length ≤ q.length then
          some (transformedLog cs (w p.1.1) (vec cs.length q)) else none)
          (List.ofFn fun i => cs[i].f (p.1.2 i))) i))) ∘
      fun ω => ((r ω, flat cs.length (X ω)), u ω) := by
    funext ω
    rw [h4 ω]
    rfl
  rw [hcomp, ← Measure.map_map hΦ hXm, hlaw, Measure.prod_smul_left, Measure.map_smul]
  congr 1

end Verif.Nuts
