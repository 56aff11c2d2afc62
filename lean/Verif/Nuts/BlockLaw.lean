import Verif.Nuts.BlockProd

/-!
# C54: the NUTS step keeps the posterior, with any of the default transforms
-/

open MeasureTheory
open scoped ENNReal

namespace Verif.Nuts

open Verif.Py

variable {V : Type} [DecidableEq V]

/-- The kernel on blocks keeps the law in the original space. -/
theorem blocks_keep {R U : Type} [MeasurableSpace R] [MeasurableSpace U] {N : ℕ} {b : Fin N → Block}
    (hb : ∀ i, (b i).Lawful) (μR : Measure R) [SFinite μR] (μU : Measure U) [SFinite μU]
    {K : U → (List ℝ → Option ℝ) → List ℝ → List ℝ} (hK : KeepsTargets μU K)
    (hshift : (∀ i, (b i).shifts = ⊥) ∨ KeepsShifts μU K)
    {w : R → (∀ i, Fin (b i).k → ℝ) → ℝ} (hw : Measurable fun p : R × (∀ i, Fin (b i).k → ℝ) => w p.1 p.2)
    (hpos : ∀ r x, (∀ i, x i ∈ (b i).S) → 0 < w r x)
    (hfin : ∫⁻ p, ENNReal.ofReal (w p.1 p.2) ∂(μR.prod (Measure.pi fun i => (b i).ref)) ≠ ∞)
    (hmeas : Measurable fun p : U × R × (∀ i, Fin (b i).m → ℝ) => splitEquiv (fun i => (b i).m) (vec _
      (K p.1 (flatLog fun q => blockLog b (w p.2.1) (splitEquiv (fun i => (b i).m) q))
        (List.ofFn ((splitEquiv fun i => (b i).m).symm p.2.2))))) :
    (((μR.prod (Measure.pi fun i => (b i).ref)).withDensity
        fun p => ENNReal.ofReal (w p.1 p.2)).prod μU).map
      (fun p => (p.1.1, fun i => (b i).g (splitEquiv (fun i => (b i).m) (vec _
        (K p.2 (flatLog fun q => blockLog b (w p.1.1) (splitEquiv (fun i => (b i).m) q))
          (List.ofFn ((splitEquiv fun i => (b i).m).symm fun i => (b i).f (p.1.2 i))))) i))) =
      (μR.prod (Measure.pi fun i => (b i).ref)).withDensity fun p => ENNReal.ofReal (w p.1 p.2) := by
  have hc : Countable (jointShifts b) := jointShifts_countable hb
  have hG : Measurable fun q : (∀ i, Fin (b i).m → ℝ) => fun i => (b i).g (q i) :=
    measurable_pi_lambda _ fun i => (hb i).meas_g.comp (measurable_pi_apply i)
  have hF : Measurable fun x : (∀ i, Fin (b i).k → ℝ) => fun i => (b i).f (x i) :=
    measurable_pi_lambda _ fun i => (hb i).meas_f.comp (measurable_pi_apply i)
  have hJ : Measurable fun q : (∀ i, Fin (b i).m → ℝ) => ∏ i, ENNReal.ofReal ((b i).J (q i)) :=
    Finset.measurable_prod _ fun i _ => ((hb i).meas_J.comp (measurable_pi_apply i)).ennreal_ofReal
  have hell : ∀ r, Measurable (blockLog b (w r)) := by
    intro r
    refine Measurable.add (Real.measurable_log.comp ?_) (Finset.measurable_sum _ fun i _ => ?_)
    · exact hw.comp (measurable_const.prodMk hG)
    · exact Real.measurable_log.comp ((hb i).meas_J.comp (measurable_pi_apply i))
  refine keeps_folded (Λ := jointShifts b) (D := Set.univ.pi fun i => (b i).D)
    (F := fun x i => (b i).f (x i)) (G := fun q i => (b i).g (q i))
    (J := fun q => ∏ i, ENNReal.ofReal ((b i).J (q i)))
    (w := fun p => ENNReal.ofReal (w p.1 p.2))
    (k := fun p => splitEquiv (fun i => (b i).m) (vec _
      (K p.1 (flatLog fun q => blockLog b (w p.2.1) (splitEquiv (fun i => (b i).m) q))
        (List.ofFn ((splitEquiv fun i => (b i).m).symm p.2.2)))))
    μR μU volume (MeasurableSet.univ_pi fun i => (hb i).meas_D) (joint_tile hb) hF hG ?_ ?_ hJ ?_
    (joint_map_eq hb) hw.ennreal_ofReal hfin hmeas ?_ ?_
  · intro q hq
    funext i
    exact (hb i).left_inv _ (hq i (Set.mem_univ i))
  · intro l q
    funext i
    exact (hb i).g_shift _ (mem_jointShifts.1 l.2 i) _
  · intro l q
    refine Finset.prod_congr rfl fun i _ => ?_
    exact congrArg ENNReal.ofReal ((hb i).J_shift _ (mem_jointShifts.1 l.2 i) _)
  · intro u r q l
    rcases hshift with h | h
    · have hl : l = 0 := by
        refine Subtype.ext (funext fun i => ?_)
        have := mem_jointShifts.1 l.2 i
        rw [h i, AddSubgroup.mem_bot] at this
        exact this
      rw [hl, zero_vadd, zero_vadd]
    · have := h.2 u _ (fun q => blockLog b (w r) (splitEquiv (fun i => (b i).m) q))
        ((splitEquiv fun i => (b i).m).symm l.1) ((splitEquiv fun i => (b i).m).symm q)
      simp only [splitEquiv_add, MeasurableEquiv.apply_symm_apply, blockLog_shift hb l.2,
        ← splitEquiv_symm_add] at this
      show splitEquiv _ (vec _ (K u _ (List.ofFn ((splitEquiv fun i => (b i).m).symm (l.1 + q))))) = _
      rw [this, splitEquiv_add, MeasurableEquiv.apply_symm_apply]
      rfl
  · intro r hr
    simp only [← exp_blockLog hb (hpos r)] at hr ⊢
    refine split_keeps μU (hell r) (hmeas.comp (measurable_fst.prodMk
      (measurable_const.prodMk measurable_snd))) ?_
    have hs : Measurable fun q => blockLog b (w r) (splitEquiv (fun i => (b i).m) q) :=
      (hell r).comp (splitEquiv fun i => (b i).m).measurable
    rcases hshift with h | h
    · refine hK.2 _ _ hs ⟨(Real.measurable_exp.comp hs).aestronglyMeasurable, ?_⟩
      rw [hasFiniteIntegral_iff_ofReal (ae_of_all _ fun q => (Real.exp_pos _).le)]
      have hu : (Set.univ.pi fun i => (b i).D) = Set.univ := by
        rw [Set.eq_univ_iff_forall]
        intro q i _
        show q i ∈ (b i).D
        rw [D_univ (hb i) (h i)]
        trivial
      have he : Measurable fun q => ENNReal.ofReal (Real.exp (blockLog b (w r) q)) :=
        (Real.measurable_exp.comp (hell r)).ennreal_ofReal
      rw [hu, Measure.restrict_univ, ← (splitEquiv_preserving fun i => (b i).m).lintegral_comp
        he] at hr
      exact lt_top_iff_ne_top.2 hr
    · exact h.1 _ _ hs

/-- C54.  The realised values are distributed by `r`, the current values of the sampled variables by `X`;
their joint law has density `c · w` in the original space, with respect to the product of the variables'
reference measures.  If the kernel keeps every law it is given by its log density (and, when a transform
identifies values, also every measure with a density, and commutes with translations), and the log density of
the model in the transformed space is `log w` plus the logarithms of the factors for the change of variables,
then the realised values and the new values have the same joint law.  The draws in the graph (`env`) may be
anything.  All the default transforms are covered (`C54_transforms`).

Missing for the full property: transforms whose parameters are random variables, for which the code is wrong
(`C54_violated`). -/
theorem C54_blocks_partial {Ω R U : Type} [MeasurableSpace Ω] [MeasurableSpace R] [MeasurableSpace U]
    (P : Measure Ω) [IsProbabilityMeasure P] (μR : Measure R) [SFinite μR] (μU : Measure U)
    [IsProbabilityMeasure μU] (M : Model V ℝ) {K : U → (List ℝ → Option ℝ) → List ℝ → List ℝ}
    (hK : KeepsTargets μU K) {rvs placeholders : List V} (hn : rvs.Nodup) (hp : placeholders.Nodup)
    (hl : placeholders.length = rvs.length) {b : Fin rvs.length → Block} (hb : ∀ i, (b i).Lawful)
    (hshift : (∀ i, (b i).shifts = ⊥) ∨ KeepsShifts μU K)
    {w : R → (∀ i, Fin (b i).k → ℝ) → ℝ} (hw : Measurable fun p : R × (∀ i, Fin (b i).k → ℝ) => w p.1 p.2)
    (hpos : ∀ r x, (∀ i, x i ∈ (b i).S) → 0 < w r x) (c : ℝ≥0∞)
    {r : Ω → R} {u : Ω → U} {env : Ω → V → Arr ℝ} {X : Ω → Dict V (Arr ℝ)}
    (hkeys : ∀ ω, (X ω).keys = rvs) (hX : ∀ ω, Shaped (fun i => (b i).shape) (X ω))
    (hF : ∀ ω i, Acts (fun x => transformForward M (env ω) rvs[i] x (M.transform rvs[i]))
      (b i).shape (b i).tshape (b i).f)
    (hG : ∀ ω i, Acts (fun x => transformBackward M (env ω) rvs[i] x (M.transform rvs[i]))
      (b i).tshape (b i).shape (b i).g)
    (hlog : ∀ ω, ∀ d : Dict V (Arr ℝ), d.keys = placeholders → Shaped (fun i => (b i).tshape) d →
      M.logprob (override (env ω) d) = blockLog b (w (r ω)) (vals (fun i => (b i).m) d))
    (hmeas : Measurable fun p : U × R × (∀ i, Fin (b i).m → ℝ) => splitEquiv (fun i => (b i).m) (vec _
      (K p.1 (flatLog fun q => blockLog b (w p.2.1) (splitEquiv (fun i => (b i).m) q))
        (List.ofFn ((splitEquiv fun i => (b i).m).symm p.2.2)))))
    (hXm : Measurable fun ω => ((r ω, vals (fun i => (b i).k) (X ω)), u ω))
    (hlaw : P.map (fun ω => ((r ω, vals (fun i => (b i).k) (X ω)), u ω)) =
      (c • (μR.prod (Measure.pi fun i => (b i).ref)).withDensity
        fun p => ENNReal.ofReal (w p.1 p.2)).prod μU) :
    ∃ res : Ω → Dict V (Arr ℝ),
      (∀ ω, step M (K (u ω)) (env ω) (X ω) placeholders = some (res ω) ∧ (res ω).keys = rvs ∧
        Shaped (fun i => (b i).shape) (res ω)) ∧
      P.map (fun ω => (r ω, vals (fun i => (b i).k) (res ω))) =
        c • (μR.prod (Measure.pi fun i => (b i).ref)).withDensity fun p => ENNReal.ofReal (w p.1 p.2) := by
  have hstep := fun ω => step_blocks M (K (u ω)) (hK.1 (u ω)) (env ω) hn hp hl
    (fun i => ⟨(hb i).shape_prod, (hb i).tshape_prod⟩) (hkeys ω) (hX ω) (hF ω) (hG ω) (hlog ω)
  choose res h1 h2 h3 h4 using hstep
  refine ⟨res, fun ω => ⟨h1 ω, h2 ω, h3 ω⟩, ?_⟩
  have hsf : ∀ i, SigmaFinite (b i).ref := fun i => (hb i).sigma
  have hfin : ∫⁻ p, ENNReal.ofReal (w p.1 p.2) ∂(μR.prod (Measure.pi fun i => (b i).ref)) ≠ ∞ := by
    have := congrArg (fun ν => ν Set.univ) hlaw
    simp only [Measure.map_apply hXm MeasurableSet.univ, Set.preimage_univ, measure_univ] at this
    rw [Measure.prod_smul_left, Measure.smul_apply, ← Set.univ_prod_univ, Measure.prod_prod,
      measure_univ (μ := μU), mul_one, withDensity_apply _ MeasurableSet.univ, Measure.restrict_univ, smul_eq_mul] at this
    intro h
    rw [h] at this
    by_cases h0 : c = 0
    · simp [h0] at this
    · rw [ENNReal.mul_top h0] at this
      simp at this
  have hkeep := blocks_keep hb μR μU hK hshift hw hpos hfin hmeas
  have hG : Measurable fun q : (∀ i, Fin (b i).m → ℝ) => fun i => (b i).g (q i) :=
    measurable_pi_lambda _ fun i => (hb i).meas_g.comp (measurable_pi_apply i)
  have hF : Measurable fun x : (∀ i, Fin (b i).k → ℝ) => fun i => (b i).f (x i) :=
    measurable_pi_lambda _ fun i => (hb i).meas_f.comp (measurable_pi_apply i)
  have hΦ : Measurable fun p : (R × (∀ i, Fin (b i).k → ℝ)) × U =>
      (p.1.1, fun i => (b i).g (splitEquiv (fun i => (b i).m) (vec _
        (K p.2 (flatLog fun q => blockLog b (w p.1.1) (splitEquiv (fun i => (b i).m) q))
          (List.ofFn ((splitEquiv fun i => (b i).m).symm fun i => (b i).f (p.1.2 i))))) i)) := by
    have hin : Measurable fun p : (R × (∀ i, Fin (b i).k → ℝ)) × U =>
        (p.2, p.1.1, fun i => (b i).f (p.1.2 i)) :=
      measurable_snd.prodMk ((measurable_fst.comp measurable_fst).prodMk
        (hF.comp (measurable_snd.comp measurable_fst)))
    exact (measurable_fst.comp measurable_fst).prodMk (hG.comp (hmeas.comp hin))
  have hcomp : (fun ω => (r ω, vals (fun i => (b i).k) (res ω))) =
      (fun p : (R × (∀ i, Fin (b i).k → ℝ)) × U =>
      (p.1.1, fun i => (b i).g (splitEquiv (fun i => (b i).m) (vec _
        (K p.2 (flatLog fun q => blockLog b (w p.1.1) (splitEquiv (fun i => (b i).m) q))
          (List.ofFn ((splitEquiv fun i => (b i).m).symm fun i => (b i).f (p.1.2 i))))) i))) ∘
      fun ω => ((r ω, vals (fun i => (b i).k) (X ω)), u ω) := by
    funext ω
    rw [h4 ω]
    rfl
  rw [hcomp, ← Measure.map_map hΦ hXm, hlaw, Measure.prod_smul_left, Measure.map_smul, hkeep]

end Verif.Nuts
