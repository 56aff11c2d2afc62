import Verif.Nuts.BlockLemmas

/-!
# The transforms of several variables together
-/

open MeasureTheory
open scoped ENNReal

namespace Verif.Nuts

variable {N : ℕ} {b : Fin N → Block}

/-- The moves that change no value. -/
def jointShifts (b : Fin N → Block) : AddSubgroup (∀ i, Fin (b i).m → ℝ) :=
  AddSubgroup.pi Set.univ fun i => (b i).shifts

theorem mem_jointShifts {l : ∀ i, Fin (b i).m → ℝ} : l ∈ jointShifts b ↔ ∀ i, l i ∈ (b i).shifts := by
  simp [jointShifts, AddSubgroup.mem_pi]

theorem jointShifts_countable (hb : ∀ i, (b i).Lawful) : Countable (jointShifts b) := by
  have : ∀ i, Countable (b i).shifts := fun i => (hb i).countable
  refine Function.Injective.countable (β := ∀ i, (b i).shifts)
    (f := fun l i => ⟨l.1 i, mem_jointShifts.1 l.2 i⟩) fun l l' h => Subtype.ext ?_
  funext i
  exact congrArg Subtype.val (congrFun h i)

theorem joint_tile (hb : ∀ i, (b i).Lawful) (q : ∀ i, Fin (b i).m → ℝ) :
    ∃! l : jointShifts b, l +ᵥ q ∈ Set.univ.pi fun i => (b i).D := by
  choose l hl hu using fun i => (hb i).tile (q i)
  refine ⟨⟨fun i => (l i : Fin (b i).m → ℝ), mem_jointShifts.2 fun i => (l i).2⟩, fun i _ => hl i,
    fun l' h => Subtype.ext ?_⟩
  funext i
  exact congrArg Subtype.val (hu i ⟨l'.1 i, mem_jointShifts.1 l'.2 i⟩ (h i (Set.mem_univ i)))

theorem joint_map_eq (hb : ∀ i, (b i).Lawful) :
    ((volume.restrict (Set.univ.pi fun i => (b i).D)).withDensity
      fun q : ∀ i, Fin (b i).m → ℝ => ∏ i, ENNReal.ofReal ((b i).J (q i))).map (fun q i => (b i).g (q i)) =
    Measure.pi fun i => (b i).ref := by
  have h1 : ∀ i, SigmaFinite (((volume : Measure (Fin (b i).m → ℝ)).restrict (b i).D).withDensity
      fun q => ENNReal.ofReal ((b i).J q)) := fun i => inferInstance
  have h2 : ∀ i, SigmaFinite ((((volume : Measure (Fin (b i).m → ℝ)).restrict (b i).D).withDensity
      fun q => ENNReal.ofReal ((b i).J q)).map (b i).g) := fun i => by
    rw [(hb i).map_eq]
    exact (hb i).sigma
  rw [volume_pi, Measure.restrict_pi_pi, ← pi_withDensity_pi
    (fun i => (volume : Measure (Fin (b i).m → ℝ)).restrict (b i).D)
    (f := fun i q => ENNReal.ofReal ((b i).J q)) fun i => (hb i).meas_J.ennreal_ofReal,
    Measure.pi_map_pi fun i => (hb i).meas_g.aemeasurable]
  congr 1
  funext i
  exact (hb i).map_eq

theorem exp_blockLog {w : (∀ i, Fin (b i).k → ℝ) → ℝ} (hb : ∀ i, (b i).Lawful)
    (hpos : ∀ x, (∀ i, x i ∈ (b i).S) → 0 < w x) (q : ∀ i, Fin (b i).m → ℝ) :
    ENNReal.ofReal (Real.exp (blockLog b w q)) =
      ENNReal.ofReal (w fun i => (b i).g (q i)) * ∏ i, ENNReal.ofReal ((b i).J (q i)) := by
  have hS := hpos _ fun i => (hb i).mem (q i)
  rw [blockLog, Real.exp_add, Real.exp_log hS, Real.exp_sum,
    ENNReal.ofReal_mul hS.le, ENNReal.ofReal_prod_of_nonneg fun i _ => (Real.exp_pos _).le]
  congr 1
  exact Finset.prod_congr rfl fun i _ => by rw [Real.exp_log ((hb i).pos _)]

theorem blockLog_shift {w : (∀ i, Fin (b i).k → ℝ) → ℝ} (hb : ∀ i, (b i).Lawful)
    {l : ∀ i, Fin (b i).m → ℝ} (hl : l ∈ jointShifts b) (q : ∀ i, Fin (b i).m → ℝ) :
    blockLog b w (l + q) = blockLog b w q := by
  have hl' := mem_jointShifts.1 hl
  have h1 : (fun i => (b i).g ((l + q) i)) = fun i => (b i).g (q i) := by
    funext i
    exact (hb i).g_shift _ (hl' i) _
  have h2 : ∀ i, (b i).J ((l + q) i) = (b i).J (q i) := fun i => (hb i).J_shift _ (hl' i) _
  rw [blockLog, blockLog, h1]
  simp only [h2]

theorem D_univ {b : Block} (hb : b.Lawful) (h : b.shifts = ⊥) : b.D = Set.univ := by
  refine Set.eq_univ_of_forall fun q => ?_
  obtain ⟨⟨l, hl⟩, hq, -⟩ := hb.tile q
  rw [h, AddSubgroup.mem_bot] at hl
  subst hl
  simpa using hq

/-- The kernel on blocks keeps the law given by a log density, if the kernel on flat positions does. -/
theorem split_keeps {U : Type} [MeasurableSpace U] (μU : Measure U) [SFinite μU] {m : Fin N → ℕ}
    {K : U → (List ℝ → Option ℝ) → List ℝ → List ℝ} {ℓ : (∀ i, Fin (m i) → ℝ) → ℝ} (hℓ : Measurable ℓ)
    (hm : Measurable fun p : U × (∀ i, Fin (m i) → ℝ) => splitEquiv m (vec _ (K p.1
      (flatLog fun q => ℓ (splitEquiv m q)) (List.ofFn ((splitEquiv m).symm p.2)))))
    (hK : (μU.prod (volume.withDensity fun q => ENNReal.ofReal (Real.exp (ℓ (splitEquiv m q))))).map
      (fun p => vec _ (K p.1 (flatLog fun q => ℓ (splitEquiv m q)) (List.ofFn p.2))) =
      volume.withDensity fun q => ENNReal.ofReal (Real.exp (ℓ (splitEquiv m q)))) :
    (μU.prod (volume.withDensity fun q => ENNReal.ofReal (Real.exp (ℓ q)))).map
      (fun p => splitEquiv m (vec _ (K p.1
        (flatLog fun q => ℓ (splitEquiv m q)) (List.ofFn ((splitEquiv m).symm p.2))))) =
      volume.withDensity fun q => ENNReal.ofReal (Real.exp (ℓ q)) := by
  have he : Measurable fun q => ENNReal.ofReal (Real.exp (ℓ q)) :=
    (Real.measurable_exp.comp hℓ).ennreal_ofReal
  have hd : (volume.withDensity fun q => ENNReal.ofReal (Real.exp (ℓ q))) =
      (volume.withDensity fun q => ENNReal.ofReal (Real.exp (ℓ (splitEquiv m q)))).map (splitEquiv m) := by
    rw [map_withDensity_comp (splitEquiv m).measurable he, (splitEquiv_preserving m).map_eq]
  have hm' : Measurable fun p : U × (Fin (∑ i, m i) → ℝ) =>
      vec (∑ i, m i) (K p.1 (flatLog fun q => ℓ (splitEquiv m q)) (List.ofFn p.2)) := by
    have := (splitEquiv m).symm.measurable.comp (hm.comp
      (measurable_fst.prodMk ((splitEquiv m).measurable.comp measurable_snd)))
    convert this using 1
    funext p
    simp only [Function.comp, MeasurableEquiv.symm_apply_apply]
  conv_rhs => rw [hd, ← hK, Measure.map_map (splitEquiv m).measurable hm']
  conv_lhs => rw [hd, ← Measure.map_id (μ := μU), Measure.map_prod_map _ _ measurable_id
    (splitEquiv m).measurable, Measure.map_map hm (measurable_id.prodMap (splitEquiv m).measurable)]
  congr 1
  funext p
  simp only [Function.comp, Prod.map, id, MeasurableEquiv.symm_apply_apply]

end Verif.Nuts
