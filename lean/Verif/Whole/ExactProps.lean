import Verif.Whole.Exact

/-!
# The sampler of a horseshoe regression, if its two steps were exact

`Verif/Whole/Props.lean` shows that the samplers built for these models do not keep the posterior; there the steps
themselves are wrong too.  Here the graph is the same, but its sampling nodes draw from the exact
conditional laws.
-/

open MeasureTheory ProbabilityTheory Matrix
open scoped ENNReal

namespace Verif.Whole

open Graph (Var NutsResult constructSampler)

variable {p n : ℕ}

/-- Spec: the exact conditional law of the shrinkage parameters; inputs as in `shrinkLaw`, of which only the
coefficients matter. -/
noncomputable def exactShrink (v : (Fin p → ℝ) × ((Fin p → ℝ) × ℝ)) : Measure ((Fin p → ℝ) × ℝ) :=
  Horseshoe.posterior v.1 1

/-- Spec: the states for which it is a probability law. -/
def exactShrinkGood (p : ℕ) : Set ((Fin p → ℝ) × ((Fin p → ℝ) × ℝ)) := {v | ∀ j, v.1 j ≠ 0}

/-- Spec: the exact conditional law of the coefficients; inputs as in `HsReg.nbLaw`, of which only the standard
deviations matter. -/
noncomputable def exactCoef (lik : (Fin p → ℝ) → ℝ≥0∞) (v : (Fin p → ℝ) × (Fin p → ℝ)) : Measure (Fin p → ℝ) :=
  bayes (normalPrior v.1) lik

/-- Spec: a meaning of the graph in which both sampling nodes are exact. -/
abbrev ExactMeaning (lik : (Fin p → ℝ) → ℝ≥0∞) :=
  HsReg.MeaningOf exactShrink (exactShrinkGood p) (exactCoef lik) (HsReg.fixedGood p)

theorem exactShrink_exists : Nonempty (Draws (exactShrink (p := p)) (exactShrinkGood p)) := by
  classical
  have hG : MeasurableSet (exactShrinkGood p) := by
    have : exactShrinkGood p = ⋂ j, {v | v.1 j ≠ 0} := by
      ext v
      simp [exactShrinkGood]
    rw [this]
    exact MeasurableSet.iInter fun j => (measurableSet_eq_fun (by fun_prop) measurable_const).compl
  have hm : Measurable (exactShrink (p := p)) :=
    (measurable_bayes (ν := Horseshoe.prior p) (f := fun β s => Horseshoe.lik β 1 s)
      Verif.HsReg.measurable_dens).comp measurable_fst
  refine Draws.exists (K' := fun v => if v ∈ exactShrinkGood p then exactShrink v else Measure.dirac 0)
    (Measurable.ite hG hm measurable_const) (fun v => ?_) fun v hv => (if_pos hv).symm
  split_ifs with hv
  · exact isProbabilityMeasure_bayes (Horseshoe.bayesDefined_posterior hv one_pos)
  · infer_instance

theorem exactCoef_exists {X : Matrix (Fin n) (Fin p) ℝ} {b κ : Fin n → ℝ} {lik : (Fin p → ℝ) → ℝ≥0∞}
    (F : Verif.HsReg.PGForm X b κ lik) : Nonempty (Draws (exactCoef lik) (HsReg.fixedGood p)) := by
  classical
  have hG : MeasurableSet (HsReg.fixedGood p) := by
    have : HsReg.fixedGood p = ⋂ j, {v | 0 < v.1 j} := by
      ext v
      simp [HsReg.fixedGood]
    rw [this]
    exact MeasurableSet.iInter fun j => measurableSet_lt measurable_const (by fun_prop)
  have hd : Measurable (Function.uncurry fun (v : (Fin p → ℝ) × (Fin p → ℝ)) (β : Fin p → ℝ) =>
      Verif.HsReg.dens (β, (v.1, 1)) * lik β) :=
    (Verif.HsReg.measurable_dens.comp (by fun_prop)).mul (F.measurable.comp measurable_snd)
  have hm := measurable_bayes (ν := volume) hd
  have he : ∀ v ∈ HsReg.fixedGood p, exactCoef lik v =
      bayes volume fun β => Verif.HsReg.dens (β, (v.1, 1)) * lik β := fun v hv => by
    rw [cond_coef F (s := (v.1, 1)) ⟨hv, one_pos⟩]
    simp only [mul_one]
    rfl
  refine Draws.exists (K' := fun v => if v ∈ HsReg.fixedGood p then
      bayes volume fun β => Verif.HsReg.dens (β, (v.1, 1)) * lik β else Measure.dirac 0)
    (Measurable.ite hG hm measurable_const) (fun v => ?_) fun v hv => (he v hv).trans (if_pos hv).symm
  split_ifs with hv
  · rw [← he v hv]
    have : IsProbabilityMeasure (normalPrior v.1) := by
      unfold normalPrior
      infer_instance
    exact isProbabilityMeasure_bayes (F.defined _)
  · infer_instance

/-- A product law, drawn one factor after the other. -/
theorem bind_map_eq_prod {A B : Type*} [MeasurableSpace A] [MeasurableSpace B] (μ : Measure A) (ν : Measure B)
    [IsProbabilityMeasure μ] [SFinite ν] : (ν.bind fun b => μ.map fun a => (a, b)) = μ.prod ν := by
  have hm : Measurable fun b : B => μ.map fun a => (a, b) :=
    measurable_map_param (K := fun _ : B => μ) measurable_const (fun _ => inferInstance)
      (g := fun q : B × A => (q.2, q.1)) (by fun_prop)
  ext S hS
  rw [Measure.bind_apply hS hm.aemeasurable, Measure.prod_apply_symm hS]
  exact lintegral_congr fun b => Measure.map_apply measurable_prodMk_right hS

section
variable {X : Matrix (Fin n) (Fin p) ℝ} {b κ : Fin n → ℝ} {lik : (Fin p → ℝ) → ℝ≥0∞}

theorem exact_violated (F : Verif.HsReg.PGForm X b κ lik) (hp : 0 < p) (M : ExactMeaning lik) :
    Stationary (Verif.HsReg.hsPosterior lik) (fun q => M.P.map fun ω => (q.1, (M.new q ω).2)) ∧
    Stationary (Verif.HsReg.hsPosterior lik) (fun q => M.P.map fun ω => ((M.new q ω).1, q.2)) ∧
    ¬ Stationary (Verif.HsReg.hsPosterior lik) (fun q => M.P.map (M.new q)) := by
  let kA : (Fin p → ℝ) × ℝ → Measure (Fin p → ℝ) := fun s =>
    M.D₂.P.map fun u => M.D₂.draw ((fun j => s.1 j * s.2, 0), u)
  let kB : (Fin p → ℝ) → Measure ((Fin p → ℝ) × ℝ) := fun β =>
    M.D₁.P.map fun u => M.D₁.draw ((β, (0, 0)), u)
  have mA : Measurable kA := measurable_map_param (K := fun _ : (Fin p → ℝ) × ℝ => M.D₂.P) measurable_const
    (fun _ => inferInstance) (g := fun r => M.D₂.draw ((fun j => r.1.1 j * r.1.2, 0), r.2))
    (M.D₂.meas.comp (by fun_prop))
  have mB : Measurable kB := measurable_map_param (K := fun _ : Fin p → ℝ => M.D₁.P) measurable_const
    (fun _ => inferInstance) (g := fun r => M.D₁.draw ((r.1, (0, 0)), r.2)) (M.D₁.meas.comp (by fun_prop))
  have pA : ∀ s, IsProbabilityMeasure (kA s) := fun s =>
    Measure.isProbabilityMeasure_map (M.D₂.meas.comp measurable_prodMk_left).aemeasurable
  have pB : ∀ β, IsProbabilityMeasure (kB β) := fun β =>
    Measure.isProbabilityMeasure_map (M.D₁.meas.comp measurable_prodMk_left).aemeasurable
  have hA : ∀ s, Horseshoe.AllPos s → kA s = bayes (normalPrior fun j => s.1 j * s.2) lik := fun s hs =>
    M.D₂.law (fun j => s.1 j * s.2, 0) fun j => mul_pos (hs.1 j) hs.2
  have hB : ∀ β : Fin p → ℝ, (∀ j, β j ≠ 0) → kB β = Horseshoe.posterior β 1 := fun β hβ =>
    M.D₁.law (β, (0, 0)) hβ
  have hae : ∀ᵐ q ∂Verif.HsReg.hsPosterior lik, Horseshoe.AllPos q.2 ∧ ∀ j, q.1 j ≠ 0 := by
    refine (Verif.HsReg.ae_hsPosterior_pos lik F.measurable).and ?_
    rw [Verif.HsReg.hsPosterior_eq F.measurable]
    exact (bayes_absolutelyContinuous _ _).ae_le
      (Measure.quasiMeasurePreserving_fst.ae (Verif.HsReg.ae_ne_zero (p := p)))
  have l1 : ∀ q : (Fin p → ℝ) × ((Fin p → ℝ) × ℝ), (∀ j, q.1 j ≠ 0) →
      (M.P.map fun ω => (q.1, (M.new q ω).2)) = onSecond (fun q => kB q.1) q := by
    intro q hq
    have hm : Measurable fun u => M.D₁.draw ((q.1, (fun j => q.2.1 j ^ 2, q.2.2 ^ 2)), u) :=
      M.D₁.meas.comp measurable_prodMk_left
    have e := M.D₁.law (q.1, (fun j => q.2.1 j ^ 2, q.2.2 ^ 2)) hq
    have hfst : M.P.map Prod.fst = M.D₁.P := Measure.fst_prod
    rw [onSecond, hB _ hq]
    change _ = Measure.map _ (exactShrink (q.1, (fun j => q.2.1 j ^ 2, q.2.2 ^ 2)))
    rw [← e, ← hfst, Measure.map_map hm measurable_fst, Measure.map_map measurable_prodMk_left
      (hm.comp measurable_fst)]
    rfl
  have l2 : ∀ q : (Fin p → ℝ) × ((Fin p → ℝ) × ℝ), Horseshoe.AllPos q.2 →
      (M.P.map fun ω => ((M.new q ω).1, q.2)) = onFirst (fun q => kA q.2) q := by
    intro q hq
    have hm : Measurable fun u => M.D₂.draw ((fun j => q.2.1 j * q.2.2, q.1), u) :=
      M.D₂.meas.comp measurable_prodMk_left
    have e := M.D₂.law (fun j => q.2.1 j * q.2.2, q.1) fun j => mul_pos (hq.1 j) hq.2
    have hsnd : M.P.map Prod.snd = M.D₂.P := Measure.snd_prod
    rw [onFirst, hA _ hq]
    change _ = Measure.map _ (exactCoef lik (fun j => q.2.1 j * q.2.2, q.1))
    rw [← e, ← hsnd, Measure.map_map hm measurable_snd, Measure.map_map measurable_prodMk_right
      (hm.comp measurable_snd)]
    rfl
  have l3 : ∀ q : (Fin p → ℝ) × ((Fin p → ℝ) × ℝ), Horseshoe.AllPos q.2 → (∀ j, q.1 j ≠ 0) →
      M.P.map (M.new q) = parallel kA kB q := by
    intro q hq h0
    have e := M.map_new_of (q := q) h0 fun j => mul_pos (hq.1 j) hq.2
    rw [e, parallel, ← bind_map_eq_prod, hA _ hq, hB _ h0]
    rfl
  refine ⟨(exact_shrink_keeps F mB pB hB).congr_ae (hae.mono fun q hq => (l1 q hq.2).symm),
    (exact_coef_keeps F mA pA hA).congr_ae (hae.mono fun q hq => (l2 q hq.1).symm), fun h => ?_⟩
  exact exact_parallel_fails F ⟨0, hp⟩ mA mB pA pB hA hB
    (h.congr_ae (hae.mono fun q hq => l3 q hq.1 hq.2))

end

/-- **C53 is violated** by the samplers built for regressions with a horseshoe prior, even if their sampling nodes
are replaced by exact draws from the conditional laws.  In every order of visit the construction succeeds
and one call returns a definite state `new q ω`.  Its shrinkage parameters alone keep the posterior, and so do
its coefficients alone; the whole state does not. -/
theorem C53_horseshoe_violated (hp : 0 < p) {X : Matrix (Fin n) (Fin p) ℝ} {h : Fin n → ℝ}
    (hh : ∀ i, 0 < h i) {y : Fin n → ℕ} {z : Fin n → Bool} (M : ExactMeaning (nbRegLik X h y))
    (N : ExactMeaning (bernRegLik (fun ψ => sigmoid (-ψ)) X z))
    {outs : List Var} (hv : Graph.HsReg.Visits outs)
    (order : List Var → List Var) (nuts : Py.Dict Var Var → Py.Dict Var Var → NutsResult) :
    ∃ out, ∃ new : (Fin p → ℝ) × ((Fin p → ℝ) × ℝ) → M.Ω → (Fin p → ℝ) × ((Fin p → ℝ) × ℝ),
      ∃ new' : (Fin p → ℝ) × ((Fin p → ℝ) × ℝ) → N.Ω → (Fin p → ℝ) × ((Fin p → ℝ) × ℝ),
      constructSampler Graph.HsReg.own Graph.HsReg.ins outs Graph.HsReg.obs Graph.HsReg.n2o
        Graph.HsReg.disc 31 order nuts = some out ∧
      (∀ q ω q', M.Calls out q ω q' ↔ q' = new q ω) ∧ (∀ q ω q', N.Calls out q ω q' ↔ q' = new' q ω) ∧
      (Stationary (Verif.HsReg.hsPosterior (nbRegLik X h y)) (fun q => M.P.map fun ω => (q.1, (new q ω).2)) ∧
        Stationary (Verif.HsReg.hsPosterior (nbRegLik X h y)) (fun q => M.P.map fun ω => ((new q ω).1, q.2)) ∧
        ¬ Stationary (Verif.HsReg.hsPosterior (nbRegLik X h y)) (fun q => M.P.map (new q))) ∧
      (Stationary (Verif.HsReg.hsPosterior (bernRegLik (fun ψ => sigmoid (-ψ)) X z))
          (fun q => N.P.map fun ω => (q.1, (new' q ω).2)) ∧
        Stationary (Verif.HsReg.hsPosterior (bernRegLik (fun ψ => sigmoid (-ψ)) X z))
          (fun q => N.P.map fun ω => ((new' q ω).1, q.2)) ∧
        ¬ Stationary (Verif.HsReg.hsPosterior (bernRegLik (fun ψ => sigmoid (-ψ)) X z))
          (fun q => N.P.map (new' q))) := by
  obtain ⟨out, ho, hc⟩ := M.calls_iff hv order nuts
  obtain ⟨out', ho', hc'⟩ := N.calls_iff hv order nuts
  obtain rfl : out = out' := Option.some.inj (ho.symm.trans ho')
  exact ⟨out, M.new, N.new, ho, hc, hc', exact_violated (Verif.HsReg.nbForm X hh y).some hp M,
    exact_violated (Verif.HsReg.bernForm X z).some hp N⟩

/-- Such meanings exist. -/
example (X : Matrix (Fin 3) (Fin 2) ℝ) : ∃ M : ExactMeaning (nbRegLik X (fun _ => 2) ![4, 0, 1]), ∃ out,
    ∃ new : (Fin 2 → ℝ) × ((Fin 2 → ℝ) × ℝ) → M.Ω → (Fin 2 → ℝ) × ((Fin 2 → ℝ) × ℝ),
      constructSampler Graph.HsReg.own Graph.HsReg.ins [0, 1, 3, 7] Graph.HsReg.obs
        Graph.HsReg.n2o Graph.HsReg.disc 31 id (fun _ _ => ⟨[], []⟩) = some out ∧
      (∀ q ω q', M.Calls out q ω q' ↔ q' = new q ω) ∧
      ¬ Stationary (Verif.HsReg.hsPosterior (nbRegLik X (fun _ => 2) ![4, 0, 1])) (fun q => M.P.map (new q)) := by
  have hh : ∀ _ : Fin 3, (0 : ℝ) < 2 := fun _ => two_pos
  obtain ⟨M⟩ := HsReg.meaningOf_exists exactShrink_exists
    (exactCoef_exists (Verif.HsReg.nbForm X hh ![4, 0, 1]).some)
  obtain ⟨N⟩ := HsReg.meaningOf_exists exactShrink_exists
    (exactCoef_exists (Verif.HsReg.bernForm X ![true, false, true]).some)
  obtain ⟨out, new, -, h1, h2, -, h3, -⟩ := C53_horseshoe_violated (by norm_num) hh M N
    (outs := [0, 1, 3, 7]) (by unfold Graph.HsReg.Visits; decide +kernel) id (fun _ _ => ⟨[], []⟩)
  exact ⟨M, out, new, h1, h2, h3.2.2⟩

end Verif.Whole
