import Verif.Whole.HsDisp
import Verif.Whole.HsReg
import Verif.Whole.NbReg
import Verif.Whole.Shared
import Verif.Iter.JointProps

/-!
# What the samplers built by `construct_sampler` for the regression models converge to

The theorems join the two halves of the model: the graph that `construct_sampler` assembles
(`Verif/Graph`) and the laws of the sampling nodes in it.  `Meaning` says what the nodes compute, `Calls`
what the returned steps evaluate to.
-/

open MeasureTheory ProbabilityTheory Matrix

namespace Verif.Whole

open Graph (Var NutsResult constructSampler)

variable {p n : ℕ}

/-- A step that agrees on the good states with one that does not keep `π` does not keep `π`, and repeated
calls converge to `π` from no good state. -/
theorem never {Θ : Type*} [MeasurableSpace Θ] {D : Set Θ} {K K' L : Θ → Measure Θ} (r : Runs D K K')
    (hL : ∀ q ∈ D, L q = K q) {π : Measure Θ} (hπ : ∀ᵐ q ∂π, q ∈ D) (h : ¬ Stationary π K) :
    ¬ Stationary π L ∧ ∀ q ∈ D, ¬ ConvergesFrom {q} π L := by
  have r' : Runs D L K' := { r with eq := fun q hq => (hL q hq).trans (r.eq q hq) }
  have h' : ¬ Stationary π L := fun hs => h (hs.congr_ae (hπ.mono fun q hq => hL q hq))
  exact ⟨h', fun q hq hc => h' (r'.stationary hq hc)⟩

/-- **C66 is violated** by the sampler `construct_sampler` builds.  In every order of visit the construction
succeeds, one call returns a definite state for every state and all random numbers, and the law of that
state does not keep the joint posterior; nor do repeated calls converge to it from any start. -/
theorem C66_built_violated (conv : Horseshoe.ExpArg) {la : LinAlg} (hla : la.Sound) (hp : 0 < p)
    {X : Matrix (Fin n) (Fin p) ℝ} {a b : ℝ} (ha : 0 < a) (hb : 0 < b) {y : Fin n → ℕ}
    (M : HsDisp.Meaning conv la X a b y) {outs : List Var} (hv : Graph.HsDisp.Visits outs)
    (order : List Var → List Var) (nuts : Py.Dict Var Var → Py.Dict Var Var → NutsResult) :
    ∃ out, ∃ new : ((Fin p → ℝ) × ((Fin p → ℝ) × ℝ)) × ℝ → M.Ω → ((Fin p → ℝ) × ((Fin p → ℝ) × ℝ)) × ℝ,
      constructSampler Graph.HsDisp.own Graph.HsDisp.ins outs Graph.HsDisp.obs Graph.HsDisp.n2o
        Graph.HsDisp.disc 31 order nuts = some out ∧
      (∀ q ω q', M.Calls out q ω q' ↔ q' = new q ω) ∧
      ¬ Stationary (Verif.HsDisp.posterior X a b y) (fun q => M.P.map (new q)) ∧
      ∀ q : ((Fin p → ℝ) × ((Fin p → ℝ) × ℝ)) × ℝ, (∀ j, 0 < q.1.2.1 j) → 0 < q.1.2.2 → 0 < q.2 →
        ¬ ConvergesFrom {q} (Verif.HsDisp.posterior X a b y) (fun q => M.P.map (new q)) := by
  obtain ⟨out, ho, hc⟩ := M.calls_iff hv order nuts
  have h := never (Verif.HsDisp.call_runs conv ⟨false, false⟩ hla X ha hb y)
    (L := fun q => M.P.map (M.new q)) (fun q hq => M.map_new hq) (Verif.HsDisp.ae_posterior_good X ha hb y)
    (Verif.HsDisp.C66_call_violated conv _ hla hp X ha hb y)
  exact ⟨out, M.new, ho, hc, h.1, fun q h1 h2 h3 => h.2 q ⟨⟨h1, h2⟩, h3⟩⟩

/-- The model of `/repo/tests/test_basic.py:10-39`, with three observations of four regressors. -/
example (X : Matrix (Fin 3) (Fin 4) ℝ) : ∃ M : HsDisp.Meaning .scale stdLinAlg X 100 0.01 ![4, 0, 1],
    ∃ out, ∃ new : ((Fin 4 → ℝ) × ((Fin 4 → ℝ) × ℝ)) × ℝ → M.Ω → ((Fin 4 → ℝ) × ((Fin 4 → ℝ) × ℝ)) × ℝ,
      constructSampler Graph.HsDisp.own Graph.HsDisp.ins [1, 0, 3, 6, 7] Graph.HsDisp.obs
        Graph.HsDisp.n2o Graph.HsDisp.disc 31 id (fun _ _ => ⟨[], []⟩) = some out ∧
      (∀ q ω q', M.Calls out q ω q' ↔ q' = new q ω) ∧
      ¬ Stationary (Verif.HsDisp.posterior X 100 0.01 ![4, 0, 1]) (fun q => M.P.map (new q)) := by
  obtain ⟨M⟩ := HsDisp.meaning_exists .scale stdLinAlg_sound X (a := 100) (b := 0.01) (by norm_num)
    (by norm_num) ![4, 0, 1]
  obtain ⟨out, new, h1, h2, h3, -⟩ := C66_built_violated .scale stdLinAlg_sound (by norm_num) (by norm_num)
    (by norm_num) M (outs := [1, 0, 3, 6, 7]) (by unfold Graph.HsDisp.Visits; decide +kernel) id
    (fun _ _ => ⟨[], []⟩)
  exact ⟨M, out, new, h1, h2, h3⟩

/-- **C60 is violated** by the samplers `construct_sampler` builds for both regressions with a horseshoe
prior, in every order of visit, in the limit too. -/
theorem C60_built_violated (conv : Horseshoe.ExpArg) {la : LinAlg} (hla : la.Sound) (hp : 0 < p)
    {X : Matrix (Fin n) (Fin p) ℝ} {h : Fin n → ℝ} (hh : ∀ i, 0 < h i) {y : Fin n → ℕ} {z : Fin n → Bool}
    (M : HsReg.Meaning conv (HsReg.nbLaw la X h y)) (N : HsReg.Meaning conv (HsReg.bernLaw la X z))
    {outs : List Var} (hv : Graph.HsReg.Visits outs)
    (order : List Var → List Var) (nuts : Py.Dict Var Var → Py.Dict Var Var → NutsResult) :
    ∃ out, ∃ new : (Fin p → ℝ) × ((Fin p → ℝ) × ℝ) → M.Ω → (Fin p → ℝ) × ((Fin p → ℝ) × ℝ),
      ∃ new' : (Fin p → ℝ) × ((Fin p → ℝ) × ℝ) → N.Ω → (Fin p → ℝ) × ((Fin p → ℝ) × ℝ),
      constructSampler Graph.HsReg.own Graph.HsReg.ins outs Graph.HsReg.obs Graph.HsReg.n2o
        Graph.HsReg.disc 31 order nuts = some out ∧
      (∀ q ω q', M.Calls out q ω q' ↔ q' = new q ω) ∧ (∀ q ω q', N.Calls out q ω q' ↔ q' = new' q ω) ∧
      (¬ Stationary (Verif.HsReg.hsPosterior (nbRegLik X h y)) (fun q => M.P.map (new q)) ∧
        ∀ q : (Fin p → ℝ) × ((Fin p → ℝ) × ℝ), (∀ j, 0 < q.2.1 j) → 0 < q.2.2 →
          ¬ ConvergesFrom {q} (Verif.HsReg.hsPosterior (nbRegLik X h y)) (fun q => M.P.map (new q))) ∧
      (¬ Stationary (Verif.HsReg.hsPosterior (bernRegLik (fun ψ => sigmoid (-ψ)) X z))
          (fun q => N.P.map (new' q)) ∧
        ∀ q : (Fin p → ℝ) × ((Fin p → ℝ) × ℝ), (∀ j, 0 < q.2.1 j) → 0 < q.2.2 →
          ¬ ConvergesFrom {q} (Verif.HsReg.hsPosterior (bernRegLik (fun ψ => sigmoid (-ψ)) X z))
            (fun q => N.P.map (new' q))) := by
  obtain ⟨out, ho, hc⟩ := M.calls_iff hv order nuts
  obtain ⟨out', ho', hc'⟩ := N.calls_iff hv order nuts
  obtain rfl : out = out' := Option.some.inj (ho.symm.trans ho')
  have v := Verif.HsReg.C60_sweep_violated conv ⟨false, false⟩ hla hp X hh y z
  have hM := never (Verif.HsReg.sweep_runs hla (Verif.HsReg.nbForm X hh y).some conv ⟨false, false⟩)
    (L := fun q => M.P.map (M.new q)) (fun q hq => M.map_new hq)
    (Verif.HsReg.ae_hsPosterior_pos _ (Verif.HsReg.nbForm X hh y).some.measurable) v.1
  have hN := never (Verif.HsReg.sweep_runs hla (Verif.HsReg.bernForm X z).some conv ⟨false, false⟩)
    (L := fun q => N.P.map (N.new q)) (fun q hq => N.map_new hq)
    (Verif.HsReg.ae_hsPosterior_pos _ (Verif.HsReg.bernForm X z).some.measurable) v.2
  exact ⟨out, M.new, N.new, ho, hc, hc', ⟨hM.1, fun q h1 h2 => hM.2 q ⟨h1, h2⟩⟩,
    ⟨hN.1, fun q h1 h2 => hN.2 q ⟨h1, h2⟩⟩⟩

example (X : Matrix (Fin 3) (Fin 2) ℝ) :
    ∃ M : HsReg.Meaning .rate (HsReg.nbLaw stdLinAlg X (fun _ => 2) ![4, 0, 1]), ∃ out, ∃ new : (Fin 2 → ℝ) × ((Fin 2 → ℝ) × ℝ) → M.Ω → (Fin 2 → ℝ) × ((Fin 2 → ℝ) × ℝ),
      constructSampler Graph.HsReg.own Graph.HsReg.ins [0, 1, 3, 7] Graph.HsReg.obs
        Graph.HsReg.n2o Graph.HsReg.disc 31 id (fun _ _ => ⟨[], []⟩) = some out ∧
      (∀ q ω q', M.Calls out q ω q' ↔ q' = new q ω) ∧
      ¬ Stationary (Verif.HsReg.hsPosterior (nbRegLik X (fun _ => 2) ![4, 0, 1])) (fun q => M.P.map (new q)) := by
  have hh : ∀ _ : Fin 3, (0 : ℝ) < 2 := fun _ => two_pos
  obtain ⟨M⟩ := HsReg.meaning_exists .rate (HsReg.nb_exists stdLinAlg_sound X hh ![4, 0, 1])
  obtain ⟨N⟩ := HsReg.meaning_exists .rate (HsReg.bern_exists stdLinAlg_sound X ![true, false, true])
  obtain ⟨out, new, -, h1, h2, -, h3, -⟩ := C60_built_violated .rate stdLinAlg_sound (by norm_num) hh M N
    (outs := [0, 1, 3, 7]) (by unfold Graph.HsReg.Visits; decide +kernel) id (fun _ _ => ⟨[], []⟩)
  exact ⟨M, out, new, h1, h2, h3.1⟩

/-- **C59 (partial).** The sampler `construct_sampler` builds for a negative-binomial regression with normal
coefficients and a gamma dispersion keeps the joint posterior if and only if all prior standard deviations
are one and every column of the design sums to zero, in every order of visit; this is also when repeated
calls converge to the posterior, from every start.  The full property asks for this always. -/
theorem C59_built_iff_partial {la : LinAlg} (hla : la.Sound) {std : Fin p → ℝ} (hs : ∀ j, 0 < std j)
    {X : Matrix (Fin n) (Fin p) ℝ} {a b : ℝ} (ha : 0 < a) (hb : 0 < b) {y : Fin n → ℕ}
    (M : NbReg.Meaning la std X a b y) {outs : List Var} (hv : Graph.NbReg.Visits outs)
    (order : List Var → List Var) (nuts : Py.Dict Var Var → Py.Dict Var Var → NutsResult) :
    ∃ out, ∃ new : (Fin p → ℝ) × ℝ → M.Ω → (Fin p → ℝ) × ℝ,
      constructSampler Graph.NbReg.own Graph.NbReg.ins outs Graph.NbReg.obs Graph.NbReg.n2o
        Graph.NbReg.disc 31 order nuts = some out ∧
      (∀ q ω q', M.Calls out q ω q' ↔ q' = new q ω) ∧
      (Stationary (bayes (Verif.NbReg.nbPrior std a b) (Verif.NbReg.nbJointLik X y))
        (fun q => M.P.map (new q)) ↔ (∀ j, std j = 1) ∧ ∀ j, ∑ i, X i j = 0) ∧
      ∀ q : (Fin p → ℝ) × ℝ, 0 < q.2 →
        (ConvergesFrom {q} (bayes (Verif.NbReg.nbPrior std a b) (Verif.NbReg.nbJointLik X y))
          (fun q => M.P.map (new q)) ↔ (∀ j, std j = 1) ∧ ∀ j, ∑ i, X i j = 0) := by
  obtain ⟨out, ho, hc⟩ := M.calls_iff hv order nuts
  have hL : ∀ q : (Fin p → ℝ) × ℝ, 0 < q.2 → M.P.map (M.new q) = Verif.NbReg.sweep la std X a b y q :=
    fun q hq => M.map_new hs hq
  have r := Verif.NbReg.sweep_runs hla hs ha hb X y
  have r' : Runs {q | 0 < q.2} (fun q => M.P.map (M.new q)) (Verif.NbReg.sweepK std X a b y) :=
    { r with eq := fun q hq => (hL q hq).trans (r.eq q hq) }
  have hae : ∀ᵐ q ∂bayes (Verif.NbReg.nbPrior std a b) (Verif.NbReg.nbJointLik X y), 0 < q.2 :=
    (bayes_absolutelyContinuous _ _).ae_le (Verif.NbReg.ae_nbPrior_pos std ha hb)
  refine ⟨out, M.new, ho, hc, ?_, fun q hq => ?_⟩
  · rw [← Verif.NbReg.C59_sweep_iff_partial hla hs ha hb X y]
    exact ⟨fun h => h.congr_ae (hae.mono fun q hq => hL q hq),
      fun h => h.congr_ae (hae.mono fun q hq => (hL q hq).symm)⟩
  · rw [← C65_nbinom_joint_converges_iff_partial hla hs ha hb X y hq]
    have e : ∀ k, calls (fun q => M.P.map (M.new q)) k q = calls (Verif.NbReg.sweep la std X a b y) k q :=
      fun k => (r'.calls_eq hq k).trans (r.calls_eq hq k).symm
    constructor <;> intro h θ hθ S hS <;> obtain rfl := hθ
    · simpa only [e] using h θ rfl S hS
    · simpa only [e] using h θ rfl S hS

example (X : Matrix (Fin 3) (Fin 1) ℝ) (hX : X = !![1; 1; 1]) :
    ∃ M : NbReg.Meaning stdLinAlg (fun _ => 1) X 2 1 ![4, 0, 1], ∃ out, ∃ new : (Fin 1 → ℝ) × ℝ → M.Ω → (Fin 1 → ℝ) × ℝ,
      constructSampler Graph.NbReg.own Graph.NbReg.ins [6, 3, 7] Graph.NbReg.obs
        Graph.NbReg.n2o Graph.NbReg.disc 31 id (fun _ _ => ⟨[], []⟩) = some out ∧
      (∀ q ω q', M.Calls out q ω q' ↔ q' = new q ω) ∧
      ¬ Stationary (bayes (Verif.NbReg.nbPrior (fun _ => 1) 2 1) (Verif.NbReg.nbJointLik X ![4, 0, 1]))
        (fun q => M.P.map (new q)) := by
  obtain ⟨M⟩ := NbReg.meaning_exists stdLinAlg_sound (fun _ => 1) X (a := 2) (b := 1) two_pos one_pos ![4, 0, 1]
  obtain ⟨out, new, h1, h2, h3, -⟩ := C59_built_iff_partial stdLinAlg_sound (fun _ => one_pos) two_pos one_pos M
    (outs := [6, 3, 7]) (by unfold Graph.NbReg.Visits; decide +kernel) id (fun _ _ => ⟨[], []⟩)
  refine ⟨M, out, new, h1, h2, fun h => ?_⟩
  have := (h3.1 h).2 0
  subst hX
  norm_num [Fin.sum_univ_succ] at this

/-- **C61 is violated** by the sampler `construct_sampler` builds for two groups that share `tau`, in both
readings of the argument of `exponential` and in every order of visit, in the limit too. -/
theorem C61_built_violated {p₁ p₂ : ℕ} (conv : Horseshoe.ExpArg) (hp₁ : 0 < p₁) (hp₂ : 0 < p₂)
    {β₁ : Fin p₁ → ℝ} {β₂ : Fin p₂ → ℝ} (h₁ : ∀ j, β₁ j ≠ 0) (h₂ : ∀ j, β₂ j ≠ 0)
    (M : Shared.Meaning conv p₁ p₂) {outs : List Var} (hv : Graph.Shared.Visits outs)
    (order : List Var → List Var) (nuts : Py.Dict Var Var → Py.Dict Var Var → NutsResult) :
    ∃ out, ∃ new : (Fin p₁ → ℝ) × ((Fin p₂ → ℝ) × ℝ) → M.Ω → (Fin p₁ → ℝ) × ((Fin p₂ → ℝ) × ℝ),
      constructSampler Graph.Shared.own Graph.Shared.ins outs Graph.Shared.obs Graph.Shared.n2o
        Graph.Shared.disc 31 order nuts = some out ∧
      (∀ q ω q', M.Calls β₁ β₂ out q ω q' ↔ q' = new q ω) ∧
      ¬ Stationary (Verif.Shared.posterior β₁ β₂) (fun q => M.P.map (new q)) ∧
      ∀ q : (Fin p₁ → ℝ) × ((Fin p₂ → ℝ) × ℝ), (∀ j, 0 < q.1 j) → (∀ j, 0 < q.2.1 j) → 0 < q.2.2 →
        ¬ ConvergesFrom {q} (Verif.Shared.posterior β₁ β₂) (fun q => M.P.map (new q)) := by
  obtain ⟨out, ho, hc⟩ := M.calls_iff hv order nuts
  have hns : ¬ Stationary (Verif.Shared.posterior β₁ β₂)
      (Verif.Shared.sharedStep conv (Shared.Meaning.ordOf outs) β₁ β₂) := by
    cases conv
    · exact (Verif.Shared.C61_violated _ hp₁ h₁ h₂).2
    · exact Verif.Shared.C61_scale_violated _ hp₁ hp₂ h₁ h₂
  have h := never (Verif.Shared.shared_runs conv (Shared.Meaning.ordOf outs) β₁ β₂)
    (L := fun q => M.P.map (M.new (Shared.Meaning.ordOf outs) β₁ β₂ q)) (fun q hq => M.map_new _ β₁ β₂ hq)
    (Verif.Shared.ae_posterior_pos β₁ β₂) hns
  exact ⟨out, M.new (Shared.Meaning.ordOf outs) β₁ β₂, ho, hc β₁ β₂, h.1,
    fun q h1 h2 h3 => h.2 q ⟨h1, h2, h3⟩⟩

example : ∃ M : Shared.Meaning .scale 2 1, ∃ out, ∃ new : (Fin 2 → ℝ) × ((Fin 1 → ℝ) × ℝ) → M.Ω → (Fin 2 → ℝ) × ((Fin 1 → ℝ) × ℝ),
    constructSampler Graph.Shared.own Graph.Shared.ins [1, 0, 4, 2, 6] Graph.Shared.obs
      Graph.Shared.n2o Graph.Shared.disc 31 id (fun _ _ => ⟨[], []⟩) = some out ∧
    (∀ q ω q', M.Calls ![1, -2] ![3] out q ω q' ↔ q' = new q ω) ∧
    ¬ Stationary (Verif.Shared.posterior ![1, -2] ![3]) (fun q => M.P.map (new q)) := by
  obtain ⟨M⟩ := Shared.meaning_exists .scale 2 1
  obtain ⟨out, new, h1, h2, h3, -⟩ := C61_built_violated .scale (β₁ := ![1, -2]) (β₂ := ![3]) (by norm_num)
    (by norm_num) (fun j => by fin_cases j <;> norm_num) (fun j => by fin_cases j; norm_num) M
    (outs := [1, 0, 4, 2, 6]) (by unfold Graph.Shared.Visits; decide +kernel) id (fun _ _ => ⟨[], []⟩)
  exact ⟨M, out, new, h1, h2, h3⟩

end Verif.Whole
