import Verif.Hier.RegExists

/-!
# The regression with random standard deviations: the posterior is missed (C69)
-/

open MeasureTheory ProbabilityTheory Filter Matrix
open scoped ENNReal Topology

namespace Verif.Hier.Reg

open Graph (Node Var SamplerOut NutsResult Feeds Returns constructSampler Ev EvL ArgsOf JointDens NutsFor
  ModelVar over)
open Graph.RegHier (own ins obs n2o disc nuts)
open Whole (Draws returns_unique)

variable {p : ℕ}

namespace Meaning

variable {h L : Vec p → ℝ≥0∞} {K : Vec p × Vec p → Measure (Vec p)} (M : Meaning h L K)

theorem vec_inj : Function.Injective M.vec := fun s t e => by
  rw [← M.val_vec s, e, M.val_vec]

theorem feeds_exists {out : SamplerOut} {steps : List (Var × Var)} {heap : List (Node × List Var)}
    (F : Graph.Final out [(40, 20), (41, 21)] steps heap) (q : Vec p × Vec p) (u : M.D.U) (z : M.N.Z) :
    ∃ given, Feeds own out given (M.state q) (M.leaves u z) := by
  refine Graph.feeds_exists (idx := fun r => r - 20) ?_
    (show ([20, 21] ++ [10, 11, 12, 13, 14, 15, 16, 17, 18, 19]).Nodup by decide)
    (show ∀ v ∈ [20, 21] ++ [10, 11, 12, 13, 14, 15, 16, 17, 18, 19], own v = none by decide)
  simp only [state, List.forall_mem_cons, List.not_mem_nil, false_implies, implies_true, and_true]
  exact ⟨F.1 (40, 20) (by simp), F.1 (41, 21) (by simp)⟩

/-- In every iteration order the built sampler returns the state `new`, and only this state. -/
theorem calls_iff (hL0 : ∀ β, L β ≠ 0) (hL : ∀ β, L β ≠ ∞) {order : List Var → List Var}
    (ho : ∀ l, (order l).Perm l) :
    ∃ out, constructSampler own ins [0, 1, 2] obs n2o disc 20 order nuts = some out ∧
      ∀ (q : Vec p × Vec p) (ω : M.Ω), (∀ j, 0 < q.1 j) → ∀ q', M.Calls out q ω q' ↔ q' = M.new q ω := by
  obtain ⟨out, hout, F⟩ := Graph.RegHier.run ho
  refine ⟨out, hout, fun q ω hq => ?_⟩
  obtain ⟨out', hout', H⟩ := Graph.C68_nuts_prior (Ξ := M.N.Z) (sem := M.sem) (dens := M.dens)
    (gN := fun f v z => M.vec (M.N.g (fun t => f (M.vec t)) (M.val v) z)) (s := 0)
    (f := fun r => 40 + r) (order := order) (newToOld := n2o) (nuts := nuts) Graph.RegHier.setup
    Graph.RegHier.old Graph.RegHier.old_inj ho Graph.RegHier.nuts_keys Graph.RegHier.one Graph.RegHier.root
    (fun r hr hne => Or.inr (Graph.RegHier.lost r hr hne)) (fun c f hc0 hc => by
      funext v z
      rw [M.N.scale c (fun t => f (M.vec t)) hc0 hc])
  obtain rfl : out = out' := Option.some.inj (hout.symm.trans hout')
  have ret : ∀ given, Feeds own out given (M.state q) (M.leaves ω.1 ω.2) →
      Returns own M.sem given out 40 (M.vec (M.new q ω).1) ∧
      Returns own M.sem given out 41 (M.vec (M.new q ω).2) := by
    intro given G
    obtain ⟨i20, i21, E6, -, A⟩ := evals (sem := M.sem) F G
    rw [M.coef] at E6
    have E14 : Ev own M.sem given out.ins 14 M.y := G.leaf (by simp [leaves]) _ _
    let ρ : Var → M.Val := fun r =>
      if r = 0 then M.vec q.1 else if r = 1 then M.vec (M.D.draw (q, ω.1)) else M.y
    have A' := A ρ
    refine ⟨?_, 6, F.2.1 (41, 6) (by simp), E6⟩
    refine Exists.elim (H given ω.2 ρ [M.r₀, M.c]
      (M.nuts_spec out ⟨order, ho, hout⟩ q.1 q.2 ω.1 ω.2 given G) ?_ ?_ ?_ ?_ ?_) ?_
    · intro w hw hw0
      have hw' : w ∈ [(0, 20), (1, 21)] := hw
      simp only [List.mem_cons, List.not_mem_nil, or_false] at hw'
      rcases hw' with rfl | rfl
      · exact i20
      · cases hw0
    · intro r hr hro hr0 v hv
      simp only [List.mem_cons, List.not_mem_nil, or_false] at hr
      rcases hr with rfl | rfl | rfl
      · exact absurd rfl hr0
      · obtain rfl : 6 = v := Option.some.inj ((F.2.1 (41, 6) (by simp)).symm.trans hv)
        exact E6
      · exact absurd (by decide) hro
    · intro r v hv
      have hv' : Py.Dict.get? [(2, 14)] r = some v := hv
      have h2 : r = 2 ∧ v = 14 := by
        have := Py.Dict.mem_of_get? _ _ _ hv'
        simpa using this
      obtain ⟨rfl, rfl⟩ := h2
      exact E14
    · obtain ⟨m, i, hm, hE⟩ := A'.1
      have hmi : m = 0 ∧ i = 1 := by
        have : own 0 = some (0, 1) := rfl
        rw [this] at hm
        cases hm
        exact ⟨rfl, rfl⟩
      obtain ⟨rfl, rfl⟩ := hmi
      refine ⟨0, 1, rfl, ?_⟩
      rw [show out.ins 0 = [16, 10] from F.2.2 (0, [16, 10]) (by simp)] at hE
      cases hE with
      | cons h1 h2 =>
        cases h2 with
        | cons h2 h3 =>
          cases h3
          have lf : ∀ v : Nat, own v = none → ∀ w,
              Ev own M.sem (over (ModelVar [0, 1, 2] obs) ρ given) out.ins v w →
              Ev own M.sem (over (ModelVar [0, 1, 2] obs) ρ given) ins v w := by
            intro v hv w hw
            cases hw with
            | given hw => exact .given hw
            | node _ hw _ => rw [hv] at hw; cases hw
          exact .cons (lf 16 rfl _ h1) (.cons (lf 10 rfl _ h2) .nil)
    · intro r hr hr0
      simp only [List.mem_cons, List.not_mem_nil, or_false] at hr
      rcases hr with rfl | rfl | rfl
      · exact absurd rfl hr0
      · refine ⟨_, A'.2.1, ?_⟩
        change M.dens 1 [M.r₁, M.m, M.vec q.1] (M.vec (M.D.draw (q, ω.1))) ≠ 0 ∧
          M.dens 1 [M.r₁, M.m, M.vec q.1] (M.vec (M.D.draw (q, ω.1))) ≠ ∞
        rw [M.dens_beta]
        exact ⟨normDensity_pos hq _, ENNReal.ofReal_ne_top⟩
      · refine ⟨_, A'.2.2, ?_⟩
        change M.dens 2 [M.r₂, M.d, M.sem 3 0 [M.x, M.vec q.2]] M.y ≠ 0 ∧
          M.dens 2 [M.r₂, M.d, M.sem 3 0 [M.x, M.vec q.2]] M.y ≠ ∞
        rw [M.dens_y]
        exact ⟨hL0 _, hL _⟩
    · rintro v ⟨hv, hE⟩
      refine ⟨v, hv, ?_⟩
      have e : (fun t => M.dens 0 [M.r₀, M.c] (M.vec t)) = h := funext M.dens_sigma
      have e0 : M.val (ρ 0) = q.1 := M.val_vec _
      simp only [e, e0] at hE
      exact hE
  intro q'
  constructor
  · intro hc
    obtain ⟨given, G⟩ := M.feeds_exists F q ω.1 ω.2
    obtain ⟨c1, c2⟩ := hc given G
    obtain ⟨d1, d2⟩ := ret given G
    exact Prod.ext (M.vec_inj (returns_unique c1 d1)) (M.vec_inj (returns_unique c2 d2))
  · rintro rfl
    exact ret

theorem measurableSet_good : MeasurableSet (good p) := by
  have : good p = Prod.fst ⁻¹' {s : Vec p | ∀ j, 0 < s j} := rfl
  rw [this]
  exact measurable_fst isOpen_pos.measurableSet

theorem measurable_new (hh : PosVecDensity h) : Measurable fun w : (Vec p × Vec p) × M.Ω => M.new w.1 w.2 := by
  have h1 : Measurable fun w : (Vec p × Vec p) × M.Ω => M.N.g h w.1.1 w.2.2 :=
    (M.N.meas h hh.meas hh.one).comp
      (show Measurable fun w : (Vec p × Vec p) × M.Ω => (w.1.1, w.2.2) by fun_prop)
  have h2 : Measurable fun w : (Vec p × Vec p) × M.Ω => M.D.draw (w.1, w.2.1) :=
    M.D.meas.comp (show Measurable fun w : (Vec p × Vec p) × M.Ω => (w.1, w.2.1) by fun_prop)
  exact h1.prodMk h2

instance : IsProbabilityMeasure M.P := by
  unfold P
  infer_instance

theorem measurable_law (hh : PosVecDensity h) : Measurable fun q => M.P.map (M.new q) :=
  measurable_map_param (K := fun _ : Vec p × Vec p => M.P) measurable_const (fun _ => inferInstance)
    (M.measurable_new hh)

/-- `sigma` moves on its own. -/
theorem map_fst_new (hh : PosVecDensity h) (q : Vec p × Vec p) :
    (M.P.map (M.new q)).map Prod.fst = M.N.P.map (M.N.g h q.1) := by
  have hm : Measurable (M.new q) := (M.measurable_new hh).comp measurable_prodMk_left
  have hg : Measurable (M.N.g h q.1) := (M.N.meas h hh.meas hh.one).comp measurable_prodMk_left
  rw [Measure.map_map measurable_fst hm, P]
  have e : (Prod.fst ∘ M.new q) = M.N.g h q.1 ∘ Prod.snd := rfl
  rw [e, ← Measure.map_map hg measurable_snd, Measure.map_snd_prod, measure_univ, one_smul]

/-- `beta` is drawn with the law `K`. -/
theorem map_snd_new (hh : PosVecDensity h) {q : Vec p × Vec p} (hq : q ∈ good p) :
    (M.P.map (M.new q)).map Prod.snd = K q := by
  have hm : Measurable (M.new q) := (M.measurable_new hh).comp measurable_prodMk_left
  have hg : Measurable fun u => M.D.draw (q, u) := M.D.meas.comp measurable_prodMk_left
  rw [Measure.map_map measurable_snd hm, P]
  have e : (Prod.snd ∘ M.new q) = (fun u => M.D.draw (q, u)) ∘ Prod.fst := rfl
  rw [e, ← Measure.map_map hg measurable_fst, Measure.map_fst_prod, measure_univ, one_smul]
  exact M.D.law q hq

theorem stays (hh : PosVecDensity h) {q : Vec p × Vec p} (hq : q ∈ good p) :
    ∀ᵐ q' ∂M.P.map (M.new q), q' ∈ good p := by
  have hm : Measurable (M.new q) := (M.measurable_new hh).comp measurable_prodMk_left
  refine (ae_map_iff (p := fun q' => q' ∈ good p) hm.aemeasurable measurableSet_good).2 ?_
  have h1 : ∀ᵐ ω ∂M.P, h (M.N.g h q.1 ω.2) ≠ 0 :=
    Measure.quasiMeasurePreserving_snd.ae (M.N.stays h hh.meas hh.one q.1 (hh.pos _ hq))
  filter_upwards [h1] with ω h1
  by_contra hneg
  exact h1 (hh.zero _ hneg)

end Meaning

/-- The built sampler: its calls, the law of the new coefficients, the limit law of the standard deviations, and
the laws it cannot keep or reach. -/
theorem run_tame {h L : Vec p → ℝ≥0∞} (hh : PosVecDensity h) (hL : Tame L)
    {K : Vec p × Vec p → Measure (Vec p)} (M : Meaning h L K) {order : List Var → List Var}
    (ho : ∀ l, (order l).Perm l) :
    ∃ out, ∃ new : Vec p × Vec p → M.Ω → Vec p × Vec p,
      constructSampler own ins [0, 1, 2] obs n2o disc 20 order nuts = some out ∧
      (∀ q : Vec p × Vec p, (∀ j, 0 < q.1 j) → ∀ ω q', M.Calls out q ω q' ↔ q' = new q ω) ∧
      (∀ q : Vec p × Vec p, (∀ j, 0 < q.1 j) → (M.P.map (new q)).map Prod.snd = K q) ∧
      (∀ q : Vec p × Vec p, (∀ j, 0 < q.1 j) → ∀ S, MeasurableSet S →
        Tendsto (fun k => calls (fun q => M.P.map (new q)) k q {q' | q'.1 ∈ S}) atTop
          (𝓝 (volume.withDensity h S))) ∧
      ((regPosterior h L).map Prod.fst ≠ volume.withDensity h →
        ¬ Stationary (regPosterior h L) (fun q => M.P.map (new q)) ∧
        ∀ q : Vec p × Vec p, (∀ j, 0 < q.1 j) →
          ¬ ConvergesFrom {q} (regPosterior h L) (fun q => M.P.map (new q))) := by
  obtain ⟨out, hout, hc⟩ := M.calls_iff hL.pos (fun β => by
    obtain ⟨B, hB, hLB⟩ := hL.bdd
    exact ne_top_of_le_ne_top hB (hLB β)) ho
  have hd := regPosterior_defined hh hL
  have hP : IsProbabilityMeasure (regPosterior h L) := isProbabilityMeasure_bayes hd
  have hN : Measurable fun t => M.N.P.map (M.N.g h t) :=
    measurable_map_param (K := fun _ : Vec p => M.N.P) measurable_const (fun _ => inferInstance)
      (M.N.meas h hh.meas hh.one)
  have hp : ∀ t, IsProbabilityMeasure (M.N.P.map (M.N.g h t)) := fun t =>
    Measure.isProbabilityMeasure_map
      ((M.N.meas h hh.meas hh.one).comp measurable_prodMk_left).aemeasurable
  have hDm : MeasurableSet {t | h t ≠ 0} := hh.meas (measurableSet_singleton 0).compl
  have hGD : ∀ q ∈ good p, q.1 ∈ {t | h t ≠ 0} := fun q hq => hh.pos _ hq
  have hconv := M.N.conv h hh.meas hh.one
  refine ⟨out, M.new, hout, fun q hq ω => hc q ω hq, fun q hq => M.map_snd_new hh hq, fun q hq S hS =>
    fst_converges (M.measurable_law hh) hN (fun q _ => M.map_fst_new hh q)
      Meaning.measurableSet_good (fun q hq => M.stays hh hq) hGD hconv hq hS, fun hne => ?_⟩
  have key := never_joint (M.measurable_law hh) hN hp (fun q _ => M.map_fst_new hh q)
    Meaning.measurableSet_good (fun q hq => M.stays hh hq) hDm hGD hconv
    (ν := regPosterior h L) (ae_regPosterior hh hL) hne
  exact ⟨fun hs => key.1 hs.2, fun q hq => key.2 q hq⟩

/-- **C69, when the standard deviations are right.** The likelihood of the coefficients is continuous, positive and
bounded, as for both regressions.  The law of the standard deviations after `k` calls tends to their posterior law
exactly when the probability of the data is the same for all standard deviations, that is, when there is nothing to
learn about them.

Missing: the other data. -/
theorem C69_scales_iff_partial {h L : Vec p → ℝ≥0∞} (hh : PosVecDensity h) (hL : Tame L)
    {K : Vec p × Vec p → Measure (Vec p)} (M : Meaning h L K) {order : List Var → List Var}
    (ho : ∀ l, (order l).Perm l) :
    ∃ out, ∃ new : Vec p × Vec p → M.Ω → Vec p × Vec p,
      constructSampler own ins [0, 1, 2] obs n2o disc 20 order nuts = some out ∧
      (∀ q : Vec p × Vec p, (∀ j, 0 < q.1 j) → ∀ ω q', M.Calls out q ω q' ↔ q' = new q ω) ∧
      ((∀ q : Vec p × Vec p, (∀ j, 0 < q.1 j) → ∀ S, MeasurableSet S →
        Tendsto (fun k => calls (fun q => M.P.map (new q)) k q {q' | q'.1 ∈ S}) atTop
          (𝓝 (regPosterior h L {q' | q'.1 ∈ S}))) ↔
        ∃ c, ∀ s : Vec p, (∀ j, 0 < s j) → ∫⁻ β, normDensity s β * L β = c) := by
  obtain ⟨out, new, h1, h2, -, h4, -⟩ := run_tame hh hL M ho
  refine ⟨out, new, h1, h2, ?_⟩
  rw [← map_fst_regPosterior_iff hh hL]
  constructor
  · intro hc
    refine Measure.ext fun S hS => ?_
    rw [Measure.map_apply measurable_fst hS]
    exact tendsto_nhds_unique (hc (fun _ => 1, 0) (fun _ => one_pos) S hS)
      (h4 (fun _ => 1, 0) (fun _ => one_pos) S hS)
  · intro e q hq S hS
    have := h4 q hq S hS
    rw [← e, Measure.map_apply measurable_fst hS] at this
    exact this

/-- **C69 is false, for every step of the coefficients.** The standard deviations of the coefficients have any prior with a
positive density on the vectors with positive entries; the likelihood tends to zero along almost every line (for the
regressions of the library see below).  NUTS is ideal.  Whatever law `K` the step of the coefficients draws from, even their exact
conditional law, the calls have exactly one result; the law of the standard deviations after `k` calls tends to their
*prior*; and the calls neither keep the joint posterior nor reach it from any start. -/
theorem C69_any_step_violated {h L : Vec p → ℝ≥0∞} (hh : PosVecDensity h) (hL : Fades L)
    {K : Vec p × Vec p → Measure (Vec p)} (M : Meaning h L K) {order : List Var → List Var}
    (ho : ∀ l, (order l).Perm l) :
    ∃ out, ∃ new : Vec p × Vec p → M.Ω → Vec p × Vec p,
      constructSampler own ins [0, 1, 2] obs n2o disc 20 order nuts = some out ∧
      (∀ q : Vec p × Vec p, (∀ j, 0 < q.1 j) → ∀ ω q', M.Calls out q ω q' ↔ q' = new q ω) ∧
      (∀ q : Vec p × Vec p, (∀ j, 0 < q.1 j) → (M.P.map (new q)).map Prod.snd = K q) ∧
      (∀ q : Vec p × Vec p, (∀ j, 0 < q.1 j) → ∀ S, MeasurableSet S →
        Tendsto (fun k => calls (fun q => M.P.map (new q)) k q {q' | q'.1 ∈ S}) atTop
          (𝓝 (volume.withDensity h S))) ∧
      BayesDefined volume (regDensity h L) ∧
      ¬ Stationary (regPosterior h L) (fun q => M.P.map (new q)) ∧
      ∀ q : Vec p × Vec p, (∀ j, 0 < q.1 j) →
        ¬ ConvergesFrom {q} (regPosterior h L) (fun q => M.P.map (new q)) := by
  obtain ⟨out, new, h1, h2, h3, h4, h5⟩ := run_tame hh hL.toTame M ho
  exact ⟨out, new, h1, h2, h3, h4, regPosterior_defined hh hL.toTame, h5 (map_fst_regPosterior_ne hh hL)⟩

/-- **C69 is false, negative-binomial regression.** Some positive count has a nonzero row of regressors. -/
theorem C69_nb_violated {n : ℕ} {h : Vec p → ℝ≥0∞} (hh : PosVecDensity h) (la : LinAlg)
    {X : Matrix (Fin n) (Fin p) ℝ} {r : Fin n → ℝ} (hr : ∀ i, 0 < r i) {y : Fin n → ℕ}
    (hy : ∃ i, 0 < y i ∧ X i ≠ 0) (M : Meaning h (nbRegLik X r y) (Whole.HsReg.nbLaw la X r y))
    {order : List Var → List Var} (ho : ∀ l, (order l).Perm l) :
    ∃ out, ∃ new : Vec p × Vec p → M.Ω → Vec p × Vec p,
      constructSampler own ins [0, 1, 2] obs n2o disc 20 order nuts = some out ∧
      (∀ q : Vec p × Vec p, (∀ j, 0 < q.1 j) → ∀ ω q', M.Calls out q ω q' ↔ q' = new q ω) ∧
      (∀ q : Vec p × Vec p, (∀ j, 0 < q.1 j) → ∀ S, MeasurableSet S →
        Tendsto (fun k => calls (fun q => M.P.map (new q)) k q {q' | q'.1 ∈ S}) atTop
          (𝓝 (volume.withDensity h S))) ∧
      BayesDefined volume (regDensity h (nbRegLik X r y)) ∧
      ¬ Stationary (regPosterior h (nbRegLik X r y)) (fun q => M.P.map (new q)) ∧
      ∀ q : Vec p × Vec p, (∀ j, 0 < q.1 j) →
        ¬ ConvergesFrom {q} (regPosterior h (nbRegLik X r y)) (fun q => M.P.map (new q)) := by
  obtain ⟨out, new, h1, h2, -, h3⟩ := C69_any_step_violated hh (fades_nb X hr hy) M ho
  exact ⟨out, new, h1, h2, h3⟩

/-- **C69 is false, Bernoulli regression.** No line separates the two outcomes. -/
theorem C69_bern_violated {n : ℕ} {h : Vec p → ℝ≥0∞} (hh : PosVecDensity h) (la : LinAlg)
    {X : Matrix (Fin n) (Fin p) ℝ} {z : Fin n → Bool} (hz : Overlap X z)
    (M : Meaning h (bernRegLik (fun ψ => sigmoid (-ψ)) X z) (Whole.HsReg.bernLaw la X z))
    {order : List Var → List Var} (ho : ∀ l, (order l).Perm l) :
    ∃ out, ∃ new : Vec p × Vec p → M.Ω → Vec p × Vec p,
      constructSampler own ins [0, 1, 2] obs n2o disc 20 order nuts = some out ∧
      (∀ q : Vec p × Vec p, (∀ j, 0 < q.1 j) → ∀ ω q', M.Calls out q ω q' ↔ q' = new q ω) ∧
      (∀ q : Vec p × Vec p, (∀ j, 0 < q.1 j) → ∀ S, MeasurableSet S →
        Tendsto (fun k => calls (fun q => M.P.map (new q)) k q {q' | q'.1 ∈ S}) atTop
          (𝓝 (volume.withDensity h S))) ∧
      BayesDefined volume (regDensity h (bernRegLik (fun ψ => sigmoid (-ψ)) X z)) ∧
      ¬ Stationary (regPosterior h (bernRegLik (fun ψ => sigmoid (-ψ)) X z)) (fun q => M.P.map (new q)) ∧
      ∀ q : Vec p × Vec p, (∀ j, 0 < q.1 j) →
        ¬ ConvergesFrom {q} (regPosterior h (bernRegLik (fun ψ => sigmoid (-ψ)) X z))
          (fun q => M.P.map (new q)) := by
  obtain ⟨out, new, h1, h2, -, h3⟩ := C69_any_step_violated hh (fades_bern hz) M ho
  exact ⟨out, new, h1, h2, h3⟩

end Verif.Hier.Reg
