import Verif.Hier.BetaExists

/-!
# The beta-binomial model with a random parameter: the posterior is missed (C68)
-/

open MeasureTheory ProbabilityTheory Filter
open scoped ENNReal Topology

namespace Verif.Hier

open Graph (Node Var SamplerOut NutsResult Feeds Returns constructSampler Ev EvL ArgsOf JointDens NutsFor
  ModelVar over)
open Graph.BetaHier (own ins obs n2o disc nuts)
open Whole (Draws returns_unique)

namespace Meaning

variable {h : ℝ → ℝ≥0∞} {b : ℝ} {n y : ℕ} (M : Meaning h b n y)

theorem num_inj : Function.Injective M.num := fun s t e => by
  rw [← M.val_num s, e, M.val_num]

theorem feeds_exists {out : SamplerOut} {steps : List (Var × Var)} {heap : List (Node × List Var)}
    (F : Graph.Final out [(40, 20), (41, 21)] steps heap) (q : ℝ × ℝ) (u : M.D.U) (z : M.N.Z) :
    ∃ given, Feeds own out given (M.state q) (M.leaves u z) := by
  refine Graph.feeds_exists (idx := fun r => r - 20) ?_
    (show ([20, 21] ++ [10, 11, 12, 13, 14, 15, 16, 17, 18]).Nodup by decide)
    (show ∀ v ∈ [20, 21] ++ [10, 11, 12, 13, 14, 15, 16, 17, 18], own v = none by decide)
  simp only [state, List.forall_mem_cons, List.not_mem_nil, false_implies, implies_true, and_true]
  exact ⟨F.1 (40, 20) (by simp), F.1 (41, 21) (by simp)⟩

/-- In every iteration order the built sampler returns the state `new`, and only this state. -/
theorem calls_iff (hb : 0 < b) (hy : y ≤ n) {order : List Var → List Var}
    (ho : ∀ l, (order l).Perm l) :
    ∃ out, constructSampler own ins [0, 1, 2] obs n2o disc 20 order nuts = some out ∧
      ∀ (q : ℝ × ℝ) (ω : M.Ω), 0 < q.1 → 0 < q.2 → q.2 < 1 → 0 < M.newP q ω.1 → M.newP q ω.1 < 1 →
        ∀ q', M.Calls out q ω q' ↔ q' = M.new q ω := by
  obtain ⟨out, hout, F⟩ := Graph.BetaHier.run ho
  refine ⟨out, hout, fun q ω hq1 hq2 hq3 hn0 hn1 => ?_⟩
  obtain ⟨out', hout', H⟩ := Graph.C68_nuts_prior (Ξ := M.N.Z) (sem := M.sem) (dens := M.dens)
    (gN := fun d v z => M.num (M.N.g (fun t => d (M.num t)) (M.val v) z)) (s := 0)
    (f := fun r => 40 + r) (order := order) (newToOld := n2o) (nuts := nuts) Graph.BetaHier.setup
    Graph.BetaHier.old Graph.BetaHier.old_inj ho Graph.BetaHier.nuts_keys Graph.BetaHier.one Graph.BetaHier.root
    (fun r hr hne => Or.inr (Graph.BetaHier.lost r hr hne)) (fun c d hc0 hc => by
      funext v z
      rw [M.N.scale c (fun t => d (M.num t)) hc0 hc])
  obtain rfl : out = out' := Option.some.inj (hout.symm.trans hout')
  have ret : ∀ given, Feeds own out given (M.state q) (M.leaves ω.1 ω.2) →
      Returns own M.sem given out 40 (M.num (M.new q ω).1) ∧
      Returns own M.sem given out 41 (M.num (M.new q ω).2) := by
    intro given G
    obtain ⟨i20, i21, E6, -, A⟩ := evals (sem := M.sem) F G
    rw [M.plus, M.plus', M.minus, M.draw] at E6
    have E14 : Ev own M.sem given out.ins 14 (M.num y) := G.leaf (by simp [leaves]) _ _
    let ρ : Var → M.Val := fun r =>
      if r = 0 then M.num q.1 else if r = 1 then M.num (M.newP q ω.1) else M.num y
    have A' := A ρ
    refine ⟨?_, 6, F.2.1 (41, 6) (by simp), E6⟩
    refine Exists.elim (H given ω.2 ρ [M.r₀, M.c]
      (M.nuts_spec out ⟨order, ho, hout⟩ q.1 q.2 ω.1 ω.2 given G) ?_ ?_ ?_ ?_ ?_) ?_
    · intro p hp hp0
      have hp' : p ∈ [(0, 20), (1, 21)] := hp
      simp only [List.mem_cons, List.not_mem_nil, or_false] at hp'
      rcases hp' with rfl | rfl
      · exact i20
      · cases hp0
    · intro r hr hro hr0 v hv
      simp only [List.mem_cons, List.not_mem_nil, or_false] at hr
      rcases hr with rfl | rfl | rfl
      · exact absurd rfl hr0
      · obtain rfl : 6 = v := Option.some.inj ((F.2.1 (41, 6) (by simp)).symm.trans hv)
        exact E6
      · exact absurd (by decide) hro
    · intro r v hv
      have hv' : Py.Dict.get? [(2, 14)] r = some v := hv
      have h2 : r = 2 ∧ v = 14 := by
        have := Py.Dict.mem_of_get? _ _ _ hv'
        simpa using this
      obtain ⟨rfl, rfl⟩ := h2
      exact E14
    · obtain ⟨m, i, hm, hE⟩ := A'.1
      have hmi : m = 0 ∧ i = 1 := by
        have : own 0 = some (0, 1) := rfl
        rw [this] at hm
        cases hm
        exact ⟨rfl, rfl⟩
      obtain ⟨rfl, rfl⟩ := hmi
      refine ⟨0, 1, rfl, ?_⟩
      rw [show out.ins 0 = [16, 10] from F.2.2 (0, [16, 10]) (by simp)] at hE
      cases hE with
      | cons h1 h2 =>
        cases h2 with
        | cons h2 h3 =>
          cases h3
          have lf : ∀ v : Nat, 2 < v → own v = none → ∀ x,
              Ev own M.sem (over (ModelVar [0, 1, 2] obs) ρ given) out.ins v x →
              Ev own M.sem (over (ModelVar [0, 1, 2] obs) ρ given) ins v x := by
            intro v _ hv x hx
            cases hx with
            | given hx => exact .given hx
            | node _ hx _ => rw [hv] at hx; cases hx
          exact .cons (lf 16 (by decide) rfl _ h1) (.cons (lf 10 (by decide) rfl _ h2) .nil)
    · intro r hr hr0
      simp only [List.mem_cons, List.not_mem_nil, or_false] at hr
      rcases hr with rfl | rfl | rfl
      · exact absurd rfl hr0
      · refine ⟨_, A'.2.1, ?_⟩
        change M.dens 1 [M.r₁, M.num q.1, M.num b] (M.num (M.newP q ω.1)) ≠ 0 ∧
          M.dens 1 [M.r₁, M.num q.1, M.num b] (M.num (M.newP q ω.1)) ≠ ∞
        rw [M.dens_p]
        exact ⟨betaPDF_pos hq1 hb hn0 hn1, ENNReal.ofReal_ne_top⟩
      · refine ⟨_, A'.2.2, ?_⟩
        change M.dens 2 [M.r₂, M.num n, M.num q.2] (M.num y) ≠ 0 ∧
          M.dens 2 [M.r₂, M.num n, M.num q.2] (M.num y) ≠ ∞
        rw [M.dens_y]
        exact ⟨binomLik_pos hy hq2 hq3, ENNReal.ofReal_ne_top⟩
    · rintro v ⟨hv, hE⟩
      refine ⟨v, hv, ?_⟩
      have e : (fun t => M.dens 0 [M.r₀, M.c] (M.num t)) = h := funext M.dens_theta
      have e0 : M.val (ρ 0) = q.1 := M.val_num _
      simp only [e, e0] at hE
      exact hE
  intro q'
  constructor
  · intro hc
    obtain ⟨given, G⟩ := M.feeds_exists F q ω.1 ω.2
    obtain ⟨c1, c2⟩ := hc given G
    obtain ⟨d1, d2⟩ := ret given G
    exact Prod.ext (M.num_inj (returns_unique c1 d1)) (M.num_inj (returns_unique c2 d2))
  · rintro rfl
    exact ret

/-- The states the chain visits. -/
def Good : Set (ℝ × ℝ) := {q | 0 < q.1 ∧ 0 < q.2 ∧ q.2 < 1}

theorem measurableSet_good : MeasurableSet Good :=
  (measurableSet_lt measurable_const measurable_fst).inter
    ((measurableSet_lt measurable_const measurable_snd).inter
      (measurableSet_lt measurable_snd measurable_const))

theorem measurable_newP : Measurable fun w : (ℝ × ℝ) × M.D.U => M.newP w.1 w.2 := by
  unfold newP
  exact M.D.meas.comp (by fun_prop)

theorem measurable_new (hh : PosDensity h) : Measurable fun w : (ℝ × ℝ) × M.Ω => M.new w.1 w.2 := by
  have h1 : Measurable fun w : (ℝ × ℝ) × M.Ω => M.N.g h w.1.1 w.2.2 :=
    (M.N.meas h hh.meas hh.one).comp (show Measurable fun w : (ℝ × ℝ) × M.Ω => (w.1.1, w.2.2) by fun_prop)
  have h2 : Measurable fun w : (ℝ × ℝ) × M.Ω => M.newP w.1 w.2.1 :=
    M.measurable_newP.comp (show Measurable fun w : (ℝ × ℝ) × M.Ω => (w.1, w.2.1) by fun_prop)
  exact h1.prodMk h2

instance : IsProbabilityMeasure M.P := by
  unfold P
  infer_instance

theorem measurable_law (hh : PosDensity h) : Measurable fun q => M.P.map (M.new q) :=
  measurable_map_param (K := fun _ : ℝ × ℝ => M.P) measurable_const (fun _ => inferInstance)
    (M.measurable_new hh)

/-- The new `p` is almost surely between zero and one. -/
theorem ae_newP (hb : 0 < b) (hy : y ≤ n) {q : ℝ × ℝ} (hq : 0 < q.1) :
    ∀ᵐ ω ∂M.P, 0 < M.newP q ω.1 ∧ M.newP q ω.1 < 1 := by
  have hm : Measurable fun u => M.newP q u := M.measurable_newP.comp measurable_prodMk_left
  have hny : (y : ℝ) ≤ n := by exact_mod_cast hy
  have h1 := M.D.law (q.1 + y, b + n - y) ⟨by positivity, by simp only; linarith⟩
  have h2 : ∀ᵐ u ∂M.D.P, 0 < M.newP q u ∧ M.newP q u < 1 := by
    have := ae_mem_betaMeasure (a := q.1 + y) (b := b + n - y)
    rw [← h1] at this
    exact ae_of_ae_map hm.aemeasurable this
  exact Measure.quasiMeasurePreserving_fst.ae h2

/-- `theta` moves on its own. -/
theorem map_fst_new (hh : PosDensity h) (q : ℝ × ℝ) :
    (M.P.map (M.new q)).map Prod.fst = M.N.P.map (M.N.g h q.1) := by
  have hm : Measurable (M.new q) := (M.measurable_new hh).comp measurable_prodMk_left
  have hg : Measurable (M.N.g h q.1) := (M.N.meas h hh.meas hh.one).comp measurable_prodMk_left
  rw [Measure.map_map measurable_fst hm, P]
  have e : (Prod.fst ∘ M.new q) = M.N.g h q.1 ∘ Prod.snd := rfl
  rw [e, ← Measure.map_map hg measurable_snd, Measure.map_snd_prod, measure_univ, one_smul]

theorem stays (hh : PosDensity h) (hb : 0 < b) (hy : y ≤ n) {q : ℝ × ℝ} (hq : q ∈ Good) :
    ∀ᵐ q' ∂M.P.map (M.new q), q' ∈ Good := by
  have hm : Measurable (M.new q) := (M.measurable_new hh).comp measurable_prodMk_left
  refine (ae_map_iff (p := fun q' => q' ∈ Good) hm.aemeasurable measurableSet_good).2 ?_
  have h1 : ∀ᵐ ω ∂M.P, h (M.N.g h q.1 ω.2) ≠ 0 :=
    Measure.quasiMeasurePreserving_snd.ae (M.N.stays h hh.meas hh.one q.1 (hh.pos _ hq.1))
  filter_upwards [h1, M.ae_newP hb hy hq.1] with ω h1 h2
  refine ⟨?_, h2⟩
  by_contra hneg
  exact h1 (hh.zero _ (not_lt.1 hneg))

end Meaning

/-- **C68 is false.** `theta` has any prior with a positive density on the positive numbers,
`p ~ Beta(theta, b)`, and `y` successes in `n ≥ 1` trials with probability `p` are observed.  The sampler draws `p` from
its conditional and leaves `theta` to NUTS, which is ideal here.  The calls have exactly one result for almost all
random numbers.  Whatever the data, the law of `theta` after `k` calls tends to its *prior*; and the calls neither
keep the joint posterior nor reach it from any start. -/
theorem C68_violated {h : ℝ → ℝ≥0∞} (hh : PosDensity h) {b : ℝ} (hb : 0 < b) {n y : ℕ} (hy : y ≤ n)
    (hn : 0 < n) (M : Meaning h b n y) {order : List Var → List Var} (ho : ∀ l, (order l).Perm l) :
    ∃ out, ∃ new : ℝ × ℝ → M.Ω → ℝ × ℝ,
      constructSampler own ins [0, 1, 2] obs n2o disc 20 order nuts = some out ∧
      (∀ q : ℝ × ℝ, 0 < q.1 → 0 < q.2 → q.2 < 1 →
        ∀ᵐ ω ∂M.P, ∀ q', M.Calls out q ω q' ↔ q' = new q ω) ∧
      (∀ q : ℝ × ℝ, 0 < q.1 → 0 < q.2 → q.2 < 1 → ∀ S, MeasurableSet S →
        Tendsto (fun k => calls (fun q => M.P.map (new q)) k q {q' | q'.1 ∈ S}) atTop
          (𝓝 (volume.withDensity h S))) ∧
      BayesDefined volume (jointDensity h b n y) ∧
      ¬ Stationary (posterior h b n y) (fun q => M.P.map (new q)) ∧
      ∀ q : ℝ × ℝ, 0 < q.1 → 0 < q.2 → q.2 < 1 →
        ¬ ConvergesFrom {q} (posterior h b n y) (fun q => M.P.map (new q)) := by
  obtain ⟨out, hout, hc⟩ := M.calls_iff hb hy ho
  have hd := posterior_defined (n := n) (y := y) hh hb hy
  have hP : IsProbabilityMeasure (posterior h b n y) := isProbabilityMeasure_bayes hd
  have hN : Measurable fun t => M.N.P.map (M.N.g h t) :=
    measurable_map_param (K := fun _ : ℝ => M.N.P) measurable_const (fun _ => inferInstance)
      (M.N.meas h hh.meas hh.one)
  have hp : ∀ t, IsProbabilityMeasure (M.N.P.map (M.N.g h t)) := fun t =>
    Measure.isProbabilityMeasure_map
      ((M.N.meas h hh.meas hh.one).comp measurable_prodMk_left).aemeasurable
  have hDm : MeasurableSet {t | h t ≠ 0} := hh.meas (measurableSet_singleton 0).compl
  have hGD : ∀ q ∈ Meaning.Good, q.1 ∈ {t | h t ≠ 0} := fun q hq => hh.pos _ hq.1
  have hconv := M.N.conv h hh.meas hh.one
  have key := never_joint (M.measurable_law hh) hN hp (fun q _ => M.map_fst_new hh q)
    Meaning.measurableSet_good (fun q hq => M.stays hh hb hy hq) hDm hGD hconv
    (ν := posterior h b n y) (ae_posterior hh hb) (map_fst_posterior_ne hh hb hy hn)
  refine ⟨out, M.new, hout, fun q h1 h2 h3 => ?_, fun q h1 h2 h3 S hS => ?_, hd, fun hs => key.1 hs.2,
    fun q h1 h2 h3 => key.2 q ⟨h1, h2, h3⟩⟩
  · filter_upwards [M.ae_newP hb hy h1] with ω hω
    exact hc q ω h1 h2 h3 hω.1 hω.2
  · exact fst_converges (M.measurable_law hh) hN (fun q _ => M.map_fst_new hh q)
      Meaning.measurableSet_good (fun q hq => M.stays hh hb hy hq) hGD hconv ⟨h1, h2, h3⟩ hS

/-- A gamma density with shape above one is such a density. -/
theorem posDensity_gamma {a r : ℝ} (ha : 1 < a) (hr : 0 < r) : PosDensity (gammaPDF a r) := by
  have ha0 : 0 < a := by linarith
  refine ⟨measurable_gammaPDF a r, ?_, fun t ht => ?_, fun t ht => ?_⟩
  · have := isProbabilityMeasure_gammaMeasure ha0 hr
    have h1 : gammaMeasure a r Set.univ = 1 := measure_univ
    rwa [gammaMeasure, withDensity_apply _ MeasurableSet.univ, Measure.restrict_univ] at h1
  · rcases ht.lt_or_eq with h1 | h1
    · exact gammaPDF_of_neg h1
    · subst h1
      rw [gammaPDF_of_nonneg le_rfl, Real.zero_rpow (by linarith)]
      simp
  · have := Real.Gamma_pos_of_pos ha0
    rw [gammaPDF_of_nonneg ht.le, ne_eq, ENNReal.ofReal_eq_zero, not_le]
    positivity

/-- Three successes in five trials, `theta ~ Gamma(2, 1)`, `p ~ Beta(theta, 1)`. -/
example : ∃ M : Meaning (gammaPDF 2 1) 1 5 3, ∃ out, ∃ new : ℝ × ℝ → M.Ω → ℝ × ℝ,
    constructSampler own ins [0, 1, 2] obs n2o disc 20 id nuts = some out ∧
    (∀ᵐ ω ∂M.P, ∀ q', M.Calls out (1, 1 / 2) ω q' ↔ q' = new (1, 1 / 2) ω) ∧
    ¬ Stationary (posterior (gammaPDF 2 1) 1 5 3) (fun q => M.P.map (new q)) := by
  obtain ⟨M⟩ := meaning_exists (gammaPDF 2 1) 1 5 3
  obtain ⟨out, new, h1, h2, -, -, h3, -⟩ := C68_violated (posDensity_gamma one_lt_two one_pos) one_pos
    (by norm_num) (by norm_num) M (order := id) fun _ => List.Perm.refl _
  exact ⟨M, out, new, h1, h2 (1, 1 / 2) one_pos (by norm_num) (by norm_num), h3⟩

end Verif.Hier
