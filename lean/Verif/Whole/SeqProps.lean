import Verif.Whole.Props
import Verif.Whole.SeqPair

/-!
# C67: one call of a built sampler draws its variables one after the other

The spec is `runAll` (`Verif/Whole/SeqSpec.lean`): the single steps in some order, each from the state the
ones before have left.
-/

open MeasureTheory ProbabilityTheory Matrix

namespace Verif.Whole

open Graph (Var NutsResult constructSampler)

variable {p n : ℕ}

/-- **C67 (partial).** For a negative-binomial regression with normal coefficients and a gamma dispersion
one call of the built sampler, in every order of visit and from every state, has the law of the step of the
coefficients followed by the step of the dispersion.  The full property asks this of every sampler. -/
theorem C67_nbinom_partial {la : LinAlg} (hla : la.Sound) {std : Fin p → ℝ} (hs : ∀ j, 0 < std j)
    {X : Matrix (Fin n) (Fin p) ℝ} {a b : ℝ} (ha : 0 < a) (hb : 0 < b) {y : Fin n → ℕ}
    (M : NbReg.Meaning la std X a b y) {outs : List Var} (hv : Graph.NbReg.Visits outs)
    (order : List Var → List Var) (nuts : Py.Dict Var Var → Py.Dict Var Var → NutsResult) :
    ∃ out, ∃ new : (Fin p → ℝ) × ℝ → M.Ω → (Fin p → ℝ) × ℝ,
      constructSampler Graph.NbReg.own Graph.NbReg.ins outs Graph.NbReg.obs Graph.NbReg.n2o
        Graph.NbReg.disc 31 order nuts = some out ∧
      (∀ q ω q', M.Calls out q ω q' ↔ q' = new q ω) ∧
      ∀ q : (Fin p → ℝ) × ℝ, 0 < q.2 → M.P.map (new q) =
        runAll [Verif.NbReg.coefStep la std X y, Verif.NbReg.dispersionStep X a b y] q := by
  obtain ⟨out, ho, hc⟩ := M.calls_iff hv order nuts
  exact ⟨out, M.new, ho, hc, fun q hq => (M.map_new hs hq).trans (nb_seq hla hs ha hb X y hq)⟩

example (X : Matrix (Fin 3) (Fin 2) ℝ) :
    ∃ M : NbReg.Meaning stdLinAlg (fun _ => 1) X 2 1 ![4, 0, 1], ∃ out,
      ∃ new : (Fin 2 → ℝ) × ℝ → M.Ω → (Fin 2 → ℝ) × ℝ,
      constructSampler Graph.NbReg.own Graph.NbReg.ins [6, 3, 7] Graph.NbReg.obs
        Graph.NbReg.n2o Graph.NbReg.disc 31 id (fun _ _ => ⟨[], []⟩) = some out ∧
      (∀ q ω q', M.Calls out q ω q' ↔ q' = new q ω) ∧
      M.P.map (new (![0, -1], 1 / 2)) = runAll [Verif.NbReg.coefStep stdLinAlg (fun _ => 1) X ![4, 0, 1],
        Verif.NbReg.dispersionStep X 2 1 ![4, 0, 1]] (![0, -1], 1 / 2) := by
  obtain ⟨M⟩ := NbReg.meaning_exists stdLinAlg_sound (fun _ => 1) X (a := 2) (b := 1) two_pos one_pos ![4, 0, 1]
  obtain ⟨out, new, h1, h2, h3⟩ := C67_nbinom_partial stdLinAlg_sound (fun _ => one_pos) two_pos one_pos M
    (outs := [6, 3, 7]) (by unfold Graph.NbReg.Visits; decide +kernel) id (fun _ _ => ⟨[], []⟩)
  exact ⟨M, out, new, h1, h2, h3 _ (by norm_num)⟩

/-- **C67 (partial).** For two groups that share `tau` one call has the law of the two kernels run one after
the other: the kernel of the second group first if `tau` is visited before the local parameter of the
first, last otherwise.  The full property asks this of every sampler. -/
theorem C67_shared_partial {p₁ p₂ : ℕ} (conv : Horseshoe.ExpArg) (β₁ : Fin p₁ → ℝ) (β₂ : Fin p₂ → ℝ)
    (M : Shared.Meaning conv p₁ p₂) {outs : List Var} (hv : Graph.Shared.Visits outs)
    (order : List Var → List Var) (nuts : Py.Dict Var Var → Py.Dict Var Var → NutsResult) :
    ∃ out, ∃ new : (Fin p₁ → ℝ) × ((Fin p₂ → ℝ) × ℝ) → M.Ω → (Fin p₁ → ℝ) × ((Fin p₂ → ℝ) × ℝ),
      constructSampler Graph.Shared.own Graph.Shared.ins outs Graph.Shared.obs Graph.Shared.n2o
        Graph.Shared.disc 31 order nuts = some out ∧
      (∀ q ω q', M.Calls β₁ β₂ out q ω q' ↔ q' = new q ω) ∧
      ∀ q : (Fin p₁ → ℝ) × ((Fin p₂ → ℝ) × ℝ), (∀ j, 0 < q.1 j) → (∀ j, 0 < q.2.1 j) → 0 < q.2.2 →
        M.P.map (new q) = if Graph.Before outs 0 1
          then runAll [pairStep conv β₂, Verif.Shared.localStep conv β₁] q
          else runAll [Verif.Shared.localStep conv β₁, pairStep conv β₂] q := by
  obtain ⟨out, ho, hc⟩ := M.calls_iff hv order nuts
  refine ⟨out, M.new (Shared.Meaning.ordOf outs) β₁ β₂, ho, hc β₁ β₂, fun q h1 h2 h3 => ?_⟩
  have hq : Verif.Shared.Pos q := ⟨h1, h2, h3⟩
  rw [M.map_new _ β₁ β₂ hq, Shared.Meaning.ordOf]
  split
  · exact shared_seq_global conv β₁ β₂ hq
  · exact shared_seq_local conv β₁ β₂ hq

example : ∃ M : Shared.Meaning .scale 2 1, ∃ out, ∃ new : (Fin 2 → ℝ) × ((Fin 1 → ℝ) × ℝ) → M.Ω → (Fin 2 → ℝ) × ((Fin 1 → ℝ) × ℝ),
    constructSampler Graph.Shared.own Graph.Shared.ins [1, 0, 4, 2, 6] Graph.Shared.obs
      Graph.Shared.n2o Graph.Shared.disc 31 id (fun _ _ => ⟨[], []⟩) = some out ∧
    (∀ q ω q', M.Calls ![1, -2] ![3] out q ω q' ↔ q' = new q ω) ∧
    M.P.map (new (![1, 2], (![3], 1))) =
      runAll [Verif.Shared.localStep .scale ![1, -2], pairStep .scale ![3]] (![1, 2], (![3], 1)) := by
  obtain ⟨M⟩ := Shared.meaning_exists .scale 2 1
  obtain ⟨out, new, h1, h2, h3⟩ := C67_shared_partial .scale ![1, -2] ![3] M
    (outs := [1, 0, 4, 2, 6]) (by unfold Graph.Shared.Visits; decide +kernel) id (fun _ _ => ⟨[], []⟩)
  have h4 := h3 (![1, 2], (![3], 1)) (fun j => by fin_cases j <;> norm_num) (fun j => by fin_cases j; norm_num)
    one_pos
  rw [if_neg (by decide +kernel)] at h4
  exact ⟨M, out, new, h1, h2, h4⟩

/-- **C67 is violated** for both regressions with a horseshoe prior.  In every order of visit, for every data
set and from every state, the law of the state one call of the built sampler returns is not that of the step
of the shrinkage parameters and the step of the coefficients run one after the other, in either order. -/
theorem C67_horseshoe_violated (conv : Horseshoe.ExpArg) {la : LinAlg} (hla : la.Sound) (hp : 0 < p)
    {X : Matrix (Fin n) (Fin p) ℝ} {h : Fin n → ℝ} (hh : ∀ i, 0 < h i) {y : Fin n → ℕ} {z : Fin n → Bool}
    (M : HsReg.Meaning conv (HsReg.nbLaw la X h y)) (N : HsReg.Meaning conv (HsReg.bernLaw la X z))
    {outs : List Var} (hv : Graph.HsReg.Visits outs)
    (order : List Var → List Var) (nuts : Py.Dict Var Var → Py.Dict Var Var → NutsResult) :
    ∃ out, ∃ new : (Fin p → ℝ) × ((Fin p → ℝ) × ℝ) → M.Ω → (Fin p → ℝ) × ((Fin p → ℝ) × ℝ),
      ∃ new' : (Fin p → ℝ) × ((Fin p → ℝ) × ℝ) → N.Ω → (Fin p → ℝ) × ((Fin p → ℝ) × ℝ),
      constructSampler Graph.HsReg.own Graph.HsReg.ins outs Graph.HsReg.obs Graph.HsReg.n2o
        Graph.HsReg.disc 31 order nuts = some out ∧
      (∀ q ω q', M.Calls out q ω q' ↔ q' = new q ω) ∧ (∀ q ω q', N.Calls out q ω q' ↔ q' = new' q ω) ∧
      ∀ q : (Fin p → ℝ) × ((Fin p → ℝ) × ℝ), (∀ j, 0 < q.2.1 j) → 0 < q.2.2 →
        (∀ l, l.Perm [Verif.HsReg.shrinkStep conv, Verif.HsReg.nbCoefStep la X h y] →
          IsProbabilityMeasure (runAll l q) ∧ M.P.map (new q) ≠ runAll l q) ∧
        (∀ l, l.Perm [Verif.HsReg.shrinkStep conv, Verif.HsReg.bernCoefStep la X z] →
          IsProbabilityMeasure (runAll l q) ∧ N.P.map (new' q) ≠ runAll l q) := by
  obtain ⟨out, ho, hc⟩ := M.calls_iff hv order nuts
  obtain ⟨out', ho', hc'⟩ := N.calls_iff hv order nuts
  obtain rfl : out = out' := Option.some.inj (ho.symm.trans ho')
  refine ⟨out, M.new, N.new, ho, hc, hc', fun q h1 h2 => ⟨fun l hl => ?_, fun l hl => ?_⟩⟩
  · have hq : Horseshoe.AllPos q.2 := ⟨h1, h2⟩
    obtain ⟨F⟩ := Verif.HsReg.nbForm X hh y
    have e := Verif.HsReg.readK_ae F hla conv ⟨false, false⟩ hq
    have hd := two_differ F hla conv hp (q := q) hq hl
    rw [M.map_new hq]
    rw [← e] at hd
    exact hd
  · have hq : Horseshoe.AllPos q.2 := ⟨h1, h2⟩
    obtain ⟨F⟩ := Verif.HsReg.bernForm X z
    have e := Verif.HsReg.readK_ae F hla conv ⟨false, false⟩ hq
    have hd := two_differ F hla conv hp (q := q) hq hl
    rw [N.map_new hq]
    rw [← e] at hd
    exact hd

example (X : Matrix (Fin 3) (Fin 2) ℝ) :
    ∃ M : HsReg.Meaning .rate (HsReg.nbLaw stdLinAlg X (fun _ => 2) ![4, 0, 1]), ∃ out, ∃ new : (Fin 2 → ℝ) × ((Fin 2 → ℝ) × ℝ) → M.Ω → (Fin 2 → ℝ) × ((Fin 2 → ℝ) × ℝ),
      constructSampler Graph.HsReg.own Graph.HsReg.ins [0, 1, 3, 7] Graph.HsReg.obs
        Graph.HsReg.n2o Graph.HsReg.disc 31 id (fun _ _ => ⟨[], []⟩) = some out ∧
      (∀ q ω q', M.Calls out q ω q' ↔ q' = new q ω) ∧
      M.P.map (new (![1, -1], (![1, 2], 3))) ≠ runAll [Verif.HsReg.nbCoefStep stdLinAlg X (fun _ => 2) ![4, 0, 1],
        Verif.HsReg.shrinkStep .rate] (![1, -1], (![1, 2], 3)) := by
  have hh : ∀ _ : Fin 3, (0 : ℝ) < 2 := fun _ => two_pos
  obtain ⟨M⟩ := HsReg.meaning_exists .rate (HsReg.nb_exists stdLinAlg_sound X hh ![4, 0, 1])
  obtain ⟨N⟩ := HsReg.meaning_exists .rate (HsReg.bern_exists stdLinAlg_sound X ![true, false, true])
  obtain ⟨out, new, _, h1, h2, _, h3⟩ := C67_horseshoe_violated .rate stdLinAlg_sound (by norm_num) hh M N
    (outs := [0, 1, 3, 7]) (by unfold Graph.HsReg.Visits; decide +kernel) id (fun _ _ => ⟨[], []⟩)
  exact ⟨M, out, new, h1, h2, ((h3 (![1, -1], (![1, 2], 3)) (fun j => by fin_cases j <;> norm_num)
    (by norm_num)).1 _ (.swap _ _ _)).2⟩

/-- **C67 is violated** for the negative-binomial regression with a horseshoe prior and an unknown
dispersion: one call is the three steps run one after the other in none of the six orders. -/
theorem C67_dispersion_violated (conv : Horseshoe.ExpArg) {la : LinAlg} (hla : la.Sound) (hp : 0 < p)
    {X : Matrix (Fin n) (Fin p) ℝ} {a b : ℝ} (ha : 0 < a) (hb : 0 < b) {y : Fin n → ℕ}
    (M : HsDisp.Meaning conv la X a b y) {outs : List Var} (hv : Graph.HsDisp.Visits outs)
    (order : List Var → List Var) (nuts : Py.Dict Var Var → Py.Dict Var Var → NutsResult) :
    ∃ out, ∃ new : ((Fin p → ℝ) × ((Fin p → ℝ) × ℝ)) × ℝ → M.Ω → ((Fin p → ℝ) × ((Fin p → ℝ) × ℝ)) × ℝ,
      constructSampler Graph.HsDisp.own Graph.HsDisp.ins outs Graph.HsDisp.obs Graph.HsDisp.n2o
        Graph.HsDisp.disc 31 order nuts = some out ∧
      (∀ q ω q', M.Calls out q ω q' ↔ q' = new q ω) ∧
      ∀ q : ((Fin p → ℝ) × ((Fin p → ℝ) × ℝ)) × ℝ, (∀ j, 0 < q.1.2.1 j) → 0 < q.1.2.2 → 0 < q.2 →
        ∀ l, l.Perm [Verif.HsDisp.shrinkStep conv, Verif.HsDisp.coefStep la X y, Verif.HsDisp.dispStep X a b y] →
          IsProbabilityMeasure (runAll l q) ∧ M.P.map (new q) ≠ runAll l q := by
  obtain ⟨out, ho, hc⟩ := M.calls_iff hv order nuts
  refine ⟨out, M.new, ho, hc, fun q h1 h2 h3 l hl => ?_⟩
  have hq : Verif.HsDisp.Good q := ⟨⟨h1, h2⟩, h3⟩
  rw [M.map_new hq, Verif.HsDisp.call_eq conv _ hla X a b y hq]
  exact three_differ hla conv hp ha hb hq hl

example (X : Matrix (Fin 3) (Fin 4) ℝ) : ∃ M : HsDisp.Meaning .scale stdLinAlg X 100 0.01 ![4, 0, 1],
    ∃ out, ∃ new : ((Fin 4 → ℝ) × ((Fin 4 → ℝ) × ℝ)) × ℝ → M.Ω → ((Fin 4 → ℝ) × ((Fin 4 → ℝ) × ℝ)) × ℝ,
      constructSampler Graph.HsDisp.own Graph.HsDisp.ins [1, 0, 3, 6, 7] Graph.HsDisp.obs
        Graph.HsDisp.n2o Graph.HsDisp.disc 31 id (fun _ _ => ⟨[], []⟩) = some out ∧
      (∀ q ω q', M.Calls out q ω q' ↔ q' = new q ω) ∧
      M.P.map (new ((0, (1, 1)), 1)) ≠ runAll [Verif.HsDisp.coefStep stdLinAlg X ![4, 0, 1],
        Verif.HsDisp.shrinkStep .scale, Verif.HsDisp.dispStep X 100 0.01 ![4, 0, 1]] ((0, (1, 1)), 1) := by
  obtain ⟨M⟩ := HsDisp.meaning_exists .scale stdLinAlg_sound X (a := 100) (b := 0.01) (by norm_num)
    (by norm_num) ![4, 0, 1]
  obtain ⟨out, new, h1, h2, h3⟩ := C67_dispersion_violated .scale stdLinAlg_sound (by norm_num) (by norm_num)
    (by norm_num) M (outs := [1, 0, 3, 6, 7]) (by unfold Graph.HsDisp.Visits; decide +kernel) id
    (fun _ _ => ⟨[], []⟩)
  exact ⟨M, out, new, h1, h2, (h3 ((0, (1, 1)), 1) (fun _ => one_pos) one_pos one_pos _ (.swap _ _ _)).2⟩

end Verif.Whole
