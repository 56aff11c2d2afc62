import Verif.Whole.Nodes
import Verif.HsReg.Props

/-!
# The sampler built for a regression with a horseshoe prior, nothing else unknown
-/

open MeasureTheory ProbabilityTheory Matrix

namespace Verif.Whole.HsReg

open Graph (Node Var SamplerOut NutsResult Feeds Returns constructSampler)

variable {p n : ℕ}

/-- The node of the coefficients of a negative-binomial regression (`/repo/aemcmc/gibbs.py:607-614`): inputs
the standard deviations and `beta`. -/
noncomputable def nbLaw (la : LinAlg) (X : Matrix (Fin n) (Fin p) ℝ) (h : Fin n → ℝ) (y : Fin n → ℕ)
    (v : (Fin p → ℝ) × (Fin p → ℝ)) : Measure (Fin p → ℝ) := nbinomNormalPosterior la v.1 X h y v.2

/-- The node of the coefficients of a Bernoulli regression (`/repo/aemcmc/gibbs.py:755-762`): inputs the
standard deviations and `beta`. -/
noncomputable def bernLaw (la : LinAlg) (X : Matrix (Fin n) (Fin p) ℝ) (y : Fin n → Bool)
    (v : (Fin p → ℝ) × (Fin p → ℝ)) : Measure (Fin p → ℝ) := bernNormalPosterior la v.1 X y v.2

/-- The inputs these nodes are meant for. -/
def fixedGood (p : ℕ) : Set ((Fin p → ℝ) × (Fin p → ℝ)) := {v | ∀ j, 0 < v.1 j}

theorem pg_exists {la : LinAlg} (hla : la.Sound) (X : Matrix (Fin n) (Fin p) ℝ) {b : Fin n → ℝ}
    (hb : ∀ i, 0 < b i) (κ : Fin n → ℝ) :
    Nonempty (Draws (fun v : (Fin p → ℝ) × (Fin p → ℝ) => pgStep la (fun j => (v.1 j)⁻¹) X b κ v.2)
      (fixedGood p)) := by
  refine Draws.exists (K' := fun v => HsReg.coefK X b κ (v.2, (v.1, 1)))
    ((HsReg.measurable_coefK X b κ).comp (by fun_prop)) (fun v => HsReg.prob_coefK X b κ _) ?_
  rintro ⟨sd, β⟩ hs
  rw [← HsReg.coefK_eq hla X hb κ (s := (sd, 1)) ⟨hs, one_pos⟩]
  simp only [mul_one]

theorem nb_exists {la : LinAlg} (hla : la.Sound) (X : Matrix (Fin n) (Fin p) ℝ) {h : Fin n → ℝ}
    (hh : ∀ i, 0 < h i) (y : Fin n → ℕ) : Nonempty (Draws (nbLaw la X h y) (fixedGood p)) :=
  pg_exists hla X (fun i => by have := hh i; positivity) _

theorem bern_exists {la : LinAlg} (hla : la.Sound) (X : Matrix (Fin n) (Fin p) ℝ) (y : Fin n → Bool) :
    Nonempty (Draws (bernLaw la X y) (fixedGood p)) :=
  pg_exists hla X (fun _ => one_pos) _

/-- Spec: a meaning of the graph, for a law `K₁` of the shrinkage parameters and a law `K` of the
coefficients. -/
structure MeaningOf (K₁ : (Fin p → ℝ) × ((Fin p → ℝ) × ℝ) → Measure ((Fin p → ℝ) × ℝ))
    (good₁ : Set ((Fin p → ℝ) × ((Fin p → ℝ) × ℝ)))
    (K : (Fin p → ℝ) × (Fin p → ℝ) → Measure (Fin p → ℝ)) (good : Set ((Fin p → ℝ) × (Fin p → ℝ))) where
  Val : Type
  E : Enc Val
  sem : Node → Nat → List Val → Val
  x : Val
  d : Val
  c : Val
  D₁ : Draws K₁ good₁
  D₂ : Draws K good
  g₁ : D₁.U → Val
  g₂ : D₂.U → Val
  mul : MulNode p E sem 2
  shrink : ShrinkNodes E sem 8 9 10 D₁ g₁
  coef : FixedCoefNode E sem 11 x d c D₂ g₂

/-- Spec: a meaning in which the shrinkage parameters are drawn as the library does. -/
abbrev Meaning (conv : Horseshoe.ExpArg) (K : (Fin p → ℝ) × (Fin p → ℝ) → Measure (Fin p → ℝ)) :=
  MeaningOf (shrinkLaw conv) (shrinkGood p) K (fixedGood p)

/-- There is such a meaning. -/
theorem meaningOf_exists {K₁ : (Fin p → ℝ) × ((Fin p → ℝ) × ℝ) → Measure ((Fin p → ℝ) × ℝ)} {good₁ : Set _}
    {K : (Fin p → ℝ) × (Fin p → ℝ) → Measure (Fin p → ℝ)} {good : Set _} (h₁ : Nonempty (Draws K₁ good₁))
    (h : Nonempty (Draws K good)) : Nonempty (MeaningOf K₁ good₁ K good) := by
  obtain ⟨D₁⟩ := h₁
  obtain ⟨D₂⟩ := h
  exact ⟨{
    Val := V D₁.U D₂.U Unit, E := V.enc _ _ _
    sem := V.sem (0 : Matrix (Fin 0) (Fin p) ℝ) D₁.draw (fun a => D₂.draw ((a.1.1, a.1.2.1), a.2)) fun _ => 0
    x := .leaf 1, d := .num 0, c := .leaf 4, D₁, D₂, g₁ := .r₁, g₂ := .r₂, mul := V.mulNode _ _ _ _
    shrink := V.shrinkNodes _ D₁ _ _, coef := V.fixedCoefNode _ D₂ _ _ }⟩

theorem meaning_exists {K : (Fin p → ℝ) × (Fin p → ℝ) → Measure (Fin p → ℝ)} (conv : Horseshoe.ExpArg)
    (h : Nonempty (Draws K (fixedGood p))) : Nonempty (Meaning conv K) :=
  meaningOf_exists (shrink_exists conv) h

namespace MeaningOf

variable {K₁ : (Fin p → ℝ) × ((Fin p → ℝ) × ℝ) → Measure ((Fin p → ℝ) × ℝ)} {good₁ : Set _}
  {K : (Fin p → ℝ) × (Fin p → ℝ) → Measure (Fin p → ℝ)} {good : Set _} (M : MeaningOf K₁ good₁ K good)

/-- The random numbers of one call, independent. -/
abbrev Ω : Type := M.D₁.U × M.D₂.U

/-- Their law. -/
noncomputable def P : Measure M.Ω := M.D₁.P.prod M.D₂.P

/-- Spec: the steps of `out`, called with the state `q` and the random numbers `ω`, return the state `q'`. -/
def Calls (out : SamplerOut) (q : (Fin p → ℝ) × ((Fin p → ℝ) × ℝ)) (ω : M.Ω)
    (q' : (Fin p → ℝ) × ((Fin p → ℝ) × ℝ)) : Prop :=
  ∀ given, Feeds Graph.HsReg.own out given
    (Graph.HsReg.state (M.E.num q.2.2) (M.E.vec q.2.1) (M.E.vec q.1))
    (Graph.HsReg.leaves M.x M.d M.c (M.g₁ ω.1) (M.g₂ ω.2)) →
    Returns Graph.HsReg.own M.sem given out 40 (M.E.num q'.2.2) ∧
    Returns Graph.HsReg.own M.sem given out 41 (M.E.vec q'.2.1) ∧
    Returns Graph.HsReg.own M.sem given out 43 (M.E.vec q'.1)

/-- The new state as a function of the random numbers. -/
noncomputable def new (q : (Fin p → ℝ) × ((Fin p → ℝ) × ℝ)) (ω : M.Ω) : (Fin p → ℝ) × ((Fin p → ℝ) × ℝ) :=
  (M.D₂.draw ((fun j => q.2.1 j * q.2.2, q.1), ω.2),
    M.D₁.draw ((q.1, (fun j => q.2.1 j ^ 2, q.2.2 ^ 2)), ω.1))

/-- In every order of visit the built sampler returns this state, and only this state. -/
theorem calls_iff {outs : List Var} (hv : Graph.HsReg.Visits outs) (order : List Var → List Var)
    (nuts : Py.Dict Var Var → Py.Dict Var Var → NutsResult) :
    ∃ out, constructSampler Graph.HsReg.own Graph.HsReg.ins outs Graph.HsReg.obs Graph.HsReg.n2o
      Graph.HsReg.disc 31 order nuts = some out ∧ ∀ q ω q', M.Calls out q ω q' ↔ q' = M.new q ω := by
  obtain ⟨out, ho, h⟩ := Graph.HsReg.eval M.Val hv order nuts
  refine ⟨out, ho, fun q ω q' => ?_⟩
  obtain ⟨⟨given, hg⟩, h2⟩ := h (M.E.num q.2.2) (M.E.vec q.2.1) (M.E.vec q.1)
    M.x M.d M.c (M.g₁ ω.1) (M.g₂ ω.2)
  have h3 := h2 M.sem
  rw [M.shrink.sqt, M.shrink.sql, M.shrink.out0, M.shrink.out1, M.mul, M.coef] at h3
  constructor
  · intro hc
    obtain ⟨c1, c2, c3⟩ := hc given hg
    obtain ⟨d1, d2, d3⟩ := h3 given hg
    exact Prod.ext (M.E.vec_inj _ (returns_unique c3 d3))
      (Prod.ext (M.E.vec_inj _ (returns_unique c2 d2)) (M.E.num_inj (returns_unique c1 d1)))
  · rintro rfl
    exact h3

/-- The law of the new state, when the nodes get inputs they are meant for. -/
theorem map_new_of {q : (Fin p → ℝ) × ((Fin p → ℝ) × ℝ)} (h1 : (q.1, (fun j => q.2.1 j ^ 2, q.2.2 ^ 2)) ∈ good₁)
    (h2 : (fun j => q.2.1 j * q.2.2, q.1) ∈ good) :
    M.P.map (M.new q) = (K₁ (q.1, (fun j => q.2.1 j ^ 2, q.2.2 ^ 2))).bind fun s =>
      (K (fun j => q.2.1 j * q.2.2, q.1)).map fun β => (β, s) := by
  have hm1 : Measurable fun u => M.D₁.draw ((q.1, (fun j => q.2.1 j ^ 2, q.2.2 ^ 2)), u) :=
    M.D₁.meas.comp measurable_prodMk_left
  have hm2 : Measurable fun u => M.D₂.draw ((fun j => q.2.1 j * q.2.2, q.1), u) :=
    M.D₂.meas.comp measurable_prodMk_left
  have e := map_two (P₁ := M.D₁.P) (P₂ := M.D₂.P) hm1 hm2
  rw [M.D₁.law _ h1, M.D₂.law _ h2] at e
  exact e

end MeaningOf

variable {conv : Horseshoe.ExpArg} {K : (Fin p → ℝ) × (Fin p → ℝ) → Measure (Fin p → ℝ)}

/-- The law of the new state. -/
theorem Meaning.map_new (M : Meaning conv K) {q : (Fin p → ℝ) × ((Fin p → ℝ) × ℝ)}
    (hq : Horseshoe.AllPos q.2) :
    M.P.map (M.new q) = (Horseshoe.horseshoeStep conv q.1 q.2).bind fun s =>
      (K (fun j => q.2.1 j * q.2.2, q.1)).map fun β => (β, s) :=
  M.map_new_of ⟨fun j => pow_pos (hq.1 j) 2, pow_pos hq.2 2⟩ fun j => mul_pos (hq.1 j) hq.2

end Verif.Whole.HsReg
