import Verif.Whole.Nodes
import Verif.HsDisp.Props

/-!
# The sampler built for a negative-binomial regression with a horseshoe prior and an unknown dispersion
-/

open MeasureTheory ProbabilityTheory Matrix

namespace Verif.Whole.HsDisp

open Graph (Node Var SamplerOut NutsResult Feeds Returns constructSampler)

variable {p n : ℕ}

/-- Spec: a meaning of the graph.  Values, what the nodes compute, the values of the leaves and the
randomness of the three kernels. -/
structure Meaning (conv : Horseshoe.ExpArg) (la : LinAlg) (X : Matrix (Fin n) (Fin p) ℝ) (a b : ℝ)
    (y : Fin n → ℕ) where
  Val : Type
  E : Enc Val
  sem : Node → Nat → List Val → Val
  x : Val
  a' : Val
  b' : Val
  c : Val
  D₁ : Draws (shrinkLaw (p := p) conv) (shrinkGood p)
  D₂ : Draws (coefLaw la X y) (coefGood p)
  D₃ : Draws (dispLaw a b y) (dispGood n)
  g₁ : D₁.U → Val
  g₂ : D₂.U → Val
  g₃ : D₃.U → Val
  g₄ : D₃.U → Val
  mul : MulNode p E sem 2
  shrink : ShrinkNodes E sem 8 9 10 D₁ g₁
  coef : CoefNode E sem 11 x c D₂ g₂
  disp : DispNodes X E sem 12 13 x a' b' c D₃ g₃ g₄

variable {conv : Horseshoe.ExpArg} {la : LinAlg} {X : Matrix (Fin n) (Fin p) ℝ} {a b : ℝ} {y : Fin n → ℕ}

/-- There is such a meaning. -/
theorem meaning_exists (conv : Horseshoe.ExpArg) (hla : la.Sound) (X : Matrix (Fin n) (Fin p) ℝ)
    (ha : 0 < a) (hb : 0 < b) (y : Fin n → ℕ) : Nonempty (Meaning conv la X a b y) := by
  obtain ⟨D₁⟩ := shrink_exists (p := p) conv
  obtain ⟨D₂⟩ := coef_exists hla X y
  obtain ⟨D₃⟩ := disp_exists ha hb y
  exact ⟨{
    Val := V D₁.U D₂.U D₃.U, E := V.enc _ _ _, sem := V.sem X D₁.draw D₂.draw D₃.draw
    x := .leaf 1, a' := .leaf 2, b' := .leaf 3, c := .leaf 4, D₁, D₂, D₃
    g₁ := .r₁, g₂ := .r₂, g₃ := .r₃, g₄ := .r₃, mul := V.mulNode X _ _ _
    shrink := V.shrinkNodes X D₁ _ _, coef := V.coefNode X D₂ _ _, disp := V.dispNodes X D₃ _ _ }⟩

namespace Meaning

variable (M : Meaning conv la X a b y)

/-- The random numbers of one call, independent. -/
abbrev Ω : Type := M.D₁.U × (M.D₂.U × M.D₃.U)

/-- Their law. -/
noncomputable def P : Measure M.Ω := M.D₁.P.prod (M.D₂.P.prod M.D₃.P)

/-- Spec: the steps of `out`, called with the state `q` and the random numbers `ω`, return the state `q'`. -/
def Calls (out : SamplerOut) (q : ((Fin p → ℝ) × ((Fin p → ℝ) × ℝ)) × ℝ) (ω : M.Ω)
    (q' : ((Fin p → ℝ) × ((Fin p → ℝ) × ℝ)) × ℝ) : Prop :=
  ∀ given, Feeds Graph.HsDisp.own out given
    (Graph.HsDisp.state (M.E.num q.1.2.2) (M.E.vec q.1.2.1) (M.E.vec q.1.1) (M.E.num q.2))
    (Graph.HsDisp.leaves M.x M.a' M.b' M.c (M.g₁ ω.1) (M.g₂ ω.2.1) (M.g₃ ω.2.2) (M.g₄ ω.2.2)) →
    Returns Graph.HsDisp.own M.sem given out 40 (M.E.num q'.1.2.2) ∧
    Returns Graph.HsDisp.own M.sem given out 41 (M.E.vec q'.1.2.1) ∧
    Returns Graph.HsDisp.own M.sem given out 43 (M.E.vec q'.1.1) ∧
    Returns Graph.HsDisp.own M.sem given out 46 (M.E.num q'.2)

/-- The new state as a function of the random numbers. -/
noncomputable def new (q : ((Fin p → ℝ) × ((Fin p → ℝ) × ℝ)) × ℝ) (ω : M.Ω) :
    ((Fin p → ℝ) × ((Fin p → ℝ) × ℝ)) × ℝ :=
  let s := M.D₁.draw ((q.1.1, (fun j => q.1.2.1 j ^ 2, q.1.2.2 ^ 2)), ω.1)
  let β := M.D₂.draw ((fun j => q.1.2.1 j * q.1.2.2, (q.1.1, q.2)), ω.2.1)
  ((β, s), M.D₃.draw ((fun i => sigmoid (((-X) *ᵥ β) i), q.2), ω.2.2))

/-- In every order of visit the built sampler returns this state, and only this state. -/
theorem calls_iff {outs : List Var} (hv : Graph.HsDisp.Visits outs) (order : List Var → List Var)
    (nuts : Py.Dict Var Var → Py.Dict Var Var → NutsResult) :
    ∃ out, constructSampler Graph.HsDisp.own Graph.HsDisp.ins outs Graph.HsDisp.obs Graph.HsDisp.n2o
      Graph.HsDisp.disc 31 order nuts = some out ∧ ∀ q ω q', M.Calls out q ω q' ↔ q' = M.new q ω := by
  obtain ⟨out, ho, h⟩ := Graph.HsDisp.eval M.Val hv order nuts
  refine ⟨out, ho, fun q ω q' => ?_⟩
  obtain ⟨⟨given, hg⟩, h2⟩ := h (M.E.num q.1.2.2) (M.E.vec q.1.2.1) (M.E.vec q.1.1) (M.E.num q.2)
    M.x M.a' M.b' M.c (M.g₁ ω.1) (M.g₂ ω.2.1) (M.g₃ ω.2.2) (M.g₄ ω.2.2)
  have h3 := h2 M.sem
  rw [M.shrink.sqt, M.shrink.sql, M.shrink.out0, M.shrink.out1, M.mul, M.coef, M.disp.prob, M.disp.out] at h3
  constructor
  · intro hc
    obtain ⟨c1, c2, c3, c4⟩ := hc given hg
    obtain ⟨d1, d2, d3, d4⟩ := h3 given hg
    have e1 := M.E.num_inj (returns_unique c1 d1)
    have e2 := M.E.vec_inj _ (returns_unique c2 d2)
    have e3 := M.E.vec_inj _ (returns_unique c3 d3)
    have e4 := M.E.num_inj (returns_unique c4 d4)
    exact Prod.ext (Prod.ext e3 (Prod.ext e2 e1)) e4
  · rintro rfl
    exact h3

/-- The law of the new state. -/
theorem map_new {q : ((Fin p → ℝ) × ((Fin p → ℝ) × ℝ)) × ℝ} (hq : HsDisp.Good q) :
    M.P.map (M.new q) = HsDisp.call conv ⟨false, false⟩ la X a b y q := by
  have hm1 : Measurable fun u => M.D₁.draw ((q.1.1, (fun j => q.1.2.1 j ^ 2, q.1.2.2 ^ 2)), u) :=
    M.D₁.meas.comp measurable_prodMk_left
  have hm2 : Measurable fun u => M.D₂.draw ((fun j => q.1.2.1 j * q.1.2.2, (q.1.1, q.2)), u) :=
    M.D₂.meas.comp measurable_prodMk_left
  have hm3 : Measurable fun w : (Fin p → ℝ) × M.D₃.U =>
      M.D₃.draw ((fun i => sigmoid (((-X) *ᵥ w.1) i), q.2), w.2) :=
    M.D₃.meas.comp (Measurable.prodMk (Measurable.prodMk ((measurable_sig X).comp measurable_fst)
      measurable_const) measurable_snd)
  have l1 := M.D₁.law (q.1.1, (fun j => q.1.2.1 j ^ 2, q.1.2.2 ^ 2))
    ⟨fun j => pow_pos (hq.1.1 j) 2, pow_pos hq.1.2 2⟩
  have l2 := M.D₂.law (fun j => q.1.2.1 j * q.1.2.2, (q.1.1, q.2)) ⟨fun j => mul_pos (hq.1.1 j) hq.1.2, hq.2⟩
  have e := map_three (P₁ := M.D₁.P) (P₂ := M.D₂.P) (P₃ := M.D₃.P) hm1 hm2 hm3
  rw [l1, l2, shrinkLaw_sq conv q.1.1 q.1.2] at e
  refine e.trans ?_
  rw [HsDisp.call]
  refine Measure.bind_congr_right (ae_of_all _ fun s => ?_)
  refine Measure.bind_congr_right (ae_of_all _ fun β => ?_)
  exact congrArg (Measure.map fun h => ((β, s), h)) (M.D₃.law _ (sig_good X β hq.2))

end Meaning
end Verif.Whole.HsDisp
