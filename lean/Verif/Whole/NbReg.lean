import Verif.Whole.Nodes
import Verif.NbReg.Props

/-!
# The sampler built for a negative-binomial regression with normal coefficients and an unknown dispersion
-/

open MeasureTheory ProbabilityTheory Matrix

namespace Verif.Whole.NbReg

open Graph (Node Var SamplerOut NutsResult Feeds Returns constructSampler)

variable {p n : ℕ}

/-- Spec: a meaning of the graph.  `sd` is the value of the standard deviations `std`. -/
structure Meaning (la : LinAlg) (std : Fin p → ℝ) (X : Matrix (Fin n) (Fin p) ℝ) (a b : ℝ)
    (y : Fin n → ℕ) where
  Val : Type
  E : Enc Val
  sem : Node → Nat → List Val → Val
  x : Val
  a' : Val
  b' : Val
  c : Val
  D₂ : Draws (coefLaw la X y) (coefGood p)
  D₃ : Draws (dispLaw a b y) (dispGood n)
  g₂ : D₂.U → Val
  g₃ : D₃.U → Val
  g₄ : D₃.U → Val
  coef : CoefNode E sem 11 x c D₂ g₂
  disp : DispNodes X E sem 12 13 x a' b' c D₃ g₃ g₄

variable {la : LinAlg} {std : Fin p → ℝ} {X : Matrix (Fin n) (Fin p) ℝ} {a b : ℝ} {y : Fin n → ℕ}

/-- There is such a meaning. -/
theorem meaning_exists (hla : la.Sound) (std : Fin p → ℝ) (X : Matrix (Fin n) (Fin p) ℝ)
    (ha : 0 < a) (hb : 0 < b) (y : Fin n → ℕ) : Nonempty (Meaning la std X a b y) := by
  obtain ⟨D₂⟩ := coef_exists hla X y
  obtain ⟨D₃⟩ := disp_exists ha hb y
  exact ⟨{
    Val := V Unit D₂.U D₃.U, E := V.enc _ _ _, sem := V.sem X (fun _ => (0, 0)) D₂.draw D₃.draw
    x := .leaf 1, a' := .leaf 2, b' := .leaf 3, c := .leaf 4, D₂, D₃
    g₂ := .r₂, g₃ := .r₃, g₄ := .r₃
    coef := V.coefNode X D₂ _ _, disp := V.dispNodes X D₃ _ _ }⟩

namespace Meaning

variable (M : Meaning la std X a b y)

/-- The random numbers of one call, independent. -/
abbrev Ω : Type := M.D₂.U × M.D₃.U

/-- Their law. -/
noncomputable def P : Measure M.Ω := M.D₂.P.prod M.D₃.P

/-- Spec: the steps of `out`, called with the state `q` and the random numbers `ω`, return the state `q'`. -/
def Calls (out : SamplerOut) (q : (Fin p → ℝ) × ℝ) (ω : M.Ω) (q' : (Fin p → ℝ) × ℝ) : Prop :=
  ∀ given, Feeds Graph.NbReg.own out given (Graph.NbReg.state (M.E.vec q.1) (M.E.num q.2))
    (Graph.NbReg.leaves (M.E.vec std) M.x M.a' M.b' M.c (M.g₂ ω.1) (M.g₃ ω.2) (M.g₄ ω.2)) →
    Returns Graph.NbReg.own M.sem given out 43 (M.E.vec q'.1) ∧
    Returns Graph.NbReg.own M.sem given out 46 (M.E.num q'.2)

/-- The new state as a function of the random numbers. -/
noncomputable def new (q : (Fin p → ℝ) × ℝ) (ω : M.Ω) : (Fin p → ℝ) × ℝ :=
  let β := M.D₂.draw ((std, (q.1, q.2)), ω.1)
  (β, M.D₃.draw ((fun i => sigmoid (((-X) *ᵥ β) i), q.2), ω.2))

/-- In every order of visit the built sampler returns this state, and only this state. -/
theorem calls_iff {outs : List Var} (hv : Graph.NbReg.Visits outs) (order : List Var → List Var)
    (nuts : Py.Dict Var Var → Py.Dict Var Var → NutsResult) :
    ∃ out, constructSampler Graph.NbReg.own Graph.NbReg.ins outs Graph.NbReg.obs Graph.NbReg.n2o
      Graph.NbReg.disc 31 order nuts = some out ∧ ∀ q ω q', M.Calls out q ω q' ↔ q' = M.new q ω := by
  obtain ⟨out, ho, h⟩ := Graph.NbReg.eval M.Val hv order nuts
  refine ⟨out, ho, fun q ω q' => ?_⟩
  obtain ⟨⟨given, hg⟩, h2⟩ := h (M.E.vec q.1) (M.E.num q.2) (M.E.vec std)
    M.x M.a' M.b' M.c (M.g₂ ω.1) (M.g₃ ω.2) (M.g₄ ω.2)
  have h3 := h2 M.sem
  rw [M.coef, M.disp.prob, M.disp.out] at h3
  constructor
  · intro hc
    obtain ⟨c1, c2⟩ := hc given hg
    obtain ⟨d1, d2⟩ := h3 given hg
    exact Prod.ext (M.E.vec_inj _ (returns_unique c1 d1)) (M.E.num_inj (returns_unique c2 d2))
  · rintro rfl
    exact h3

/-- The law of the new state. -/
theorem map_new (hs : ∀ j, 0 < std j) {q : (Fin p → ℝ) × ℝ} (hq : 0 < q.2) :
    M.P.map (M.new q) = NbReg.sweep la std X a b y q := by
  have hm2 : Measurable fun u => M.D₂.draw ((std, (q.1, q.2)), u) := M.D₂.meas.comp measurable_prodMk_left
  have hm3 : Measurable fun w : (Fin p → ℝ) × M.D₃.U =>
      (w.1, M.D₃.draw ((fun i => sigmoid (((-X) *ᵥ w.1) i), q.2), w.2)) :=
    measurable_fst.prodMk (M.D₃.meas.comp (Measurable.prodMk (Measurable.prodMk
      ((measurable_sig X).comp measurable_fst) measurable_const) measurable_snd))
  have hm4 : ∀ β, Measurable fun u => M.D₃.draw ((fun i => sigmoid (((-X) *ᵥ β) i), q.2), u) :=
    fun β => M.D₃.meas.comp measurable_prodMk_left
  have e := map_prod_eq_bind (P := M.D₂.P) (Q := M.D₃.P) hm2 hm3
  rw [M.D₂.law (std, (q.1, q.2)) ⟨hs, hq⟩] at e
  refine e.trans ?_
  rw [NbReg.sweep]
  refine Measure.bind_congr_right (ae_of_all _ fun β => ?_)
  refine (Measure.map_map (g := fun h : ℝ => (β, h)) (by fun_prop) (hm4 β)).symm.trans ?_
  exact congrArg (Measure.map fun h => (β, h)) (M.D₃.law _ (sig_good X β hq))

end Meaning
end Verif.Whole.NbReg
