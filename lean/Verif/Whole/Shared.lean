import Verif.Whole.Nodes
import Verif.Shared.Props

/-!
# The sampler built for two groups of coefficients with horseshoe priors that share `tau`
-/

open MeasureTheory ProbabilityTheory

namespace Verif.Whole.Shared

open Graph (Node Var SamplerOut NutsResult Feeds Returns constructSampler Before)

variable {p₁ p₂ : ℕ}

/-- Spec: a meaning of the graph. -/
structure Meaning (conv : Horseshoe.ExpArg) (p₁ p₂ : ℕ) where
  Val : Type
  E : Enc Val
  sem : Node → Nat → List Val → Val
  D₁ : Draws (shrinkLaw (p := p₁) conv) (shrinkGood p₁)
  D₂ : Draws (shrinkLaw (p := p₂) conv) (shrinkGood p₂)
  g₁ : D₁.U → Val
  g₂ : D₂.U → Val
  shrink₁ : ShrinkNodes E sem 8 9 12 D₁ g₁
  shrink₂ : ShrinkNodes E sem 10 11 14 D₂ g₂

variable {conv : Horseshoe.ExpArg}

/-- The meaning of the nodes in the example below. -/
noncomputable def sem {U₁ U₂ : Type} (f₁ : ((Fin p₁ → ℝ) × ((Fin p₁ → ℝ) × ℝ)) × U₁ → (Fin p₁ → ℝ) × ℝ)
    (f₂ : ((Fin p₂ → ℝ) × ((Fin p₂ → ℝ) × ℝ)) × U₂ → (Fin p₂ → ℝ) × ℝ) :
    Node → Nat → List (V U₁ U₂ Unit) → V U₁ U₂ Unit
  | 8, 0 => nodeFun (fun t => [.num t]) (fun t => .num (t ^ 2)) (.leaf 0)
  | 9, 0 => nodeFun (fun l : Fin p₁ → ℝ => [.vec _ l]) (fun l => .vec _ fun j => l j ^ 2) (.leaf 0)
  | 10, 0 => nodeFun (fun t => [.num t]) (fun t => .num (t ^ 2)) (.leaf 0)
  | 11, 0 => nodeFun (fun l : Fin p₂ → ℝ => [.vec _ l]) (fun l => .vec _ fun j => l j ^ 2) (.leaf 0)
  | 12, 0 => nodeFun (fun a => [.vec _ a.1.1, .vec _ a.1.2.1, .num a.1.2.2, .r₁ a.2])
      (fun a => .vec _ (f₁ a).1) (.leaf 0)
  | 12, 1 => nodeFun (fun a => [.vec _ a.1.1, .vec _ a.1.2.1, .num a.1.2.2, .r₁ a.2])
      (fun a => .num (f₁ a).2) (.leaf 0)
  | 14, 0 => nodeFun (fun a => [.vec _ a.1.1, .vec _ a.1.2.1, .num a.1.2.2, .r₂ a.2])
      (fun a => .vec _ (f₂ a).1) (.leaf 0)
  | 14, 1 => nodeFun (fun a => [.vec _ a.1.1, .vec _ a.1.2.1, .num a.1.2.2, .r₂ a.2])
      (fun a => .num (f₂ a).2) (.leaf 0)
  | _, _ => fun _ => .leaf 0

/-- There is such a meaning. -/
theorem meaning_exists (conv : Horseshoe.ExpArg) (p₁ p₂ : ℕ) : Nonempty (Meaning conv p₁ p₂) := by
  obtain ⟨D₁⟩ := shrink_exists (p := p₁) conv
  obtain ⟨D₂⟩ := shrink_exists (p := p₂) conv
  exact ⟨{
    Val := V D₁.U D₂.U Unit, E := V.enc _ _ _, sem := sem D₁.draw D₂.draw, D₁, D₂, g₁ := .r₁, g₂ := .r₂
    shrink₁ := {
      sqt := nodeFun_apply (i := fun t => [V.num t]) (fun a b h => by cases h; rfl) _ _
      sql := nodeFun_apply (i := fun l : Fin p₁ → ℝ => [V.vec _ l]) (fun a b h => by cases h; rfl) _ _
      out0 := fun β l t u => nodeFun_apply (i := fun a : ((Fin p₁ → ℝ) × ((Fin p₁ → ℝ) × ℝ)) × D₁.U =>
          [V.vec _ a.1.1, .vec _ a.1.2.1, .num a.1.2.2, .r₁ a.2])
        (fun a b h => by rcases a with ⟨⟨_, _, _⟩, _⟩; rcases b with ⟨⟨_, _, _⟩, _⟩; cases h; rfl) _ _
        ((β, (l, t)), u)
      out1 := fun β l t u => nodeFun_apply (i := fun a : ((Fin p₁ → ℝ) × ((Fin p₁ → ℝ) × ℝ)) × D₁.U =>
          [V.vec _ a.1.1, .vec _ a.1.2.1, .num a.1.2.2, .r₁ a.2])
        (fun a b h => by rcases a with ⟨⟨_, _, _⟩, _⟩; rcases b with ⟨⟨_, _, _⟩, _⟩; cases h; rfl) _ _
        ((β, (l, t)), u) }
    shrink₂ := {
      sqt := nodeFun_apply (i := fun t => [V.num t]) (fun a b h => by cases h; rfl) _ _
      sql := nodeFun_apply (i := fun l : Fin p₂ → ℝ => [V.vec _ l]) (fun a b h => by cases h; rfl) _ _
      out0 := fun β l t u => nodeFun_apply (i := fun a : ((Fin p₂ → ℝ) × ((Fin p₂ → ℝ) × ℝ)) × D₂.U =>
          [V.vec _ a.1.1, .vec _ a.1.2.1, .num a.1.2.2, .r₂ a.2])
        (fun a b h => by rcases a with ⟨⟨_, _, _⟩, _⟩; rcases b with ⟨⟨_, _, _⟩, _⟩; cases h; rfl) _ _
        ((β, (l, t)), u)
      out1 := fun β l t u => nodeFun_apply (i := fun a : ((Fin p₂ → ℝ) × ((Fin p₂ → ℝ) × ℝ)) × D₂.U =>
          [V.vec _ a.1.1, .vec _ a.1.2.1, .num a.1.2.2, .r₂ a.2])
        (fun a b h => by rcases a with ⟨⟨_, _, _⟩, _⟩; rcases b with ⟨⟨_, _, _⟩, _⟩; cases h; rfl) _ _
        ((β, (l, t)), u) } }⟩

namespace Meaning

variable (M : Meaning conv p₁ p₂)

/-- The random numbers of one call, independent. -/
abbrev Ω : Type := M.D₂.U × M.D₁.U

/-- Their law. -/
noncomputable def P : Measure M.Ω := M.D₂.P.prod M.D₁.P

/-- Spec: the steps of `out`, called with the coefficients `β₁`, `β₂`, the state `q` and the random numbers
`ω`, return the state `q'`. -/
def Calls (β₁ : Fin p₁ → ℝ) (β₂ : Fin p₂ → ℝ) (out : SamplerOut) (q : (Fin p₁ → ℝ) × ((Fin p₂ → ℝ) × ℝ))
    (ω : M.Ω) (q' : (Fin p₁ → ℝ) × ((Fin p₂ → ℝ) × ℝ)) : Prop :=
  ∀ given, Feeds Graph.Shared.own out given
    (Graph.Shared.state (M.E.num q.2.2) (M.E.vec q.1) (M.E.vec q.2.1))
    (Graph.Shared.leaves (M.E.vec β₁) (M.E.vec β₂) (M.g₁ ω.2) (M.g₂ ω.1)) →
    Returns Graph.Shared.own M.sem given out 40 (M.E.num q'.2.2) ∧
    Returns Graph.Shared.own M.sem given out 42 (M.E.vec q'.2.1) ∧
    Returns Graph.Shared.own M.sem given out 41 (M.E.vec q'.1)

/-- The new state as a function of the random numbers. -/
noncomputable def new (ord : Shared.Order) (β₁ : Fin p₁ → ℝ) (β₂ : Fin p₂ → ℝ)
    (q : (Fin p₁ → ℝ) × ((Fin p₂ → ℝ) × ℝ)) (ω : M.Ω) : (Fin p₁ → ℝ) × ((Fin p₂ → ℝ) × ℝ) :=
  let s := M.D₂.draw ((β₂, (fun j => q.2.1 j ^ 2, q.2.2 ^ 2)), ω.1)
  ((M.D₁.draw ((β₁, (fun j => q.1 j ^ 2, ord.read q.2.2 s.2 ^ 2)), ω.2)).1, s)

/-- The order of the model `Verif/Shared/Model.lean` that an order of visit amounts to. -/
def ordOf (outs : List Var) : Shared.Order := if Before outs 0 1 then .globalFirst else .localFirst

theorem read_ordOf (outs : List Var) (old new : ℝ) :
    (ordOf outs).read old new = if Before outs 0 1 then new else old := by
  unfold ordOf
  split <;> rfl

/-- In every order of visit the built sampler returns this state, and only this state. -/
theorem calls_iff {outs : List Var} (hv : Graph.Shared.Visits outs) (order : List Var → List Var)
    (nuts : Py.Dict Var Var → Py.Dict Var Var → NutsResult) :
    ∃ out, constructSampler Graph.Shared.own Graph.Shared.ins outs Graph.Shared.obs Graph.Shared.n2o
      Graph.Shared.disc 31 order nuts = some out ∧
      ∀ β₁ β₂ q ω q', M.Calls β₁ β₂ out q ω q' ↔ q' = M.new (ordOf outs) β₁ β₂ q ω := by
  obtain ⟨out, ho, h⟩ := Graph.Shared.eval M.Val hv order nuts
  refine ⟨out, ho, fun β₁ β₂ q ω q' => ?_⟩
  obtain ⟨⟨given, hg⟩, h2⟩ := h (M.E.num q.2.2) (M.E.vec q.1) (M.E.vec q.2.1) (M.E.vec β₁) (M.E.vec β₂)
    (M.g₁ ω.2) (M.g₂ ω.1)
  have h3 := h2 M.sem
  rw [M.shrink₂.sqt, M.shrink₂.sql, M.shrink₂.out0, M.shrink₂.out1, ← apply_ite M.E.num, ← read_ordOf,
    M.shrink₁.sqt, M.shrink₁.sql, M.shrink₁.out0] at h3
  constructor
  · intro hc
    obtain ⟨c1, c2, c3⟩ := hc given hg
    obtain ⟨d1, d2, d3⟩ := h3 given hg
    exact Prod.ext (M.E.vec_inj _ (returns_unique c3 d3))
      (Prod.ext (M.E.vec_inj _ (returns_unique c2 d2)) (M.E.num_inj (returns_unique c1 d1)))
  · rintro rfl
    exact h3

/-- The law of the new state. -/
theorem map_new (ord : Shared.Order) (β₁ : Fin p₁ → ℝ) (β₂ : Fin p₂ → ℝ)
    {q : (Fin p₁ → ℝ) × ((Fin p₂ → ℝ) × ℝ)} (hq : Shared.Pos q) :
    M.P.map (M.new ord β₁ β₂ q) = Shared.sharedStep conv ord β₁ β₂ q := by
  have hr : Measurable fun w : ((Fin p₂ → ℝ) × ℝ) × M.D₁.U => ord.read q.2.2 w.1.2 :=
    (Shared.measurable_read ord).comp (g := fun r : ℝ × ℝ => ord.read r.1 r.2)
      (f := fun w : ((Fin p₂ → ℝ) × ℝ) × M.D₁.U => (q.2.2, w.1.2)) (by fun_prop)
  have hm2 : Measurable fun u => M.D₂.draw ((β₂, (fun j => q.2.1 j ^ 2, q.2.2 ^ 2)), u) :=
    M.D₂.meas.comp measurable_prodMk_left
  have hm1 : Measurable fun w : ((Fin p₂ → ℝ) × ℝ) × M.D₁.U =>
      ((M.D₁.draw ((β₁, (fun j => q.1 j ^ 2, ord.read q.2.2 w.1.2 ^ 2)), w.2)).1, w.1) :=
    (measurable_fst.comp (M.D₁.meas.comp ((measurable_const.prodMk
      (measurable_const.prodMk (hr.pow_const 2))).prodMk measurable_snd))).prodMk measurable_fst
  have l2 := M.D₂.law (β₂, (fun j => q.2.1 j ^ 2, q.2.2 ^ 2))
    ⟨fun j => pow_pos (hq.2.1 j) 2, pow_pos hq.2.2 2⟩
  have e := map_prod_eq_bind (P := M.D₂.P) (Q := M.D₁.P) hm2 hm1
  rw [l2, shrinkLaw_sq conv β₂ q.2] at e
  refine e.trans ?_
  rw [Shared.sharedStep]
  refine Measure.bind_congr_right ?_
  rw [HsReg.shrinkK_eq conv β₂ hq.2]
  filter_upwards [Shared.ae_shrinkK_pos conv (β₂, q.2)] with s hs
  have l1 := M.D₁.law (β₁, (fun j => q.1 j ^ 2, ord.read q.2.2 s.2 ^ 2))
    ⟨fun j => pow_pos (hq.1 j) 2, pow_pos (Shared.read_pos ord hq.2.2 hs.2) 2⟩
  have hm4 : Measurable fun u => M.D₁.draw ((β₁, (fun j => q.1 j ^ 2, ord.read q.2.2 s.2 ^ 2)), u) :=
    M.D₁.meas.comp measurable_prodMk_left
  refine (Measure.map_map (g := fun r : (Fin p₁ → ℝ) × ℝ => (r.1, s)) (by fun_prop) hm4).symm.trans ?_
  rw [l1, shrinkLaw_sq conv β₁ (q.1, ord.read q.2.2 s.2)]

end Meaning
end Verif.Whole.Shared
