import Verif.Track.RouteProps
import Verif.Parts.Lock

/-!
# The variables of a part that get a closed-form step (C70)
-/

namespace Verif.Track

open Verif Verif.Py Verif.Conj Verif.Match Verif.Graph

/-- Spec.  The variable `r` occurs in `y`. -/
inductive Inside (r : Expr) : Expr → Prop
  | self : Inside r r
  | arg {o : Op} {sh : SShape} {as : List Expr} {a : Expr} (h : a ∈ as) (hi : Inside r a) : Inside r (.app o sh as)

theorem LinkExpr.inside {P c X β : Expr} (h : LinkExpr P c X β) : Inside β P := by
  obtain ⟨o₁, s₁, o₂, s₂, s₃, -, -, rfl⟩ := h
  exact .arg (a := .app o₂ s₂ [c, .app .dot s₃ [X, β]]) (by simp)
    (.arg (a := .app .dot s₃ [X, β]) (by simp) (.arg (a := β) (by simp) .self))

theorem IsConjugateModel.inside {l p : Dist} {k : Nat} {y r : Expr} (h : IsConjugateModel l p k y r) :
    Inside r y := by
  obtain ⟨⟨sh, rng, size, dtype, ps, -, rfl⟩, -⟩ := h
  exact .arg (by simp) .self

theorem Covers.inside {y r : Expr} (h : Covers y r) : Inside r y := by
  cases h with
  | gammaPoisson h => exact IsConjugateModel.inside h
  | betaBinomial h => exact IsConjugateModel.inside h
  | betaNegBinomial h => exact IsConjugateModel.inside h
  | horseshoe m a b h _ _ _ hr =>
    obtain ⟨sh, r', sz, dt, o, s₂, -, rfl⟩ := h
    refine .arg (a := .app o s₂ [a, b]) (by simp) (.arg (a := r) ?_ .self)
    rcases hr with rfl | rfl <;> simp
  | nbCoefficients X d h _ =>
    obtain ⟨c, ⟨sh, r', sz, dt, P, rfl, hl⟩, -⟩ := h
    exact .arg (a := P) (by simp) (LinkExpr.inside hl)
  | nbDispersion X β a b h _ _ =>
    obtain ⟨c, ⟨sh, r', sz, dt, P, rfl, hl⟩, -⟩ := h
    exact .arg (a := r) (by simp) .self
  | bernCoefficients X h _ =>
    obtain ⟨c, ⟨sh, r', sz, dt, P, rfl, hl⟩, -⟩ := h
    exact .arg (a := P) (by simp) (LinkExpr.inside hl)

variable {outs : List Var} {obs : Dict Var Var} {tree : Var → Expr}
  {hW hA : List (Visit Var (Var × Option (List (Var × Var))))} {C : Var → Bool}

/-- **C70, the search.** Whatever the order and the repetitions of the sampler search on the whole model and on the part alone:
a variable of the part is left without a closed-form step in the whole model iff it is in the part alone. -/
theorem C70_found (hSW : Search tree outs hW) (hSA : Search tree (outs.filter C) hA)
    (hreg : ∀ y ∈ outs, Regular (tree y))
    (hpart : ∀ y ∈ outs, ∀ r ∈ outs, Inside (tree r) (tree y) → C y = C r) {r : Var} (hC : C r = true) :
    NoSampler (found hW) outs obs r ↔
      NoSampler (found hA) (outs.filter C) (obs.filter fun p => C p.1) r := by
  rw [noSampler_iff_covers hSW hreg,
    noSampler_iff_covers hSA fun y hy => hreg y (List.mem_filter.1 hy).1]
  have hk : r ∈ Dict.keys (obs.filter fun p => C p.1) ↔ r ∈ obs.keys := by
    rw [keys_filter]
    exact and_iff_left hC
  rw [hk]
  constructor
  · rintro ⟨h1, h2, h3⟩
    exact ⟨List.mem_filter.2 ⟨h1, hC⟩, h2, fun y hy => h3 y (List.mem_filter.1 hy).1⟩
  · rintro ⟨h1, h2, h3⟩
    have hr := (List.mem_filter.1 h1).1
    refine ⟨hr, h2, fun y hy hc => h3 y (List.mem_filter.2 ⟨hy, ?_⟩) hc⟩
    rw [hpart y hy r hr hc.inside, hC]

/-! ### Two conjugate pairs: gamma-Poisson (the part) and beta-binomial -/

/-- The count with a gamma rate, and the number of successes with a beta probability. -/
def treeT : Var → Expr
  | 0 => zT
  | 1 => kT
  | 2 => .app (.rv .beta) [] [.input 20 [], .input 21 [], .input 22 [], .const [2] [], .const [3] []]
  | 3 => .app (.rv .binomial) [] [.input 23 [], .input 24 [], .input 25 [], .const [9] [],
      .app (.rv .beta) [] [.input 20 [], .input 21 [], .input 22 [], .const [2] [], .const [3] []]]
  | v => .input v []

/-- The search on the whole model. -/
def histT : List (Visit Var (Var × Option (List (Var × Var)))) :=
  [⟨Finder.betaBinomial.name, 3, some [(2, 5, none)]⟩, ⟨Finder.gammaPoisson.name, 1, some [(0, 4, none)]⟩,
    ⟨Finder.betaBinomial.name, 3, some [(2, 5, none)]⟩]

/-- The search on the part. -/
def histTA : List (Visit Var (Var × Option (List (Var × Var)))) :=
  [⟨Finder.gammaPoisson.name, 1, some [(0, 4, none)]⟩]

/-- The part. -/
def partT : Var → Bool := fun v => v = 0 || v = 1

theorem apartT : ∀ a ∈ ([0, 2] : List Var), ∀ r ∈ ([0, 1, 2, 3] : List Var), treeT a = treeT r → a = r := by
  decide

theorem searchT : Search treeT [0, 1, 2, 3] histT where
  answer := by
    intro v hv
    simp only [histT, List.mem_cons, List.not_mem_nil, or_false] at hv
    rcases hv with rfl | rfl | rfl
    · exact ⟨by decide, .betaBinomial, .input 0 [], rfl, rfl, rfl⟩
    · exact ⟨by decide, .gammaPoisson, .input 0 [], rfl, rfl, rfl⟩
    · exact ⟨by decide, .betaBinomial, .input 0 [], rfl, rfl, rfl⟩
  all := by
    intro y hy F hF
    simp only [List.mem_cons, List.not_mem_nil, or_false] at hy
    rcases hy with rfl | rfl | rfl | rfl
    · cases F <;> cases hF
    · cases F <;> first | exact ⟨_, List.mem_cons_of_mem _ List.mem_cons_self, rfl, rfl⟩ | cases hF
    · cases F <;> cases hF
    · cases F <;> first | exact ⟨_, List.mem_cons_self, rfl, rfl⟩ | cases hF
  apart := by
    intro v hv p hp r hr e
    simp only [histT, List.mem_cons, List.not_mem_nil, or_false] at hv
    refine apartT _ ?_ r hr e
    rcases hv with rfl | rfl | rfl
    · obtain rfl : p = (2, 5, none) := by simpa [Visit.steps] using hp
      decide
    · obtain rfl : p = (0, 4, none) := by simpa [Visit.steps] using hp
      decide
    · obtain rfl : p = (2, 5, none) := by simpa [Visit.steps] using hp
      decide

theorem searchTA : Search treeT [0, 1] histTA where
  answer := by
    intro v hv
    obtain rfl := List.mem_singleton.1 hv
    exact ⟨by decide, .gammaPoisson, .input 0 [], rfl, rfl, rfl⟩
  all := by
    intro y hy F hF
    simp only [List.mem_cons, List.not_mem_nil, or_false] at hy
    rcases hy with rfl | rfl
    · cases F <;> cases hF
    · cases F <;> first | exact ⟨_, List.mem_cons_self, rfl, rfl⟩ | cases hF
  apart := by
    intro v hv p hp r hr e
    obtain rfl := List.mem_singleton.1 hv
    obtain rfl : p = (0, 4, none) := by simpa [Visit.steps] using hp
    refine apartT _ (by decide) r ?_ e
    simp only [List.mem_cons, List.not_mem_nil, or_false] at hr ⊢
    tauto

theorem regularT : ∀ y ∈ [0, 1, 2, 3], Regular (treeT y) := by
  intro y hy
  simp only [List.mem_cons, List.not_mem_nil, or_false] at hy
  rcases hy with rfl | rfl | rfl | rfl <;>
    exact ⟨fun c X h β ⟨_, _, _, _, _, e, _⟩ => (nomatch e), fun c X β ⟨_, _, _, _, _, e, _⟩ => (nomatch e)⟩

mutual
/-- The trees inside a tree, listed. -/
def subtrees : Expr → List Expr
  | .app o sh as => .app o sh as :: subtreesL as
  | .input i sh => [.input i sh]
  | .const d sh => [.const d sh]
/-- The trees inside some trees, listed. -/
def subtreesL : List Expr → List Expr
  | [] => []
  | a :: as => subtrees a ++ subtreesL as
end

theorem mem_subtreesL {r a : Expr} : ∀ {as : List Expr}, a ∈ as → r ∈ subtrees a → r ∈ subtreesL as
  | b :: bs, h, hr => by
    rw [subtreesL, List.mem_append]
    rcases List.mem_cons.1 h with rfl | h
    · exact Or.inl hr
    · exact Or.inr (mem_subtreesL h hr)

theorem mem_subtrees {r y : Expr} (h : Inside r y) : r ∈ subtrees y := by
  induction h with
  | self => cases r <;> simp [subtrees]
  | arg ha _ ih =>
    rw [subtrees]
    exact List.mem_cons_of_mem _ (mem_subtreesL ha ih)

/-- C70 on this model: the rate has its step in both searches. -/
example : NoSampler (found histT) [0, 1, 2, 3] [(1, 8), (3, 9)] 0 ↔
    NoSampler (found histTA) [0, 1] [(1, 8)] 0 := by
  refine C70_found (C := partT) (obs := [(1, 8), (3, 9)]) searchT searchTA regularT ?_ rfl
  intro y hy r hr hi
  have : ∀ y ∈ ([0, 1, 2, 3] : List Var), ∀ r ∈ ([0, 1, 2, 3] : List Var), treeT r ∈ subtrees (treeT y) →
      partT y = partT r := by decide
  exact this y hy r hr (mem_subtrees hi)

end Verif.Track
