import Verif.Whole.Laws

/-!
# What the nodes of the graphs of `Verif/Graph/Regression.lean` compute
-/

open MeasureTheory ProbabilityTheory Matrix

namespace Verif.Whole

open Graph (Node)

variable {p n : ℕ} {Val : Type}

/-- The nodes of `normal_horseshoe_finder` (`/repo/aemcmc/gibbs.py:293-304`): `nt` and `nl` square `tau` and
`lambda`, `nk` is the kernel with its two outputs, drawn with the law `K`. -/
structure ShrinkNodes {K : (Fin p → ℝ) × ((Fin p → ℝ) × ℝ) → Measure ((Fin p → ℝ) × ℝ)} {good : Set _}
    (E : Enc Val) (sem : Node → Nat → List Val → Val) (nt nl nk : Node) (D : Draws K good)
    (g : D.U → Val) : Prop where
  sqt : ∀ t, sem nt 0 [E.num t] = E.num (t ^ 2)
  sql : ∀ l : Fin p → ℝ, sem nl 0 [E.vec l] = E.vec fun j => l j ^ 2
  out0 : ∀ (β l : Fin p → ℝ) t u,
    sem nk 0 [E.vec β, E.vec l, E.num t, g u] = E.vec (D.draw ((β, (l, t)), u)).1
  out1 : ∀ (β l : Fin p → ℝ) t u,
    sem nk 1 [E.vec β, E.vec l, E.num t, g u] = E.num (D.draw ((β, (l, t)), u)).2

/-- The node `lambda * tau` of the model. -/
def MulNode (p : ℕ) (E : Enc Val) (sem : Node → Nat → List Val → Val) (m : Node) : Prop :=
  ∀ (l : Fin p → ℝ) t, sem m 0 [E.vec l, E.num t] = E.vec fun j => l j * t

/-- The kernel of the coefficients (`/repo/aemcmc/gibbs.py:607-614`), with the dispersion one of its inputs.
`X` and `y` are the values of the design matrix and of the counts. -/
def CoefNode {la : LinAlg} {X : Matrix (Fin n) (Fin p) ℝ} {y : Fin n → ℕ} (E : Enc Val)
    (sem : Node → Nat → List Val → Val) (k : Node) (x c : Val)
    (D : Draws (coefLaw la X y) (coefGood p)) (g : D.U → Val) : Prop :=
  ∀ (β sd : Fin p → ℝ) h u,
    sem k 0 [E.vec β, E.vec sd, x, E.num h, c, g u] = E.vec (D.draw ((sd, (β, h)), u))

/-- The kernel of the coefficients of a regression in which nothing else is unknown
(`/repo/aemcmc/gibbs.py:607-614`, `755-762`); `d` is the value of the dispersion and `K` the law of the draw
given the standard deviations and `beta`. -/
def FixedCoefNode {K : (Fin p → ℝ) × (Fin p → ℝ) → Measure (Fin p → ℝ)} {good : Set _} (E : Enc Val)
    (sem : Node → Nat → List Val → Val) (k : Node) (x d c : Val) (D : Draws K good) (g : D.U → Val) : Prop :=
  ∀ (β sd : Fin p → ℝ) u, sem k 0 [E.vec β, E.vec sd, x, d, c, g u] = E.vec (D.draw ((sd, β), u))

/-- The probabilities and the kernel of the dispersion (`/repo/aemcmc/gibbs.py:627-639`); `a'` and `b'` are
the values of the parameters of the gamma prior. -/
structure DispNodes (X : Matrix (Fin n) (Fin p) ℝ) {a b : ℝ} {y : Fin n → ℕ} (E : Enc Val)
    (sem : Node → Nat → List Val → Val) (np nk : Node) (x a' b' c : Val)
    (D : Draws (dispLaw a b y) (dispGood n)) (g g' : D.U → Val) : Prop where
  prob : ∀ β : Fin p → ℝ, sem np 0 [x, E.vec β] = E.vec fun i => sigmoid (((-X) *ᵥ β) i)
  out : ∀ h (q : Fin n → ℝ) u,
    sem nk 0 [E.num h, E.vec q, a', b', c, g u, g' u] = E.num (D.draw ((q, h), u))

/-- Values for the examples that show that such meanings exist: numbers, vectors, random numbers, and
names for the rest. -/
inductive V (U₁ U₂ U₃ : Type)
  | num (x : ℝ)
  | vec (p : ℕ) (v : Fin p → ℝ)
  | r₁ (u : U₁)
  | r₂ (u : U₂)
  | r₃ (u : U₃)
  | leaf (k : ℕ)

/-- Numbers and vectors among these values. -/
def V.enc (U₁ U₂ U₃ : Type) : Enc (V U₁ U₂ U₃) where
  num := .num
  vec := .vec _
  num_inj := fun _ _ h => by cases h; rfl
  vec_inj := fun _ _ _ h => by cases h; rfl

/-- A node whose value is `f a` on the inputs `i a`. -/
noncomputable def nodeFun {A B C : Type} (i : A → B) (f : A → C) (z : C) : B → C :=
  Function.extend i f fun _ => z

theorem nodeFun_apply {A B C : Type} {i : A → B} (hi : Function.Injective i) (f : A → C) (z : C) (a : A) :
    nodeFun i f z (i a) = f a := hi.extend_apply _ _ _

/-- A meaning of the nodes of the regression graphs. -/
noncomputable def V.sem {U₁ U₂ U₃ : Type} (X : Matrix (Fin n) (Fin p) ℝ)
    (f₁ : ((Fin p → ℝ) × ((Fin p → ℝ) × ℝ)) × U₁ → (Fin p → ℝ) × ℝ)
    (f₂ : ((Fin p → ℝ) × ((Fin p → ℝ) × ℝ)) × U₂ → Fin p → ℝ)
    (f₃ : ((Fin n → ℝ) × ℝ) × U₃ → ℝ) : Node → Nat → List (V U₁ U₂ U₃) → V U₁ U₂ U₃
  | 2, 0 => nodeFun (fun a : (Fin p → ℝ) × ℝ => [.vec _ a.1, .num a.2]) (fun a => .vec _ fun j => a.1 j * a.2)
      (.leaf 0)
  | 8, 0 => nodeFun (fun t => [.num t]) (fun t => .num (t ^ 2)) (.leaf 0)
  | 9, 0 => nodeFun (fun l : Fin p → ℝ => [.vec _ l]) (fun l => .vec _ fun j => l j ^ 2) (.leaf 0)
  | 10, 0 => nodeFun (fun a => [.vec _ a.1.1, .vec _ a.1.2.1, .num a.1.2.2, .r₁ a.2])
      (fun a => .vec _ (f₁ a).1) (.leaf 0)
  | 10, 1 => nodeFun (fun a => [.vec _ a.1.1, .vec _ a.1.2.1, .num a.1.2.2, .r₁ a.2])
      (fun a => .num (f₁ a).2) (.leaf 0)
  | 11, 0 => nodeFun (fun a => [.vec _ a.1.2.1, .vec _ a.1.1, .leaf 1, .num a.1.2.2, .leaf 4, .r₂ a.2])
      (fun a => .vec _ (f₂ a)) (.leaf 0)
  | 12, 0 => nodeFun (fun β : Fin p → ℝ => [.leaf 1, .vec _ β])
      (fun β => .vec _ fun i => sigmoid (((-X) *ᵥ β) i)) (.leaf 0)
  | 13, 0 => nodeFun (fun a => [.num a.1.2, .vec _ a.1.1, .leaf 2, .leaf 3, .leaf 4, .r₃ a.2, .r₃ a.2])
      (fun a => .num (f₃ a)) (.leaf 0)
  | _, _ => fun _ => .leaf 0

section
variable {U₁ U₂ U₃ : Type} (X : Matrix (Fin n) (Fin p) ℝ)
    (f₁ : ((Fin p → ℝ) × ((Fin p → ℝ) × ℝ)) × U₁ → (Fin p → ℝ) × ℝ)
    (f₂ : ((Fin p → ℝ) × ((Fin p → ℝ) × ℝ)) × U₂ → Fin p → ℝ)
    (f₃ : ((Fin n → ℝ) × ℝ) × U₃ → ℝ)

theorem V.mulNode : MulNode p (V.enc U₁ U₂ U₃) (V.sem X f₁ f₂ f₃) 2 := fun l t =>
  nodeFun_apply (i := fun a : (Fin p → ℝ) × ℝ => [V.vec _ a.1, V.num a.2])
    (fun a b h => by cases a; cases b; cases h; rfl) _ _ (l, t)

theorem V.shrinkNodes {K : (Fin p → ℝ) × ((Fin p → ℝ) × ℝ) → Measure ((Fin p → ℝ) × ℝ)} {good : Set _}
    (D : Draws K good)
    (f₂ : ((Fin p → ℝ) × ((Fin p → ℝ) × ℝ)) × U₂ → Fin p → ℝ) (f₃ : ((Fin n → ℝ) × ℝ) × U₃ → ℝ) :
    ShrinkNodes (V.enc D.U U₂ U₃) (V.sem X D.draw f₂ f₃) 8 9 10 D .r₁ where
  sqt := nodeFun_apply (i := fun t => [V.num t]) (fun a b h => by cases h; rfl) _ _
  sql := nodeFun_apply (i := fun l : Fin p → ℝ => [V.vec _ l]) (fun a b h => by cases h; rfl) _ _
  out0 β l t u := nodeFun_apply
    (i := fun a : ((Fin p → ℝ) × ((Fin p → ℝ) × ℝ)) × D.U => [V.vec _ a.1.1, .vec _ a.1.2.1, .num a.1.2.2, .r₁ a.2])
    (fun a b h => by rcases a with ⟨⟨_, _, _⟩, _⟩; rcases b with ⟨⟨_, _, _⟩, _⟩; cases h; rfl) _ _
    ((β, (l, t)), u)
  out1 β l t u := nodeFun_apply
    (i := fun a : ((Fin p → ℝ) × ((Fin p → ℝ) × ℝ)) × D.U => [V.vec _ a.1.1, .vec _ a.1.2.1, .num a.1.2.2, .r₁ a.2])
    (fun a b h => by rcases a with ⟨⟨_, _, _⟩, _⟩; rcases b with ⟨⟨_, _, _⟩, _⟩; cases h; rfl) _ _
    ((β, (l, t)), u)

theorem V.coefNode {la : LinAlg} {y : Fin n → ℕ} (D : Draws (coefLaw la X y) (coefGood p))
    (f₁ : ((Fin p → ℝ) × ((Fin p → ℝ) × ℝ)) × U₁ → (Fin p → ℝ) × ℝ) (f₃ : ((Fin n → ℝ) × ℝ) × U₃ → ℝ) :
    CoefNode (V.enc U₁ D.U U₃) (V.sem X f₁ D.draw f₃) 11 (.leaf 1) (.leaf 4) D .r₂ := fun β sd h u =>
  nodeFun_apply (i := fun a : ((Fin p → ℝ) × ((Fin p → ℝ) × ℝ)) × D.U =>
      [V.vec _ a.1.2.1, .vec _ a.1.1, .leaf 1, .num a.1.2.2, .leaf 4, .r₂ a.2])
    (fun a b h => by rcases a with ⟨⟨_, _, _⟩, _⟩; rcases b with ⟨⟨_, _, _⟩, _⟩; cases h; rfl) _ _
    ((sd, (β, h)), u)

theorem V.fixedCoefNode {K : (Fin p → ℝ) × (Fin p → ℝ) → Measure (Fin p → ℝ)} {good : Set _} (D : Draws K good)
    (f₁ : ((Fin p → ℝ) × ((Fin p → ℝ) × ℝ)) × U₁ → (Fin p → ℝ) × ℝ) (f₃ : ((Fin n → ℝ) × ℝ) × U₃ → ℝ) :
    FixedCoefNode (V.enc U₁ D.U U₃) (V.sem X f₁ (fun a => D.draw ((a.1.1, a.1.2.1), a.2)) f₃) 11 (.leaf 1)
      (.num 0) (.leaf 4) D .r₂ := fun β sd u =>
  nodeFun_apply (i := fun a : ((Fin p → ℝ) × ((Fin p → ℝ) × ℝ)) × D.U =>
      [V.vec _ a.1.2.1, .vec _ a.1.1, .leaf 1, .num a.1.2.2, .leaf 4, .r₂ a.2])
    (fun a b h => by rcases a with ⟨⟨_, _, _⟩, _⟩; rcases b with ⟨⟨_, _, _⟩, _⟩; cases h; rfl) _ _
    ((sd, (β, 0)), u)

theorem V.dispNodes {a b : ℝ} {y : Fin n → ℕ} (D : Draws (dispLaw a b y) (dispGood n))
    (f₁ : ((Fin p → ℝ) × ((Fin p → ℝ) × ℝ)) × U₁ → (Fin p → ℝ) × ℝ)
    (f₂ : ((Fin p → ℝ) × ((Fin p → ℝ) × ℝ)) × U₂ → Fin p → ℝ) :
    DispNodes X (V.enc U₁ U₂ D.U) (V.sem X f₁ f₂ D.draw) 12 13 (.leaf 1) (.leaf 2) (.leaf 3) (.leaf 4) D
      .r₃ .r₃ where
  prob := nodeFun_apply (i := fun β : Fin p → ℝ => [V.leaf 1, .vec _ β]) (fun a b h => by cases h; rfl) _ _
  out h q u := nodeFun_apply
    (i := fun a : ((Fin n → ℝ) × ℝ) × D.U =>
      [V.num a.1.2, .vec _ a.1.1, .leaf 2, .leaf 3, .leaf 4, .r₃ a.2, .r₃ a.2])
    (fun a b h => by rcases a with ⟨⟨_, _⟩, _⟩; rcases b with ⟨⟨_, _⟩, _⟩; cases h; rfl) _ _ ((q, h), u)

end

end Verif.Whole
