import Verif.Expr.Model

/-!
# Specification of the graphs the matchers are meant to recognise

Independent of the patterns.  An elementwise operator may appear with its broadcasts subsumed
(`subsElem`); it computes the same function.
-/

namespace Verif.Match

open Verif

/-- Spec.  `P` is `sigmoid(c * dot(X, β))`. -/
def LinkExpr (P c X β : Expr) : Prop :=
  ∃ o₁ s₁ o₂ s₂ s₃, (o₁ = .elem .sigmoid ∨ o₁ = .subsElem .sigmoid) ∧
    (o₂ = .elem .mul ∨ o₂ = .subsElem .mul) ∧
    P = .app o₁ s₁ [.app o₂ s₂ [c, .app .dot s₃ [X, β]]]

/-- Spec.  A constant all of whose entries are `-1`. -/
def MinusOne (c : Expr) : Prop :=
  ∃ data sh, c = .const data sh ∧ data ≠ [] ∧ ∀ q ∈ data, q = -1

/-- Spec.  `g` is `nbinom(h, sigmoid(c * dot(X, β)))`. -/
def NbLink (g c X h β : Expr) : Prop :=
  ∃ sh r sz dt P, g = .app (.rv .nbinom) sh [r, sz, dt, h, P] ∧ LinkExpr P c X β

/-- Spec.  `g` is `bernoulli(sigmoid(c * dot(X, β)))`. -/
def BernLink (g c X β : Expr) : Prop :=
  ∃ sh r sz dt P, g = .app (.rv .bernoulli) sh [r, sz, dt, P] ∧ LinkExpr P c X β

/-- Spec.  The documented negative-binomial regression. -/
def NbReg (g X h β : Expr) : Prop := ∃ c, NbLink g c X h β ∧ MinusOne c

/-- Spec.  The documented Bernoulli regression. -/
def BernReg (g X β : Expr) : Prop := ∃ c, BernLink g c X β ∧ MinusOne c

/-- Spec.  A one-element constant array with at least one dimension, as Aesara makes from the scalar
in `-1 * x` or `-x` for a non-scalar `x`. -/
def OneElement (c : Expr) : Prop :=
  ∃ q sh, c = .const [q] sh ∧ sh ≠ [] ∧ ∀ d ∈ sh, d = some 1

/-- Spec.  A variable that is the output of some operation. -/
def HasOwner (g : Expr) : Prop := ∃ o sh as, g = .app o sh as

/-- Spec.  `e` is a half-Cauchy random variable. -/
def IsHalfCauchyRV (e : Expr) : Prop := ∃ sh as, e = .app (.rv .halfcauchy) sh as

/-- Spec.  `e` is a scalar or has an all-ones static shape. -/
def ScalarShape (e : Expr) : Prop := ∀ d ∈ e.shape, d = some 1

/-- Spec.  `e` is a gamma random variable with parameters `a` and `b`. -/
def IsGammaRV (e a b : Expr) : Prop :=
  ∃ sh r sz dt, e = .app (.rv .gamma) sh [r, sz, dt, a, b]

/-- Spec.  `g` is `normal(m, a * b)`. -/
def NormalProd (g m a b : Expr) : Prop :=
  ∃ sh r sz dt o s₂, (o = .elem .mul ∨ o = .subsElem .mul) ∧
    g = .app (.rv .normal) sh [r, sz, dt, m, .app o s₂ [a, b]]

/-- Spec.  `e` is a constant all of whose entries are `q`. -/
def ConstOf (q : Rat) (e : Expr) : Prop :=
  ∃ data sh, e = .const data sh ∧ data ≠ [] ∧ ∀ x ∈ data, x = q

/-- Spec.  `e` is a standard half-Cauchy variable. -/
def StdHalfCauchy (e : Expr) : Prop :=
  ∃ sh r sz dt l s, e = .app (.rv .halfcauchy) sh [r, sz, dt, l, s] ∧ ConstOf 0 l ∧ ConstOf 1 s

/-- Spec.  `e` is a normal variable with mean zero and scale `s`. -/
def ZeroMeanNormal (e s : Expr) : Prop :=
  ∃ sh r sz dt m, e = .app (.rv .normal) sh [r, sz, dt, m, s] ∧ ConstOf 0 m

end Verif.Match
