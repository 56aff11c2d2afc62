import Mathlib.Data.Rat.Defs

/-!
# Expression graphs as trees, and pattern matching on them

The matchers of aemcmc (`conjugates.py`, `gibbs.py`, `transforms.py`) turn a variable into a
tree of nested tuples (`etuplize`) and unify it with a pattern.  This file models those trees
and the unification of a ground tree with a pattern.

Simplifications: a variable is identified with the tree it denotes (sharing is irrelevant for
matching; the RNG leaf keeps two draws apart); a constant carries its flat data as rationals.
-/

namespace Verif

/-- Distributions used by the matchers (`/repo/aemcmc/conjugates.py:8`,
`/repo/aemcmc/gibbs.py:12,137,155,325,342,657`, `/repo/aemcmc/transforms.py:7-13,106,110`).
`other n` stands for any distribution the code does not mention. -/
inductive Dist
  | gamma | poisson | beta | binomial | nbinom | normal | halfcauchy | bernoulli
  | cauchy | gumbel | laplace | logistic | t | invgamma | exponential
  | other (n : Nat)
  deriving DecidableEq, Repr

/-- Scalar operations that occur in patterns and generated graphs. -/
inductive SOp
  | add | sub | mul | neg | sigmoid | reciprocal | trueDiv
  | other (n : Nat)
  deriving DecidableEq, Repr

/-- Operators.  `elem` is Aesara's `Elemwise`; `subsElem` is `SubsumingElemwise`
(`/repo/aemcmc/rewriting.py:179-240`). -/
inductive Op
  | rv (d : Dist)
  | elem (s : SOp)
  | subsElem (s : SOp)
  | dot
  | dimshuffle (order : List (Option Nat))
  | other (n : Nat)
  deriving DecidableEq, Repr

/-- A static shape: the rank is known, each length may be unknown (`type.shape` in Aesara, used
in `/repo/aemcmc/gibbs.py:172,175`). -/
abbrev SShape := List (Option Nat)

/-- Expression trees.  The arguments of an `rv` node are `[rng, size, dtype, *parameters]`
(`/repo/aemcmc/conjugates.py:48-51`, `/repo/aemcmc/gibbs.py:606`). -/
inductive Expr
  | input (id : Nat) (shape : SShape)
  | const (data : List Rat) (shape : SShape)
  | app (op : Op) (shape : SShape) (args : List Expr)
  deriving Repr

namespace Expr

mutual
/-- Decidable equality of trees (structural). -/
def decEq : (a b : Expr) → Decidable (a = b)
  | input i s, input j t =>
    if h : i = j ∧ s = t then isTrue (by rw [h.1, h.2]) else
      isFalse (by intro he; cases he; exact h ⟨rfl, rfl⟩)
  | const d s, const e t =>
    if h : d = e ∧ s = t then isTrue (by rw [h.1, h.2]) else
      isFalse (by intro he; cases he; exact h ⟨rfl, rfl⟩)
  | app o s as, app p t bs =>
    if h : o = p ∧ s = t then
      match decEqList as bs with
      | isTrue h' => isTrue (by rw [h.1, h.2, h'])
      | isFalse h' => isFalse (by intro he; cases he; exact h' rfl)
    else isFalse (by intro he; cases he; exact h ⟨rfl, rfl⟩)
  | input _ _, const _ _ => isFalse (by intro h; cases h)
  | input _ _, app _ _ _ => isFalse (by intro h; cases h)
  | const _ _, input _ _ => isFalse (by intro h; cases h)
  | const _ _, app _ _ _ => isFalse (by intro h; cases h)
  | app _ _ _, input _ _ => isFalse (by intro h; cases h)
  | app _ _ _, const _ _ => isFalse (by intro h; cases h)
/-- Equality of argument lists is decidable. -/
def decEqList : (a b : List Expr) → Decidable (a = b)
  | [], [] => isTrue rfl
  | [], _ :: _ => isFalse (by intro h; cases h)
  | _ :: _, [] => isFalse (by intro h; cases h)
  | a :: as, b :: bs =>
    match decEq a b, decEqList as bs with
    | isTrue h, isTrue h' => isTrue (by rw [h, h'])
    | isFalse h, _ => isFalse (by intro he; cases he; exact h rfl)
    | _, isFalse h => isFalse (by intro he; cases he; exact h rfl)
end

instance : DecidableEq Expr := decEq

/-- The operator at the root (`x.owner.op`), if the variable has an owner. -/
def op? : Expr → Option Op
  | app o _ _ => some o
  | _ => none

/-- The static shape (`x.type.shape`). -/
def shape : Expr → SShape
  | input _ s => s
  | const _ s => s
  | app _ s _ => s

/-- The inputs of the owner (`x.owner.inputs`); `none` when `x.owner is None`. -/
def args? : Expr → Option (List Expr)
  | app _ _ as => some as
  | _ => none

end Expr

/-- Patterns: logic variables (`var()`), ground terms, and operator applications (`etuple`). -/
inductive Pat
  | lv (n : Nat)
  | gnd (e : Expr)
  | app (o : Op) (args : List Pat)

/-- Substitutions, most recent binding first (the mapping `s` of `unification`). -/
abbrev Subst := List (Nat × Expr)

/-- Head comparison.  `Elemwise` unifies with `SubsumingElemwise` when the wrapped `Elemwise`
unifies (`/repo/aemcmc/rewriting.py:243-258`). -/
def headMatch : Op → Op → Bool
  | .elem s, .elem s' => s = s'
  | .elem s, .subsElem s' => s = s'
  | .subsElem s, .elem s' => s = s'
  | .subsElem s, .subsElem s' => s = s'
  | o, o' => o = o'

mutual
/-- Unification of a pattern with a ground tree
(`unify(graph_et, pattern)`, `/repo/aemcmc/gibbs.py:149,330,350,666`; `eq(observed_rv_expr, Y_et)`,
`/repo/aemcmc/conjugates.py:65,139,216`).  The graph side has no logic variables, so unification is
one-way matching. -/
def matchP : Pat → Expr → Subst → Option Subst
  | .lv n, e, s =>
    match s.lookup n with
    | none => some ((n, e) :: s)
    | some e' => if e = e' then some s else none
  | .gnd e', e, s => if e = e' then some s else none
  | .app o ps, .app o' _ as, s => if headMatch o o' then matchArgs ps as s else none
  | .app _ _, _, _ => none
/-- Argument lists unify when they have the same length and unify position by position. -/
def matchArgs : List Pat → List Expr → Subst → Option Subst
  | [], [], s => some s
  | p :: ps, e :: es, s =>
    match matchP p e s with
    | some s' => matchArgs ps es s'
    | none => none
  | [], _ :: _, _ => none
  | _ :: _, [], _ => none
end

/-- Spec.  The operator an elementwise node computes, forgetting subsumed broadcasts. -/
def Op.strip : Op → Op
  | .subsElem s => .elem s
  | o => o

mutual
/-- Spec.  `Inst σ p e`: the tree `e` is the pattern `p` with its logic variables replaced
according to `σ`, reading a subsuming elementwise operator as the operator it wraps. -/
inductive Inst (σ : Nat → Option Expr) : Pat → Expr → Prop
  | lv {n e} : σ n = some e → Inst σ (.lv n) e
  | gnd {e} : Inst σ (.gnd e) e
  | app {o o' sh ps es} : o.strip = o'.strip → InstArgs σ ps es →
      Inst σ (.app o ps) (.app o' sh es)
/-- Instances of a list of patterns. -/
inductive InstArgs (σ : Nat → Option Expr) : List Pat → List Expr → Prop
  | nil : InstArgs σ [] []
  | cons {p ps e es} : Inst σ p e → InstArgs σ ps es → InstArgs σ (p :: ps) (e :: es)
end

end Verif
