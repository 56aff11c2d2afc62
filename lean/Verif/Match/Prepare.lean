import Verif.Match.Model
import Verif.Match.Spec
import Mathlib.Data.Real.Basic
import Mathlib.Algebra.BigOperators.Group.List.Basic

/-!
# The preparation of the graph, on the trees the matchers see

`Verif/Subs/Model.lean` models the subsumption rewrite with its inner graphs, to show that it keeps
values.  The matchers never look at the inner graph, only at the wrapped operation and at the inputs
that are left.  This file models that view, so that the rewrite can be composed with the matchers.
-/

namespace Verif.Match

open Verif

/-- Python's `xs[:k]` (`/repo/aemcmc/rewriting.py:316`). -/
def sliceTo {α : Type} (k : Int) (xs : List α) : List α :=
  if 0 ≤ k then xs.take k.toNat else xs.take (xs.length - (-k).toNat)

/-- Python's `xs[k:]` (`/repo/aemcmc/rewriting.py:318`). -/
def sliceFrom {α : Type} (k : Int) (xs : List α) : List α :=
  if 0 ≤ k then xs.drop k.toNat else xs.drop (xs.length - (-k).toNat)

/-- The static shape of `v.dimshuffle(order)`: an inserted dimension has length one. -/
def shuffledShape (order : List (Option Nat)) (v : Expr) : SShape :=
  order.map fun
    | none => some 1
    | some i => v.shape.getD i none

/-- One iteration of the loop over the inputs (`/repo/aemcmc/rewriting.py:304-354`): the entry of
`new_inputs`, and whether a subsumable `DimShuffle` was found. -/
def exposeInput (outNdim : Nat) : Expr → Expr × Bool
  | .app (.dimshuffle order) sh [v] =>
    let diff : Int := (outNdim : Int) - (v.shape.length : Int)
    let elOrder := sliceTo diff order
    let newOrder := sliceFrom diff order
    if elOrder.isEmpty || !elOrder.all (· == none) then (.app (.dimshuffle order) sh [v], false)
    else if !newOrder.isEmpty && !(newOrder == (List.range newOrder.length).map some) then
      (.app (.dimshuffle newOrder) (shuffledShape newOrder v) [v], true)
    else (v, true)
  | e => (e, false)

/-- `isinstance(inp_t, Constant)` (`/repo/aemcmc/utils.py:77`). -/
def isConstant : Expr → Bool
  | .const _ _ => true
  | _ => false

/-- `local_elemwise_dimshuffle_subsume` (`/repo/aemcmc/rewriting.py:268-367`) as the matchers see it:
the operation, and the inputs that `remove_constants` (`/repo/aemcmc/utils.py:73-80`) leaves.  The inner
graph, which still holds the constants, is dropped. -/
def exposeNode : Expr → Expr
  | .app (.elem s) sh as =>
    if as.any (fun a => (exposeInput sh.length a).2) then
      .app (.subsElem s) sh ((as.map fun a => (exposeInput sh.length a).1).filter (!isConstant ·))
    else .app (.elem s) sh as
  | e => e

mutual
/-- The graph pass `in2out(local_elemwise_dimshuffle_subsume)` (`/repo/aemcmc/rewriting.py:370-375`),
inputs before outputs.  The canonicalisation that the same database holds
(`/repo/aemcmc/rewriting.py:32-38`) is library code and not modelled: the expression is the one the
subsumption pass is given. -/
def prepare : Expr → Expr
  | .input i sh => .input i sh
  | .const d sh => .const d sh
  | .app o sh as => exposeNode (.app o sh (prepareArgs as))
/-- The same on argument lists. -/
def prepareArgs : List Expr → List Expr
  | [] => []
  | a :: as => prepare a :: prepareArgs as
end

/-- Spec.  New leading dimensions, then the dimensions `0, 1, …` in their order: the rearrangement an
elementwise operation makes of an operand of lower rank. -/
def Leading (order : List (Option Nat)) : Prop :=
  ∃ k j, order = List.replicate k none ++ (List.range j).map some

open Classical in
/-- Spec.  The factor itself, without the broadcasting of an elementwise operation. -/
noncomputable def bare : Expr → Expr
  | .app (.dimshuffle o) sh [v] => if Leading o then v else .app (.dimshuffle o) sh [v]
  | e => e

mutual
/-- Spec.  A graph as a user writes it: without the operators the preparation introduces. -/
def Plain : Expr → Prop
  | .input _ _ => True
  | .const _ _ => True
  | .app o _ as => (∀ s, o ≠ .subsElem s) ∧ PlainArgs as
/-- The same for argument lists. -/
def PlainArgs : List Expr → Prop
  | [] => True
  | a :: as => Plain a ∧ PlainArgs as
end

mutual
/-- Spec.  The value of an expression when every entry of each random variable or graph input `e` has
the value `ρ e`; constants have equal entries as well.  Rearranging the dimensions then changes
nothing, and only products are computed: the value of every other operation is left to `ρ`. -/
noncomputable def evenValue (ρ : Expr → ℝ) : Expr → ℝ
  | .input i sh => ρ (.input i sh)
  | .const d _ => ((d.headD 0 : ℚ) : ℝ)
  | .app (.dimshuffle o) sh as => match as with
    | [v] => evenValue ρ v
    | as => ρ (.app (.dimshuffle o) sh as)
  | .app (.elem .mul) _ as => evenProduct ρ as
  | .app o sh as => ρ (.app o sh as)
/-- The product of the values of the arguments. -/
noncomputable def evenProduct (ρ : Expr → ℝ) : List Expr → ℝ
  | [] => 1
  | a :: as => evenValue ρ a * evenProduct ρ as
end

end Verif.Match
