import Verif.Subs.Model
import Mathlib.Data.Real.Basic

/-!
# Tensor semantics of `DimShuffle`, `Elemwise` and subsumed nodes

Specification for C40–C42.
-/

namespace Verif.Subs

/-- Spec.  A tensor: its shape and its entries.  Only entries at valid indices matter. -/
structure Tensor where
  /-- lengths of the dimensions -/
  shape : List ℕ
  /-- entries -/
  get : List ℕ → ℝ

/-- Spec.  An index inside a shape. -/
def Valid (shape idx : List ℕ) : Prop := List.Forall₂ (· < ·) idx shape

open Classical in
/-- Spec.  The tensor of a given shape with the given entries (zero outside, so that equal tensors are
equal). -/
noncomputable def mkTensor (shape : List ℕ) (f : List ℕ → ℝ) : Tensor :=
  ⟨shape, fun idx => if Valid shape idx then f idx else 0⟩

/-- Spec.  The index into the input of a `DimShuffle` of rank `n`: dimension `j` of the input is indexed by
the position at which `j` stands in the order; a dropped dimension, of length one, has index zero. -/
def dsIndex (order : Order) (n : ℕ) (idx : List ℕ) : List ℕ :=
  (List.range n).map fun j => (idx[order.idxOf (some j)]?).getD 0

/-- Spec.  An order that can be applied to a tensor of the given shape: it mentions only its dimensions,
none twice, and drops only dimensions of length one. -/
def DsOk (order : Order) (shape : List ℕ) : Prop :=
  (∀ i, some i ∈ order → i < shape.length) ∧ (∀ i, order.count (some i) ≤ 1) ∧
    ∀ i (h : i < shape.length), some i ∉ order → shape[i] = 1

/-- Spec.  Shape of a shuffled tensor. -/
def dsShape (order : Order) (shape : List ℕ) : List ℕ :=
  order.map fun
    | none => 1
    | some i => (shape[i]?).getD 0

open Classical in
/-- Spec.  `DimShuffle`; `none` is an error. -/
noncomputable def dsT (order : Order) (t : Tensor) : Option Tensor :=
  if DsOk order t.shape then
    some (mkTensor (dsShape order t.shape) fun idx => t.get (dsIndex order t.shape.length idx))
  else none

/-- Spec.  Broadcasting an index to a tensor: dimensions of length one are indexed by zero. -/
def clip (shape idx : List ℕ) : List ℕ :=
  List.zipWith (fun n i => if n = 1 then 0 else i) shape idx

open Classical in
/-- Spec.  `Elemwise` application of a scalar function to tensors: the tensors must have the shape `s` up to
dimensions of length one, and `s` must be the least such shape. -/
noncomputable def elT (f : List ℝ → ℝ) (ts : List Tensor) : Option Tensor :=
  if h : ∃ s : List ℕ, (∀ t ∈ ts, List.Forall₂ (fun n m => n = 1 ∨ n = m) t.shape s) ∧
      ∀ k (hk : k < s.length), s[k] ≠ 1 → ∃ t ∈ ts, t.shape[k]? = some s[k] then
    some (mkTensor h.choose fun idx => f (ts.map fun t => t.get (clip t.shape idx)))
  else none

/-- Spec.  Values of variables and constants, and the meaning of the scalar operations. -/
structure Interp where
  /-- variables -/
  var : ℕ → ℕ → Tensor
  /-- constants -/
  const : ℕ → ℕ → Tensor
  /-- scalar operations -/
  op : ℕ → List ℝ → ℝ

mutual
/-- Spec.  Value of an expression, given the values of the inner inputs; `none` is an error. -/
noncomputable def eval (ι : Interp) : TExpr → List Tensor → Option Tensor
  | .var i r, _ => some (ι.var i r)
  | .const i r, _ => some (ι.const i r)
  | .hole k _, σ => σ[k]?
  | .ds o e, σ => (eval ι e σ).bind (dsT o)
  | .el f as, σ => (evalArgs ι as σ).bind (elT (ι.op f))
  | .sub inner as, σ => (evalArgs ι as σ).bind (eval ι inner)
/-- Spec.  Values of a list of expressions. -/
noncomputable def evalArgs (ι : Interp) : List TExpr → List Tensor → Option (List Tensor)
  | [], _ => some []
  | a :: as, σ => (eval ι a σ).bind fun t => (evalArgs ι as σ).map (t :: ·)
end

mutual
/-- Spec.  An inner graph over `n` inner inputs (the inner graphs of nested subsuming nodes have their
own). -/
def Scoped (n : ℕ) : TExpr → Prop
  | .hole k _ => k < n
  | .ds _ e => Scoped n e
  | .el _ as => ScopedArgs n as
  | .sub inner as => Scoped as.length inner ∧ ScopedArgs n as
  | _ => True
/-- Spec.  The same on argument lists. -/
def ScopedArgs (n : ℕ) : List TExpr → Prop
  | [] => True
  | a :: as => Scoped n a ∧ ScopedArgs n as
end

/-- Spec.  An outer graph: no inner input occurs outside the inner graph of a subsuming node. -/
abbrev Outer (e : TExpr) : Prop := Scoped 0 e

mutual
/-- Spec.  No subsuming node is left. -/
def NoSub : TExpr → Prop
  | .ds _ e => NoSub e
  | .el _ as => NoSubArgs as
  | .sub _ _ => False
  | _ => True
/-- Spec.  The same on argument lists. -/
def NoSubArgs : List TExpr → Prop
  | [] => True
  | a :: as => NoSub a ∧ NoSubArgs as
end

open Classical in
/-- Spec.  The members of a list that are not constants. -/
noncomputable def dropConstants (es : List TExpr) : List TExpr :=
  es.filter fun e => ¬ ∃ i r, e = .const i r

/-- Spec.  The variables among the arguments given (numbers are not variables). -/
def givenVars : List Arg → List TExpr
  | [] => []
  | .raw _ :: as => givenVars as
  | .v e :: as => e :: givenVars as

mutual
/-- Spec.  The variable `var i r` occurs in the graph. -/
def HasVar (i r : ℕ) : TExpr → Prop
  | .var j s => i = j ∧ r = s
  | .ds _ e => HasVar i r e
  | .el _ as => HasVarArgs i r as
  | .sub inner as => HasVar i r inner ∨ HasVarArgs i r as
  | _ => False
/-- Spec.  The same on argument lists. -/
def HasVarArgs (i r : ℕ) : List TExpr → Prop
  | [] => False
  | a :: as => HasVar i r a ∨ HasVarArgs i r as
end

/-- Spec.  `i` is a `DimShuffle` of `v` that begins with the broadcast dimensions `Elemwise` adds on the
left to bring the rank of `v` up to `r`, at least one; `rest` is the remainder of its order. -/
def LeftPadded (r : ℕ) (i v : TExpr) (rest : Order) : Prop :=
  v.rank < r ∧ i = .ds (List.replicate (r - v.rank) none ++ rest) v

/-- Spec.  What the rewrite should expose for an input. -/
def Exposes (r : ℕ) (i e : TExpr) : Prop :=
  (∃ v rest, LeftPadded r i v rest ∧
    e = if rest = idOrder rest.length then v else .ds rest v) ∨
  ((¬ ∃ v rest, LeftPadded r i v rest) ∧ e = i)

end Verif.Subs
