/-!
# Model of the `DimShuffle` subsumption rewrite

`/repo/aemcmc/rewriting.py:179-403` and `/repo/aemcmc/utils.py:73-80`.

Simplifications: a variable is identified with the tree that computes it; only ranks are kept of static
types; `Elemwise` nodes carry the index of their scalar operation; the variables that are the output of
any other operation, and graph inputs, are leaves `var`.
-/

namespace Verif.Subs

/-- A `DimShuffle` order: `none` is `'x'` (`new_order`, used in `/repo/aemcmc/rewriting.py:310`). -/
abbrev Order := List (Option Nat)

/-- Tensor expressions.  `hole k r` is the `k`-th inner input, of rank `r`, of a `SubsumingElemwise`;
`sub inner args` is a `SubsumingElemwise` node with the inner graph `inner` applied to `args`
(`/repo/aemcmc/rewriting.py:179-240`). -/
inductive TExpr
  | var (id rank : Nat)
  | const (id rank : Nat)
  | hole (k rank : Nat)
  | ds (order : Order) (e : TExpr)
  | el (f : Nat) (args : List TExpr)
  | sub (inner : TExpr) (args : List TExpr)

namespace TExpr

mutual
/-- Decidable equality of trees (structural). -/
def decEq : (a b : TExpr) → Decidable (a = b)
  | var i r, var j s =>
    if h : i = j ∧ r = s then isTrue (by rw [h.1, h.2]) else
      isFalse (by intro he; cases he; exact h ⟨rfl, rfl⟩)
  | const i r, const j s =>
    if h : i = j ∧ r = s then isTrue (by rw [h.1, h.2]) else
      isFalse (by intro he; cases he; exact h ⟨rfl, rfl⟩)
  | hole i r, hole j s =>
    if h : i = j ∧ r = s then isTrue (by rw [h.1, h.2]) else
      isFalse (by intro he; cases he; exact h ⟨rfl, rfl⟩)
  | ds o e, ds o' e' =>
    if h : o = o' then
      match decEq e e' with
      | isTrue h' => isTrue (by rw [h, h'])
      | isFalse h' => isFalse (by intro he; cases he; exact h' rfl)
    else isFalse (by intro he; cases he; exact h rfl)
  | el f as, el g bs =>
    if h : f = g then
      match decEqList as bs with
      | isTrue h' => isTrue (by rw [h, h'])
      | isFalse h' => isFalse (by intro he; cases he; exact h' rfl)
    else isFalse (by intro he; cases he; exact h rfl)
  | sub e as, sub e' bs =>
    match decEq e e' with
    | isTrue h =>
      match decEqList as bs with
      | isTrue h' => isTrue (by rw [h, h'])
      | isFalse h' => isFalse (by intro he; cases he; exact h' rfl)
    | isFalse h => isFalse (by intro he; cases he; exact h rfl)
  | var _ _, const _ _ => isFalse (by intro h; cases h)
  | var _ _, hole _ _ => isFalse (by intro h; cases h)
  | var _ _, ds _ _ => isFalse (by intro h; cases h)
  | var _ _, el _ _ => isFalse (by intro h; cases h)
  | var _ _, sub _ _ => isFalse (by intro h; cases h)
  | const _ _, var _ _ => isFalse (by intro h; cases h)
  | const _ _, hole _ _ => isFalse (by intro h; cases h)
  | const _ _, ds _ _ => isFalse (by intro h; cases h)
  | const _ _, el _ _ => isFalse (by intro h; cases h)
  | const _ _, sub _ _ => isFalse (by intro h; cases h)
  | hole _ _, var _ _ => isFalse (by intro h; cases h)
  | hole _ _, const _ _ => isFalse (by intro h; cases h)
  | hole _ _, ds _ _ => isFalse (by intro h; cases h)
  | hole _ _, el _ _ => isFalse (by intro h; cases h)
  | hole _ _, sub _ _ => isFalse (by intro h; cases h)
  | ds _ _, var _ _ => isFalse (by intro h; cases h)
  | ds _ _, const _ _ => isFalse (by intro h; cases h)
  | ds _ _, hole _ _ => isFalse (by intro h; cases h)
  | ds _ _, el _ _ => isFalse (by intro h; cases h)
  | ds _ _, sub _ _ => isFalse (by intro h; cases h)
  | el _ _, var _ _ => isFalse (by intro h; cases h)
  | el _ _, const _ _ => isFalse (by intro h; cases h)
  | el _ _, hole _ _ => isFalse (by intro h; cases h)
  | el _ _, ds _ _ => isFalse (by intro h; cases h)
  | el _ _, sub _ _ => isFalse (by intro h; cases h)
  | sub _ _, var _ _ => isFalse (by intro h; cases h)
  | sub _ _, const _ _ => isFalse (by intro h; cases h)
  | sub _ _, hole _ _ => isFalse (by intro h; cases h)
  | sub _ _, ds _ _ => isFalse (by intro h; cases h)
  | sub _ _, el _ _ => isFalse (by intro h; cases h)
/-- Equality of argument lists is decidable. -/
def decEqList : (a b : List TExpr) → Decidable (a = b)
  | [], [] => isTrue rfl
  | [], _ :: _ => isFalse (by intro h; cases h)
  | _ :: _, [] => isFalse (by intro h; cases h)
  | a :: as, b :: bs =>
    match decEq a b, decEqList as bs with
    | isTrue h, isTrue h' => isTrue (by rw [h, h'])
    | isFalse h, _ => isFalse (by intro he; cases he; exact h rfl)
    | _, isFalse h => isFalse (by intro he; cases he; exact h rfl)
end

instance : DecidableEq TExpr := decEq

mutual
/-- `x.type.ndim`. -/
def rank : TExpr → Nat
  | var _ r => r
  | const _ r => r
  | hole _ r => r
  | ds o _ => o.length
  | el _ as => maxRank as
  | sub e _ => rank e
/-- Greatest rank in a list (the inputs of an `Elemwise` node all have the rank of its output). -/
def maxRank : List TExpr → Nat
  | [] => 0
  | a :: as => max (rank a) (maxRank as)
end

end TExpr

open TExpr

/-- An argument as the user may pass it: a Python number, or a variable. -/
inductive Arg
  | raw (id : Nat)
  | v (e : TExpr)

/-- `as_tensor_variable`, called at `/repo/aemcmc/utils.py:76`: a number becomes a constant. -/
def Arg.toVar : Arg → TExpr
  | .raw i => .const i 0
  | .v e => e

/-- `isinstance(inp_t, Constant)` (`/repo/aemcmc/utils.py:77`). -/
def isConst : TExpr → Bool
  | .const _ _ => true
  | _ => false

/-- `remove_constants` (`/repo/aemcmc/utils.py:73-80`). -/
def removeConstants : List Arg → List TExpr
  | [] => []
  | a :: as => if isConst a.toVar then removeConstants as else a.toVar :: removeConstants as

/-- Python's `xs[:k]` for any integer `k` (`/repo/aemcmc/rewriting.py:316`). -/
def pyTake {α : Type} (k : Int) (xs : List α) : List α :=
  if 0 ≤ k then xs.take k.toNat else xs.take (xs.length - (-k).toNat)

/-- Python's `xs[k:]` for any integer `k` (`/repo/aemcmc/rewriting.py:318`). -/
def pyDrop {α : Type} (k : Int) (xs : List α) : List α :=
  if 0 ≤ k then xs.drop k.toNat else xs.drop (xs.length - (-k).toNat)

/-- `tuple(range(n))` as a `DimShuffle` order. -/
def idOrder (n : Nat) : Order := (List.range n).map some

/-- One iteration of the loop over the inputs (`/repo/aemcmc/rewriting.py:304-354`): the entry of
`new_inputs`, the entry of `subsumed_inputs`, and whether a subsumable `DimShuffle` was found. -/
def subsumeInput (outNdim : Nat) : TExpr → TExpr × TExpr × Bool
  | .ds order v =>
    let ndimDiff : Int := (outNdim : Int) - (v.rank : Int)
    let elOrder := pyTake ndimDiff order
    let newOrder := pyDrop ndimDiff order
    if elOrder.isEmpty || !elOrder.all (· == none) then (.ds order v, .ds order v, false)
    else if !newOrder.isEmpty && !(newOrder == idOrder newOrder.length) then
      let w := TExpr.ds newOrder v
      (w, .ds (elOrder ++ idOrder w.rank) w, true)
    else (v, .ds order v, true)
  | i => (i, i, false)

/-- Position of the last occurrence of `e`, the one a dictionary built from the inputs keeps. -/
def lastIdx (e : TExpr) : List TExpr → Option Nat
  | [] => none
  | x :: xs =>
    match lastIdx e xs with
    | some k => some (k + 1)
    | none => if x = e then some 0 else none

/-- The inner input that stands for `e`, if `e` is one of the given inputs; otherwise `d`. -/
def holeOr (used : List TExpr) (e d : TExpr) : TExpr :=
  match lastIdx e used with
  | some k => .hole k e.rank
  | none => d

mutual
/-- The inner graph `OpFromGraph` makes of an output: the given inputs, wherever met from the output
down, become the inner inputs (`/repo/aemcmc/rewriting.py:197`, `:362`). -/
def abstr (used : List TExpr) : TExpr → TExpr
  | .var i r => holeOr used (.var i r) (.var i r)
  | .const i r => holeOr used (.const i r) (.const i r)
  | .hole i r => holeOr used (.hole i r) (.hole i r)
  | .ds o e => holeOr used (.ds o e) (.ds o (abstr used e))
  | .el f as => holeOr used (.el f as) (.el f (abstrArgs used as))
  | .sub inner as => holeOr used (.sub inner as) (.sub inner (abstrArgs used as))
/-- The same on argument lists. -/
def abstrArgs (used : List TExpr) : List TExpr → List TExpr
  | [] => []
  | a :: as => abstr used a :: abstrArgs used as
end

/-- `local_elemwise_dimshuffle_subsume` (`/repo/aemcmc/rewriting.py:268-367`); `none` is "no
replacement". -/
def subsume : TExpr → Option TExpr
  | .el f args =>
    let parts := args.map (subsumeInput (TExpr.el f args).rank)
    if parts.any (·.2.2) then
      let body := TExpr.el f (parts.map (·.2.1))
      let used := removeConstants (parts.map fun p => .v p.1)
      some (.sub (abstr used body) used)
    else none
  | _ => none

mutual
/-- `clone_replace` of the inner inputs: those without a partner in the truncating `zip` stay. -/
def instHoles (args : List TExpr) : TExpr → TExpr
  | .hole k r => (args[k]?).getD (.hole k r)
  | .ds o e => .ds o (instHoles args e)
  | .el f as => .el f (instHolesArgs args as)
  | .sub inner as => .sub inner (instHolesArgs args as)
  | e => e
/-- The same on argument lists. -/
def instHolesArgs (args : List TExpr) : List TExpr → List TExpr
  | [] => []
  | a :: as => instHoles args a :: instHolesArgs args as
end

/-- `inline_SubsumingElemwise` (`/repo/aemcmc/rewriting.py:378-392`). -/
def inline : TExpr → Option TExpr
  | .sub inner args => some (instHoles args inner)
  | _ => none

mutual
/-- The graph pass `in2out(local_elemwise_dimshuffle_subsume)` (`/repo/aemcmc/rewriting.py:370-375`):
inputs before outputs, every node visited. -/
def subsumeAll : TExpr → TExpr
  | .ds o e => .ds o (subsumeAll e)
  | .el f as => (subsume (.el f (subsumeAllArgs as))).getD (.el f (subsumeAllArgs as))
  | .sub inner as => .sub inner (subsumeAllArgs as)
  | e => e
/-- The same on argument lists. -/
def subsumeAllArgs : List TExpr → List TExpr
  | [] => []
  | a :: as => subsumeAll a :: subsumeAllArgs as
end

mutual
/-- The graph pass `expand_subsumptions` (`/repo/aemcmc/rewriting.py:395`).  The inner graphs are expanded
as well, since the nodes they contribute are visited in turn. -/
def expandAll : TExpr → TExpr
  | .ds o e => .ds o (expandAll e)
  | .el f as => .el f (expandAllArgs as)
  | .sub inner as => instHoles (expandAllArgs as) (expandAll inner)
  | e => e
/-- The same on argument lists. -/
def expandAllArgs : List TExpr → List TExpr
  | [] => []
  | a :: as => expandAll a :: expandAllArgs as
end

end Verif.Subs
