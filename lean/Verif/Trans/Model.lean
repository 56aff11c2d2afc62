import Verif.Expr.Model
import Mathlib.Data.Rat.Cast.Defs

/-!
# Model of `/repo/aemcmc/transforms.py`

Both relations are run in the forward direction, as in `KanrenRelationSub(relation)`: given the first
argument, the second is produced, or the node is left alone (`none`).  The backward direction fails
when the produced tuple is evaluated (`/repo/tests/test_transforms.py:30-33,65-68`) and is not
modelled.
-/

namespace Verif.Trans

/-- The facts of the relation `location_scale_family` (`/repo/aemcmc/transforms.py:7-13`). -/
def locationScaleFamily : List Dist := [.cauchy, .gumbel, .laplace, .logistic, .normal, .t]

/-- Shape of a draw whose distribution parameters are scalars: the `size` argument.  A symbolic size of
known length gives that many unknown dimensions. -/
def sizeShape : Expr → SShape
  | .const data _ => data.map fun q => some q.num.toNat
  | .input _ [some k] => List.replicate k none
  | .app _ [some k] _ => List.replicate k none
  | _ => []

/-- Right-aligned broadcast of two static shapes of elementwise operands (a length known to be 1 gives
way; otherwise the first known length is kept). -/
def bshape (a b : SShape) : SShape :=
  let n := max a.length b.length
  let pad := fun (s : SShape) => List.replicate (n - s.length) (some 1) ++ s
  List.zipWith (fun x y => if x = some 1 then y else if y = some 1 then x else x.or y) (pad a) (pad b)

/-- `distribution(0, 1, rng=rng, size=size, dtype=dtype)` (`/repo/aemcmc/transforms.py:59-66`). -/
def noise (d : Dist) (rng size dtype : Expr) : Expr :=
  .app (.rv d) (sizeShape size) [rng, size, dtype, .const [0] [], .const [1] []]

/-- `centered_et` (`/repo/aemcmc/transforms.py:47-50`) with the operator logic variable already bound. -/
def centeredPat (d : Dist) : Pat := .app (.rv d) [.lv 0, .lv 1, .lv 2, .lv 3, .lv 4]

/-- `noncentered_et` (`/repo/aemcmc/transforms.py:52-68`), reified with the bindings `s`.  The
`DimShuffle` nodes with which `Elemwise` aligns ranks are left out. -/
def noncentered (d : Dist) (s : Subst) : Option Expr := do
  let rng ← s.lookup 0
  let size ← s.lookup 1
  let dtype ← s.lookup 2
  let mu ← s.lookup 3
  let sd ← s.lookup 4
  let x := noise d rng size dtype
  let scaled := Expr.app (.elem .mul) (bshape sd.shape x.shape) [sd, x]
  return .app (.elem .add) (bshape mu.shape scaled.shape) [mu, scaled]

/-- `location_scale_transform` (`/repo/aemcmc/transforms.py:16-74`): the conjunction of the two
unifications and the membership fact; the facts are tried in order. -/
def locationScaleTransform (e : Expr) : Option Expr :=
  locationScaleFamily.findSome? fun d => (matchP (centeredPat d) e []).bind (noncentered d)

/-- `invgamma_et` (`/repo/aemcmc/transforms.py:105-107`); the shape parameter is the ground constant
`1.0` (dtypes of constants are not modelled). -/
def invgammaPat : Pat := .app (.rv .invgamma) [.lv 0, .lv 1, .lv 2, .gnd (.const [1] []), .lv 3]

/-- `exponential(c, rng=rng, size=size, dtype=dtype)` (`/repo/aemcmc/transforms.py:109-115`).  The node
of the constant `1.0` in the pattern is a scalar, so the shape is that of `size`, or of `c` when the
size is empty. -/
def expNode (rng size dtype c : Expr) : Expr :=
  .app (.rv .exponential) (if sizeShape size = [] then c.shape else sizeShape size) [rng, size, dtype, c]

/-- `invgamma_exponential` (`/repo/aemcmc/transforms.py:77-120`), from the first argument to the
second. -/
def invgammaExponential (e : Expr) : Option Expr := do
  let s ← matchP invgammaPat e []
  let rng ← s.lookup 0
  let size ← s.lookup 1
  let dtype ← s.lookup 2
  let c ← s.lookup 3
  let x := expNode rng size dtype c
  return .app (.elem .trueDiv) x.shape [.const [1] [], x]

end Verif.Trans
