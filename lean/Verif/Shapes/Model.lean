import Verif.Conj.Shape

/-!
# Run-time shapes of the Gibbs steps and of FFBS

The functions of `/repo/aemcmc/gibbs.py`, `/repo/aemcmc/dists.py` and `/repo/aemcmc/ffbs.py` followed
line by line with every array replaced by its shape.  Elementwise operations broadcast as in NumPy
(`Verif.Conj.bcast`).  An operation that cannot work for the *number* of dimensions fails while the
graph is built; one that cannot work for the *sizes* fails when the compiled function runs.  Where
Aesara is stricter than NumPy (a dimension that happens to be 1 without being declared so) the real
outcome is a run-time failure where the model may still succeed.
-/

namespace Verif.Shapes

open Verif.Conj (bcast)

/-- When an operation fails: while the graph is built, or when it is run (library convention). -/
inductive Err
  | build | run
  deriving DecidableEq, Repr

/-- The shape of an array, `x.shape`. -/
abbrev Shape := List Nat

/-- Elementwise operation on two arrays (library; for example `/repo/aemcmc/dists.py:140-141`). -/
def bc (a b : Shape) : Except Err Shape :=
  match bcast a b with
  | some s => .ok s
  | none => .error .run

/-- `x.shape[0]`; there is no such entry for a scalar (library; `/repo/aemcmc/dists.py:137`). -/
def idx0 : Shape → Except Err Nat
  | [] => .error .build
  | a :: _ => .ok a

/-- `x.shape[1]` (library; `/repo/aemcmc/gibbs.py:126`). -/
def idx1 : Shape → Except Err Nat
  | _ :: b :: _ => .ok b
  | _ => .error .build

/-- `x[:, None]`; "too many indices for array" for a scalar (library;
`/repo/aemcmc/dists.py:142`). -/
def newAxis1 : Shape → Except Err Shape
  | [] => .error .build
  | a :: s => .ok (a :: 1 :: s)

/-- `a @ b` (library, NumPy `matmul`: vectors are promoted, leading dimensions broadcast, scalars
refused; `/repo/aemcmc/gibbs.py:44`, `/repo/aemcmc/dists.py:146`). -/
def matmul (a b : Shape) : Except Err Shape :=
  match a.reverse, b.reverse with
  | [], _ => .error .build
  | _, [] => .error .build
  | [k], [k'] => if k = k' then .ok [] else .error .run
  | [k], n :: k' :: batch => if k = k' then .ok (batch.reverse ++ [n]) else .error .run
  | k :: m :: batch, [k'] => if k = k' then .ok (batch.reverse ++ [m]) else .error .run
  | k :: m :: batch, n :: k' :: batch' =>
    if k = k' then (bc batch.reverse batch'.reverse).map (· ++ [m, n]) else .error .run

/-- `set_subtensor(M[i, i], at.diag(M) + v)` with `i = at.arange(count)`
(`/repo/aemcmc/gibbs.py:45-49`, `/repo/aemcmc/dists.py:147-151`): `at.diag` extracts from
matrices only, `i` must index both dimensions, and the value must broadcast to the selected entries. -/
def setDiag (M : Shape) (count : Nat) (v : Shape) : Except Err Shape :=
  match M with
  | [r, c] =>
    match bc [min r c] v with
    | .error e => .error e
    | .ok e => if count ≤ r ∧ count ≤ c ∧ bcast e [count] = some [count] then .ok [r, c]
      else .error .run
  | _ => .error .build

/-- `at.linalg.cholesky` (library; `/repo/aemcmc/dists.py:52`): a square matrix. -/
def cholesky : Shape → Except Err Shape
  | [r, c] => if r = c then .ok [r, c] else .error .run
  | _ => .error .build

/-- `solve_triangular(A, b)` and `at.linalg.solve(A, b)` (library; `/repo/aemcmc/dists.py:53-57`,
`:152`): `A` square, `b` a vector or a
matrix with as many rows. -/
def solve : Shape → Shape → Except Err Shape
  | [r, c], [k] => if r = c ∧ r = k then .ok [k] else .error .run
  | [r, c], [k, m] => if r = c ∧ r = k then .ok [k, m] else .error .run
  | _, _ => .error .build

/-- `multivariate_normal_rue2005` (`/repo/aemcmc/dists.py:50-58`). -/
def rue2005 (b Q : Shape) : Except Err Shape := do
  let L ← cholesky Q
  let w ← solve L b
  let u ← solve L.reverse w
  let l0 ← idx0 L
  let v ← solve L.reverse [l0]
  bc u v

/-- `multivariate_normal_cong2017` (`/repo/aemcmc/dists.py:136-153`). -/
def cong2017 (A omega phi t : Shape) : Except Err Shape := do
  let aRows ← idx0 A
  let o0 ← idx0 omega
  let y1 ← bc A [min aRows (aRows + o0)]
  let y2 ← bc omega [aRows + o0 - aRows]
  let A1 ← newAxis1 A
  let AinvPhi ← bc A1 phi.reverse
  let B ← matmul phi AinvPhi
  let b0 ← idx0 B
  let B ← setDiag B b0 omega
  let m ← matmul phi y1
  let r ← bc t m
  let r ← bc r y2
  let alpha ← solve B r
  let w ← matmul AinvPhi alpha
  bc y1 w

/-- `normal_regression_overdetermined_posterior` (`/repo/aemcmc/gibbs.py:44-50`). -/
def over (omega lam X z : Shape) : Except Err Shape := do
  let o1 ← newAxis1 omega
  let oX ← bc o1 X
  let Q ← matmul X.reverse oX
  let q1 ← idx1 Q
  let Q ← setDiag Q q1 lam
  let oz ← bc omega z
  let b ← matmul X.reverse oz
  rue2005 b Q

/-- `normal_regression_posterior` (`/repo/aemcmc/gibbs.py:125-131`).  Both branches of the `ifelse` are
built; only the selected one runs. -/
def regression (omega lam X z : Shape) : Except Err Shape := do
  let x1 ← idx1 X
  let x0 ← idx0 X
  match cong2017 lam omega X z, over omega lam X z with
  | .error .build, _ => .error .build
  | _, .error .build => .error .build
  | u, o => if x1 > x0 then u else o

/-- `nbinom_normal_posterior` (`/repo/aemcmc/gibbs.py:541-548`). -/
def nbinomNormal (beta std X h y : Shape) : Except Err Shape := do
  let yh ← bc y h
  let Xb ← matmul X beta
  let w ← bc yh Xb
  let d ← bc y h
  let z ← bc d w
  regression w std X z

/-- `bern_normal_posterior` (`/repo/aemcmc/gibbs.py:724-731`). -/
def bernNormal (beta std X y : Shape) : Except Err Shape := do
  let Xb ← matmul X beta
  let w ← bc [] Xb
  let z ← bc y w
  regression w std X z

/-- `horseshoe_posterior` (`/repo/aemcmc/gibbs.py:241-257`): the shapes of the two returned arrays. -/
def horseshoe (beta sigma2 lambda2 tau2 : Shape) : Except Err (Shape × Shape) := do
  let upsilonInv := lambda2
  let zetaInv := tau2
  let t ← bc beta tau2
  let t ← bc t sigma2
  let lambdaNew ← bc upsilonInv t
  let _ ← idx0 beta
  let _ ← bc beta lambdaNew
  let s ← bc [] sigma2
  let rate ← bc zetaInv s
  let tauNew ← bc [] rate
  return (lambdaNew, tauNew)

/-- `single_sample_CRT` run over all entries of `y` (`/repo/aemcmc/gibbs.py:387-400`): the entry `y_i`
makes a vector of length `max (y_i - 1) 0`, which is combined with `h` and summed; the results are
given the shape of `y`.  `ys` are the values of `y` (cut off at zero). -/
def sampleCRT (ys : List Nat) (y h : Shape) : Except Err Shape := do
  let _ ← ys.mapM fun yi => bc h [yi - 1]
  return y

/-- `x.sum(axis=-1)` (library; `/repo/aemcmc/gibbs.py:473`). -/
def sumLast : Shape → Except Err Shape
  | [] => .error .build
  | a :: s => .ok (a :: s).dropLast

/-- `nbinom_dispersion_posterior` (`/repo/aemcmc/gibbs.py:472-478`). -/
def dispersion (ys : List Nat) (h p a b y : Shape) : Except Err Shape := do
  let Ls ← sampleCRT ys y h
  let Lsum ← sumLast Ls
  let sh ← bc a Lsum
  let q ← sumLast p
  let rate ← bc b q
  bc sh rate

end Verif.Shapes
