import Verif.Shapes.RegLemmas
import Mathlib.Data.Fintype.BigOperators
import Mathlib.Data.Real.Basic
import Mathlib.Analysis.SpecialFunctions.Exp

/-!
# Model of `ffbs_step` with leading (batch) dimensions

The documentation gives the *base* shapes `(M,)`, `(N, M, M)` and `(M, N)` of the arguments.  Here the
arguments may have any shape.
-/

namespace Verif.Shapes

open Verif.Conj (bcast)

/-- `forward_step` (`/repo/aemcmc/ffbs.py:83-91`) on shapes: `ll` is the shape of `log_lik_n`.  `at.dot`
with a matrix on the right has the shape of `matmul`. -/
def forwardStep (ll Gamma alpha : Shape) : Except Err Shape := do
  let d ← matmul alpha Gamma
  let a ← bc d ll
  let s ← sumLast a
  bc s a

/-- `backward_step` (`/repo/aemcmc/ffbs.py:105-110`) on shapes; `Gamma_np1[:, state_n]` replaces the
last dimension of `Gamma_np1` by those of `state_n`, and `srng.categorical` drops the last dimension. -/
def backwardStep (alpha Gamma state : Shape) : Except Err Shape := do
  let g0 ← idx0 Gamma
  let beta ← bc alpha.reverse (g0 :: state)
  let s ← sumLast beta
  let beta ← bc beta s
  sumLast beta

/-- `ffbs_step` (`/repo/aemcmc/ffbs.py:66-131`) on shapes.  A scan whose step changes the shape of its
state fails, as does one over no element. -/
def ffbs (gamma0 Gammas logLik : Shape) : Except Err Shape := do
  let N ← match logLik.getLast? with
    | some N => Except.ok N
    | none => .error .build
  let G := Gammas.reverse.take 2 |>.reverse
  if bcast Gammas (N :: G) ≠ some (N :: G) then .error .run else
  if N = 0 then .error .run else
  let alpha ← forwardStep logLik.dropLast G gamma0
  if alpha ≠ gamma0 then .error .run else
  let S ← sumLast alpha.reverse
  let betaN ← bc alpha.reverse S
  let state ← sumLast betaN
  if N = 1 then .ok (1 :: state) else
  let state' ← backwardStep alpha G state
  if state' ≠ state then .error .run else
  .ok (N :: state)

/-! ## Values, for as many sequences as states -/

/-- `lik_n = at.exp(log_lik_n - log_lik_n.max())` (`/repo/aemcmc/ffbs.py:84-85`) for a batch: the maximum
is over all entries (`m` here).  Finite log-likelihoods only. -/
noncomputable def likBatch {k : ℕ} (ll : Fin k → Fin k → ℝ) (m : ℝ) : Fin k → Fin k → ℝ :=
  fun b s => Real.exp (ll b s - m)

/-- `forward_step` (`/repo/aemcmc/ffbs.py:83-91`) for `k` sequences over `k` states.  The condition of the
`switch` has shape `(k,)` and so is aligned with the *states*. -/
noncomputable def forwardBatch {k : ℕ} (bound : ℝ) (ll : Fin k → Fin k → ℝ) (m : ℝ)
    (Gamma : Fin k → Fin k → ℝ) (alpha : Fin k → Fin k → ℝ) : Fin k → Fin k → ℝ :=
  let a := fun b s => (∑ r, alpha b r * Gamma r s) * likBatch ll m b s
  fun b s => if ∑ r, a s r < bound then a b s / bound else a b s

/-- `gamma_0 / at.sum(gamma_0)` (`/repo/aemcmc/ffbs.py:76-77`): one total for the whole batch. -/
noncomputable def normBatch {k : ℕ} (gamma0 : Fin k → Fin k → ℝ) : Fin k → Fin k → ℝ :=
  fun b s => gamma0 b s / ∑ b', ∑ s', gamma0 b' s'

/-- `beta_N` (`/repo/aemcmc/ffbs.py:103`, `:112-113`) for `k` sequences over `k` states: `alphas.T` turns
`alpha[b, s]` into `alpha_N[s, b]`, and the sums over the last dimension are aligned with the last
dimension again.  Row `i` is given to `srng.categorical` for the last state of sequence `i`. -/
noncomputable def betaN {k : ℕ} (alpha : Fin k → Fin k → ℝ) (i j : Fin k) : ℝ :=
  let alphaN := fun s b : Fin k => alpha b s
  alphaN i j / ∑ b, alphaN j b

end Verif.Shapes
