import Mathlib.Probability.ProbabilityMassFunction.Constructions
import Mathlib.Probability.ProbabilityMassFunction.Monad
import Mathlib.Analysis.SpecialFunctions.Exp
import Mathlib.Data.Matrix.Mul
import Mathlib.Data.Real.Basic

/-!
# Model of forward-filtering backward-sampling (`/repo/aemcmc/ffbs.py`)

Numbers are exact reals; a log-likelihood may also be `-∞` (`⊥`).  An array containing `nan`, and
any draw made from it, is modelled by `none`.  For leading (batch) dimensions see
`Verif/Shapes/Batch.lean`; here `gamma_0` has shape
`(M,)`, `Gammas` shape `(N, M, M)` or `(1, M, M)`, `log_lik` shape `(M, N)`.
-/

open Matrix
open scoped ENNReal

namespace Verif.FFBS

variable {M : ℕ}

/-- `at.exp(log_lik_n - m)` for one entry (`/repo/aemcmc/ffbs.py:85`); `exp(-inf) = 0`. -/
noncomputable def expShift (m : ℝ) : WithBot ℝ → ℝ
  | ⊥ => 0
  | (x : ℝ) => Real.exp (x - m)

/-- `lik_n = at.exp(log_lik_n - log_lik_n.max())` (`/repo/aemcmc/ffbs.py:84-85`).  If every entry is
`-inf` the difference is `nan`. -/
noncomputable def likN (ll : Fin M → WithBot ℝ) : Option (Fin M → ℝ) :=
  if h : Finset.univ.sup ll = ⊥ then none
  else some fun k => expShift ((Finset.univ.sup ll).unbot h) (ll k)

/-- `forward_step(log_lik_T_n, Gamma_n, alpha_nm1)` (`/repo/aemcmc/ffbs.py:83-91`). -/
noncomputable def forwardStep (lowerPrecBound : ℝ) (ll : Fin M → WithBot ℝ)
    (Gamma : Matrix (Fin M) (Fin M) ℝ) (alpha : Fin M → ℝ) : Option (Fin M → ℝ) :=
  (likN ll).map fun lik =>
    let alphaN := fun k => (alpha ᵥ* Gamma) k * lik k
    if ∑ k, alphaN k < lowerPrecBound then fun k => alphaN k / lowerPrecBound else alphaN

/-- The forward scan (`/repo/aemcmc/ffbs.py:93-101`): all `alphas`, or `none` when one of them is
`nan` (every later one is then `nan` too). -/
noncomputable def forwardPass (lowerPrecBound : ℝ) :
    (Fin M → ℝ) → List ((Fin M → WithBot ℝ) × Matrix (Fin M) (Fin M) ℝ) → Option (List (Fin M → ℝ))
  | _, [] => some []
  | alpha, (ll, Gamma) :: rest =>
    (forwardStep lowerPrecBound ll Gamma alpha).bind fun alpha' =>
      (forwardPass lowerPrecBound alpha' rest).map fun as => alpha' :: as

/-- `Gammas = at.broadcast_to(Gammas, (N,) + Gammas.shape[-2:])` (`/repo/aemcmc/ffbs.py:81`); other
leading dimensions raise. -/
def broadcastGammas (N : ℕ) (Gammas : List (Matrix (Fin M) (Fin M) ℝ)) :
    Option (List (Matrix (Fin M) (Fin M) ℝ)) :=
  if Gammas.length = N then some Gammas
  else match Gammas with
    | [G] => some (List.replicate N G)
    | _ => none

open Classical in
/-- `srng.categorical(p)` (`/repo/aemcmc/ffbs.py:109`, `:115`): a draw from `p` when it is a probability
vector; there is no meaningful draw otherwise (in particular when `p` is `0/0`). -/
noncomputable def categorical (p : Fin M → ℝ) : PMF (Option (Fin M)) :=
  if h : (∀ i, 0 ≤ p i) ∧ ∑ i, p i = 1 then
    (PMF.ofFintype (fun i => ENNReal.ofReal (p i)) (by
      rw [← ENNReal.ofReal_sum_of_nonneg fun i _ => h.1 i, h.2, ENNReal.ofReal_one])).map some
  else PMF.pure none

/-- The backward scan (`/repo/aemcmc/ffbs.py:105-125`) over the sequence elements in the order in which
they are visited, starting from the state `k`: the drawn states in the order of drawing. -/
noncomputable def backwardScan :
    List ((Fin M → ℝ) × Matrix (Fin M) (Fin M) ℝ) → Fin M → PMF (Option (List (Fin M)))
  | [], _ => PMF.pure (some [])
  | (alpha, Gamma) :: rest, k =>
    let beta := fun j => alpha j * Gamma j k
    (categorical fun j => beta j / ∑ i, beta i).bind fun
      | none => PMF.pure none
      | some j => (backwardScan rest j).map fun o => o.map fun l => j :: l

/-- `ffbs_step(gamma_0, Gammas, log_lik, srng, lower_prec_bound)` (`/repo/aemcmc/ffbs.py:9-131`);
`logLik` lists the columns of `log_lik`. -/
noncomputable def ffbsStep (gamma0 : Fin M → ℝ) (Gammas : List (Matrix (Fin M) (Fin M) ℝ))
    (logLik : List (Fin M → WithBot ℝ)) (lowerPrecBound : ℝ) : PMF (Option (List (Fin M))) :=
  let N := logLik.length
  match broadcastGammas N Gammas with
  | none => PMF.pure none
  | some Gs =>
    match forwardPass lowerPrecBound (fun k => gamma0 k / ∑ i, gamma0 i) (logLik.zip Gs) with
    | none => PMF.pure none
    | some alphas =>
      match alphas[N - 1]? with
      | none => PMF.pure none
      | some alphaN =>
        (categorical fun k => alphaN k / ∑ i, alphaN i).bind fun
          | none => PMF.pure none
          | some k =>
            (backwardScan ((alphas.take (N - 1)).zip (Gs.drop 1)).reverse k).map fun o =>
              o.map fun l => (k :: l).reverse

end Verif.FFBS
