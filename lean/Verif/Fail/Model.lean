import Verif.Fail.Prog
import Verif.HsReg.Model
import Verif.CRT.Model

/-!
# The samplers as programs that can fail

The same functions as in `Mvn/Model`, `PG/Model`, `Horseshoe/Model` and `CRT/Model`, written so that every
division, square root, logarithm, factorisation and linear solve states when it is defined and every random
draw states which parameters its generator accepts.  Reals are exact.
-/

open MeasureTheory ProbabilityTheory Matrix

namespace Verif.Fail

/-- Lists of outcomes are discrete. -/
scoped instance : MeasurableSpace (List Bool) := ⊤

/-- Lists of integers are discrete. -/
scoped instance : MeasurableSpace (List ℤ) := ⊤

/-- `srng.exponential(args)` (`/repo/aemcmc/gibbs.py:244-248`).  A scale or a rate has to be positive; NumPy also
accepts the scale `0`, which is not a density. -/
noncomputable def expGen (conv : Horseshoe.ExpArg) {p : ℕ} (args : Fin p → ℝ) : Gen (Fin p → ℝ) :=
  ⟨Measure.pi fun j => Horseshoe.expDraw conv (args j), ∀ j, 0 < args j⟩

/-- `srng.exponential(arg)` for a scalar (`/repo/aemcmc/gibbs.py:245`). -/
noncomputable def expGen1 (conv : Horseshoe.ExpArg) (arg : ℝ) : Gen ℝ :=
  ⟨Horseshoe.expDraw conv arg, 0 < arg⟩

/-- `srng.gamma(a, r)` (`/repo/aemcmc/gibbs.py:249-252`, `474-476`). -/
noncomputable def gammaGen (a r : ℝ) : Gen ℝ := ⟨gammaMeasure a r, 0 < a ∧ 0 < r⟩

/-- `srng.gen(polyagamma, b, c)` (`/repo/aemcmc/gibbs.py:541`, `724`): `b` has to be positive. -/
noncomputable def pgGen {n : ℕ} (b c : Fin n → ℝ) : Gen (Fin n → ℝ) :=
  ⟨Measure.pi fun i => pg (b i) (c i), ∀ i, 0 < b i⟩

/-- `rng.standard_normal(size=n)` (`/repo/aemcmc/dists.py:55`, `138`). -/
noncomputable def normalGen (n : ℕ) : Gen (Fin n → ℝ) := ⟨iidNormal (Fin n), True⟩

/-- `srng.bernoulli(ps)` (`/repo/aemcmc/gibbs.py:389`). -/
noncomputable def bernGen (ps : List ℝ) : Gen (List Bool) :=
  ⟨(CRT.bernVec ps).toMeasure, ∀ q ∈ ps, 0 ≤ q ∧ q ≤ 1⟩

/-- `horseshoe_posterior(srng, beta, sigma2, lambda2, tau2)` (`/repo/aemcmc/gibbs.py:241-257`): two reciprocals,
two draws, a division by `sigma2`, two draws, and the reciprocals of two square roots. -/
noncomputable def horseshoeProg (conv : Horseshoe.ExpArg) (rows : ℕ) {p : ℕ} (β : Fin p → ℝ) (sigma2 : ℝ)
    (lambda2 : Fin p → ℝ) (tau2 : ℝ) : Prog ((Fin p → ℝ) × ℝ) :=
  .need (∀ j, lambda2 j ≠ 0) <| .need (tau2 ≠ 0) <|
  .draw ((expGen conv fun j => 1 + (lambda2 j)⁻¹).pair (expGen1 conv (1 + tau2⁻¹))) fun aux =>
  .need (sigma2 ≠ 0) <|
  .draw (expGen conv fun j => aux.1 j + 0.5 * β j ^ 2 * tau2⁻¹ / sigma2) fun lambda2InvNew =>
  .draw (gammaGen (0.5 * (rows + 1)) (aux.2 + 0.5 * (∑ j, β j ^ 2 * lambda2InvNew j) / sigma2)) fun tau2InvNew =>
  .need (∀ j, 0 ≤ lambda2InvNew j) <| .need (∀ j, √(lambda2InvNew j) ≠ 0) <|
  .need (0 ≤ tau2InvNew) <| .need (√tau2InvNew ≠ 0) <|
  .ret (fun j => (√(lambda2InvNew j))⁻¹, (√tau2InvNew)⁻¹)

/-- The kernel of `normal_horseshoe_finder` (`/repo/aemcmc/gibbs.py:293-297`). -/
noncomputable def horseshoeStepProg (conv : Horseshoe.ExpArg) {p : ℕ} (β : Fin p → ℝ) (q : (Fin p → ℝ) × ℝ) :
    Prog ((Fin p → ℝ) × ℝ) :=
  horseshoeProg conv p β 1 (fun j => q.1 j ^ 2) (q.2 ^ 2)

/-- `multivariate_normal_rue2005` (`/repo/aemcmc/dists.py:52-58`): the Cholesky factorisation needs a positive
definite matrix, the triangular solves a factor without a zero on its diagonal. -/
noncomputable def rueProg (la : LinAlg) {n : ℕ} (b : Fin n → ℝ) (Q : Matrix (Fin n) (Fin n) ℝ) :
    Prog (Fin n → ℝ) :=
  .need Q.PosDef <| .need (∀ i, la.chol Q i i ≠ 0) <|
  .draw (normalGen n) fun z => .ret (rue2005 la b Q z)

/-- `multivariate_normal_cong2017` (`/repo/aemcmc/dists.py:136-153`): the reciprocals of `A`, of `omega` and of
the square root of `omega`, the square roots of `1 / A` and `omega`, and a solve with a matrix that is
assumed positive definite. -/
noncomputable def congProg (la : LinAlg) {p n : ℕ} (A : Fin p → ℝ) (omega : Fin n → ℝ)
    (phi : Matrix (Fin n) (Fin p) ℝ) (t : Fin n → ℝ) : Prog (Fin p → ℝ) :=
  .need (∀ i, A i ≠ 0) <|
  .draw (normalGen (p + n)) fun z =>
  .need (∀ i, 0 ≤ 1 / A i) <| .need (∀ i, 0 ≤ omega i) <| .need (∀ i, √(omega i) ≠ 0) <|
  .need (∀ i, omega i ≠ 0) <|
  .need (setDiagAdd (phi * (of fun i j => 1 / A i * phi j i)) fun i => 1 / omega i).PosDef <|
  .ret (cong2017 la A omega phi t z)

/-- `normal_regression_posterior` (`/repo/aemcmc/gibbs.py:30-131`). -/
noncomputable def regressionProg (la : LinAlg) {p n : ℕ} (omega : Fin n → ℝ) (lmbdatau_inv : Fin p → ℝ)
    (X : Matrix (Fin n) (Fin p) ℝ) (z : Fin n → ℝ) : Prog (Fin p → ℝ) :=
  if p > n then congProg la lmbdatau_inv omega X z
  else rueProg la (Xᵀ *ᵥ (omega * z)) (setDiagAdd (Xᵀ * (of fun i j => omega i * X i j)) lmbdatau_inv)

/-- `nbinom_normal_posterior` (`/repo/aemcmc/gibbs.py:541-548`). -/
noncomputable def nbProg (la : LinAlg) {p n : ℕ} (beta_std : Fin p → ℝ) (X : Matrix (Fin n) (Fin p) ℝ)
    (h : Fin n → ℝ) (y : Fin n → ℕ) (beta : Fin p → ℝ) : Prog (Fin p → ℝ) :=
  .draw (pgGen (fun i => (y i : ℝ) + h i) (X *ᵥ beta)) fun w =>
  .need (∀ i, w i ≠ 0) <| .need (∀ j, beta_std j ≠ 0) <|
  regressionProg la w (fun j => (beta_std j)⁻¹) X fun i => 0.5 * ((y i : ℝ) - h i) / w i

/-- `bern_normal_posterior` (`/repo/aemcmc/gibbs.py:724-731`). -/
noncomputable def bernProg (la : LinAlg) {p n : ℕ} (beta_std : Fin p → ℝ) (X : Matrix (Fin n) (Fin p) ℝ)
    (y : Fin n → Bool) (beta : Fin p → ℝ) : Prog (Fin p → ℝ) :=
  .draw (pgGen (fun _ => 1) (X *ᵥ beta)) fun w =>
  .need (∀ i, w i ≠ 0) <| .need (∀ j, beta_std j ≠ 0) <|
  regressionProg la w (fun j => (beta_std j)⁻¹) X fun i => (boolVal (y i) - 0.5) / w i

/-- The scan of `sample_CRT` (`/repo/aemcmc/gibbs.py:387-396`): for each count the divisions
`h / (n_i - 1 + h)` and a vector of Bernoulli draws. -/
noncomputable def crtProg (h : ℝ) : List ℤ → Prog (List ℤ)
  | [] => .ret []
  | y :: ys =>
    .need (∀ n ∈ CRT.arange 2 (y + 1), (n : ℝ) - 1 + h ≠ 0) <|
    .draw (bernGen (CRT.crtProbs y h)) fun bs => (crtProg h ys).bind fun ls => .ret (CRT.crtValue y bs :: ls)

/-- `nbinom_dispersion_posterior(srng, h, p, a, b, y)` (`/repo/aemcmc/gibbs.py:472-478`). -/
noncomputable def dispersionProg (p : List ℝ) (a b : ℝ) (y : List ℤ) (h : ℝ) : Prog ℝ :=
  (crtProg h y).bind fun Ls =>
  .need (b ≠ 0) <| .need (∀ q ∈ p, 0 < 1 - q) <|
  .draw (gammaGen (a + (Ls.sum : ℝ)) (b⁻¹ - (p.map fun q => Real.log (1 - q)).sum)) .ret

/-- The step for `h` of `nbinom_logistic_finder` (`/repo/aemcmc/gibbs.py:627-629`).  The sigmoid is defined
everywhere. -/
noncomputable def finderDispersionProg {n q : ℕ} (X : Matrix (Fin n) (Fin q) ℝ) (beta : Fin q → ℝ)
    (a b : ℝ) (y : List ℤ) (h : ℝ) : Prog ℝ :=
  dispersionProg (List.ofFn fun i => sigmoid (((-X) *ᵥ beta) i)) a b y h

/-- One call for a negative-binomial regression with a normal prior and unknown dispersion
(`/repo/aemcmc/gibbs.py:599-650`, `/repo/aemcmc/basic.py:59-102`); state `(beta, h)`. -/
noncomputable def nbCall (la : LinAlg) {p n : ℕ} (std : Fin p → ℝ) (X : Matrix (Fin n) (Fin p) ℝ)
    (a b : ℝ) (y : Fin n → ℕ) (q : (Fin p → ℝ) × ℝ) : Prog ((Fin p → ℝ) × ℝ) :=
  (nbProg la std X (fun _ => q.2) y q.1).bind fun beta =>
    (finderDispersionProg X beta a b (List.ofFn fun i => (y i : ℤ)) q.2).bind fun h => .ret (beta, h)

/-- One call for a negative-binomial regression with a horseshoe prior and known dispersion
(`/repo/aemcmc/basic.py:59-102`); state `(beta, (lambda, tau))`. -/
noncomputable def hsNbCall (conv : Horseshoe.ExpArg) (rd : HsReg.Reads) (la : LinAlg) {p n : ℕ}
    (X : Matrix (Fin n) (Fin p) ℝ) (h : Fin n → ℝ) (y : Fin n → ℕ) (q : (Fin p → ℝ) × ((Fin p → ℝ) × ℝ)) :
    Prog ((Fin p → ℝ) × ((Fin p → ℝ) × ℝ)) :=
  (horseshoeStepProg conv q.1 q.2).bind fun s =>
    (nbProg la (fun j => (rd.read q.2 s).1 j * (rd.read q.2 s).2) X h y q.1).bind fun beta => .ret (beta, s)

/-- One call for a Bernoulli regression with a horseshoe prior (`/repo/aemcmc/basic.py:59-102`). -/
noncomputable def hsBernCall (conv : Horseshoe.ExpArg) (rd : HsReg.Reads) (la : LinAlg) {p n : ℕ}
    (X : Matrix (Fin n) (Fin p) ℝ) (y : Fin n → Bool) (q : (Fin p → ℝ) × ((Fin p → ℝ) × ℝ)) :
    Prog ((Fin p → ℝ) × ((Fin p → ℝ) × ℝ)) :=
  (horseshoeStepProg conv q.1 q.2).bind fun s =>
    (bernProg la (fun j => (rd.read q.2 s).1 j * (rd.read q.2 s).2) X y q.1).bind fun beta => .ret (beta, s)

/-- One call for a negative-binomial regression with a horseshoe prior and unknown dispersion
(`/repo/aemcmc/basic.py:59-102`); state `((beta, (lambda, tau)), h)`. -/
noncomputable def hsDispCall (conv : Horseshoe.ExpArg) (rd : HsReg.Reads) (la : LinAlg) {p n : ℕ}
    (X : Matrix (Fin n) (Fin p) ℝ) (a b : ℝ) (y : Fin n → ℕ)
    (r : ((Fin p → ℝ) × ((Fin p → ℝ) × ℝ)) × ℝ) : Prog (((Fin p → ℝ) × ((Fin p → ℝ) × ℝ)) × ℝ) :=
  (horseshoeStepProg conv r.1.1 r.1.2).bind fun s =>
    (nbProg la (fun j => (rd.read r.1.2 s).1 j * (rd.read r.1.2 s).2) X (fun _ => r.2) y r.1.1).bind fun beta =>
      (finderDispersionProg X beta a b (List.ofFn fun i => (y i : ℤ)) r.2).bind fun h => .ret ((beta, s), h)

end Verif.Fail
