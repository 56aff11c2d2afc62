import Verif.Expr.Model

/-!
# Model of the matchers and finders of `/repo/aemcmc/gibbs.py`

A Python exception is a value of `PyErr`.  `eval_if_etuple` turns a matched subtree back into the
variable it came from; on trees it is the identity.
-/

namespace Verif.Match

open Verif

/-- The exceptions that can leave the modelled functions. -/
inductive PyErr
  | value | attribute | type | index
  deriving DecidableEq, Repr

/-- `etuplize(graph)` at the top level (`/repo/aemcmc/gibbs.py:147,329,349,664`): a variable without
an owner is not a term and is rejected with a `TypeError` (library behaviour). -/
def etuplize : Expr → Except PyErr Expr
  | .app o s as => .ok (.app o s as)
  | _ => .error .type

/-- `unify(graph_et, pattern)`, with `ValueError` when there is no unifier. -/
def unifyOrRaise (p : Pat) (e : Expr) : Except PyErr Subst :=
  match matchP p e [] with
  | some s => .ok s
  | none => .error .value

/-- `s[lv]`; every logic variable looked up occurs in its pattern, so the key is present. -/
def getLV (s : Subst) (n : Nat) : Except PyErr Expr :=
  match s.lookup n with
  | some e => .ok e
  | none => .error .index

/-- Python's `all(rows)` where `rows` iterates over the leading axis of a Boolean array given by its
flat data, `rowSize` entries per row; `bool(row)` is a `ValueError` for rows of several entries and
`False` for empty rows.  Stops at the first `False` like Python. -/
def allRows (rowSize : Nat) : (rows : Nat) → List Bool → Except PyErr Bool
  | 0, _ => .ok true
  | k + 1, bs =>
    if rowSize = 0 then .ok false
    else if rowSize = 1 then
      match bs with
      | [] => .error .index
      | b :: bs' => if b then allRows rowSize k bs' else .ok false
    else .error .value

/-- `all(s[neg_one_lv].data != -1)` (`/repo/aemcmc/gibbs.py:354,670`).  Only constants have a `data`
attribute.  The comparison of a 0-d array is a NumPy scalar, over which `all` cannot iterate.  The
static shape of a constant is fully known; the unknown-length case below does not occur. -/
def allNeNegOne : Expr → Except PyErr Bool
  | .const data shape =>
    match shape with
    | [] => .error .type
    | none :: _ => .error .attribute
    | some k :: rest =>
      allRows ((rest.map (·.getD 1)).prod) k (data.map fun q => decide (q ≠ -1))
  | _ => .error .attribute

/-- Logic variables of the regression patterns. -/
abbrev negOneLV := 100
/-- Logic variable `X_lv`. -/
abbrev XLV := 101
/-- Logic variable `beta_lv`. -/
abbrev betaLV := 102
/-- Logic variable `h_lv`. -/
abbrev hLV := 103

/-- `sigmoid_dot_pattern` (`/repo/aemcmc/gibbs.py:318-321`). -/
def sigmoidDotPat : Pat :=
  .app (.elem .sigmoid) [.app (.elem .mul) [.lv negOneLV, .app .dot [.lv XLV, .lv betaLV]]]

/-- `nbinom_sigmoid_dot_pattern` (`/repo/aemcmc/gibbs.py:341-343`). -/
def nbinomSigmoidDotPat : Pat :=
  .app (.rv .nbinom) [.lv 110, .lv 111, .lv 112, .lv hLV, sigmoidDotPat]

/-- `bernoulli_sigmoid_dot_pattern` (`/repo/aemcmc/gibbs.py:656-658`). -/
def bernoulliSigmoidDotPat : Pat :=
  .app (.rv .bernoulli) [.lv 110, .lv 111, .lv 112, sigmoidDotPat]

/-- `nbinom_sigmoid_dot_match` (`/repo/aemcmc/gibbs.py:346-364`): `(X, h, beta)`. -/
def nbinomSigmoidDotMatch (graph : Expr) : Except PyErr (Expr × Expr × Expr) := do
  let et ← etuplize graph
  let s ← unifyOrRaise nbinomSigmoidDotPat et
  if ← allNeNegOne (← getLV s negOneLV) then throw .value
  return (← getLV s XLV, ← getLV s hLV, ← getLV s betaLV)

/-- `bern_sigmoid_dot_match` (`/repo/aemcmc/gibbs.py:661-679`): `(X, beta)`. -/
def bernSigmoidDotMatch (graph : Expr) : Except PyErr (Expr × Expr) := do
  let et ← etuplize graph
  let s ← unifyOrRaise bernoulliSigmoidDotPat et
  if ← allNeNegOne (← getLV s negOneLV) then throw .value
  return (← getLV s XLV, ← getLV s betaLV)

/-- `gamma_pattern` (`/repo/aemcmc/gibbs.py:323-325`). -/
def gammaPat : Pat := .app (.rv .gamma) [.lv 110, .lv 111, .lv 112, .lv 120, .lv 121]

/-- `gamma_match` (`/repo/aemcmc/gibbs.py:328-337`): `(a, b)`. -/
def gammaMatch (graph : Expr) : Except PyErr (Expr × Expr) := do
  let et ← etuplize graph
  let s ← unifyOrRaise gammaPat et
  return (← getLV s 120, ← getLV s 121)

/-- `horseshoe_pattern` (`/repo/aemcmc/gibbs.py:134-143`). -/
def horseshoePat : Pat :=
  .app (.rv .normal) [.lv 110, .lv 111, .lv 112, .lv 130, .app (.elem .mul) [.lv 131, .lv 132]]

/-- `x.owner is None or not isinstance(x.owner.op, type(at.random.halfcauchy))`, negated
(`/repo/aemcmc/gibbs.py:154-156,164-166`). -/
def isHalfCauchy (e : Expr) : Bool := e.op? = some (.rv .halfcauchy)

/-- `x.type.ndim == 0 or all(s == 1 for s in x.type.shape)` (`/repo/aemcmc/gibbs.py:172,175`); an
unknown length is not equal to one. -/
def scalarLike (e : Expr) : Bool := e.shape.length = 0 || e.shape.all (· = some 1)

/-- `horseshoe_match` (`/repo/aemcmc/gibbs.py:146-184`): `(lmbda_rv, tau_rv)`. -/
def horseshoeMatch (graph : Expr) : Except PyErr (Expr × Expr) := do
  let et ← etuplize graph
  let s ← unifyOrRaise horseshoePat et
  let h1 ← getLV s 131
  if !isHalfCauchy h1 then throw .value
  let h2 ← getLV s 132
  if !isHalfCauchy h2 then throw .value
  if scalarLike h1 then return (h2, h1)
  else if scalarLike h2 then return (h1, h2)
  else throw .value

/-- Which posterior function a step runs. -/
inductive Kernel
  | nbRegression | dispersion | bernRegression | horseshoe
  deriving DecidableEq, Repr

/-- A step returned by a finder: the variable it updates, the posterior function it runs and that
function's arguments (before `remove_constants`; see `Verif/Subs`). -/
structure Step where
  target : Expr
  kernel : Kernel
  args : List Expr

/-- `beta_rv.owner.inputs[4]` (`/repo/aemcmc/gibbs.py:606,754`). -/
def ownerInput4 (e : Expr) : Except PyErr Expr :=
  match e.args? with
  | none => .error .attribute
  | some as =>
    match as[4]? with
    | none => .error .index
    | some a => .ok a

/-- `try: ... except ValueError: return None`. -/
def catchValue {α β : Type} (m : Except PyErr α) (none' : Except PyErr β)
    (k : α → Except PyErr β) : Except PyErr β :=
  match m with
  | .ok a => k a
  | .error .value => none'
  | .error e => .error e

/-- `bern_logistic_finder` (`/repo/aemcmc/gibbs.py:743-765`).  `None` is `ok none`. -/
def bernLogisticFinder (y : Expr) : Except PyErr (Option (List Step)) :=
  catchValue (bernSigmoidDotMatch y) (.ok none) fun (X, beta) => do
    let std ← ownerInput4 beta
    return some [⟨beta, .bernRegression, [beta, std, X, y]⟩]

/-- `at.sigmoid(-X @ beta_posterior)` with `beta_posterior` standing for the new coefficients
(`/repo/aemcmc/gibbs.py:627`).  The new coefficients are the output of the step just built; the
tree is an application of an operator the matchers do not know. -/
def newBeta (args : List Expr) : Expr := .app (.other 0) [] args
/-- `at.sigmoid(-X @ beta_posterior)` (`/repo/aemcmc/gibbs.py:627`). -/
def probExpr (X betaNew : Expr) : Expr :=
  .app (.elem .sigmoid) [] [.app .dot [] [.app (.elem .neg) X.shape [X], betaNew]]

/-- `nbinom_logistic_finder` (`/repo/aemcmc/gibbs.py:569-650`). -/
def nbinomLogisticFinder (y : Expr) : Except PyErr (Option (List Step)) :=
  catchValue (nbinomSigmoidDotMatch y) (.ok none) fun (X, h, beta) => do
    let std ← ownerInput4 beta
    let args := [beta, std, X, h, y]
    let res : List Step := [⟨beta, .nbRegression, args⟩]
    catchValue (gammaMatch h) (.ok (some res)) fun (a, b) =>
      .ok (some (res ++ [⟨h, .dispersion, [h, probExpr X (newBeta args), a, b, y]⟩]))

/-- `normal_horseshoe_finder` (`/repo/aemcmc/gibbs.py:264-308`); `x ** 2` is written as a product. -/
def horseshoeFinder (y : Expr) : Except PyErr (Option (List Step)) :=
  catchValue (horseshoeMatch y) (.ok none) fun (lmbda, tau) =>
    let args := [y, .app (.elem .mul) lmbda.shape [lmbda, lmbda],
      .app (.elem .mul) tau.shape [tau, tau]]
    .ok (some [⟨lmbda, .horseshoe, args⟩, ⟨tau, .horseshoe, args⟩])

end Verif.Match
