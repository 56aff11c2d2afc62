import Verif.Match.Model
import Verif.Conj.Model

/-!
# C92: the finders on two copies of a model
-/

namespace Verif

mutual
/-- Spec.  The same expression over other inputs: the input `i` becomes the input `f i`. -/
def Expr.ren (f : Nat → Nat) : Expr → Expr
  | .input i sh => .input (f i) sh
  | .const d sh => .const d sh
  | .app o sh as => .app o sh (Expr.renArgs f as)
/-- The same for argument lists. -/
def Expr.renArgs (f : Nat → Nat) : List Expr → List Expr
  | [] => []
  | a :: as => Expr.ren f a :: Expr.renArgs f as
end

theorem Expr.renArgs_eq (f : Nat → Nat) (as : List Expr) : Expr.renArgs f as = as.map (Expr.ren f) := by
  induction as with
  | nil => rfl
  | cons a as ih => rw [Expr.renArgs, ih, List.map_cons]

mutual
theorem Expr.ren_injective {f : Nat → Nat} (hf : Function.Injective f) :
    ∀ a b : Expr, Expr.ren f a = Expr.ren f b → a = b
  | .input i s, .input j t, h => by
    simp only [Expr.ren, Expr.input.injEq] at h
    rw [hf h.1, h.2]
  | .const d s, .const e t, h => by simpa only [Expr.ren] using h
  | .app o s as, .app p t bs, h => by
    simp only [Expr.ren, Expr.app.injEq] at h
    rw [h.1, h.2.1, Expr.renArgs_injective hf as bs h.2.2]
  | .input _ _, .const _ _, h => by simp [Expr.ren] at h
  | .input _ _, .app _ _ _, h => by simp [Expr.ren] at h
  | .const _ _, .input _ _, h => by simp [Expr.ren] at h
  | .const _ _, .app _ _ _, h => by simp [Expr.ren] at h
  | .app _ _ _, .input _ _, h => by simp [Expr.ren] at h
  | .app _ _ _, .const _ _, h => by simp [Expr.ren] at h
theorem Expr.renArgs_injective {f : Nat → Nat} (hf : Function.Injective f) :
    ∀ a b : List Expr, Expr.renArgs f a = Expr.renArgs f b → a = b
  | [], [], _ => rfl
  | [], _ :: _, h => by simp [Expr.renArgs] at h
  | _ :: _, [], h => by simp [Expr.renArgs] at h
  | a :: as, b :: bs, h => by
    simp only [Expr.renArgs, List.cons.injEq] at h
    rw [Expr.ren_injective hf a b h.1, Expr.renArgs_injective hf as bs h.2]
end

theorem Expr.ren_shape (f : Nat → Nat) (e : Expr) : (Expr.ren f e).shape = e.shape := by
  cases e <;> rfl

theorem Expr.ren_op? (f : Nat → Nat) (e : Expr) : (Expr.ren f e).op? = e.op? := by
  cases e <;> rfl

theorem Expr.ren_args? (f : Nat → Nat) (e : Expr) : (Expr.ren f e).args? = e.args?.map (List.map (Expr.ren f)) := by
  cases e with
  | app o s as => exact congrArg some (Expr.renArgs_eq f as)
  | _ => rfl

/-- The substitution over the other inputs. -/
def Subst.ren (f : Nat → Nat) (s : Subst) : Subst := s.map (Prod.map id (Expr.ren f))

theorem Subst.ren_lookup (f : Nat → Nat) (s : Subst) (n : Nat) :
    (Subst.ren f s).lookup n = (s.lookup n).map (Expr.ren f) := by
  induction s with
  | nil => rfl
  | cons p s ih =>
    obtain ⟨m, e⟩ := p
    simp only [Subst.ren, List.map_cons, Prod.map_apply, id_eq, List.lookup_cons]
    cases n == m
    · exact ih
    · rfl

mutual
/-- Patterns without fixed subterms. -/
def Pat.Open : Pat → Prop
  | .lv _ => True
  | .gnd _ => False
  | .app _ ps => Pat.OpenArgs ps
/-- The same for lists. -/
def Pat.OpenArgs : List Pat → Prop
  | [] => True
  | p :: ps => Pat.Open p ∧ Pat.OpenArgs ps
end

mutual
theorem matchP_ren {f : Nat → Nat} (hf : Function.Injective f) : ∀ (p : Pat) (_ : p.Open) (e : Expr) (s : Subst),
    matchP p (Expr.ren f e) (Subst.ren f s) = (matchP p e s).map (Subst.ren f)
  | .lv n, _, e, s => by
    simp only [matchP, Subst.ren_lookup]
    cases s.lookup n with
    | none => rfl
    | some e' =>
      simp only [Option.map_some]
      by_cases h : e = e'
      · rw [if_pos h, if_pos (by rw [h])]
        rfl
      · rw [if_neg h, if_neg fun h' => h (Expr.ren_injective hf _ _ h')]
        rfl
  | .gnd _, h, _, _ => h.elim
  | .app o ps, h, .app o' sh as, s => by
    simp only [Expr.ren, matchP]
    split_ifs
    · exact matchArgs_ren hf ps h as s
    · rfl
  | .app _ _, _, .input _ _, _ => by simp only [Expr.ren, matchP, Option.map_none]
  | .app _ _, _, .const _ _, _ => by simp only [Expr.ren, matchP, Option.map_none]
theorem matchArgs_ren {f : Nat → Nat} (hf : Function.Injective f) : ∀ (ps : List Pat) (_ : Pat.OpenArgs ps)
    (es : List Expr) (s : Subst),
    matchArgs ps (Expr.renArgs f es) (Subst.ren f s) = (matchArgs ps es s).map (Subst.ren f)
  | [], _, [], _ => by simp only [Expr.renArgs, matchArgs, Option.map_some]
  | p :: ps, h, e :: es, s => by
    simp only [Expr.renArgs, matchArgs]
    rw [matchP_ren hf p h.1 e s]
    cases matchP p e s with
    | none => rfl
    | some s' => exact matchArgs_ren hf ps h.2 es s'
  | [], _, _ :: _, _ => by simp only [Expr.renArgs, matchArgs, Option.map_none]
  | _ :: _, _, [], _ => by simp only [Expr.renArgs, matchArgs, Option.map_none]
end

theorem matchP_ren_nil {f : Nat → Nat} (hf : Function.Injective f) {p : Pat} (hp : p.Open) (e : Expr) :
    matchP p (Expr.ren f e) [] = (matchP p e []).map (Subst.ren f) := matchP_ren hf p hp e []

namespace Match

variable {f : Nat → Nat}

/-- Spec.  The step for the other inputs. -/
def Step.ren (f : Nat → Nat) (s : Step) : Step := ⟨Expr.ren f s.target, s.kernel, s.args.map (Expr.ren f)⟩

/-- Both sides fail with the same error, or the second result is the copy of the first. -/
theorem bind_ren {A B C D : Type} {m : Except PyErr A} {m' : Except PyErr B} {g : A → B} (hm : m' = m.map g)
    {k : A → Except PyErr C} {k' : B → Except PyErr D} {r : C → D} (hk : ∀ a, k' (g a) = (k a).map r) :
    m'.bind k' = (m.bind k).map r := by
  subst hm
  cases m with
  | error e => rfl
  | ok a => exact hk a

theorem etuplize_ren (e : Expr) : etuplize (Expr.ren f e) = (etuplize e).map (Expr.ren f) := by
  cases e <;> rfl

theorem unifyOrRaise_ren (hf : Function.Injective f) {p : Pat} (hp : p.Open) (e : Expr) :
    unifyOrRaise p (Expr.ren f e) = (unifyOrRaise p e).map (Subst.ren f) := by
  unfold unifyOrRaise
  rw [matchP_ren_nil hf hp]
  cases matchP p e [] <;> rfl

theorem getLV_ren (s : Subst) (n : Nat) : getLV (Subst.ren f s) n = (getLV s n).map (Expr.ren f) := by
  unfold getLV
  rw [Subst.ren_lookup]
  cases s.lookup n <;> rfl

theorem allNeNegOne_ren (e : Expr) : allNeNegOne (Expr.ren f e) = allNeNegOne e := by
  cases e <;> rfl

theorem ownerInput4_ren (e : Expr) : ownerInput4 (Expr.ren f e) = (ownerInput4 e).map (Expr.ren f) := by
  unfold ownerInput4
  rw [Expr.ren_args?]
  cases e.args? with
  | none => rfl
  | some as =>
    simp only [Option.map_some, List.getElem?_map]
    cases as[4]? <;> rfl

theorem isHalfCauchy_ren (e : Expr) : isHalfCauchy (Expr.ren f e) = isHalfCauchy e := by
  rw [isHalfCauchy, Expr.ren_op?, isHalfCauchy]

theorem scalarLike_ren (e : Expr) : scalarLike (Expr.ren f e) = scalarLike e := by
  rw [scalarLike, Expr.ren_shape, scalarLike]

theorem catchValue_ren {A B C D : Type} {m : Except PyErr A} {m' : Except PyErr B} {g : A → B} (hm : m' = m.map g)
    {n : Except PyErr C} {n' : Except PyErr D} {r : C → D} (hn : n' = n.map r)
    {k : A → Except PyErr C} {k' : B → Except PyErr D} (hk : ∀ a, k' (g a) = (k a).map r) :
    catchValue m' n' k' = (catchValue m n k).map r := by
  subst hm hn
  cases m with
  | error e => cases e <;> rfl
  | ok a => exact hk a

theorem gammaMatch_ren (hf : Function.Injective f) (e : Expr) :
    gammaMatch (Expr.ren f e) = (gammaMatch e).map (Prod.map (Expr.ren f) (Expr.ren f)) := by
  unfold gammaMatch
  refine bind_ren (etuplize_ren e) fun et => bind_ren (unifyOrRaise_ren hf (by simp [gammaPat, Pat.Open, Pat.OpenArgs]) et)
    fun s => bind_ren (getLV_ren s _) fun a => bind_ren (getLV_ren s _) fun b => rfl

theorem bernSigmoidDotMatch_ren (hf : Function.Injective f) (e : Expr) :
    bernSigmoidDotMatch (Expr.ren f e) = (bernSigmoidDotMatch e).map (Prod.map (Expr.ren f) (Expr.ren f)) := by
  unfold bernSigmoidDotMatch
  refine bind_ren (etuplize_ren e) fun et => bind_ren (unifyOrRaise_ren hf
    (by simp [bernoulliSigmoidDotPat, sigmoidDotPat, Pat.Open, Pat.OpenArgs]) et)
    fun s => bind_ren (getLV_ren s _) fun n => ?_
  refine bind_ren (g := id) (by rw [allNeNegOne_ren]; cases allNeNegOne n <;> rfl) fun b => ?_
  cases b
  · exact bind_ren (getLV_ren s _) fun a => bind_ren (getLV_ren s _) fun b => rfl
  · rfl

theorem nbinomSigmoidDotMatch_ren (hf : Function.Injective f) (e : Expr) :
    nbinomSigmoidDotMatch (Expr.ren f e) =
      (nbinomSigmoidDotMatch e).map (Prod.map (Expr.ren f) (Prod.map (Expr.ren f) (Expr.ren f))) := by
  unfold nbinomSigmoidDotMatch
  refine bind_ren (etuplize_ren e) fun et => bind_ren (unifyOrRaise_ren hf
    (by simp [nbinomSigmoidDotPat, sigmoidDotPat, Pat.Open, Pat.OpenArgs]) et)
    fun s => bind_ren (getLV_ren s _) fun n => ?_
  refine bind_ren (g := id) (by rw [allNeNegOne_ren]; cases allNeNegOne n <;> rfl) fun b => ?_
  cases b
  · exact bind_ren (getLV_ren s _) fun a => bind_ren (getLV_ren s _) fun b => bind_ren (getLV_ren s _) fun c => rfl
  · rfl

theorem horseshoeMatch_ren (hf : Function.Injective f) (e : Expr) :
    horseshoeMatch (Expr.ren f e) = (horseshoeMatch e).map (Prod.map (Expr.ren f) (Expr.ren f)) := by
  unfold horseshoeMatch
  refine bind_ren (etuplize_ren e) fun et => bind_ren (unifyOrRaise_ren hf
    (by simp [horseshoePat, Pat.Open, Pat.OpenArgs]) et)
    fun s => bind_ren (getLV_ren s _) fun a => ?_
  rw [isHalfCauchy_ren]
  cases isHalfCauchy a
  · rfl
  refine bind_ren (getLV_ren s _) fun b => ?_
  simp only [isHalfCauchy_ren, scalarLike_ren]
  cases isHalfCauchy b
  · rfl
  cases scalarLike a
  · cases scalarLike b <;> rfl
  · rfl

/-- **C92.** Two copies of an observed variable: each Gibbs finder gives copies of the same steps, or fails
with the same error, or declines both. -/
theorem C92_gibbs_finders (hf : Function.Injective f) (y : Expr) :
    bernLogisticFinder (Expr.ren f y) = (bernLogisticFinder y).map (Option.map (List.map (Step.ren f))) ∧
    nbinomLogisticFinder (Expr.ren f y) = (nbinomLogisticFinder y).map (Option.map (List.map (Step.ren f))) ∧
    horseshoeFinder (Expr.ren f y) = (horseshoeFinder y).map (Option.map (List.map (Step.ren f))) := by
  refine ⟨?_, ?_, ?_⟩
  · unfold bernLogisticFinder
    apply catchValue_ren (bernSigmoidDotMatch_ren hf y)
    · rfl
    · rintro ⟨X, beta⟩
      exact bind_ren (ownerInput4_ren beta) fun std => rfl
  · unfold nbinomLogisticFinder
    apply catchValue_ren (nbinomSigmoidDotMatch_ren hf y)
    · rfl
    · rintro ⟨X, h, beta⟩
      refine bind_ren (ownerInput4_ren beta) fun std => ?_
      apply catchValue_ren (gammaMatch_ren hf h)
      · rfl
      · rintro ⟨a, b⟩
        simp [Except.map, Step.ren, probExpr, newBeta, Expr.ren, Expr.renArgs, Expr.ren_shape]
  · unfold horseshoeFinder
    apply catchValue_ren (horseshoeMatch_ren hf y)
    · rfl
    · rintro ⟨l, t⟩
      simp [Except.map, Step.ren, Expr.ren, Expr.renArgs, Expr.ren_shape]

/-- A regression model and its copy with the inputs shifted by 10: the finder fires on both, and the second step
reads the shifted inputs. -/
def regY (k : Nat) : Expr :=
  .app (.rv .bernoulli) [none] [.input k [], .input (1 + k) [], .input (2 + k) [],
    .app (.elem .sigmoid) [none] [.app (.elem .mul) [none] [.const [-1] [some 1], .app .dot [none]
      [.input (3 + k) [none, none], .app (.rv .normal) [none] [.input (6 + k) [], .input (7 + k) [],
        .input (8 + k) [], .const [0] [], .input (9 + k) []]]]]]

example : ∃ X X' β β' s s', bernLogisticFinder (regY 0) = .ok (some [⟨β, .bernRegression, [β, s, X, regY 0]⟩]) ∧
    bernLogisticFinder (regY 10) = .ok (some [⟨β', .bernRegression, [β', s', X', regY 10]⟩]) ∧
    X = .input 3 [none, none] ∧ X' = .input 13 [none, none] ∧ s = .input 9 [] ∧ s' = .input 19 [] := by
  have hf : Function.Injective fun i : Nat => i + 10 := fun a b h => Nat.add_right_cancel h
  refine ⟨.input 3 [none, none], .input 13 [none, none], _, .app (.rv .normal) [none] [.input 16 [], .input 17 [],
    .input 18 [], .const [0] [], .input 19 []], .input 9 [], .input 19 [], rfl, ?_, rfl, rfl, rfl, rfl⟩
  rw [show regY 10 = Expr.ren (fun i => i + 10) (regY 0) from rfl, (C92_gibbs_finders hf (regY 0)).1]
  rfl

end Match

namespace Conj

variable {f : Nat → Nat}

theorem optBind_ren {A B C D : Type} {m : Option A} {m' : Option B} {g : A → B} (hm : m' = m.map g)
    {k : A → Option C} {k' : B → Option D} {r : C → D} (hk : ∀ a, k' (g a) = (k a).map r) :
    m'.bind k' = (m.bind k).map r := by
  subst hm
  cases m with
  | none => rfl
  | some a => exact hk a

theorem gammaPoissonPosterior_ren (hf : Function.Injective f) (rng Y : Expr) :
    gammaPoissonPosterior (Expr.ren f rng) (Expr.ren f Y) = (gammaPoissonPosterior rng Y).map (Expr.ren f) :=
  optBind_ren (matchP_ren_nil hf (by simp [gammaPoissonPat, priorPat, Pat.Open, Pat.OpenArgs]) Y) fun s =>
    optBind_ren (Subst.ren_lookup f s _) fun a => optBind_ren (Subst.ren_lookup f s _) fun b =>
    optBind_ren (Subst.ren_lookup f s _) fun c => optBind_ren (Subst.ren_lookup f s _) fun d => rfl

theorem betaBinomialPosterior_ren (hf : Function.Injective f) (rng Y : Expr) :
    betaBinomialPosterior (Expr.ren f rng) (Expr.ren f Y) = (betaBinomialPosterior rng Y).map (Expr.ren f) :=
  optBind_ren (matchP_ren_nil hf (by simp [betaBinomialPat, priorPat, Pat.Open, Pat.OpenArgs]) Y) fun s =>
    optBind_ren (Subst.ren_lookup f s _) fun a => optBind_ren (Subst.ren_lookup f s _) fun b =>
    optBind_ren (Subst.ren_lookup f s _) fun c => optBind_ren (Subst.ren_lookup f s _) fun d =>
    optBind_ren (Subst.ren_lookup f s _) fun n => rfl

theorem betaNegBinomialPosterior_ren (hf : Function.Injective f) (rng Y : Expr) :
    betaNegBinomialPosterior (Expr.ren f rng) (Expr.ren f Y) = (betaNegBinomialPosterior rng Y).map (Expr.ren f) :=
  optBind_ren (matchP_ren_nil hf (by simp [betaNegBinomialPat, priorPat, Pat.Open, Pat.OpenArgs]) Y) fun s =>
    optBind_ren (Subst.ren_lookup f s _) fun a => optBind_ren (Subst.ren_lookup f s _) fun b =>
    optBind_ren (Subst.ren_lookup f s _) fun c => optBind_ren (Subst.ren_lookup f s _) fun d =>
    optBind_ren (Subst.ren_lookup f s _) fun n => rfl

theorem finder_ren {post : Expr → Expr → Option Expr}
    (h : ∀ rng Y, post (Expr.ren f rng) (Expr.ren f Y) = (post rng Y).map (Expr.ren f)) (rng Y : Expr) :
    finder post (Expr.ren f rng) (Expr.ren f Y) =
      (finder post rng Y).map (List.map (Prod.map (Expr.ren f) (Expr.ren f))) := by
  unfold finder
  rw [h]
  cases post rng Y with
  | none => rfl
  | some p =>
    cases Y with
    | app o s as =>
      simp only [Option.map_some, Expr.ren, Expr.args?, Option.bind_some, Expr.renArgs_eq, List.getLast?_map]
      cases as.getLast? <;> rfl
    | _ => rfl

/-- **C92.** Two copies of an observed variable: each closed-form finder gives copies of the same posterior, or
declines both. -/
theorem C92_conjugate_finders (hf : Function.Injective f) (rng Y : Expr) :
    gammaPoissonFinder (Expr.ren f rng) (Expr.ren f Y) =
      (gammaPoissonFinder rng Y).map (List.map (Prod.map (Expr.ren f) (Expr.ren f))) ∧
    betaBinomialFinder (Expr.ren f rng) (Expr.ren f Y) =
      (betaBinomialFinder rng Y).map (List.map (Prod.map (Expr.ren f) (Expr.ren f))) ∧
    betaNegBinomialFinder (Expr.ren f rng) (Expr.ren f Y) =
      (betaNegBinomialFinder rng Y).map (List.map (Prod.map (Expr.ren f) (Expr.ren f))) :=
  ⟨finder_ren (gammaPoissonPosterior_ren hf) rng Y, finder_ren (betaBinomialPosterior_ren hf) rng Y,
    finder_ren (betaNegBinomialPosterior_ren hf) rng Y⟩

/-- A Poisson observation with a gamma rate, and its copy. -/
def poisY (k : Nat) : Expr :=
  .app (.rv .poisson) [] [.input k [], .input (1 + k) [], .input (2 + k) [],
    .app (.rv .gamma) [] [.input (3 + k) [], .input (4 + k) [], .input (5 + k) [], .input (6 + k) [], .input (7 + k) []]]

example : ∃ l p, gammaPoissonFinder (.input 8 []) (poisY 0) = some [(l, p)] ∧
    gammaPoissonFinder (.input 18 []) (poisY 10) = some [(Expr.ren (· + 10) l, Expr.ren (· + 10) p)] := by
  refine ⟨_, _, rfl, ?_⟩
  exact (C92_conjugate_finders (f := (· + 10)) (fun a b h => Nat.add_right_cancel h) (.input 8 []) (poisY 0)).1

end Conj

end Verif
