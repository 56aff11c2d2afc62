import Verif.Track.Route
import Verif.Track.Props
import Verif.Conj.Props
import Verif.Match.Props

/-!
# C64: which variables are handed to NUTS
-/

namespace Verif.Track

open Verif Verif.Py Verif.Conj Verif.Match

/-! ## Specification -/

/-- Spec.  The node of `β` has at least five inputs: the RNG, size, dtype and two parameters. -/
def TwoParams (β : Expr) : Prop := ∃ o sh as, β = .app o sh as ∧ 5 ≤ as.length

/-- Spec.  `y` has one of the forms for which aemcmc has a closed-form step, with `r` as the variable
to be updated: the rate or probability of a conjugate pair, a scale of a horseshoe prior, a
coefficient vector or a gamma dispersion of a regression. -/
inductive Covers (y r : Expr) : Prop
  | gammaPoisson (h : IsConjugateModel .poisson .gamma 0 y r)
  | betaBinomial (h : IsConjugateModel .binomial .beta 1 y r)
  | betaNegBinomial (h : IsConjugateModel .nbinom .beta 1 y r)
  | horseshoe (m a b : Expr) (h : NormalProd y m a b) (ha : IsHalfCauchyRV a) (hb : IsHalfCauchyRV b)
      (hs : ScalarShape a ∨ ScalarShape b) (hr : r = a ∨ r = b)
  | nbCoefficients (X d : Expr) (h : NbReg y X d r) (h2 : TwoParams r)
  | nbDispersion (X β a b : Expr) (h : NbReg y X r β) (h2 : TwoParams β) (hg : IsGammaRV r a b)
  | bernCoefficients (X : Expr) (h : BernReg y X r) (h2 : TwoParams r)

/-- Spec.  The link multiplier of a regression is a one-element constant (as Aesara makes from `-x`,
see C24) and its dispersion is the output of an operation (see `Match.etuplize`). -/
structure Regular (y : Expr) : Prop where
  nb : ∀ c X h β, NbLink y c X h β → OneElement c ∧ HasOwner h
  bern : ∀ c X β, BernLink y c X β → OneElement c

open Verif.Graph in
/-- Spec.  `h` is a history of the sampler search on a model in which the variable `v` is the tree
`tree v`: every answer is that of a registered finder on a variable of the distribution it tracks,
every finder is called at least once on every such variable, and different variables have different
trees (two draws differ in their RNG).  The finders return the node's own outputs, so the graph does
not change during the search. -/
structure Search (tree : Var → Expr) (outs : List Var)
    (h : List (Visit Var (Var × Option (List (Var × Var))))) : Prop where
  answer : ∀ v ∈ h, v.rv ∈ outs ∧ ∃ (F : Finder) (rng : Expr), v.name = F.name ∧
    (tree v.rv).op? = some (.rv F.tracks) ∧
    (v.steps.map fun p => tree p.1) = F.targets rng (tree v.rv)
  all : ∀ y ∈ outs, ∀ F : Finder, (tree y).op? = some (.rv F.tracks) →
    ∃ v ∈ h, v.rv = y ∧ v.name = F.name
  apart : ∀ v ∈ h, ∀ p ∈ v.steps, ∀ r ∈ outs, tree p.1 = tree r → p.1 = r

/-- Spec.  The integer-valued distributions among those the package names. -/
def IntegerValued (d : Dist) : Prop := d = .poisson ∨ d = .binomial ∨ d = .nbinom ∨ d = .bernoulli

/-! ## What the finders return -/

theorem mem_conjTargets {m : Option (List (Expr × Expr))} {r : Expr} :
    r ∈ conjTargets m ↔ ∃ l, m = some l ∧ ∃ post, (r, post) ∈ l := by
  unfold conjTargets
  cases m with
  | none => simp
  | some l => simp

theorem conj_single {posterior : Expr → Expr → Option Expr} {rng y : Expr}
    {l : List (Expr × Expr)} (h : finder posterior rng y = some l) : ∃ p, l = [p] := by
  unfold finder at h
  split at h
  · cases h
  · split at h
    · cases h
    · cases h
      exact ⟨_, rfl⟩

theorem mem_conj_iff {posterior : Expr → Expr → Option Expr} {rng y r : Expr} :
    r ∈ conjTargets (finder posterior rng y) ↔ ∃ post, finder posterior rng y = some [(r, post)] := by
  rw [mem_conjTargets]
  constructor
  · rintro ⟨l, h, post, hm⟩
    obtain ⟨p, rfl⟩ := conj_single h
    simp only [List.mem_singleton] at hm
    subst hm
    exact ⟨post, h⟩
  · rintro ⟨post, h⟩
    exact ⟨_, h, post, by simp⟩

theorem twoParams_iff {β : Expr} : TwoParams β ↔ ∃ s, ownerInput4 β = .ok s := by
  constructor
  · rintro ⟨o, sh, as, rfl, hl⟩
    refine ⟨as[4], ?_⟩
    simp [ownerInput4, Expr.args?, List.getElem?_eq_getElem (show 4 < as.length by omega)]
  · rintro ⟨s, h⟩
    cases β with
    | input i sh => simp [ownerInput4, Expr.args?] at h
    | const d sh => simp [ownerInput4, Expr.args?] at h
    | app o sh as =>
      refine ⟨o, sh, as, rfl, ?_⟩
      by_contra hn
      simp [ownerInput4, Expr.args?, List.getElem?_eq_none (show as.length ≤ 4 by omega)] at h

theorem mem_bern_iff {y r : Expr} (hy : HasOwner y) (hr : Regular y) :
    r ∈ matchTargets (bernLogisticFinder y) ↔ ∃ X, BernReg y X r ∧ TwoParams r := by
  obtain ⟨h1, h2⟩ := C24_bern_match_partial hy hr.bern
  constructor
  · intro h
    unfold matchTargets at h
    split at h
    · next steps hf =>
      obtain ⟨c, X, β, s, -, hm, rfl, ⟨o, sh, as, hβ, h4⟩, -⟩ := C25_bern_finder_partial hf
      simp only [List.map_cons, List.map_nil, List.mem_singleton] at h
      subst h
      refine ⟨X, (h1 X _).1 hm, o, sh, as, hβ, ?_⟩
      by_contra hn
      rw [List.getElem?_eq_none (by omega)] at h4
      cases h4
    · simp at h
  · rintro ⟨X, hb, ht⟩
    obtain ⟨s, hs⟩ := twoParams_iff.1 ht
    have : bernLogisticFinder y = .ok (some [⟨r, .bernRegression, [r, s, X, y]⟩]) := by
      unfold bernLogisticFinder
      rw [(h1 X r).2 hb]
      simp only [catchValue, hs, bind, Except.bind]
      rfl
    rw [this]
    simp [matchTargets]

theorem gammaMatch_hasOwner {g : Expr} (hg : HasOwner g) (hn : ∀ a b, ¬ IsGammaRV g a b) :
    gammaMatch g = .error .value := by
  obtain ⟨o, sh, as, rfl⟩ := hg
  unfold gammaMatch
  rw [hasOwner_etuplize ⟨o, sh, as, rfl⟩]
  rcases unify_gamma (.app o sh as) with ⟨sh', r, sz, dt, a', b', hg, -⟩ | ⟨-, hs⟩
  · exact absurd ⟨sh', r, sz, dt, hg⟩ (hn a' b')
  · simp only [bind, Except.bind, hs]

theorem mem_nb_iff {y r : Expr} (hy : HasOwner y) (hr : Regular y) :
    r ∈ matchTargets (nbinomLogisticFinder y) ↔ ∃ X d β, NbReg y X d β ∧ TwoParams β ∧
      (r = β ∨ r = d ∧ ∃ a b, IsGammaRV d a b) := by
  obtain ⟨h1, h2⟩ := C24_nbinom_match_partial hy fun c X h β hl => (hr.nb c X h β hl).1
  constructor
  · intro h
    unfold matchTargets at h
    split at h
    · next steps hf =>
      obtain ⟨c, X, hh, β, s, rest, -, hm, rfl, ⟨o, sh, as, hβ, h4⟩, -, hrest⟩ :=
        C25_nbinom_finder_partial hf
      have ht : TwoParams β := by
        refine ⟨o, sh, as, hβ, ?_⟩
        by_contra hn
        rw [List.getElem?_eq_none (by omega)] at h4
        cases h4
      refine ⟨X, hh, β, (h1 X hh β).1 hm, ht, ?_⟩
      rcases hrest with ⟨rfl, -⟩ | ⟨_, _, _, a, b, hg, rfl⟩
      · left
        simpa using h
      · simp only [List.map_cons, List.map_nil, List.mem_cons, List.not_mem_nil, or_false] at h
        rcases h with h | h
        · exact Or.inl h
        · exact Or.inr ⟨h, a, b, hg⟩
    · simp at h
  · rintro ⟨X, d, β, hb, ht, hd⟩
    obtain ⟨s, hs⟩ := twoParams_iff.1 ht
    have hown : HasOwner d := by
      obtain ⟨c, hl, -⟩ := hb
      exact (hr.nb c X d β hl).2
    unfold nbinomLogisticFinder
    rw [(h1 X d β).2 hb]
    simp only [catchValue, hs, bind, Except.bind]
    by_cases hg : ∃ a b, IsGammaRV d a b
    · obtain ⟨a, b, hg⟩ := hg
      rw [(gammaMatch_iff d a b).2 hg]
      simp only [matchTargets]
      rcases hd with rfl | ⟨rfl, -⟩ <;> simp
    · rw [gammaMatch_hasOwner hown fun a b hab => hg ⟨a, b, hab⟩]
      simp only [matchTargets]
      rcases hd with rfl | ⟨rfl, h⟩
      · simp
      · exact absurd h hg

theorem mem_horseshoe_iff {y r : Expr} (hy : HasOwner y) :
    r ∈ matchTargets (horseshoeFinder y) ↔ ∃ m a b, NormalProd y m a b ∧ IsHalfCauchyRV a ∧
      IsHalfCauchyRV b ∧ (ScalarShape a ∨ ScalarShape b) ∧ (r = a ∨ r = b) := by
  have key : r ∈ matchTargets (horseshoeFinder y) ↔
      ∃ l t, horseshoeMatch y = .ok (l, t) ∧ (r = l ∨ r = t) := by
    constructor
    · intro h
      unfold matchTargets at h
      split at h
      · next steps hf =>
        obtain ⟨l, t, hm, rfl⟩ := (C26_horseshoe_finder steps).1 hf
        exact ⟨l, t, hm, by simpa using h⟩
      · simp at h
    · rintro ⟨l, t, hm, h⟩
      have := (C26_horseshoe_finder (y := y) _).2 ⟨l, t, hm, rfl⟩
      rw [this]
      simpa [matchTargets] using h
  rw [key]
  rcases horseshoeMatch_eq hy with ⟨m, a, b, hp, he⟩ | ⟨hn, he⟩
  · rw [he]
    constructor
    · rintro ⟨l, t, h, hr⟩
      split_ifs at h with c1 c2 c3 c4
      · cases h
        exact ⟨m, a, b, hp, (isHalfCauchy_iff _).1 (by simpa using c1),
          (isHalfCauchy_iff _).1 (by simpa using c2), Or.inl ((scalarLike_iff _).1 c3), hr.symm⟩
      · cases h
        exact ⟨m, a, b, hp, (isHalfCauchy_iff _).1 (by simpa using c1),
          (isHalfCauchy_iff _).1 (by simpa using c2), Or.inr ((scalarLike_iff _).1 c4), hr⟩
    · rintro ⟨m', a', b', hp', ha, hb, hs, hr⟩
      obtain ⟨rfl, rfl, rfl⟩ := hp.inj hp'
      simp only [(isHalfCauchy_iff _).2 ha, (isHalfCauchy_iff _).2 hb, Bool.not_true,
        Bool.false_eq_true, if_false]
      by_cases c : scalarLike a = true
      · exact ⟨b, a, by simp [c], hr.symm⟩
      · have hs' : scalarLike b = true :=
          (scalarLike_iff _).2 (hs.resolve_left fun h => c ((scalarLike_iff _).2 h))
        exact ⟨a, b, by simp [c, hs'], hr⟩
  · rw [he]
    constructor
    · rintro ⟨_, _, h, -⟩
      cases h
    · rintro ⟨m, a, b, hp, -⟩
      exact absurd ⟨m, a, b, hp⟩ hn

theorem Covers.hasOwner {y r : Expr} (h : Covers y r) : HasOwner y := by
  cases h with
  | gammaPoisson h => obtain ⟨⟨_, _, _, _, _, -, e⟩, -⟩ := h; exact ⟨_, _, _, e⟩
  | betaBinomial h => obtain ⟨⟨_, _, _, _, _, -, e⟩, -⟩ := h; exact ⟨_, _, _, e⟩
  | betaNegBinomial h => obtain ⟨⟨_, _, _, _, _, -, e⟩, -⟩ := h; exact ⟨_, _, _, e⟩
  | horseshoe m a b h => exact h.hasOwner
  | nbCoefficients X d h => obtain ⟨_, ⟨_, _, _, _, _, e, -⟩, -⟩ := h; exact ⟨_, _, _, e⟩
  | nbDispersion X β a b h => obtain ⟨_, ⟨_, _, _, _, _, e, -⟩, -⟩ := h; exact ⟨_, _, _, e⟩
  | bernCoefficients X h => obtain ⟨_, ⟨_, _, _, _, _, e, -⟩, -⟩ := h; exact ⟨_, _, _, e⟩

/-- The finder that produces the step, and it is called on the node. -/
theorem covers_iff {y r : Expr} (hr : Regular y) (rng : Expr) :
    Covers y r ↔ ∃ F : Finder, y.op? = some (.rv F.tracks) ∧ r ∈ F.targets rng y := by
  constructor
  · intro h
    have hy := h.hasOwner
    cases h with
    | gammaPoisson h =>
      refine ⟨.gammaPoisson, ?_, mem_conj_iff.2 ((C15_gamma_poisson_fires_iff rng y r).2 h)⟩
      obtain ⟨⟨_, _, _, _, _, -, rfl⟩, -⟩ := h
      rfl
    | betaBinomial h =>
      refine ⟨.betaBinomial, ?_, mem_conj_iff.2 ((C15_beta_binomial_fires_iff rng y r).2 h)⟩
      obtain ⟨⟨_, _, _, _, _, -, rfl⟩, -⟩ := h
      rfl
    | betaNegBinomial h =>
      refine ⟨.betaNegBinomial, ?_, mem_conj_iff.2 ((C15_beta_nbinom_fires_iff rng y r).2 h)⟩
      obtain ⟨⟨_, _, _, _, _, -, rfl⟩, -⟩ := h
      rfl
    | horseshoe m a b h ha hb hs hr' =>
      refine ⟨.horseshoe, ?_, (mem_horseshoe_iff hy).2 ⟨m, a, b, h, ha, hb, hs, hr'⟩⟩
      obtain ⟨_, _, _, _, _, _, -, rfl⟩ := h
      rfl
    | nbCoefficients X d h h2 =>
      refine ⟨.nbLogistic, ?_, (mem_nb_iff hy hr).2 ⟨X, d, r, h, h2, Or.inl rfl⟩⟩
      obtain ⟨_, ⟨_, _, _, _, _, rfl, -⟩, -⟩ := h
      rfl
    | nbDispersion X β a b h h2 hg =>
      refine ⟨.nbLogistic, ?_, (mem_nb_iff hy hr).2 ⟨X, r, β, h, h2, Or.inr ⟨rfl, a, b, hg⟩⟩⟩
      obtain ⟨_, ⟨_, _, _, _, _, rfl, -⟩, -⟩ := h
      rfl
    | bernCoefficients X h h2 =>
      refine ⟨.bernLogistic, ?_, (mem_bern_iff hy hr).2 ⟨X, h, h2⟩⟩
      obtain ⟨_, ⟨_, _, _, _, _, rfl, -⟩, -⟩ := h
      rfl
  · rintro ⟨F, ho, h⟩
    have hy : HasOwner y := by
      cases y with
      | input i sh => cases ho
      | const d sh => cases ho
      | app o sh as => exact ⟨o, sh, as, rfl⟩
    cases F with
    | gammaPoisson => exact .gammaPoisson ((C15_gamma_poisson_fires_iff rng y r).1 (mem_conj_iff.1 h))
    | betaBinomial => exact .betaBinomial ((C15_beta_binomial_fires_iff rng y r).1 (mem_conj_iff.1 h))
    | betaNegBinomial => exact .betaNegBinomial ((C15_beta_nbinom_fires_iff rng y r).1 (mem_conj_iff.1 h))
    | horseshoe =>
      obtain ⟨m, a, b, h, ha, hb, hs, hr'⟩ := (mem_horseshoe_iff hy).1 h
      exact .horseshoe m a b h ha hb hs hr'
    | nbLogistic =>
      obtain ⟨X, d, β, h, h2, rfl | ⟨rfl, a, b, hg⟩⟩ := (mem_nb_iff hy hr).1 h
      · exact .nbCoefficients X d h h2
      · exact .nbDispersion X β a b h h2 hg
    | bernLogistic =>
      obtain ⟨X, h, h2⟩ := (mem_bern_iff hy hr).1 h
      exact .bernCoefficients X h h2

/-- What the finder returns does not depend on the RNG. -/
theorem targets_rng (F : Finder) (rng rng' y r : Expr) :
    r ∈ F.targets rng y ↔ r ∈ F.targets rng' y := by
  cases F with
  | gammaPoisson =>
    exact mem_conj_iff.trans (((C15_gamma_poisson_fires_iff rng y r).trans
      (C15_gamma_poisson_fires_iff rng' y r).symm).trans mem_conj_iff.symm)
  | betaBinomial =>
    exact mem_conj_iff.trans (((C15_beta_binomial_fires_iff rng y r).trans
      (C15_beta_binomial_fires_iff rng' y r).symm).trans mem_conj_iff.symm)
  | betaNegBinomial =>
    exact mem_conj_iff.trans (((C15_beta_nbinom_fires_iff rng y r).trans
      (C15_beta_nbinom_fires_iff rng' y r).symm).trans mem_conj_iff.symm)
  | horseshoe => exact Iff.rfl
  | nbLogistic => exact Iff.rfl
  | bernLogistic => exact Iff.rfl

/-- On every graph: a variable that gets a step is a beta, gamma or half-Cauchy variable, or the
coefficient operand of a regression. -/
theorem target_family {F : Finder} {rng y r : Expr} (h : r ∈ F.targets rng y) :
    (r.op? = some (.rv .beta) ∨ r.op? = some (.rv .gamma) ∨ r.op? = some (.rv .halfcauchy)) ∨
      TwoParams r ∧ ∃ c X, (∃ d, NbLink y c X d r) ∨ BernLink y c X r := by
  have two : ∀ {β s}, (∃ o sh as, β = Expr.app o sh as ∧ as[4]? = some s) → TwoParams β := by
    rintro β s ⟨o, sh, as, hβ, h4⟩
    refine ⟨o, sh, as, hβ, ?_⟩
    by_contra hn
    rw [List.getElem?_eq_none (by omega)] at h4
    cases h4
  cases F with
  | gammaPoisson =>
    obtain ⟨-, _, _, _, _, _, _, rfl⟩ := (C15_gamma_poisson_fires_iff rng y r).1 (mem_conj_iff.1 h)
    exact Or.inl (Or.inr (Or.inl rfl))
  | betaBinomial =>
    obtain ⟨-, _, _, _, _, _, _, rfl⟩ := (C15_beta_binomial_fires_iff rng y r).1 (mem_conj_iff.1 h)
    exact Or.inl (Or.inl rfl)
  | betaNegBinomial =>
    obtain ⟨-, _, _, _, _, _, _, rfl⟩ := (C15_beta_nbinom_fires_iff rng y r).1 (mem_conj_iff.1 h)
    exact Or.inl (Or.inl rfl)
  | horseshoe =>
    have hy : HasOwner y := by
      cases y with
      | input i sh => simp [Finder.targets, horseshoeFinder, horseshoeMatch, etuplize, catchValue,
          matchTargets, bind, Except.bind] at h
      | const d sh => simp [Finder.targets, horseshoeFinder, horseshoeMatch, etuplize, catchValue,
          matchTargets, bind, Except.bind] at h
      | app o sh as => exact ⟨o, sh, as, rfl⟩
    obtain ⟨m, a, b, -, ⟨_, _, ha⟩, ⟨_, _, hb⟩, -, rfl | rfl⟩ := (mem_horseshoe_iff hy).1 h
    · rw [ha]
      exact Or.inl (Or.inr (Or.inr rfl))
    · rw [hb]
      exact Or.inl (Or.inr (Or.inr rfl))
  | nbLogistic =>
    unfold Finder.targets matchTargets at h
    dsimp only at h
    split at h
    · next steps hf =>
      obtain ⟨c, X, hh, β, s, rest, hl, -, rfl, hβ, -, hrest⟩ := C25_nbinom_finder_partial hf
      rcases hrest with ⟨rfl, -⟩ | ⟨_, _, _, a, b, ⟨_, _, _, _, hg⟩, rfl⟩
      · obtain rfl : r = β := by simpa using h
        exact Or.inr ⟨two hβ, c, X, Or.inl ⟨hh, hl⟩⟩
      · simp only [List.map_cons, List.map_nil, List.mem_cons, List.not_mem_nil, or_false] at h
        rcases h with rfl | rfl
        · exact Or.inr ⟨two hβ, c, X, Or.inl ⟨hh, hl⟩⟩
        · rw [hg]
          exact Or.inl (Or.inr (Or.inl rfl))
    · simp at h
  | bernLogistic =>
    unfold Finder.targets matchTargets at h
    dsimp only at h
    split at h
    · next steps hf =>
      obtain ⟨c, X, β, s, hl, -, rfl, hβ, -⟩ := C25_bern_finder_partial hf
      obtain rfl : r = β := by simpa using h
      exact Or.inr ⟨two hβ, c, X, Or.inr hl⟩
    · simp at h

theorem Finder.name_inj {F G : Finder} (h : F.name = G.name) : F = G := by
  cases F <;> cases G <;> first | rfl | cases h

/-! ## The whole call -/

open Verif.Graph

variable {own : Owner} {ins : Ins} {outs : List Var} {obs newToOld : Dict Var Var} {base : Nat}
  {order : List Var → List Var} {nuts : Dict Var Var → Dict Var Var → NutsResult} {f : Var → Var}
  {tree : Var → Expr} {h : List (Visit Var (Var × Option (List (Var × Var))))}

/-- The dictionary of discovered samplers after the history `h`. -/
abbrev found (h : List (Visit Var (Var × Option (List (Var × Var))))) : Dict Var (List StepDesc) :=
  toDisc (run Tracker.empty h).samplers

theorem noSampler_found_iff {r : Var} : NoSampler (found h) outs obs r ↔
    r ∈ outs ∧ r ∉ obs.keys ∧ ∀ v ∈ firsts h, ∀ p ∈ v.steps, p.1 ≠ r := by
  have key : (∀ steps, (found h).get? r = some steps → steps = []) ↔
      (firsts h).flatMap (stepsFor r) = [] := by
    rw [← C04_recorded h r]
    change (∀ steps, (toDisc _).get? r = some steps → steps = []) ↔ _
    rw [get?_toDisc]
    cases (run Tracker.empty h).samplers.get? r with
    | none => simp
    | some l => simp
  unfold NoSampler
  rw [key, List.flatMap_eq_nil_iff]
  refine and_congr_right fun _ => and_congr_right fun _ => forall₂_congr fun v _ => ?_
  unfold stepsFor
  rw [List.map_eq_nil_iff, List.filter_eq_nil_iff]
  simp

theorem noSampler_iff_covers (hS : Search tree outs h) (hreg : ∀ y ∈ outs, Regular (tree y)) {r : Var} :
    NoSampler (found h) outs obs r ↔
      r ∈ outs ∧ r ∉ obs.keys ∧ ∀ y ∈ outs, ¬ Covers (tree y) (tree r) := by
  rw [noSampler_found_iff]
  refine and_congr_right fun hr => and_congr_right fun _ => ?_
  constructor
  · intro hn y hy hc
    obtain ⟨F, ho, hm⟩ := (covers_iff (hreg y hy) (tree r)).1 hc
    obtain ⟨v, hv, hvy, hvn⟩ := hS.all y hy F ho
    have mem : ∀ u ∈ h, u.rv = y → u.name = F.name → ∃ p ∈ u.steps, tree p.1 = tree r := by
      intro u hu huy hun
      obtain ⟨-, G, rng, hG, -, hs⟩ := hS.answer u hu
      obtain rfl := Finder.name_inj (hG.symm.trans hun)
      rw [huy] at hs
      have := (targets_rng G (tree r) rng (tree y) (tree r)).1 hm
      rw [← hs] at this
      simpa using this
    obtain ⟨p, hp, -⟩ := mem v hv hvy hvn
    obtain ⟨u, hu, hk⟩ := mem_firsts_key hv (List.ne_nil_of_mem hp)
    have hk1 : u.name = v.name := congrArg Prod.fst hk
    have hk2 : u.rv = v.rv := congrArg Prod.snd hk
    have huh := (firsts_sublist h).subset hu
    obtain ⟨q, hq, he⟩ := mem u huh (hk2.trans hvy) (hk1.trans hvn)
    exact hn u hu q hq (hS.apart u huh q hq r hr he)
  · intro hn v hv p hp hpr
    have hvh := (firsts_sublist h).subset hv
    obtain ⟨hvo, F, rng, -, ho, hs⟩ := hS.answer v hvh
    refine hn v.rv hvo ((covers_iff (hreg _ hvo) rng).2 ⟨F, ho, ?_⟩)
    rw [← hs, List.mem_map]
    exact ⟨p, hp, by rw [hpr]⟩

/-- **C64, who gets what (partial).** For every model whose regressions have a one-element link
multiplier and every history of the search: NUTS is given exactly the unobserved variables that no
variable of the model covers, and those it returns are the steps the user gets for them.  Missing from
the full property: nothing here looks at whether such a variable is continuous, see
`C64_integer_to_nuts_violated`. -/
theorem C64_route_partial (hs : Setup own ins outs obs base)
    (hold : ∀ r ∈ outs, newToOld.get? r = some (f r))
    (hinj : ∀ a ∈ outs, ∀ b ∈ outs, f a = f b → a = b) (horder : ∀ l, (order l).Perm l)
    (hnuts : ∀ a b, (nuts a b).steps.keys = a.keys) (hS : Search tree outs h)
    (hreg : ∀ y ∈ outs, Regular (tree y)) :
    let Left := fun r => r ∈ outs ∧ r ∉ obs.keys ∧ ∀ y ∈ outs, ¬ Covers (tree y) (tree r)
    ((∃ r, Left r) → ∃ out toSample realized,
      constructSampler own ins outs obs newToOld (found h) base order nuts = some out ∧
      (∀ r, r ∈ toSample.keys ↔ Left r) ∧
      (∀ r, Left r → out.steps.get? (f r) = (nuts toSample realized).steps.get? r)) ∧
    ((¬ ∃ r, Left r) → ∀ nuts',
      constructSampler own ins outs obs newToOld (found h) base order nuts' =
        constructSampler own ins outs obs newToOld (found h) base order nuts) := by
  have hL : ∀ r, NoSampler (found h) outs obs r ↔
      r ∈ outs ∧ r ∉ obs.keys ∧ ∀ y ∈ outs, ¬ Covers (tree y) (tree r) :=
    fun r => noSampler_iff_covers hS hreg
  refine ⟨fun ⟨r, hr⟩ => ?_, fun hno nuts' => ?_⟩
  · obtain ⟨out, ts, re, h1, -, h2, -, -, -, -, h3⟩ := C06_nuts (disc := found h) hs hold hinj horder
      hnuts ⟨r, (hL r).2 hr⟩
    exact ⟨out, ts, re, h1, fun r => (h2 r).trans (hL r), fun r hr => h3 r ((hL r).2 hr)⟩
  · have hrest := loop_rest (own := own) (obs := obs) outs (initState ins outs obs (found h) base)
      (found h) hs.outs_nodup (fun _ _ => rfl) (by simp [initState])
    have he : (loop own obs (initState ins outs obs (found h) base) outs).rest = [] := by
      rw [List.eq_nil_iff_forall_not_mem]
      intro r hr
      rw [hrest] at hr
      refine hno ⟨r, (hL r).1 (noSampler_iff.2 ?_)⟩
      simpa [initState] using hr
    unfold constructSampler afterNuts
    simp only [he, if_true]

/-- **C64 is violated**: whatever the model, the order of the search and the values, an unobserved
Poisson, binomial, negative-binomial or Bernoulli variable is handed to NUTS, unless it has two
parameters and is the coefficient operand of a regression (for which see
`C64_integer_coefficient_violated`).  A Poisson or Bernoulli variable has one parameter and is always
handed to NUTS.  Nothing is raised. -/
theorem C64_integer_to_nuts_violated (hs : Setup own ins outs obs base)
    (hold : ∀ r ∈ outs, newToOld.get? r = some (f r))
    (hinj : ∀ a ∈ outs, ∀ b ∈ outs, f a = f b → a = b) (horder : ∀ l, (order l).Perm l)
    (hnuts : ∀ a b, (nuts a b).steps.keys = a.keys) (hS : Search tree outs h) {r : Var} {d : Dist}
    (hr : r ∈ outs) (hro : r ∉ obs.keys) (hd : IntegerValued d) (hrd : (tree r).op? = some (.rv d))
    (hc : ¬ TwoParams (tree r) ∨ ∀ y ∈ outs, ∀ c X, ¬ ((∃ d, NbLink (tree y) c X d (tree r)) ∨
      BernLink (tree y) c X (tree r))) :
    ∃ out toSample realized,
      constructSampler own ins outs obs newToOld (found h) base order nuts = some out ∧
      r ∈ toSample.keys ∧ out.steps.get? (f r) = (nuts toSample realized).steps.get? r := by
  have hn : NoSampler (found h) outs obs r := by
    refine noSampler_found_iff.2 ⟨hr, hro, fun v hv p hp hpr => ?_⟩
    obtain ⟨hvo, F, rng, -, -, hs⟩ := hS.answer v ((firsts_sublist h).subset hv)
    have hm : tree r ∈ F.targets rng (tree v.rv) := by
      rw [← hs, List.mem_map]
      exact ⟨p, hp, by rw [hpr]⟩
    rcases target_family hm with hf | ⟨h2, c, X, hl⟩
    · rw [hrd] at hf
      rcases hd with rfl | rfl | rfl | rfl <;> simp at hf
    · rcases hc with hc | hc
      · exact hc h2
      · exact hc v.rv hvo c X hl
  obtain ⟨out, ts, re, h1, -, h2, -, -, -, -, h3⟩ := C06_nuts (disc := found h) hs hold hinj horder
    hnuts ⟨r, hn⟩
  exact ⟨out, ts, re, h1, (h2 r).2 hn, h3 r hn⟩

/-- **C64 is violated**: an integer-valued coefficient operand with two parameters gets the step of a
normal regression coefficient, which draws real vectors, with its second parameter as the scale. -/
theorem C64_integer_coefficient_violated {y X : Expr} {sh : SShape} {r sz dt n p : Expr} {d : Dist}
    (hd : d = .binomial ∨ d = .nbinom)
    (hb : BernReg y X (.app (.rv d) sh [r, sz, dt, n, p]))
    (h1 : ∀ c X β, BernLink y c X β → OneElement c) :
    IntegerValued d ∧ bernLogisticFinder y =
      .ok (some [⟨.app (.rv d) sh [r, sz, dt, n, p], .bernRegression,
        [.app (.rv d) sh [r, sz, dt, n, p], p, X, y]⟩]) := by
  have hy : HasOwner y := by
    obtain ⟨_, ⟨_, _, _, _, _, e, -⟩, -⟩ := hb
    exact ⟨_, _, _, e⟩
  refine ⟨?_, ?_⟩
  · rcases hd with rfl | rfl
    · exact Or.inr (Or.inl rfl)
    · exact Or.inr (Or.inr (Or.inl rfl))
  · unfold bernLogisticFinder
    rw [((C24_bern_match_partial hy h1).1 X _).2 hb]
    rfl

/-- A Bernoulli regression on a vector of binomial counts. -/
example : ∃ y X β p, BernReg y X β ∧ (∃ sh r sz dt n, β = .app (.rv .binomial) sh [r, sz, dt, n, p]) ∧
    bernLogisticFinder y = .ok (some [⟨β, .bernRegression, [β, p, X, y]⟩]) := by
  have hl := bernGraph_link (.const [-1] [some 1])
    (.app (.rv .binomial) [none] [.input 6 [], .input 7 [], .input 8 [], .const [5] [], .input 9 []])
  refine ⟨_, _, _, .input 9 [], ⟨_, hl, [-1], _, rfl, by simp, by simp⟩, ⟨_, _, _, _, _, rfl⟩,
    (C64_integer_coefficient_violated (Or.inl rfl) ⟨_, hl, [-1], _, rfl, by simp, by simp⟩ ?_).2⟩
  intro c X β h
  obtain ⟨rfl, -⟩ := hl.inj h
  exact ⟨-1, _, rfl, by simp, by simp⟩

/-! ### A model: rate `z` gamma, count `k` Poisson with rate `z`, `y` normal with mean `k`, observed -/

/-- The gamma rate. -/
def zT : Expr := .app (.rv .gamma) [] [.input 10 [], .input 11 [], .input 12 [], .const [2] [], .const [1] []]
/-- The latent count. -/
def kT : Expr := .app (.rv .poisson) [] [.input 13 [], .input 14 [], .input 15 [], zT]
/-- The observed measurement of the count. -/
def yT : Expr := .app (.rv .normal) [] [.input 16 [], .input 17 [], .input 18 [], kT, .const [1] []]

/-- The trees of the variables. -/
def treeZ : Var → Expr
  | 0 => zT
  | 1 => kT
  | 2 => yT
  | v => .input v []

/-- The search: the gamma-Poisson finder is called on the count and answers for the rate, the
horseshoe finder is called on the measurement. -/
def histZ : List (Visit Var (Var × Option (List (Var × Var)))) :=
  [⟨Finder.gammaPoisson.name, 1, some [(0, 4, none)]⟩, ⟨Finder.horseshoe.name, 2, none⟩]

theorem searchZ : Search treeZ [0, 1, 2] histZ where
  answer := by
    intro v hv
    simp only [histZ, List.mem_cons, List.not_mem_nil, or_false] at hv
    rcases hv with rfl | rfl
    · exact ⟨by decide, .gammaPoisson, .input 0 [], rfl, rfl, rfl⟩
    · exact ⟨by decide, .horseshoe, .input 0 [], rfl, rfl, rfl⟩
  all := by
    intro y hy F hF
    simp only [List.mem_cons, List.not_mem_nil, or_false] at hy
    rcases hy with rfl | rfl | rfl
    · cases F <;> cases hF
    · cases F <;> first | exact ⟨_, List.mem_cons_self, rfl, rfl⟩ | cases hF
    · cases F <;>
        first | exact ⟨_, List.mem_cons_of_mem _ List.mem_cons_self, rfl, rfl⟩ | cases hF
  apart := by
    intro v hv p hp r hr e
    simp only [histZ, List.mem_cons, List.not_mem_nil, or_false] at hv
    rcases hv with rfl | rfl
    · obtain rfl : p = (0, 4, none) := by simpa [Visit.steps] using hp
      simp only [List.mem_cons, List.not_mem_nil, or_false] at hr
      rcases hr with rfl | rfl | rfl
      · rfl
      · simp [treeZ, zT, kT] at e
      · simp [treeZ, zT, yT] at e
    · simp [Visit.steps] at hp

/-- The count goes to NUTS: no error, and the step returned for it is the entry NUTS made. -/
example : ∃ out toSample realized,
    constructSampler ownA insA [0, 1, 2] obsA n2oA (found histZ) 7 id nutsT = some out ∧
      1 ∈ toSample.keys ∧ out.steps.get? 21 = (nutsT toSample realized).steps.get? 1 :=
  C64_integer_to_nuts_violated (f := fun r => 20 + r) setupA oldA injA idOrder nutsT_keys searchZ
    (r := 1) (d := .poisson) (by decide) (by decide) (Or.inl rfl) rfl
    (Or.inl (by rintro ⟨o, sh, as, e, hl⟩; cases e; simp at hl))

theorem regularZ : ∀ y ∈ [0, 1, 2], Regular (treeZ y) := by
  intro y hy
  simp only [List.mem_cons, List.not_mem_nil, or_false] at hy
  rcases hy with rfl | rfl | rfl <;>
    exact ⟨fun c X h β ⟨_, _, _, _, _, e, _⟩ => (nomatch e), fun c X β ⟨_, _, _, _, _, e, _⟩ => (nomatch e)⟩

/-- Exactly the count is handed to NUTS; the rate keeps its closed-form step. -/
example : ∃ out toSample realized,
    constructSampler ownA insA [0, 1, 2] obsA n2oA (found histZ) 7 id nutsT = some out ∧
      (∀ r, r ∈ toSample.keys ↔ r = 1) ∧
      out.steps.get? 21 = (nutsT toSample realized).steps.get? 1 := by
  have hleft : ∀ r, (r ∈ [0, 1, 2] ∧ r ∉ obsA.keys ∧ ∀ y ∈ [0, 1, 2], ¬ Covers (treeZ y) (treeZ r)) ↔
      r = 1 := by
    intro r
    constructor
    · rintro ⟨hr, hro, hc⟩
      simp only [List.mem_cons, List.not_mem_nil, or_false] at hr
      rcases hr with rfl | rfl | rfl
      · exact absurd (.gammaPoisson ⟨⟨_, _, _, _, [], rfl, rfl⟩, ⟨_, _, _, _, _, _, rfl⟩⟩)
          (hc 1 (by decide))
      · rfl
      · exact absurd (by decide) hro
    · rintro rfl
      refine ⟨by decide, by decide, fun y hy hc => ?_⟩
      obtain ⟨F, -, hm⟩ := (covers_iff (regularZ y hy) (.input 0 [])).1 hc
      rcases target_family hm with h | ⟨⟨_, _, _, e, hl⟩, -⟩
      · simp [treeZ, kT, Expr.op?] at h
      · cases e
        simp at hl
  obtain ⟨out, ts, re, h1, h2, h3⟩ := (C64_route_partial (f := fun r => 20 + r) setupA oldA injA
    idOrder nutsT_keys searchZ regularZ).1 ⟨1, (hleft 1).2 rfl⟩
  exact ⟨out, ts, re, h1, fun r => (h2 r).trans (hleft r), h3 1 ((hleft 1).2 rfl)⟩

end Verif.Track
