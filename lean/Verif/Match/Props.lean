import Verif.Match.Lemmas
import Mathlib.Tactic.NormNum

/-!
# Properties of the matchers and Gibbs finders (C23 graph side, C24–C27)
-/

namespace Verif.Match

open Verif

theorem prod_ones : ∀ (l : SShape), (∀ d ∈ l, d = some 1) → (l.map (·.getD 1)).prod = 1
  | [], _ => rfl
  | d :: l, h => by
    simp only [List.map_cons, List.prod_cons, h d (by simp), Option.getD_some,
      prod_ones l (fun x hx => h x (by simp [hx])), mul_one]

theorem allNeNegOne_oneElement {q : Rat} {sh : SShape} (h0 : sh ≠ []) (h1 : ∀ d ∈ sh, d = some 1) :
    allNeNegOne (.const [q] sh) = .ok (decide (q ≠ -1)) := by
  cases sh with
  | nil => exact absurd rfl h0
  | cons d rest =>
    have hd := h1 d (by simp)
    subst hd
    change allRows (rest.map (·.getD 1)).prod 1 [decide (q ≠ -1)] = _
    rw [prod_ones rest (fun x hx => h1 x (by simp [hx]))]
    by_cases hq : q = -1 <;> simp [allRows, hq]

theorem hasOwner_etuplize {g : Expr} (h : HasOwner g) : etuplize g = .ok g := by
  obtain ⟨o, sh, as, rfl⟩ := h
  rfl

/-- What the negative-binomial matcher returns, for every graph. -/
theorem nbinomSigmoidDotMatch_eq {g : Expr} (hg : HasOwner g) :
    (∃ c X h β, NbLink g c X h β ∧ nbinomSigmoidDotMatch g =
      (allNeNegOne c).bind fun b => if b then .error .value else .ok (X, h, β)) ∨
    ((¬ ∃ c X h β, NbLink g c X h β) ∧ nbinomSigmoidDotMatch g = .error .value) := by
  rcases unify_nbinom g with ⟨sh, r, sz, dt, h, P, c, X, β, hgP, hP, s, hs, e1, e2, e3, e4⟩ | ⟨hn, hs⟩
  · left
    refine ⟨c, X, h, β, ⟨sh, r, sz, dt, P, hgP, hP⟩, ?_⟩
    unfold nbinomSigmoidDotMatch
    rw [hasOwner_etuplize hg]
    simp only [bind, Except.bind, hs, e1, e2, e3, e4]
    cases allNeNegOne c with
    | error e => rfl
    | ok b => cases b <;> rfl
  · right
    refine ⟨fun ⟨c, X, h, β, sh, r, sz, dt, P, hgP, hP⟩ =>
      hn ⟨sh, r, sz, dt, h, P, c, X, β, hgP, hP⟩, ?_⟩
    unfold nbinomSigmoidDotMatch
    rw [hasOwner_etuplize hg]
    simp only [bind, Except.bind, hs]

/-- What the Bernoulli matcher returns, for every graph. -/
theorem bernSigmoidDotMatch_eq {g : Expr} (hg : HasOwner g) :
    (∃ c X β, BernLink g c X β ∧ bernSigmoidDotMatch g =
      (allNeNegOne c).bind fun b => if b then .error .value else .ok (X, β)) ∨
    ((¬ ∃ c X β, BernLink g c X β) ∧ bernSigmoidDotMatch g = .error .value) := by
  rcases unify_bern g with ⟨sh, r, sz, dt, P, c, X, β, hgP, hP, s, hs, e1, e2, e3⟩ | ⟨hn, hs⟩
  · left
    refine ⟨c, X, β, ⟨sh, r, sz, dt, P, hgP, hP⟩, ?_⟩
    unfold bernSigmoidDotMatch
    rw [hasOwner_etuplize hg]
    simp only [bind, Except.bind, hs, e1, e2, e3]
    cases allNeNegOne c with
    | error e => rfl
    | ok b => cases b <;> rfl
  · right
    refine ⟨fun ⟨c, X, β, sh, r, sz, dt, P, hgP, hP⟩ =>
      hn ⟨sh, r, sz, dt, P, c, X, β, hgP, hP⟩, ?_⟩
    unfold bernSigmoidDotMatch
    rw [hasOwner_etuplize hg]
    simp only [bind, Except.bind, hs]

theorem NbLink.inj {g c X h β c' X' h' β' : Expr} (a : NbLink g c X h β)
    (b : NbLink g c' X' h' β') : c = c' ∧ X = X' ∧ h = h' ∧ β = β' := by
  obtain ⟨_, _, _, _, _, e, l⟩ := a
  obtain ⟨_, _, _, _, _, e', l'⟩ := b
  rw [e] at e'
  simp only [Expr.app.injEq, List.cons.injEq, and_true, true_and] at e'
  obtain ⟨-, -, -, -, eh, eP⟩ := e'
  subst eP
  exact ⟨(l.inj l').1, (l.inj l').2.1, eh, (l.inj l').2.2⟩

theorem BernLink.inj {g c X β c' X' β' : Expr} (a : BernLink g c X β)
    (b : BernLink g c' X' β') : c = c' ∧ X = X' ∧ β = β' := by
  obtain ⟨_, _, _, _, _, e, l⟩ := a
  obtain ⟨_, _, _, _, _, e', l'⟩ := b
  rw [e] at e'
  simp only [Expr.app.injEq, List.cons.injEq, and_true, true_and] at e'
  obtain ⟨-, -, -, -, eP⟩ := e'
  subst eP
  exact l.inj l'

theorem allNe_of_oneElement {c : Expr} (h : OneElement c) :
    (MinusOne c ∧ allNeNegOne c = .ok false) ∨ (¬ MinusOne c ∧ allNeNegOne c = .ok true) := by
  obtain ⟨q, sh, rfl, h0, h1⟩ := h
  rw [allNeNegOne_oneElement h0 h1]
  by_cases hq : q = -1
  · left
    exact ⟨⟨[q], sh, rfl, by simp, by simp [hq]⟩, by simp [hq]⟩
  · right
    refine ⟨?_, by simp [hq]⟩
    rintro ⟨data, sh', e, -, h⟩
    cases e
    exact hq (h q (by simp))

/-- **C24 (partial), negative binomial.** For every graph whose link multiplier, if it has one, is a
one-element array constant, the matcher returns `(X, h, beta)` exactly for
`nbinom(h, sigmoid(-1 * dot(X, beta)))` and raises `ValueError` otherwise.  Missing from the full
property: other multipliers, see `C24_match_violated`. -/
theorem C24_nbinom_match_partial {g : Expr} (hg : HasOwner g)
    (h1 : ∀ c X h β, NbLink g c X h β → OneElement c) :
    (∀ X h β, nbinomSigmoidDotMatch g = .ok (X, h, β) ↔ NbReg g X h β) ∧
      ((¬ ∃ X h β, NbReg g X h β) → nbinomSigmoidDotMatch g = .error .value) := by
  rcases nbinomSigmoidDotMatch_eq hg with ⟨c, X, h, β, hl, he⟩ | ⟨hn, he⟩
  · rcases allNe_of_oneElement (h1 _ _ _ _ hl) with ⟨hm, ha⟩ | ⟨hm, ha⟩
    · rw [ha] at he
      refine ⟨fun X' h' β' => ⟨fun hk => ?_, fun ⟨c', hl', _⟩ => ?_⟩,
        fun hno => absurd ⟨X, h, β, c, hl, hm⟩ hno⟩
      · rw [he] at hk
        simp only [Except.bind, Bool.false_eq_true, if_false, Except.ok.injEq, Prod.mk.injEq] at hk
        obtain ⟨rfl, rfl, rfl⟩ := hk
        exact ⟨c, hl, hm⟩
      · obtain ⟨-, rfl, rfl, rfl⟩ := hl.inj hl'
        rw [he]
        rfl
    · rw [ha] at he
      refine ⟨fun X' h' β' => ⟨fun hk => ?_, fun ⟨c', hl', hm'⟩ => ?_⟩, fun _ => he⟩
      · rw [he] at hk
        cases hk
      · obtain ⟨rfl, -⟩ := hl.inj hl'
        exact absurd hm' hm
  · refine ⟨fun X h β => ⟨fun hk => ?_, fun ⟨c, hl, _⟩ => absurd ⟨c, X, h, β, hl⟩ hn⟩, fun _ => he⟩
    rw [he] at hk
    cases hk

/-- **C24 (partial), Bernoulli.** -/
theorem C24_bern_match_partial {g : Expr} (hg : HasOwner g)
    (h1 : ∀ c X β, BernLink g c X β → OneElement c) :
    (∀ X β, bernSigmoidDotMatch g = .ok (X, β) ↔ BernReg g X β) ∧
      ((¬ ∃ X β, BernReg g X β) → bernSigmoidDotMatch g = .error .value) := by
  rcases bernSigmoidDotMatch_eq hg with ⟨c, X, β, hl, he⟩ | ⟨hn, he⟩
  · rcases allNe_of_oneElement (h1 _ _ _ hl) with ⟨hm, ha⟩ | ⟨hm, ha⟩
    · rw [ha] at he
      refine ⟨fun X' β' => ⟨fun hk => ?_, fun ⟨c', hl', _⟩ => ?_⟩,
        fun hno => absurd ⟨X, β, c, hl, hm⟩ hno⟩
      · rw [he] at hk
        simp only [Except.bind, Bool.false_eq_true, if_false, Except.ok.injEq, Prod.mk.injEq] at hk
        obtain ⟨rfl, rfl⟩ := hk
        exact ⟨c, hl, hm⟩
      · obtain ⟨-, rfl, rfl⟩ := hl.inj hl'
        rw [he]
        rfl
    · rw [ha] at he
      refine ⟨fun X' β' => ⟨fun hk => ?_, fun ⟨c', hl', hm'⟩ => ?_⟩, fun _ => he⟩
      · rw [he] at hk
        cases hk
      · obtain ⟨rfl, -⟩ := hl.inj hl'
        exact absurd hm' hm
  · refine ⟨fun X β => ⟨fun hk => ?_, fun ⟨c, hl, _⟩ => absurd ⟨c, X, β, hl⟩ hn⟩, fun _ => he⟩
    rw [he] at hk
    cases hk

theorem allRows_one : ∀ (bs : List Bool), allRows 1 bs.length bs = .ok (bs.all id)
  | [] => rfl
  | b :: bs => by
    cases b <;> simp [allRows, allRows_one bs]

/-- **C24 (partial).** Exactly which vector multipliers are accepted: those with *some* entry `-1`
(the full property asks for *all* entries). -/
theorem C24_vector_multiplier_partial {g X β : Expr} {data : List Rat}
    (hl : BernLink g (.const data [some data.length]) X β) :
    (bernSigmoidDotMatch g = .ok (X, β) ↔ -1 ∈ data) ∧
      (-1 ∉ data → bernSigmoidDotMatch g = .error .value) := by
  have hg : HasOwner g := by
    obtain ⟨_, _, _, _, _, e, -⟩ := hl
    exact ⟨_, _, _, e⟩
  rcases bernSigmoidDotMatch_eq hg with ⟨c, X', β', hl', he⟩ | ⟨hn, -⟩
  · obtain ⟨rfl, rfl, rfl⟩ := hl.inj hl'
    have h2 : allNeNegOne (.const data [some data.length]) =
        .ok ((data.map fun q => decide (q ≠ -1)).all id) := by
      have := allRows_one (data.map fun q => decide (q ≠ -1))
      rw [List.length_map] at this
      simpa [allNeNegOne] using this
    rw [h2] at he
    have h3 : (data.map fun q => decide (q ≠ -1)).all id = true ↔ -1 ∉ data := by
      simp only [List.all_map, List.all_eq_true, Function.comp, id, decide_eq_true_eq]
      exact ⟨fun h hm => h _ hm rfl, fun h x hx hxe => h (hxe ▸ hx)⟩
    by_cases hm : -1 ∈ data
    · have h4 : (data.map fun q => decide (q ≠ -1)).all id = false := by
        rw [Bool.eq_false_iff]
        exact fun h => h3.1 h hm
      rw [h4] at he
      exact ⟨⟨fun _ => hm, fun _ => he⟩, fun h => absurd hm h⟩
    · rw [h3.2 hm] at he
      refine ⟨⟨fun h => ?_, fun h => absurd h hm⟩, fun _ => he⟩
      rw [he] at h
      cases h
  · exact absurd ⟨_, _, _, hl⟩ hn

/-- A regression graph with the given link multiplier, for the examples below. -/
def bernGraph (c β : Expr) : Expr :=
  .app (.rv .bernoulli) [none] [.input 0 [], .input 1 [], .input 2 [],
    .app (.elem .sigmoid) [none] [.app (.elem .mul) [none] [c, .app .dot [none]
      [.input 3 [none, none], β]]]]

/-- A negative-binomial regression graph. -/
def nbGraph (c h β : Expr) : Expr :=
  .app (.rv .nbinom) [none] [.input 0 [], .input 1 [], .input 2 [], h,
    .app (.elem .sigmoid) [none] [.app (.subsElem .mul) [none] [c, .app .dot [none]
      [.input 3 [none, none], β]]]]

theorem bernGraph_link (c β : Expr) : BernLink (bernGraph c β) c (.input 3 [none, none]) β :=
  ⟨_, _, _, _, _, rfl, _, _, _, _, _, Or.inl rfl, Or.inl rfl, rfl⟩

theorem nbGraph_link (c h β : Expr) : NbLink (nbGraph c h β) c (.input 3 [none, none]) h β :=
  ⟨_, _, _, _, _, rfl, _, _, _, _, _, Or.inl rfl, Or.inr rfl, rfl⟩

/-- The hypotheses of the C24 theorems are met by accepted and by rejected graphs. -/
example : ∃ g, HasOwner g ∧ (∀ c X h β, NbLink g c X h β → OneElement c) ∧
    ∃ X h β, NbReg g X h β := by
  refine ⟨nbGraph (.const [-1] [some 1]) (.input 4 []) (.input 5 [none]), ⟨_, _, _, rfl⟩, ?_,
    _, _, _, _, nbGraph_link _ _ _, ⟨[-1], _, rfl, by simp, by simp⟩⟩
  intro c X h β hl
  obtain ⟨rfl, -⟩ := (nbGraph_link _ _ _).inj hl
  exact ⟨-1, [some 1], rfl, by simp, by simp⟩

example : ∃ g, HasOwner g ∧ (∀ c X β, BernLink g c X β → OneElement c) ∧
    (∃ c X β, BernLink g c X β) ∧ ¬ ∃ X β, BernReg g X β := by
  refine ⟨bernGraph (.const [2] [some 1]) (.input 5 [none]), ⟨_, _, _, rfl⟩, ?_,
    ⟨_, _, _, bernGraph_link _ _⟩, ?_⟩
  · intro c X β hl
    obtain ⟨rfl, -⟩ := (bernGraph_link _ _).inj hl
    exact ⟨2, [some 1], rfl, by simp, by simp⟩
  · rintro ⟨X, β, c, hl, data, sh, hc, -, hq⟩
    obtain ⟨rfl, -⟩ := (bernGraph_link _ _).inj hl
    cases hc
    have := hq 2 (by simp)
    norm_num at this

/-- **C24 is violated** three ways: a vector multiplier with one entry `-1` and another entry `3` is
accepted; the scalar multiplier `-1` (a 0-d constant) raises `TypeError`; a non-constant multiplier
raises `AttributeError` instead of `ValueError`. -/
theorem C24_match_violated :
    (∃ g X β, bernSigmoidDotMatch g = .ok (X, β) ∧ ¬ BernReg g X β) ∧
    (∃ g X β, BernReg g X β ∧ bernSigmoidDotMatch g = .error .type) ∧
    (∃ g, HasOwner g ∧ (¬ ∃ X β, BernReg g X β) ∧ bernSigmoidDotMatch g = .error .attribute) := by
  refine ⟨⟨bernGraph (.const [-1, 3] [some 2]) (.input 5 [none]), _, _,
      (C24_vector_multiplier_partial (bernGraph_link _ _)).1.2 (by simp), ?_⟩,
    ⟨bernGraph (.const [-1] []) (.input 5 []), _, _, ⟨_, bernGraph_link _ _,
      ⟨[-1], _, rfl, by simp, by simp⟩⟩, ?_⟩,
    ⟨bernGraph (.input 9 [none]) (.input 5 [none]), ⟨_, _, _, rfl⟩, ?_, ?_⟩⟩
  · rintro ⟨c, hl, data, sh, hc, -, hq⟩
    obtain ⟨rfl, -⟩ := (bernGraph_link _ _).inj hl
    cases hc
    have := hq 3 (by simp)
    norm_num at this
  · rfl
  · rintro ⟨X, β, c, hl, data, sh, hc, -, hq⟩
    obtain ⟨rfl, -⟩ := (bernGraph_link _ _).inj hl
    cases hc
  · rfl

/-! ## C25: the regression finders and the prior of the coefficients -/

/-- **C25 (partial), Bernoulli.** When the finder fires it makes one step, for the matched `beta`,
with the matched `X` and the fourth-from-zero input of `beta`'s operation as its standard deviation.
If `beta` is normal, that is its scale, *whatever its mean*.  The full property asks for
`ZeroMeanNormal beta`. -/
theorem C25_bern_finder_partial {y : Expr} {steps : List Step}
    (h : bernLogisticFinder y = .ok (some steps)) :
    ∃ c X β s, BernLink y c X β ∧ bernSigmoidDotMatch y = .ok (X, β) ∧
      steps = [⟨β, .bernRegression, [β, s, X, y]⟩] ∧
      (∃ o sh as, β = .app o sh as ∧ as[4]? = some s) ∧
      (∀ sh r sz dt m s', β = .app (.rv .normal) sh [r, sz, dt, m, s'] → s = s') := by
  have hg : HasOwner y := by
    cases y with
    | app o sh as => exact ⟨o, sh, as, rfl⟩
    | input i sh => simp [bernLogisticFinder, bernSigmoidDotMatch, etuplize, catchValue, bind,
        Except.bind] at h
    | const d sh => simp [bernLogisticFinder, bernSigmoidDotMatch, etuplize, catchValue, bind,
        Except.bind] at h
  rcases bernSigmoidDotMatch_eq hg with ⟨c, X, β, hl, he⟩ | ⟨-, he⟩
  · cases ha : allNeNegOne c with
    | error e =>
      rw [ha] at he
      simp only [Except.bind] at he
      cases e <;> simp [bernLogisticFinder, he, catchValue] at h
    | ok b =>
      cases b with
      | true =>
        rw [ha] at he
        simp only [Except.bind, if_true] at he
        simp [bernLogisticFinder, he, catchValue] at h
      | false =>
        rw [ha] at he
        simp only [Except.bind, Bool.false_eq_true, if_false] at he
        simp only [bernLogisticFinder, he, catchValue, bind, Except.bind] at h
        cases hβ : β with
        | input i sh => simp [hβ, ownerInput4, Expr.args?] at h
        | const d sh => simp [hβ, ownerInput4, Expr.args?] at h
        | app o sh as =>
          rw [hβ] at h hl he
          cases h4 : as[4]? with
          | none => simp [ownerInput4, Expr.args?, h4] at h
          | some s =>
            simp only [ownerInput4, Expr.args?, h4, pure, Except.pure, Except.ok.injEq,
              Option.some.injEq] at h
            refine ⟨c, X, _, s, hl, he, h.symm, ⟨o, sh, as, rfl, h4⟩, ?_⟩
            intro sh' r sz dt m s' e
            cases e
            simpa using h4.symm
  · simp [bernLogisticFinder, he, catchValue] at h

/-- **C25 is violated**: the Bernoulli finder makes the zero-mean-normal step for a normal with mean
5, and for coefficients that are not normal at all. -/
theorem C25_bern_finder_violated :
    (∃ y β X s, bernLogisticFinder y = .ok (some [⟨β, .bernRegression, [β, s, X, y]⟩]) ∧
      (∃ sh r sz dt m, β = .app (.rv .normal) sh [r, sz, dt, m, s] ∧ ConstOf 5 m) ∧
      ¬ ZeroMeanNormal β s) ∧
    (∃ y β X s, bernLogisticFinder y = .ok (some [⟨β, .bernRegression, [β, s, X, y]⟩]) ∧
      (∃ sh as, β = .app (.rv .gamma) sh as) ∧ ¬ ∃ s', ZeroMeanNormal β s') := by
  refine ⟨⟨bernGraph (.const [-1] [some 1]) (.app (.rv .normal) [none] [.input 6 [], .input 7 [],
      .input 8 [], .const [5] [], .input 9 []]), _, _, _, rfl, ⟨_, _, _, _, _, rfl, [5], _, rfl,
      by simp, by simp⟩, ?_⟩,
    ⟨bernGraph (.const [-1] [some 1]) (.app (.rv .gamma) [none] [.input 6 [], .input 7 [],
      .input 8 [], .input 9 [], .input 10 []]), _, _, _, rfl, ⟨_, _, rfl⟩, ?_⟩⟩
  · rintro ⟨_, _, _, _, _, e, data, sh, hc, -, hq⟩
    cases e
    cases hc
    have := hq 5 (by simp)
    norm_num at this
  · rintro ⟨_, _, _, _, _, _, e, -⟩
    cases e

theorem gammaMatch_iff (g a b : Expr) : gammaMatch g = .ok (a, b) ↔ IsGammaRV g a b := by
  cases g with
  | input i sh => simp [gammaMatch, etuplize, bind, Except.bind, IsGammaRV]
  | const d sh => simp [gammaMatch, etuplize, bind, Except.bind, IsGammaRV]
  | app o sh as =>
    unfold gammaMatch
    rw [hasOwner_etuplize ⟨o, sh, as, rfl⟩]
    rcases unify_gamma (.app o sh as) with ⟨sh', r, sz, dt, a', b', hg, s, hs, e1, e2⟩ | ⟨hn, hs⟩
    · simp only [bind, Except.bind, hs, e1, e2, pure, Except.pure, Except.ok.injEq, Prod.mk.injEq]
      constructor
      · rintro ⟨rfl, rfl⟩
        exact ⟨_, _, _, _, hg⟩
      · rintro ⟨_, _, _, _, h⟩
        rw [hg] at h
        cases h
        exact ⟨rfl, rfl⟩
    · simp only [bind, Except.bind, hs]
      refine ⟨fun h => ?_, fun ⟨sh', r, sz, dt, h⟩ => absurd ⟨sh', r, sz, dt, a, b, h⟩ hn⟩
      cases h

/-- **C25 (partial), negative binomial.** As for Bernoulli; the first step is for `beta`, and a
second step, for `h`, is made exactly when `h` is a gamma variable, with that variable's
parameters and the success probabilities recomputed from the new coefficients, the output of the first
step (an application of an operator of its own to that step's arguments). -/
theorem C25_nbinom_finder_partial {y : Expr} {steps : List Step}
    (h : nbinomLogisticFinder y = .ok (some steps)) :
    ∃ c X hh β s rest, NbLink y c X hh β ∧ nbinomSigmoidDotMatch y = .ok (X, hh, β) ∧
      steps = ⟨β, .nbRegression, [β, s, X, hh, y]⟩ :: rest ∧
      (∃ o sh as, β = .app o sh as ∧ as[4]? = some s) ∧
      (∀ sh r sz dt m s', β = .app (.rv .normal) sh [r, sz, dt, m, s'] → s = s') ∧
      ((rest = [] ∧ ∀ a b, ¬ IsGammaRV hh a b) ∨
        ∃ s₁ s₂ s₃ a b, IsGammaRV hh a b ∧ rest = [⟨hh, .dispersion, [hh,
          .app (.elem .sigmoid) s₁ [.app .dot s₂ [.app (.elem .neg) s₃ [X],
            .app (.other 0) [] [β, s, X, hh, y]]], a, b, y]⟩]) := by
  have hg : HasOwner y := by
    cases y with
    | app o sh as => exact ⟨o, sh, as, rfl⟩
    | input i sh => simp [nbinomLogisticFinder, nbinomSigmoidDotMatch, etuplize, catchValue, bind,
        Except.bind] at h
    | const d sh => simp [nbinomLogisticFinder, nbinomSigmoidDotMatch, etuplize, catchValue, bind,
        Except.bind] at h
  rcases nbinomSigmoidDotMatch_eq hg with ⟨c, X, hh, β, hl, he⟩ | ⟨-, he⟩
  · cases ha : allNeNegOne c with
    | error e =>
      rw [ha] at he
      simp only [Except.bind] at he
      cases e <;> simp [nbinomLogisticFinder, he, catchValue] at h
    | ok b =>
      cases b with
      | true =>
        rw [ha] at he
        simp only [Except.bind, if_true] at he
        simp [nbinomLogisticFinder, he, catchValue] at h
      | false =>
        rw [ha] at he
        simp only [Except.bind, Bool.false_eq_true, if_false] at he
        simp only [nbinomLogisticFinder, he, catchValue, bind, Except.bind] at h
        cases hβ : β with
        | input i sh => simp [hβ, ownerInput4, Expr.args?] at h
        | const d sh => simp [hβ, ownerInput4, Expr.args?] at h
        | app o sh as =>
          rw [hβ] at h hl he
          cases h4 : as[4]? with
          | none => simp [ownerInput4, Expr.args?, h4] at h
          | some s =>
            simp only [ownerInput4, Expr.args?, h4] at h
            have hn : ∀ sh' r sz dt m s', Expr.app o sh as = .app (.rv .normal) sh'
                [r, sz, dt, m, s'] → s = s' := by
              intro sh' r sz dt m s' e
              cases e
              simpa using h4.symm
            cases hm : gammaMatch hh with
            | ok ab =>
              obtain ⟨a, b⟩ := ab
              rw [hm] at h
              simp only [Except.ok.injEq, Option.some.injEq] at h
              exact ⟨c, X, hh, _, s, _, hl, he, h.symm, ⟨o, sh, as, rfl, h4⟩, hn,
                Or.inr ⟨_, _, _, a, b, (gammaMatch_iff _ _ _).1 hm, rfl⟩⟩
            | error e =>
              rw [hm] at h
              cases e with
              | value =>
                simp only [Except.ok.injEq, Option.some.injEq] at h
                exact ⟨c, X, hh, _, s, [], hl, he, h.symm, ⟨o, sh, as, rfl, h4⟩, hn,
                  Or.inl ⟨rfl, fun a b hab => by
                    rw [(gammaMatch_iff _ _ _).2 hab] at hm; cases hm⟩⟩
              | «attribute» => simp at h
              | type => simp at h
              | index => simp at h
  · simp [nbinomLogisticFinder, he, catchValue] at h

/-- Both finders do fire, the second with a gamma dispersion. -/
example : (∃ y steps, bernLogisticFinder y = .ok (some steps)) ∧
    ∃ y s₁ s₂, nbinomLogisticFinder y = .ok (some [s₁, s₂]) :=
  ⟨⟨bernGraph (.const [-1] [some 1]) (.app (.rv .normal) [none] [.input 6 [], .input 7 [],
      .input 8 [], .const [0] [], .input 9 []]), _, rfl⟩,
    ⟨nbGraph (.const [-1] [some 1]) (.app (.rv .gamma) [] [.input 6 [], .input 7 [],
      .input 8 [], .input 9 [], .input 10 []]) (.app (.rv .normal) [none] [.input 6 [], .input 7 [],
      .input 8 [], .const [0] [], .input 9 []]), _, _, rfl⟩⟩

/-! ## C26 and C27: the horseshoe matcher -/

theorem isHalfCauchy_iff (e : Expr) : isHalfCauchy e = true ↔ IsHalfCauchyRV e := by
  cases e with
  | app o sh as =>
    simp only [isHalfCauchy, Expr.op?, Option.some.injEq, decide_eq_true_eq, IsHalfCauchyRV,
      Expr.app.injEq]
    exact ⟨fun h => ⟨sh, as, h, rfl, rfl⟩, fun ⟨_, _, h, _⟩ => h⟩
  | input i sh => simp [isHalfCauchy, Expr.op?, IsHalfCauchyRV]
  | const d sh => simp [isHalfCauchy, Expr.op?, IsHalfCauchyRV]

theorem scalarLike_iff (e : Expr) : scalarLike e = true ↔ ScalarShape e := by
  unfold scalarLike ScalarShape
  rw [Bool.or_eq_true, List.all_eq_true]
  simp only [decide_eq_true_eq]
  constructor
  · rintro (h | h)
    · rw [List.length_eq_zero_iff] at h
      simp [h]
    · exact h
  · exact Or.inr

/-- What the horseshoe matcher returns, for every graph. -/
theorem horseshoeMatch_eq {g : Expr} (hg : HasOwner g) :
    (∃ m a b, NormalProd g m a b ∧ horseshoeMatch g =
      (if !isHalfCauchy a then .error .value else if !isHalfCauchy b then .error .value else
        if scalarLike a then .ok (b, a) else if scalarLike b then .ok (a, b)
        else .error .value)) ∨
    ((¬ ∃ m a b, NormalProd g m a b) ∧ horseshoeMatch g = .error .value) := by
  rcases unify_horseshoe g with ⟨sh, r, sz, dt, m, o, s₂, a, b, hgP, ho, s, hs, e1, e2⟩ | ⟨hn, hs⟩
  · left
    refine ⟨m, a, b, ⟨sh, r, sz, dt, o, s₂, ho, hgP⟩, ?_⟩
    unfold horseshoeMatch
    rw [hasOwner_etuplize hg]
    simp only [bind, Except.bind, hs, e1, e2, throw, throwThe, MonadExceptOf.throw, pure,
      Except.pure]
  · right
    refine ⟨fun ⟨m, a, b, sh, r, sz, dt, o, s₂, ho, e⟩ =>
      hn ⟨sh, r, sz, dt, m, o, s₂, a, b, e, ho⟩, ?_⟩
    unfold horseshoeMatch
    rw [hasOwner_etuplize hg]
    simp only [bind, Except.bind, hs]

theorem NormalProd.inj {g m a b m' a' b' : Expr} (h : NormalProd g m a b)
    (h' : NormalProd g m' a' b') : m = m' ∧ a = a' ∧ b = b' := by
  obtain ⟨_, _, _, _, _, _, -, e⟩ := h
  obtain ⟨_, _, _, _, _, _, -, e'⟩ := h'
  rw [e] at e'
  cases e'
  exact ⟨rfl, rfl, rfl⟩

theorem NormalProd.hasOwner {g m a b : Expr} (h : NormalProd g m a b) : HasOwner g := by
  obtain ⟨_, _, _, _, _, _, -, e⟩ := h
  exact ⟨_, _, _, e⟩

/-- **C26.** Both factor orders: with half-Cauchy factors of which only `tau` is scalar-shaped, the
matcher returns `(lambda, tau)`. -/
theorem C26_horseshoe_order {g m lmbda tau : Expr} (hl : IsHalfCauchyRV lmbda)
    (ht : IsHalfCauchyRV tau) (h1 : ScalarShape tau) (h2 : ¬ ScalarShape lmbda)
    (hg : NormalProd g m lmbda tau ∨ NormalProd g m tau lmbda) :
    horseshoeMatch g = .ok (lmbda, tau) := by
  have hl' := (isHalfCauchy_iff _).2 hl
  have ht' := (isHalfCauchy_iff _).2 ht
  have h1' := (scalarLike_iff _).2 h1
  have h2' : scalarLike lmbda = false := by
    rw [Bool.eq_false_iff]
    exact fun h => h2 ((scalarLike_iff _).1 h)
  rcases hg with hg | hg
  · rcases horseshoeMatch_eq hg.hasOwner with ⟨m', a, b, hp, he⟩ | ⟨hn, -⟩
    · obtain ⟨-, rfl, rfl⟩ := hg.inj hp
      rw [he]
      simp [hl', ht', h1', h2']
    · exact absurd ⟨_, _, _, hg⟩ hn
  · rcases horseshoeMatch_eq hg.hasOwner with ⟨m', a, b, hp, he⟩ | ⟨hn, -⟩
    · obtain ⟨-, rfl, rfl⟩ := hg.inj hp
      rw [he]
      simp [hl', ht', h1']
    · exact absurd ⟨_, _, _, hg⟩ hn

/-- **C26.** Every other graph is rejected with `ValueError`; a returned pair always consists of the
two half-Cauchy factors of a normal's scale, the second one scalar-shaped. -/
theorem C26_horseshoe_reject {g : Expr} (hg : HasOwner g) :
    (∀ lmbda tau, horseshoeMatch g = .ok (lmbda, tau) →
      ∃ m, (NormalProd g m lmbda tau ∨ NormalProd g m tau lmbda) ∧ IsHalfCauchyRV lmbda ∧
        IsHalfCauchyRV tau ∧ ScalarShape tau) ∧
    ((¬ ∃ m a b, NormalProd g m a b ∧ IsHalfCauchyRV a ∧ IsHalfCauchyRV b ∧
      (ScalarShape a ∨ ScalarShape b)) → horseshoeMatch g = .error .value) := by
  rcases horseshoeMatch_eq hg with ⟨m, a, b, hp, he⟩ | ⟨hn, he⟩
  · constructor
    · intro lmbda tau h
      rw [he] at h
      split_ifs at h with c1 c2 c3 c4
      · cases h
        exact ⟨m, Or.inr hp, (isHalfCauchy_iff _).1 (by simpa using c2),
          (isHalfCauchy_iff _).1 (by simpa using c1), (scalarLike_iff _).1 c3⟩
      · cases h
        exact ⟨m, Or.inl hp, (isHalfCauchy_iff _).1 (by simpa using c1),
          (isHalfCauchy_iff _).1 (by simpa using c2), (scalarLike_iff _).1 c4⟩
    · intro h
      rw [he]
      split_ifs with c1 c2 c3 c4
      · rfl
      · rfl
      · exact absurd ⟨m, a, b, hp, (isHalfCauchy_iff _).1 (by simpa using c1),
          (isHalfCauchy_iff _).1 (by simpa using c2), Or.inl ((scalarLike_iff _).1 c3)⟩ h
      · exact absurd ⟨m, a, b, hp, (isHalfCauchy_iff _).1 (by simpa using c1),
          (isHalfCauchy_iff _).1 (by simpa using c2), Or.inr ((scalarLike_iff _).1 c4)⟩ h
      · rfl
  · refine ⟨fun lmbda tau h => ?_, fun _ => he⟩
    rw [he] at h
    cases h

/-- A horseshoe graph for the examples. -/
def hsGraph (m a b : Expr) : Expr :=
  .app (.rv .normal) [none] [.input 0 [], .input 1 [], .input 2 [], m, .app (.subsElem .mul) [none] [a, b]]

/-- A half-Cauchy variable with the given shape and parameters. -/
def hcVar (i : Nat) (sh : SShape) (l s : Expr) : Expr :=
  .app (.rv .halfcauchy) sh [.input i [], .input 1 [], .input 2 [], l, s]

theorem hsGraph_prod (m a b : Expr) : NormalProd (hsGraph m a b) m a b :=
  ⟨_, _, _, _, _, _, Or.inr rfl, rfl⟩

example : ∃ g m lmbda tau, IsHalfCauchyRV lmbda ∧ IsHalfCauchyRV tau ∧ ScalarShape tau ∧
    ¬ ScalarShape lmbda ∧ NormalProd g m tau lmbda :=
  ⟨_, .const [0] [], hcVar 5 [none] (.const [0] []) (.const [1] []),
    hcVar 6 [some 1] (.const [0] []) (.const [1] []), ⟨_, _, rfl⟩, ⟨_, _, rfl⟩,
    by simp [ScalarShape, hcVar, Expr.shape], by simp [ScalarShape, hcVar, Expr.shape],
    hsGraph_prod _ _ _⟩

/-- **C27 (partial).** An accepted graph is a normal whose scale is a product of two half-Cauchy
variables.  The full property also asks for mean zero and standard half-Cauchy parameters. -/
theorem C27_horseshoe_accepts_partial {g lmbda tau : Expr} (hg : HasOwner g)
    (h : horseshoeMatch g = .ok (lmbda, tau)) :
    ∃ m, (NormalProd g m lmbda tau ∨ NormalProd g m tau lmbda) ∧ IsHalfCauchyRV lmbda ∧
      IsHalfCauchyRV tau := by
  obtain ⟨m, h1, h2, h3, -⟩ := (C26_horseshoe_reject hg).1 _ _ h
  exact ⟨m, h1, h2, h3⟩

/-- **C27 is violated**: a normal with mean 3 is accepted, and so is a half-Cauchy with scale 5. -/
theorem C27_horseshoe_accepts_violated :
    (∃ g lmbda tau m, horseshoeMatch g = .ok (lmbda, tau) ∧ NormalProd g m lmbda tau ∧
      StdHalfCauchy lmbda ∧ StdHalfCauchy tau ∧ ConstOf 3 m ∧ ¬ ConstOf 0 m) ∧
    (∃ g lmbda tau m, horseshoeMatch g = .ok (lmbda, tau) ∧ NormalProd g m lmbda tau ∧
      ConstOf 0 m ∧ StdHalfCauchy lmbda ∧ ¬ StdHalfCauchy tau) := by
  refine ⟨⟨hsGraph (.const [3] []) (hcVar 5 [none] (.const [0] []) (.const [1] []))
      (hcVar 6 [] (.const [0] []) (.const [1] [])), _, _, _, rfl, hsGraph_prod _ _ _,
      ⟨_, _, _, _, _, _, rfl, ⟨[0], _, rfl, by simp, by simp⟩, ⟨[1], _, rfl, by simp, by simp⟩⟩,
      ⟨_, _, _, _, _, _, rfl, ⟨[0], _, rfl, by simp, by simp⟩, ⟨[1], _, rfl, by simp, by simp⟩⟩,
      ⟨[3], _, rfl, by simp, by simp⟩, ?_⟩,
    ⟨hsGraph (.const [0] []) (hcVar 5 [none] (.const [0] []) (.const [1] []))
      (hcVar 6 [] (.const [0] []) (.const [5] [])), _, _, _, rfl, hsGraph_prod _ _ _,
      ⟨[0], _, rfl, by simp, by simp⟩,
      ⟨_, _, _, _, _, _, rfl, ⟨[0], _, rfl, by simp, by simp⟩, ⟨[1], _, rfl, by simp, by simp⟩⟩,
      ?_⟩⟩
  · rintro ⟨data, sh, hc, -, hq⟩
    cases hc
    have := hq 3 (by simp)
    norm_num at this
  · rintro ⟨_, _, _, _, _, _, e, -, data, sh, hc, -, hq⟩
    cases e
    cases hc
    have := hq 5 (by simp)
    norm_num at this

/-- The horseshoe finder makes one step for each shrinkage parameter, both running the same
posterior with `(y, lambda^2, tau^2)`, exactly when the matcher accepts. -/
theorem C26_horseshoe_finder {y : Expr} (steps : List Step) :
    horseshoeFinder y = .ok (some steps) ↔ ∃ lmbda tau, horseshoeMatch y = .ok (lmbda, tau) ∧
      steps = [⟨lmbda, .horseshoe, [y, .app (.elem .mul) lmbda.shape [lmbda, lmbda],
        .app (.elem .mul) tau.shape [tau, tau]]⟩,
        ⟨tau, .horseshoe, [y, .app (.elem .mul) lmbda.shape [lmbda, lmbda],
        .app (.elem .mul) tau.shape [tau, tau]]⟩] := by
  unfold horseshoeFinder catchValue
  cases hm : horseshoeMatch y with
  | ok r =>
    obtain ⟨l, t⟩ := r
    simp only [Except.ok.injEq, Option.some.injEq, Prod.mk.injEq]
    constructor
    · rintro rfl
      exact ⟨l, t, ⟨rfl, rfl⟩, rfl⟩
    · rintro ⟨l', t', ⟨rfl, rfl⟩, h⟩
      exact h.symm
  | error e => cases e <;> simp

/-- The global factor first: the matcher still returns it second, the acceptance theorem finds both factors, and
the finder makes two steps. -/
example : ∃ lmbda tau m, horseshoeMatch (hsGraph m tau lmbda) = .ok (lmbda, tau) ∧
    (∃ m', (NormalProd (hsGraph m tau lmbda) m' lmbda tau ∨ NormalProd (hsGraph m tau lmbda) m' tau lmbda) ∧
      IsHalfCauchyRV lmbda ∧ IsHalfCauchyRV tau) ∧
    ∃ s₁ s₂, horseshoeFinder (hsGraph m tau lmbda) = .ok (some [s₁, s₂]) ∧ s₁.target = lmbda ∧ s₂.target = tau := by
  have h := C26_horseshoe_order (g := hsGraph (.const [0] []) (hcVar 6 [some 1] (.const [0] []) (.const [1] []))
      (hcVar 5 [none] (.const [0] []) (.const [1] []))) (m := .const [0] [])
    (lmbda := hcVar 5 [none] (.const [0] []) (.const [1] []))
    (tau := hcVar 6 [some 1] (.const [0] []) (.const [1] [])) ⟨_, _, rfl⟩ ⟨_, _, rfl⟩
    (by simp [ScalarShape, hcVar, Expr.shape]) (by simp [ScalarShape, hcVar, Expr.shape])
    (Or.inr (hsGraph_prod _ _ _))
  exact ⟨_, _, _, h, C27_horseshoe_accepts_partial ⟨_, _, _, rfl⟩ h, _, _,
    (C26_horseshoe_finder _).2 ⟨_, _, h, rfl⟩, rfl, rfl⟩

/-- A normal whose scale is not a product is rejected. -/
example : horseshoeMatch (.app (.rv .normal) [none] [.input 0 [], .input 1 [], .input 2 [], .const [0] [],
    .input 3 []]) = .error .value := by
  refine (C26_horseshoe_reject ⟨_, _, _, rfl⟩).2 ?_
  rintro ⟨m, a, b, ⟨_, _, _, _, _, _, -, e⟩, -⟩
  cases e

/-- The accepted Bernoulli graph with multiplier `[-1]`, and vector multipliers with and without an entry `-1`. -/
example (β : Expr) : bernSigmoidDotMatch (bernGraph (.const [-1] [some 1]) β) = .ok (.input 3 [none, none], β) ∧
    bernSigmoidDotMatch (bernGraph (.const [3, -1] [some 2]) β) = .ok (.input 3 [none, none], β) ∧
    bernSigmoidDotMatch (bernGraph (.const [3, 1] [some 2]) β) = .error .value := by
  refine ⟨((C24_bern_match_partial ⟨_, _, _, rfl⟩ fun c X β hl => ?_).1 _ _).2 ⟨_, bernGraph_link _ _, [-1], _, rfl,
      by simp, by simp⟩, (C24_vector_multiplier_partial (data := [3, -1]) (bernGraph_link _ _)).1.2 (by simp),
    (C24_vector_multiplier_partial (data := [3, 1]) (bernGraph_link _ _)).2 (by norm_num)⟩
  obtain ⟨rfl, -⟩ := (bernGraph_link _ _).inj hl
  exact ⟨-1, [some 1], rfl, by simp, by simp⟩

/-- The same for the negative-binomial graph. -/
example (h β : Expr) : nbinomSigmoidDotMatch (nbGraph (.const [-1] [some 1]) h β) =
    .ok (.input 3 [none, none], h, β) := by
  refine ((C24_nbinom_match_partial ⟨_, _, _, rfl⟩ fun c X h' β' hl => ?_).1 _ _ _).2 ⟨_, nbGraph_link _ _ _, [-1], _,
    rfl, by simp, by simp⟩
  obtain ⟨rfl, -⟩ := (nbGraph_link _ _ _).inj hl
  exact ⟨-1, [some 1], rfl, by simp, by simp⟩

/-- The Bernoulli step reads the scale of its normal coefficients. -/
example : ∃ c X β s, BernLink (bernGraph (.const [-1] [some 1]) (.app (.rv .normal) [none] [.input 6 [], .input 7 [],
      .input 8 [], .const [0] [], .input 9 []])) c X β ∧ s = .input 9 [] ∧
    bernLogisticFinder (bernGraph (.const [-1] [some 1]) (.app (.rv .normal) [none] [.input 6 [], .input 7 [],
      .input 8 [], .const [0] [], .input 9 []])) = .ok (some [⟨β, .bernRegression, [β, s, X,
        bernGraph (.const [-1] [some 1]) (.app (.rv .normal) [none] [.input 6 [], .input 7 [],
      .input 8 [], .const [0] [], .input 9 []])]⟩]) := by
  obtain ⟨c, X, β, s, h1, -, h3, -, h5⟩ := C25_bern_finder_partial (y := bernGraph (.const [-1] [some 1])
    (.app (.rv .normal) [none] [.input 6 [], .input 7 [], .input 8 [], .const [0] [], .input 9 []])) rfl
  have hβ := (bernGraph_link _ _).inj h1
  refine ⟨c, X, β, s, h1, h5 _ _ _ _ _ _ hβ.2.2.symm, ?_⟩
  rw [← h3]
  rfl

end Verif.Match
