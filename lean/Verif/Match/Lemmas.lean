import Verif.Match.Model
import Verif.Match.Spec
import Verif.Expr.Lemmas

/-!
# Lemmas: what the matchers compute
-/

namespace Verif.Match

open Verif

theorem strip_elem_iff (o : Op) (s : SOp) : (Op.elem s).strip = o.strip ↔
    o = .elem s ∨ o = .subsElem s := by
  cases o <;> simp [Op.strip, eq_comm]

theorem strip_rv_iff (o : Op) (d : Dist) : (Op.rv d).strip = o.strip ↔ o = .rv d := by
  cases o <;> simp [Op.strip, eq_comm]

theorem strip_dot_iff (o : Op) : Op.dot.strip = o.strip ↔ o = .dot := by
  cases o <;> simp [Op.strip]

theorem matchP_app (o : Op) (ps : List Pat) (o' : Op) (sh : SShape) (as : List Expr) (s : Subst) :
    matchP (.app o ps) (.app o' sh as) s =
      if headMatch o o' then matchArgs ps as s else none := by
  rw [matchP]

theorem inst_lv {σ : Nat → Option Expr} {n : Nat} {e : Expr} (h : Inst σ (.lv n) e) :
    σ n = some e := by
  cases h with
  | lv h => exact h

theorem inst_sigmoidDot {σ : Nat → Option Expr} {P : Expr} (h : Inst σ sigmoidDotPat P) :
    ∃ c X β, LinkExpr P c X β ∧ σ negOneLV = some c ∧ σ XLV = some X ∧ σ betaLV = some β := by
  unfold sigmoidDotPat at h
  cases h with
  | app h1 ha =>
    cases ha with
    | cons hm hn =>
      cases hn
      cases hm with
      | app h2 hb =>
        cases hb with
        | cons hc hd =>
          cases hd with
          | cons hd he =>
            cases he
            cases hd with
            | app h3 hf =>
              cases hf with
              | cons hX hg =>
                cases hg with
                | cons hβ hz =>
                  cases hz
                  exact ⟨_, _, _, ⟨_, _, _, _, _, (strip_elem_iff _ _).1 h1,
                    (strip_elem_iff _ _).1 h2, by rw [(strip_dot_iff _).1 h3]⟩,
                    inst_lv hc, inst_lv hX, inst_lv hβ⟩

theorem inst_of_link {σ : Nat → Option Expr} {P c X β : Expr} (h : LinkExpr P c X β)
    (hc : σ negOneLV = some c) (hX : σ XLV = some X) (hβ : σ betaLV = some β) :
    Inst σ sigmoidDotPat P := by
  obtain ⟨o₁, s₁, o₂, s₂, s₃, h1, h2, rfl⟩ := h
  exact .app ((strip_elem_iff _ _).2 h1) (.cons (.app ((strip_elem_iff _ _).2 h2)
    (.cons (.lv hc) (.cons (.app rfl (.cons (.lv hX) (.cons (.lv hβ) .nil))) .nil))) .nil)

/-- The negative-binomial pattern: outcome of unification in terms of the shape of the graph. -/
theorem unify_nbinom (g : Expr) :
    (∃ sh r sz dt h P c X β, g = .app (.rv .nbinom) sh [r, sz, dt, h, P] ∧ LinkExpr P c X β ∧
      ∃ s, unifyOrRaise nbinomSigmoidDotPat g = .ok s ∧ getLV s negOneLV = .ok c ∧
        getLV s XLV = .ok X ∧ getLV s betaLV = .ok β ∧ getLV s hLV = .ok h) ∨
    ((¬ ∃ sh r sz dt h P c X β, g = .app (.rv .nbinom) sh [r, sz, dt, h, P] ∧
        LinkExpr P c X β) ∧ unifyOrRaise nbinomSigmoidDotPat g = .error .value) := by
  by_cases hg : ∃ sh r sz dt h P c X β, g = .app (.rv .nbinom) sh [r, sz, dt, h, P] ∧
      LinkExpr P c X β
  · left
    obtain ⟨sh, r, sz, dt, h, P, c, X, β, rfl, hP⟩ := hg
    let σ : Nat → Option Expr := fun n => if n = 110 then some r else if n = 111 then some sz else
      if n = 112 then some dt else if n = hLV then some h else if n = negOneLV then some c else
      if n = XLV then some X else if n = betaLV then some β else none
    have hi : Inst σ nbinomSigmoidDotPat (.app (.rv .nbinom) sh [r, sz, dt, h, P]) :=
      .app rfl (.cons (.lv rfl) (.cons (.lv rfl) (.cons (.lv rfl) (.cons (.lv rfl)
        (.cons (inst_of_link hP rfl rfl rfl) .nil)))))
    obtain ⟨s, hs, hle⟩ := matchP_complete nbinomSigmoidDotPat _ [] (by simp) hi
    have hsound := (matchP_sound _ _ _ _ hs).2
    cases hsound with
    | app _ ha =>
      obtain ⟨-, ha⟩ : True ∧ _ := ⟨trivial, ha⟩
      cases ha with
      | cons _ ha =>
        cases ha with
        | cons _ ha =>
          cases ha with
          | cons _ ha =>
            cases ha with
            | cons hh ha =>
              cases ha with
              | cons hl _ =>
                obtain ⟨c', X', β', hP', e1, e2, e3⟩ := inst_sigmoidDot hl
                refine ⟨sh, r, sz, dt, h, P, c', X', β', rfl, hP', s, by
                  simp [unifyOrRaise, hs], ?_, ?_, ?_, ?_⟩
                · simp [getLV, e1]
                · simp [getLV, e2]
                · simp [getLV, e3]
                · simp [getLV, inst_lv hh]
  · right
    refine ⟨hg, ?_⟩
    unfold unifyOrRaise
    cases hs : matchP nbinomSigmoidDotPat g [] with
    | none => rfl
    | some s =>
      exfalso
      have hsound := (matchP_sound _ _ _ _ hs).2
      unfold nbinomSigmoidDotPat at hsound
      cases hsound with
      | app h1 ha =>
        cases ha with
        | cons _ ha =>
          cases ha with
          | cons _ ha =>
            cases ha with
            | cons _ ha =>
              cases ha with
              | cons hh ha =>
                cases ha with
                | cons hl hz =>
                  cases hz
                  obtain ⟨c', X', β', hP', -⟩ := inst_sigmoidDot hl
                  exact hg ⟨_, _, _, _, _, _, c', X', β', by rw [(strip_rv_iff _ _).1 h1], hP'⟩

/-- The Bernoulli pattern. -/
theorem unify_bern (g : Expr) :
    (∃ sh r sz dt P c X β, g = .app (.rv .bernoulli) sh [r, sz, dt, P] ∧ LinkExpr P c X β ∧
      ∃ s, unifyOrRaise bernoulliSigmoidDotPat g = .ok s ∧ getLV s negOneLV = .ok c ∧
        getLV s XLV = .ok X ∧ getLV s betaLV = .ok β) ∨
    ((¬ ∃ sh r sz dt P c X β, g = .app (.rv .bernoulli) sh [r, sz, dt, P] ∧
        LinkExpr P c X β) ∧ unifyOrRaise bernoulliSigmoidDotPat g = .error .value) := by
  by_cases hg : ∃ sh r sz dt P c X β, g = .app (.rv .bernoulli) sh [r, sz, dt, P] ∧
      LinkExpr P c X β
  · left
    obtain ⟨sh, r, sz, dt, P, c, X, β, rfl, hP⟩ := hg
    let σ : Nat → Option Expr := fun n => if n = 110 then some r else if n = 111 then some sz else
      if n = 112 then some dt else if n = negOneLV then some c else
      if n = XLV then some X else if n = betaLV then some β else none
    have hi : Inst σ bernoulliSigmoidDotPat (.app (.rv .bernoulli) sh [r, sz, dt, P]) :=
      .app rfl (.cons (.lv rfl) (.cons (.lv rfl) (.cons (.lv rfl)
        (.cons (inst_of_link hP rfl rfl rfl) .nil))))
    obtain ⟨s, hs, hle⟩ := matchP_complete bernoulliSigmoidDotPat _ [] (by simp) hi
    have hsound := (matchP_sound _ _ _ _ hs).2
    cases hsound with
    | app _ ha =>
      cases ha with
      | cons _ ha =>
        cases ha with
        | cons _ ha =>
          cases ha with
          | cons _ ha =>
            cases ha with
            | cons hl _ =>
              obtain ⟨c', X', β', hP', e1, e2, e3⟩ := inst_sigmoidDot hl
              refine ⟨sh, r, sz, dt, P, c', X', β', rfl, hP', s, by
                simp [unifyOrRaise, hs], ?_, ?_, ?_⟩
              · simp [getLV, e1]
              · simp [getLV, e2]
              · simp [getLV, e3]
  · right
    refine ⟨hg, ?_⟩
    unfold unifyOrRaise
    cases hs : matchP bernoulliSigmoidDotPat g [] with
    | none => rfl
    | some s =>
      exfalso
      have hsound := (matchP_sound _ _ _ _ hs).2
      unfold bernoulliSigmoidDotPat at hsound
      cases hsound with
      | app h1 ha =>
        cases ha with
        | cons _ ha =>
          cases ha with
          | cons _ ha =>
            cases ha with
            | cons _ ha =>
              cases ha with
              | cons hl hz =>
                cases hz
                obtain ⟨c', X', β', hP', -⟩ := inst_sigmoidDot hl
                exact hg ⟨_, _, _, _, _, c', X', β', by rw [(strip_rv_iff _ _).1 h1], hP'⟩

theorem LinkExpr.inj {P c X β c' X' β' : Expr} (h : LinkExpr P c X β) (h' : LinkExpr P c' X' β') :
    c = c' ∧ X = X' ∧ β = β' := by
  obtain ⟨_, _, _, _, _, -, -, h⟩ := h
  obtain ⟨_, _, _, _, _, -, -, h'⟩ := h'
  rw [h] at h'
  simp only [Expr.app.injEq, List.cons.injEq, and_true] at h'
  exact ⟨h'.2.2.2.2.1, h'.2.2.2.2.2.2.2.1, h'.2.2.2.2.2.2.2.2⟩

/-- The gamma pattern. -/
theorem unify_gamma (g : Expr) :
    (∃ sh r sz dt a b, g = .app (.rv .gamma) sh [r, sz, dt, a, b] ∧
      ∃ s, unifyOrRaise gammaPat g = .ok s ∧ getLV s 120 = .ok a ∧ getLV s 121 = .ok b) ∨
    ((¬ ∃ sh r sz dt a b, g = .app (.rv .gamma) sh [r, sz, dt, a, b]) ∧
      unifyOrRaise gammaPat g = .error .value) := by
  by_cases hg : ∃ sh r sz dt a b, g = .app (.rv .gamma) sh [r, sz, dt, a, b]
  · left
    obtain ⟨sh, r, sz, dt, a, b, rfl⟩ := hg
    exact ⟨sh, r, sz, dt, a, b, rfl, _, rfl, rfl, rfl⟩
  · right
    refine ⟨hg, ?_⟩
    unfold unifyOrRaise
    cases hs : matchP gammaPat g [] with
    | none => rfl
    | some s =>
      exfalso
      have hsound := (matchP_sound _ _ _ _ hs).2
      unfold gammaPat at hsound
      cases hsound with
      | app h1 ha =>
        cases ha with
        | cons _ ha =>
          cases ha with
          | cons _ ha =>
            cases ha with
            | cons _ ha =>
              cases ha with
              | cons _ ha =>
                cases ha with
                | cons _ hz =>
                  cases hz
                  obtain rfl := (strip_rv_iff _ _).1 h1
                  exact hg ⟨_, _, _, _, _, _, rfl⟩

/-- The horseshoe pattern. -/
theorem unify_horseshoe (g : Expr) :
    (∃ sh r sz dt m o s₂ h₁ h₂, g = .app (.rv .normal) sh [r, sz, dt, m, .app o s₂ [h₁, h₂]] ∧
      (o = .elem .mul ∨ o = .subsElem .mul) ∧
      ∃ s, unifyOrRaise horseshoePat g = .ok s ∧ getLV s 131 = .ok h₁ ∧ getLV s 132 = .ok h₂) ∨
    ((¬ ∃ sh r sz dt m o s₂ h₁ h₂, g = .app (.rv .normal) sh [r, sz, dt, m, .app o s₂ [h₁, h₂]] ∧
      (o = .elem .mul ∨ o = .subsElem .mul)) ∧ unifyOrRaise horseshoePat g = .error .value) := by
  by_cases hg : ∃ sh r sz dt m o s₂ h₁ h₂,
      g = .app (.rv .normal) sh [r, sz, dt, m, .app o s₂ [h₁, h₂]] ∧
      (o = .elem .mul ∨ o = .subsElem .mul)
  · left
    obtain ⟨sh, r, sz, dt, m, o, s₂, h₁, h₂, rfl, ho⟩ := hg
    refine ⟨sh, r, sz, dt, m, o, s₂, h₁, h₂, rfl, ho, ?_⟩
    rcases ho with rfl | rfl
    · exact ⟨_, rfl, rfl, rfl⟩
    · exact ⟨_, rfl, rfl, rfl⟩
  · right
    refine ⟨hg, ?_⟩
    unfold unifyOrRaise
    cases hs : matchP horseshoePat g [] with
    | none => rfl
    | some s =>
      exfalso
      have hsound := (matchP_sound _ _ _ _ hs).2
      unfold horseshoePat at hsound
      cases hsound with
      | app h1 ha =>
        cases ha with
        | cons _ ha =>
          cases ha with
          | cons _ ha =>
            cases ha with
            | cons _ ha =>
              cases ha with
              | cons _ ha =>
                cases ha with
                | cons hl hz =>
                  cases hz
                  cases hl with
                  | app h2 hb =>
                    cases hb with
                    | cons _ hb =>
                      cases hb with
                      | cons _ hb =>
                        cases hb
                        exact hg ⟨_, _, _, _, _, _, _, _, _, by rw [(strip_rv_iff _ _).1 h1],
                          (strip_elem_iff _ _).1 h2⟩

end Verif.Match
