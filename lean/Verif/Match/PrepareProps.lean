import Verif.Match.Prepare
import Verif.Match.Props
import Mathlib.Tactic.NormNum

/-!
# C86: factors of a model survive the preparation of the graph
-/

namespace Verif.Match

open Verif

/-! ## Lemmas -/

theorem prepareArgs_eq : ∀ as : List Expr, prepareArgs as = as.map prepare
  | [] => rfl
  | a :: as => by rw [prepareArgs, List.map_cons, prepareArgs_eq as]

/-- A node that is not elementwise keeps its operator. -/
theorem prepare_app {o : Op} (ho : ∀ s, o ≠ .elem s) (sh : SShape) (as : List Expr) :
    prepare (.app o sh as) = .app o sh (as.map prepare) := by
  rw [prepare, prepareArgs_eq]
  cases o <;> first | rfl | exact absurd rfl (ho _)

theorem prepare_elem (s : SOp) (sh : SShape) (as : List Expr) :
    prepare (.app (.elem s) sh as) = exposeNode (.app (.elem s) sh (as.map prepare)) := by
  rw [prepare, prepareArgs_eq]

/-- What an elementwise node becomes. -/
theorem exposeNode_elem (s : SOp) (sh : SShape) (as : List Expr) :
    exposeNode (.app (.elem s) sh as) =
      if as.any (fun a => (exposeInput sh.length a).2) then
        .app (.subsElem s) sh ((as.map fun a => (exposeInput sh.length a).1).filter (!isConstant ·))
      else .app (.elem s) sh as := rfl

/-- A prepared node with another operator than an elementwise one had that operator before. -/
theorem prepare_eq_app {e : Expr} {o : Op} {sh : SShape} {bs : List Expr}
    (h : prepare e = .app o sh bs) (h1 : ∀ s, o ≠ .elem s) (h2 : ∀ s, o ≠ .subsElem s) :
    ∃ as, e = .app o sh as ∧ bs = as.map prepare := by
  cases e with
  | input i s => rw [prepare] at h; cases h
  | const d s => rw [prepare] at h; cases h
  | app o' s as =>
    by_cases hel : ∃ t, o' = .elem t
    · obtain ⟨t, rfl⟩ := hel
      rw [prepare_elem, exposeNode_elem] at h
      split_ifs at h
      · injection h with h3
        exact absurd h3.symm (h2 t)
      · injection h with h3
        exact absurd h3.symm (h1 t)
    · push Not at hel
      rw [prepare_app hel] at h
      injection h with h3 h4 h5
      subst h3 h4
      exact ⟨as, rfl, h5.symm⟩

/-- A prepared elementwise node of a plain graph was one before. -/
theorem prepare_eq_elem {e : Expr} {o : Op} {s : SOp} {sh : SShape} {bs : List Expr} (hp : Plain e)
    (h : prepare e = .app o sh bs) (ho : o = .elem s ∨ o = .subsElem s) :
    ∃ as, e = .app (.elem s) sh as ∧
      ((∀ a ∈ as.map prepare, (exposeInput sh.length a).2 = false) ∧ bs = as.map prepare ∨
        bs = ((as.map prepare).map fun a => (exposeInput sh.length a).1).filter (!isConstant ·)) := by
  cases e with
  | input i s => rw [prepare] at h; cases h
  | const d s => rw [prepare] at h; cases h
  | app o' s' as =>
    by_cases hel : ∃ t, o' = .elem t
    · obtain ⟨t, rfl⟩ := hel
      rw [prepare_elem, exposeNode_elem] at h
      split_ifs at h with hany
      · injection h with h3 h4 h5
        subst h4
        rcases ho with rfl | rfl
        · cases h3
        · cases h3
          exact ⟨as, rfl, Or.inr h5.symm⟩
      · injection h with h3 h4 h5
        subst h4
        rcases ho with rfl | rfl
        · cases h3
          refine ⟨as, rfl, Or.inl ⟨fun a ha => ?_, h5.symm⟩⟩
          rw [Bool.eq_false_iff]
          exact fun hh => hany (List.any_eq_true.2 ⟨a, ha, hh⟩)
        · cases h3
    · push Not at hel
      rw [prepare_app hel] at h
      injection h with h3
      rcases ho with rfl | rfl
      · exact absurd h3 (hel s)
      · rw [Plain] at hp
        exact absurd h3 (hp.1 s)

theorem slice_append {α : Type} (k : Int) (xs : List α) : sliceTo k xs ++ sliceFrom k xs = xs := by
  unfold sliceTo sliceFrom
  split_ifs <;> exact List.take_append_drop _ _

theorem bare_leading {o : List (Option Nat)} (h : Leading o) (sh : SShape) (v : Expr) :
    bare (.app (.dimshuffle o) sh [v]) = v := by
  unfold bare
  exact if_pos h

/-- Apart from rearrangements, a factor is bare. -/
theorem bare_self {a : Expr} (h : ∀ o sh v, a ≠ .app (.dimshuffle o) sh [v]) : bare a = a := by
  unfold bare
  split
  · exact absurd rfl (h _ _ _)
  · rfl

/-- What an input of an elementwise node is replaced by: itself, or, for a rearrangement, a
rearrangement or the factor itself. -/
theorem exposeInput_cases (n : Nat) (a : Expr) :
    (exposeInput n a).1 = a ∨ (∃ o sh v, (exposeInput n a).1 = .app (.dimshuffle o) sh [v]) ∨
      ∃ o sh v, Leading o ∧ a = .app (.dimshuffle o) sh [v] ∧ (exposeInput n a).1 = v := by
  unfold exposeInput
  split
  · rename_i o sh v
    simp only
    split_ifs with h1 h2
    · exact Or.inl rfl
    · exact Or.inr (Or.inl ⟨_, _, _, rfl⟩)
    · refine Or.inr (Or.inr ⟨_, _, _, ?_, rfl, rfl⟩)
      simp only [Bool.or_eq_true, not_or, Bool.not_eq_true', Bool.not_eq_false, List.all_eq_true,
        beq_iff_eq] at h1
      refine ⟨(sliceTo ((n : Int) - (v.shape.length : Int)) o).length,
        (sliceFrom ((n : Int) - (v.shape.length : Int)) o).length, ?_⟩
      conv_lhs => rw [← slice_append ((n : Int) - (v.shape.length : Int)) o]
      congr 1
      · exact List.eq_replicate_iff.2 ⟨rfl, h1.2⟩
      · by_cases h3 : sliceFrom ((n : Int) - (v.shape.length : Int)) o = []
        · simp [h3]
        · by_contra h4
          refine h2 ?_
          simp [h3, h4]
  · exact Or.inl rfl

theorem prepare_halfCauchy {e : Expr} (h : IsHalfCauchyRV (prepare e)) : IsHalfCauchyRV e := by
  obtain ⟨sh, bs, h⟩ := h
  obtain ⟨as, rfl, -⟩ := prepare_eq_app h (by simp) (by simp)
  exact ⟨_, _, rfl⟩

theorem prepare_const {e : Expr} {d : List Rat} {sh : SShape} (h : prepare e = .const d sh) :
    e = .const d sh := by
  cases e with
  | input i s => rw [prepare] at h; cases h
  | const d' s => rwa [prepare] at h
  | app o' s' as =>
    rw [prepare] at h
    unfold exposeNode at h
    split at h
    · split_ifs at h
    · cases h

theorem isConstant_iff (e : Expr) : isConstant e = true ↔ ∃ d sh, e = .const d sh := by
  cases e <;> simp [isConstant]

/-- An exposed input that is a half-Cauchy variable or a constant is the factor itself. -/
theorem expose_prepare (n : Nat) (a : Expr)
    (h : ∀ o sh v, (exposeInput n (prepare a)).1 ≠ .app (.dimshuffle o) sh [v]) :
    (exposeInput n (prepare a)).1 = prepare (bare a) := by
  rcases exposeInput_cases n (prepare a) with h1 | ⟨o, sh, v, h1⟩ | ⟨o, sh, v, h0, h1, h2⟩
  · rw [h1]
    rw [h1] at h
    rw [bare_self fun o sh v he => ?_]
    rw [he] at h
    exact absurd (prepare_app (by simp) sh [v]) (h o sh (prepare v))
  · exact absurd h1 (h _ _ _)
  · obtain ⟨as, rfl, h3⟩ := prepare_eq_app h1 (by simp) (by simp)
    rw [h2]
    cases as with
    | nil => cases h3
    | cons w ws =>
      cases ws with
      | nil => rw [bare_leading h0]; simpa using h3
      | cons _ _ => simp at h3

/-- The inputs that remain, when all of them are half-Cauchy variables: the other factors are
constants. -/
theorem exposed_split (n : Nat) : ∀ as : List Expr,
    (∀ e ∈ ((as.map prepare).map fun a => (exposeInput n a).1).filter (!isConstant ·),
      IsHalfCauchyRV e) →
    ∃ hs cs : List Expr, (as.map bare).Perm (hs ++ cs) ∧
      ((as.map prepare).map fun a => (exposeInput n a).1).filter (!isConstant ·) =
        hs.map prepare ∧
      (∀ h ∈ hs, IsHalfCauchyRV h) ∧ ∀ c ∈ cs, ∃ d sh, c = .const d sh
  | [], _ => ⟨[], [], by simp, by simp, by simp, by simp⟩
  | a :: as, h => by
    simp only [List.map_cons, List.filter_cons] at h
    by_cases hc : isConstant (exposeInput n (prepare a)).1 = true
    · simp only [hc, Bool.not_true, Bool.false_eq_true, if_false] at h
      obtain ⟨hs, cs, h1, h2, h3, h4⟩ := exposed_split n as h
      obtain ⟨d, sh, hd⟩ := (isConstant_iff _).1 hc
      have hb : bare a = .const d sh := by
        refine prepare_const ?_
        rw [← hd]
        exact (expose_prepare n a (by rw [hd]; simp)).symm
      refine ⟨hs, bare a :: cs, ?_, ?_, h3, ?_⟩
      · rw [List.map_cons]
        exact (h1.cons _).trans (List.perm_middle).symm
      · simp only [List.map_cons, List.filter_cons, hc, Bool.not_true, Bool.false_eq_true, if_false]
        exact h2
      · intro c hc'
        rcases List.mem_cons.1 hc' with rfl | hc'
        · exact ⟨_, _, hb⟩
        · exact h4 c hc'
    · rw [Bool.not_eq_true] at hc
      simp only [hc, Bool.not_false, if_true] at h
      obtain ⟨hs, cs, h1, h2, h3, h4⟩ := exposed_split n as
        fun e he => h e (List.mem_cons_of_mem _ he)
      have hH := h _ List.mem_cons_self
      have he := expose_prepare n a (by
        obtain ⟨sh, bs, hb⟩ := hH
        rw [hb]
        simp)
      refine ⟨bare a :: hs, cs, ?_, ?_, ?_, h4⟩
      · rw [List.map_cons]
        exact h1.cons _
      · simp only [List.map_cons, List.filter_cons, hc, Bool.not_false, if_true]
        rw [h2, he]
      · intro x hx
        rcases List.mem_cons.1 hx with rfl | hx
        · exact prepare_halfCauchy (he ▸ hH)
        · exact h3 x hx

theorem evenValue_bare (ρ : Expr → ℝ) (a : Expr) : evenValue ρ (bare a) = evenValue ρ a := by
  unfold bare
  split
  · split_ifs
    · rw [evenValue]
    · rfl
  · rfl

theorem evenProduct_eq (ρ : Expr → ℝ) : ∀ as : List Expr,
    evenProduct ρ as = (as.map (evenValue ρ)).prod
  | [] => by rw [evenProduct]; rfl
  | a :: as => by rw [evenProduct, evenProduct_eq ρ as]; rfl

/-! ## The property -/

/-- A scalar repeated along one dimension, as an elementwise operation makes it. -/
def spread (e : Expr) : Expr := .app (.dimshuffle [none]) [some 1] [e]

/-- Coefficients with the scale `factors` multiplied together. -/
def coefficients (factors : List Expr) : Expr :=
  .app (.rv .normal) [none] [.input 0 [], .input 1 [], .input 2 [], .const [0] [],
    .app (.elem .mul) [none] factors]

/-- A standard half-Cauchy variable of the given shape. -/
def stdHC (i : Nat) (sh : SShape) : Expr := hcVar i sh (.const [0] []) (.const [1] [])

/-- **C86 (partial).** Which models the horseshoe step is made for, once the graph is prepared: the
coefficients are normal, and their scale is a product in which, leaving broadcasting aside, two
factors are half-Cauchy variables and *all others are constants*.  The scale is therefore `λ τ` times
the product of the constants.  The full property asks for the scale `λ τ`; see
`C86_constant_factor_violated`. -/
theorem C86_horseshoe_scale_partial {g lmbda tau : Expr} (hp : Plain g)
    (h : horseshoeMatch (prepare g) = .ok (lmbda, tau)) :
    ∃ sh r sz dt m s₂ as l t cs,
      g = .app (.rv .normal) sh [r, sz, dt, m, .app (.elem .mul) s₂ as] ∧
      lmbda = prepare l ∧ tau = prepare t ∧ IsHalfCauchyRV l ∧ IsHalfCauchyRV t ∧
      (as.map bare).Perm (l :: t :: cs) ∧ (∀ c ∈ cs, ∃ d sh, c = .const d sh) ∧
      ∀ ρ, evenValue ρ (.app (.elem .mul) s₂ as) =
        evenValue ρ l * evenValue ρ t * (cs.map (evenValue ρ)).prod := by
  have hown : HasOwner (prepare g) := by
    cases hg : prepare g with
    | app o sh as => exact ⟨_, _, _, rfl⟩
    | input i s => rw [hg] at h; cases h
    | const d s => rw [hg] at h; cases h
  obtain ⟨m', hN, hl, ht⟩ := C27_horseshoe_accepts_partial hown h
  have hN' : ∃ a b, NormalProd (prepare g) m' a b ∧ IsHalfCauchyRV a ∧ IsHalfCauchyRV b ∧
      (a = lmbda ∧ b = tau ∨ a = tau ∧ b = lmbda) := by
    rcases hN with hN | hN
    · exact ⟨_, _, hN, hl, ht, Or.inl ⟨rfl, rfl⟩⟩
    · exact ⟨_, _, hN, ht, hl, Or.inr ⟨rfl, rfl⟩⟩
  obtain ⟨a, b, ⟨sh, r, sz, dt, o, s₂, ho, he⟩, hA, hB, hab⟩ := hN'
  obtain ⟨args, rfl, hargs⟩ := prepare_eq_app he (by simp) (by simp)
  obtain ⟨r₀, sz₀, dt₀, m₀, s₀, rfl⟩ : ∃ r₀ sz₀ dt₀ m₀ s₀, args = [r₀, sz₀, dt₀, m₀, s₀] := by
    have hlen := congrArg List.length hargs
    match args, hlen with
    | [r₀, sz₀, dt₀, m₀, s₀], _ => exact ⟨_, _, _, _, _, rfl⟩
  simp only [List.map_cons, List.map_nil, List.cons.injEq, and_true] at hargs
  obtain ⟨-, -, -, -, hs⟩ := hargs
  have hps : Plain s₀ := by
    rw [Plain] at hp
    exact hp.2.2.2.2.2.1
  obtain ⟨as, rfl, hbs⟩ := prepare_eq_elem hps hs.symm ho
  have key : ∃ hs cs : List Expr, (as.map bare).Perm (hs ++ cs) ∧ [a, b] = hs.map prepare ∧
      (∀ h ∈ hs, IsHalfCauchyRV h) ∧ ∀ c ∈ cs, ∃ d sh, c = .const d sh := by
    rcases hbs with ⟨-, hbs⟩ | hbs
    · have hH : ∀ x ∈ as, IsHalfCauchyRV x := by
        intro x hx
        have : prepare x ∈ [a, b] := hbs ▸ List.mem_map_of_mem hx
        rcases List.mem_pair.1 this with h | h
        · exact prepare_halfCauchy (h ▸ hA)
        · exact prepare_halfCauchy (h ▸ hB)
      refine ⟨as, [], ?_, hbs, hH, by simp⟩
      rw [List.append_nil]
      refine List.Perm.of_eq ?_
      conv_rhs => rw [← List.map_id as]
      refine List.map_congr_left fun x hx => ?_
      obtain ⟨_, _, rfl⟩ := hH x hx
      rfl
    · have := exposed_split s₂.length as (by
        rw [← hbs]
        intro e he
        rcases List.mem_pair.1 he with h | h
        · exact h ▸ hA
        · exact h ▸ hB)
      rw [← hbs] at this
      exact this
  obtain ⟨hs', cs, hperm, hmap, hHC, hcs⟩ := key
  obtain ⟨x, y, rfl⟩ : ∃ x y, hs' = [x, y] := by
    have hlen := congrArg List.length hmap
    match hs', hlen with
    | [x, y], _ => exact ⟨_, _, rfl⟩
  simp only [List.map_cons, List.map_nil, List.cons.injEq, and_true] at hmap
  have hval : ∀ ρ, evenValue ρ (.app (.elem .mul) s₂ as) =
      evenValue ρ x * evenValue ρ y * (cs.map (evenValue ρ)).prod := by
    intro ρ
    rw [evenValue, evenProduct_eq]
    have := (hperm.map (evenValue ρ)).prod_eq
    rw [List.map_map] at this
    have hfun : evenValue ρ ∘ bare = evenValue ρ := funext fun e => evenValue_bare ρ e
    rw [hfun] at this
    rw [this]
    simp [mul_assoc]
  have hx := hHC x (by simp)
  have hy := hHC y (by simp)
  rcases hab with ⟨rfl, rfl⟩ | ⟨rfl, rfl⟩
  · exact ⟨sh, r₀, sz₀, dt₀, m₀, s₂, as, x, y, cs, rfl, hmap.1, hmap.2, hx, hy, hperm, hcs, hval⟩
  · refine ⟨sh, r₀, sz₀, dt₀, m₀, s₂, as, y, x, cs, rfl, hmap.2, hmap.1, hy, hx,
      hperm.trans (List.Perm.swap _ _ _), hcs, fun ρ => ?_⟩
    rw [hval ρ, mul_comm (evenValue ρ x)]

/-- Three factors, one of them the number 3, are accepted: the theorem finds the constant. -/
example : ∃ l t cs, IsHalfCauchyRV l ∧ IsHalfCauchyRV t ∧
    ([spread (.const [3] []), stdHC 5 [none], spread (stdHC 6 [])].map bare).Perm (l :: t :: cs) := by
  obtain ⟨_, _, _, _, _, _, _, l, t, cs, he, -, -, h3, h4, h5, -⟩ := C86_horseshoe_scale_partial
    (g := coefficients [spread (.const [3] []), stdHC 5 [none], spread (stdHC 6 [])])
    (by simp [coefficients, stdHC, spread, hcVar, Plain, PlainArgs]) rfl
  cases he
  exact ⟨l, t, cs, h3, h4, h5⟩

/-- **C86 (partial).** When no factor of the scale is a constant, the step is made only for the scale
`λ τ`. -/
theorem C86_horseshoe_no_constant_partial {sh s₂ : SShape} {r sz dt m lmbda tau : Expr}
    {as : List Expr}
    (hp : Plain (.app (.rv .normal) sh [r, sz, dt, m, .app (.elem .mul) s₂ as]))
    (hc : ∀ a ∈ as, ∀ d sh', bare a ≠ .const d sh')
    (h : horseshoeMatch (prepare (.app (.rv .normal) sh [r, sz, dt, m, .app (.elem .mul) s₂ as])) =
      .ok (lmbda, tau)) :
    ∃ l t, lmbda = prepare l ∧ tau = prepare t ∧ IsHalfCauchyRV l ∧ IsHalfCauchyRV t ∧
      (as.map bare).Perm [l, t] ∧
      ∀ ρ, evenValue ρ (.app (.elem .mul) s₂ as) = evenValue ρ l * evenValue ρ t := by
  obtain ⟨_, _, _, _, _, _, _, l, t, cs, he, h1, h2, h3, h4, h5, h6, h7⟩ :=
    C86_horseshoe_scale_partial hp h
  cases he
  cases cs with
  | nil => exact ⟨l, t, h1, h2, h3, h4, h5, fun ρ => by simpa using h7 ρ⟩
  | cons c cs =>
    obtain ⟨d, sh', rfl⟩ := h6 c (by simp)
    have hm : Expr.const d sh' ∈ as.map bare := h5.mem_iff.2 (by simp)
    obtain ⟨a, ha, hb⟩ := List.mem_map.1 hm
    exact absurd hb (hc a ha d sh')

example : ∃ lmbda tau, Plain (coefficients [stdHC 5 [none], spread (stdHC 6 [])]) ∧
    (∀ a ∈ [stdHC 5 [none], spread (stdHC 6 [])], ∀ d sh', bare a ≠ .const d sh') ∧
    horseshoeMatch (prepare (coefficients [stdHC 5 [none], spread (stdHC 6 [])])) =
      .ok (lmbda, tau) := by
  refine ⟨stdHC 5 [none], stdHC 6 [], ?_, ?_, rfl⟩
  · simp [coefficients, stdHC, spread, hcVar, Plain, PlainArgs]
  · intro a ha d sh'
    rcases List.mem_pair.1 ha with rfl | rfl
    · simp [bare, stdHC, hcVar]
    · rw [spread, bare_leading (o := [none]) ⟨1, 0, rfl⟩]
      simp [stdHC, hcVar]

/-- **C86 is violated**: for every constant `c`, coefficients written with the scale `c · λ · τ` are
given the very step made for the scale `λ · τ`. -/
theorem C86_constant_factor_violated (c : ℚ) :
    Plain (coefficients [spread (.const [c] []), stdHC 5 [none], spread (stdHC 6 [])]) ∧
    horseshoeMatch (prepare
      (coefficients [spread (.const [c] []), stdHC 5 [none], spread (stdHC 6 [])])) =
        .ok (stdHC 5 [none], stdHC 6 []) ∧
    prepare (coefficients [spread (.const [c] []), stdHC 5 [none], spread (stdHC 6 [])]) =
      prepare (coefficients [stdHC 5 [none], spread (stdHC 6 [])]) ∧
    ∀ ρ, evenValue ρ (.app (.elem .mul) [none]
        [spread (.const [c] []), stdHC 5 [none], spread (stdHC 6 [])]) =
      c * (ρ (stdHC 5 [none]) * ρ (stdHC 6 [])) := by
  refine ⟨?_, rfl, rfl, fun ρ => ?_⟩
  · simp [coefficients, stdHC, spread, hcVar, Plain, PlainArgs]
  · simp [evenValue, evenProduct, spread, stdHC, hcVar]

/-- Inversion of a prepared link whose multiplier is a constant. -/
theorem link_prepared {s₁ : SShape} {P X β : Expr} {d : List Rat} {s₃ : SShape} (hp : Plain P)
    (h : LinkExpr (prepare (.app (.elem .sigmoid) s₁ [P])) (.const d s₃) X β) :
    ∃ s₂ s₄ X' β', bare P = .app (.elem .mul) s₂ [.const d s₃, .app .dot s₄ [X', β']] ∧
      X = prepare X' ∧ β = prepare β' := by
  obtain ⟨o₁, t₁, o₂, s₂, s₄, h1, h2, he⟩ := h
  obtain ⟨as, has, hbs⟩ := prepare_eq_elem (by rw [Plain, PlainArgs, PlainArgs]; simp [hp]) he h1
  cases has
  have hM : prepare (bare P) = .app o₂ s₂ [.const d s₃, .app .dot s₄ [X, β]] := by
    rcases hbs with ⟨hf, hbs⟩ | hbs
    · simp only [List.map_cons, List.map_nil, List.cons.injEq, and_true] at hbs
      rw [bare_self fun o sh v he => ?_, hbs]
      rw [he, prepare_app (by simp)] at hbs
      rcases h2 with rfl | rfl <;> cases hbs
    · have hin : (exposeInput s₁.length (prepare P)).1 =
          .app o₂ s₂ [.const d s₃, .app .dot s₄ [X, β]] := by
        simp only [List.map_cons, List.map_nil, List.filter_cons, List.filter_nil] at hbs
        split_ifs at hbs
        · simpa using hbs.symm
      rw [← hin]
      refine (expose_prepare _ _ ?_).symm
      rw [hin]
      rcases h2 with rfl | rfl <;> simp
  have hpb : Plain (bare P) := by
    unfold bare
    split
    · split_ifs
      · rw [Plain, PlainArgs] at hp
        exact hp.2.1
      · exact hp
    · exact hp
  obtain ⟨as, has, hbs⟩ := prepare_eq_elem hpb hM h2
  rcases hbs with ⟨-, hbs⟩ | hbs
  · obtain ⟨c₀, D₀, rfl⟩ : ∃ c₀ D₀, as = [c₀, D₀] := by
      have hlen := congrArg List.length hbs
      match as, hlen with
      | [x, y], _ => exact ⟨_, _, rfl⟩
    simp only [List.map_cons, List.map_nil, List.cons.injEq, and_true] at hbs
    obtain rfl := prepare_const hbs.1.symm
    obtain ⟨as', rfl, h5⟩ := prepare_eq_app hbs.2.symm (by simp) (by simp)
    obtain ⟨X', β', rfl⟩ : ∃ X' β', as' = [X', β'] := by
      have hlen := congrArg List.length h5
      match as', hlen with
      | [x, y], _ => exact ⟨_, _, rfl⟩
    simp only [List.map_cons, List.map_nil, List.cons.injEq, and_true] at h5
    exact ⟨s₂, s₄, X', β', has, h5.1, h5.2⟩
  · exfalso
    have : Expr.const d s₃ ∈ (((as.map prepare).map fun a =>
        (exposeInput s₂.length a).1).filter (!isConstant ·)) := by
      rw [← hbs]
      simp
    have := (List.mem_filter.1 this).2
    simp [isConstant] at this

theorem allNe_const {c : Expr} {b : Bool} (h : allNeNegOne c = .ok b) : ∃ d sh, c = .const d sh := by
  cases c with
  | const d sh => exact ⟨_, _, rfl⟩
  | input i s => cases h
  | app o s as => cases h

/-- `sigmoid(c * dot(X, β))` for the given factor. -/
def linkOf (c : Expr) : Expr :=
  .app (.elem .sigmoid) [none] [.app (.elem .mul) [none]
    [c, .app .dot [none] [.input 3 [none, none], .input 4 [none]]]]

/-- **C86 (partial).** The link of a Bernoulli regression loses no constant: once the graph is
prepared, it is recognised only when the linear predictor is multiplied by a constant that already is
an operand of the product, without broadcasting, and that constant passes the test for `-1`.  The full
property also asks that every way to write `-1 · X β` is recognised; see `C86_link_violated`. -/
theorem C86_bern_link_partial {sh s₁ : SShape} {r sz dt P X β : Expr} (hp : Plain P)
    (h : bernSigmoidDotMatch (prepare (.app (.rv .bernoulli) sh [r, sz, dt,
      .app (.elem .sigmoid) s₁ [P]])) = .ok (X, β)) :
    ∃ s₂ d s₃ s₄ X' β',
      bare P = .app (.elem .mul) s₂ [.const d s₃, .app .dot s₄ [X', β']] ∧
      allNeNegOne (.const d s₃) = .ok false ∧ X = prepare X' ∧ β = prepare β' := by
  rw [prepare_app (by simp)] at h
  rcases bernSigmoidDotMatch_eq ⟨_, _, _, rfl⟩ (g := .app (.rv .bernoulli) sh ([r, sz, dt,
      .app (.elem .sigmoid) s₁ [P]].map prepare)) with ⟨c, X₁, β₁, hL, he⟩ | ⟨-, he⟩
  · rw [he] at h
    cases hc : allNeNegOne c with
    | error e => rw [hc] at h; cases h
    | ok b =>
      rw [hc] at h
      cases b with
      | true => cases h
      | false =>
        cases h
        obtain ⟨d, s₃, rfl⟩ := allNe_const hc
        obtain ⟨_, _, _, _, P', hg, hL⟩ := hL
        cases hg
        obtain ⟨s₂, s₄, X', β', h1, h2, h3⟩ := link_prepared hp hL
        exact ⟨s₂, d, s₃, s₄, X', β', h1, hc, h2, h3⟩
  · rw [he] at h
    cases h

/-- The theorem applies to `-(X @ β)` in canonical form. -/
example : ∃ s₂ d s₃ s₄ X' β', bare (.app (.elem .mul) [none] [.const [-1] [some 1],
      .app .dot [none] [.input 3 [none, none], .input 4 [none]]]) =
        .app (.elem .mul) s₂ [.const d s₃, .app .dot s₄ [X', β']] ∧
    allNeNegOne (.const d s₃) = .ok false := by
  obtain ⟨s₂, d, s₃, s₄, X', β', h1, h2, -⟩ := C86_bern_link_partial (sh := [none]) (s₁ := [none])
    (r := .input 0 []) (sz := .input 1 []) (dt := .input 2 []) (P := .app (.elem .mul) [none]
      [.const [-1] [some 1], .app .dot [none] [.input 3 [none, none], .input 4 [none]]])
    (X := .input 3 [none, none]) (β := .input 4 [none]) (by simp [Plain, PlainArgs]) rfl
  exact ⟨s₂, d, s₃, s₄, X', β', h1, h2⟩

/-- **C86 (partial).** The same for the negative-binomial regression. -/
theorem C86_nbinom_link_partial {sh s₁ : SShape} {r sz dt n P X h' β : Expr} (hp : Plain P)
    (h : nbinomSigmoidDotMatch (prepare (.app (.rv .nbinom) sh [r, sz, dt, n,
      .app (.elem .sigmoid) s₁ [P]])) = .ok (X, h', β)) :
    h' = prepare n ∧ ∃ s₂ d s₃ s₄ X' β',
      bare P = .app (.elem .mul) s₂ [.const d s₃, .app .dot s₄ [X', β']] ∧
      allNeNegOne (.const d s₃) = .ok false ∧ X = prepare X' ∧ β = prepare β' := by
  rw [prepare_app (by simp)] at h
  rcases nbinomSigmoidDotMatch_eq ⟨_, _, _, rfl⟩ (g := .app (.rv .nbinom) sh ([r, sz, dt, n,
      .app (.elem .sigmoid) s₁ [P]].map prepare)) with ⟨c, X₁, h₁, β₁, hL, he⟩ | ⟨-, he⟩
  · rw [he] at h
    cases hc : allNeNegOne c with
    | error e => rw [hc] at h; cases h
    | ok b =>
      rw [hc] at h
      cases b with
      | true => cases h
      | false =>
        cases h
        obtain ⟨d, s₃, rfl⟩ := allNe_const hc
        obtain ⟨_, _, _, _, P', hg, hL⟩ := hL
        cases hg
        obtain ⟨s₂, s₄, X', β', h1, h2, h3⟩ := link_prepared hp hL
        exact ⟨rfl, s₂, d, s₃, s₄, X', β', h1, hc, h2, h3⟩
  · rw [he] at h
    cases h

/-- `-(X @ β)` in canonical form, whose `-1` is a one-element vector, is recognised. -/
example : Plain (linkOf (.const [-1] [some 1])) ∧
    bernSigmoidDotMatch (prepare (.app (.rv .bernoulli) [none] [.input 0 [], .input 1 [], .input 2 [],
      linkOf (.const [-1] [some 1])])) = .ok (.input 3 [none, none], .input 4 [none]) ∧
    nbinomSigmoidDotMatch (prepare (.app (.rv .nbinom) [none] [.input 0 [], .input 1 [], .input 2 [],
      .input 5 [], linkOf (.const [-1] [some 1])])) =
        .ok (.input 3 [none, none], .input 5 [], .input 4 [none]) :=
  ⟨by simp [linkOf, Plain, PlainArgs], rfl, rfl⟩

/-- **C86 is violated** for the link as well: written as `-1 * (X @ β)`, with the number `-1` (or any
other) broadcast by the product, the factor is removed and neither regression is recognised. -/
theorem C86_link_violated (c : ℚ) :
    prepare (linkOf (spread (.const [c] []))) = .app (.elem .sigmoid) [none] [.app (.subsElem .mul)
      [none] [.app .dot [none] [.input 3 [none, none], .input 4 [none]]]] ∧
    bernSigmoidDotMatch (prepare (.app (.rv .bernoulli) [none] [.input 0 [], .input 1 [], .input 2 [],
      linkOf (spread (.const [c] []))])) = .error .value ∧
    nbinomSigmoidDotMatch (prepare (.app (.rv .nbinom) [none] [.input 0 [], .input 1 [], .input 2 [],
      .input 5 [], linkOf (spread (.const [c] []))])) = .error .value :=
  ⟨rfl, rfl, rfl⟩

end Verif.Match
