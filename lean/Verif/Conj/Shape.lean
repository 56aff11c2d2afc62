import Verif.Conj.Lemmas

/-!
# Run-time shapes of the conjugate steps (C16)

Broadcasting is NumPy/Aesara elementwise broadcasting (library convention).
-/

namespace Verif.Conj

open Verif

/-- Broadcasting of two shapes given innermost dimension first. -/
def bcRev : List Nat → List Nat → Option (List Nat)
  | [], l => some l
  | l, [] => some l
  | a :: as, b :: bs =>
    if a = b then (bcRev as bs).map (a :: ·)
    else if a = 1 then (bcRev as bs).map (b :: ·)
    else if b = 1 then (bcRev as bs).map (a :: ·)
    else none

/-- Broadcasting of two shapes; `none` when they are incompatible (a run-time error). -/
def bcast (a b : List Nat) : Option (List Nat) := (bcRev a.reverse b.reverse).map List.reverse

/-- Shape of a deterministic expression when the inputs and model variables have the shapes `σ`.
`none` for a shape error and for operators that do not occur in the generated steps. -/
def shapeOf (σ : Expr → List Nat) : Expr → Option (List Nat)
  | .input i s => some (σ (.input i s))
  | .const _ sh => sh.mapM id
  | .app (.rv d) s as => some (σ (.app (.rv d) s as))
  | .app (.elem _) _ [a] => shapeOf σ a
  | .app (.elem _) _ [a, b] => (shapeOf σ a).bind fun x => (shapeOf σ b).bind fun y => bcast x y
  | .app _ _ _ => none

/-- Shape of a draw from a random-variable node with two scalar parameters: the broadcast of the
parameters when no size is given (empty size vector), the size otherwise, provided the parameters
broadcast to it. -/
def drawShape (σ : Expr → List Nat) : Expr → Option (List Nat)
  | .app (.rv _) _ [_, .const [] _, _, a, b] =>
    (shapeOf σ a).bind fun x => (shapeOf σ b).bind fun y => bcast x y
  | .app (.rv _) _ [_, .const (d :: ds) _, _, a, b] =>
    (shapeOf σ a).bind fun x => (shapeOf σ b).bind fun y => (bcast x y).bind fun p =>
      if bcast p ((d :: ds).map fun q => q.num.toNat) = some ((d :: ds).map fun q => q.num.toNat)
      then some ((d :: ds).map fun q => q.num.toNat) else none
  | _ => none

/-! ## Lemmas on broadcasting -/

theorem bcRev_nil_right (l : List Nat) : bcRev l [] = some l := by cases l <;> rfl

theorem bcRev_self (l : List Nat) : bcRev l l = some l := by
  induction l with
  | nil => rfl
  | cons a l ih => simp [bcRev, ih]

theorem bcRev_absorb_left : ∀ {a b L : List Nat}, bcRev a b = some L → bcRev a L = some L
  | [], b, L, h => by simp [bcRev] at h ⊢
  | a :: as, [], L, h => by
    simp [bcRev] at h; subst h; exact bcRev_self _
  | a :: as, b :: bs, L, h => by
    unfold bcRev at h
    split at h
    · rename_i hab
      obtain ⟨M, hM, rfl⟩ := Option.map_eq_some_iff.1 h
      simp [bcRev, bcRev_absorb_left hM]
    · split at h
      · rename_i _ ha
        obtain ⟨M, hM, rfl⟩ := Option.map_eq_some_iff.1 h
        subst ha
        simp only [bcRev]
        split <;> simp_all [bcRev_absorb_left hM]
      · split at h
        · obtain ⟨M, hM, rfl⟩ := Option.map_eq_some_iff.1 h
          simp [bcRev, bcRev_absorb_left hM]
        · cases h

theorem bcRev_comm : ∀ (a b : List Nat), bcRev a b = bcRev b a
  | [], b => by simp [bcRev, bcRev_nil_right]
  | a :: as, [] => by simp [bcRev]
  | a :: as, b :: bs => by
    simp only [bcRev, bcRev_comm as bs]
    by_cases h : a = b
    · subst h; rfl
    · have h' : ¬ b = a := fun hh => h hh.symm
      by_cases ha : a = 1
      · have hb : ¬ b = 1 := fun hb => h (ha.trans hb.symm)
        simp only [ha, hb, if_false, if_true]
        rw [if_neg (fun hh : 1 = b => hb hh.symm)]
      · simp only [h, h', ha, if_false]

theorem bcRev_fits_cons (x l : Nat) (xs ls : List Nat) :
    bcRev (x :: xs) (l :: ls) = some (l :: ls) ↔ (x = l ∨ x = 1) ∧ bcRev xs ls = some ls := by
  by_cases h : x = l
  · subst h; simp [bcRev]
  · by_cases hx : x = 1
    · subst hx; simp [bcRev, h]
    · by_cases hl : l = 1
      · simp [bcRev, hx, hl]
      · simp [bcRev, h, hx, hl]

/-- Two shapes that broadcast to `L` broadcast to each other, and the result broadcasts to `L`. -/
theorem bcRev_fits : ∀ {a b L : List Nat}, bcRev a L = some L → bcRev b L = some L →
    ∃ M, bcRev a b = some M ∧ bcRev M L = some L
  | [], b, L, _, hb => ⟨b, rfl, hb⟩
  | a :: as, [], L, ha, _ => ⟨a :: as, rfl, ha⟩
  | a :: as, b :: bs, [], ha, _ => by simp [bcRev] at ha
  | a :: as, b :: bs, l :: ls, ha, hb => by
    obtain ⟨ha1, ha2⟩ := (bcRev_fits_cons _ _ _ _).1 ha
    obtain ⟨hb1, hb2⟩ := (bcRev_fits_cons _ _ _ _).1 hb
    obtain ⟨M, hM, hML⟩ := bcRev_fits ha2 hb2
    by_cases hab : a = b
    · exact ⟨a :: M, by simp [bcRev, hab, hM], (bcRev_fits_cons _ _ _ _).2 ⟨ha1, hML⟩⟩
    · by_cases h1 : a = 1
      · exact ⟨b :: M, by simp [bcRev, h1, hM], (bcRev_fits_cons _ _ _ _).2 ⟨hb1, hML⟩⟩
      · have hb1' : b = 1 := by
          rcases ha1 with rfl | rfl
          · rcases hb1 with rfl | h
            · exact absurd rfl hab
            · exact h
          · exact absurd rfl h1
        exact ⟨a :: M, by simp [bcRev, h1, hb1', hM],
          (bcRev_fits_cons _ _ _ _).2 ⟨ha1, hML⟩⟩

theorem bcast_fits {a b L : List Nat} (ha : bcast a L = some L) (hb : bcast b L = some L) :
    ∃ M, bcast a b = some M ∧ bcast M L = some L := by
  have conv : ∀ {x : List Nat}, bcast x L = some L → bcRev x.reverse L.reverse = some L.reverse := by
    intro x hx
    obtain ⟨M, hM, rfl⟩ := Option.map_eq_some_iff.1 hx
    simpa using hM
  obtain ⟨M, hM, hML⟩ := bcRev_fits (conv ha) (conv hb)
  exact ⟨M.reverse, by simp [bcast, hM], by simp [bcast, hML]⟩

theorem bcast_self (l : List Nat) : bcast l l = some l := by simp [bcast, bcRev_self]

theorem bcast_comm (a b : List Nat) : bcast a b = bcast b a := by simp [bcast, bcRev_comm]

theorem bcast_absorb_left {a b L : List Nat} (h : bcast a b = some L) : bcast a L = some L := by
  obtain ⟨M, hM, rfl⟩ := Option.map_eq_some_iff.1 h
  simp [bcast, bcRev_absorb_left hM]

theorem bcast_absorb_right {a b L : List Nat} (h : bcast a b = some L) : bcast b L = some L :=
  bcast_absorb_left (by rwa [bcast_comm])

/-! ## C16 -/

/-- Spec.  A shape broadcasts to `L` without changing it. -/
def FitsIn (a L : List Nat) : Prop := bcast a L = some L

/-- The shape of a draw given by two parameter shapes that fit in `L`, one of which is `L`. -/
theorem bcast_of_fits {a L : List Nat} (ha : FitsIn a L) : bcast L a = some L := by
  rw [bcast_comm]; exact ha

/-- C16, beta-binomial, partial: when no size is given for the latent, the observation has the
latent's shape and the number of trials broadcasts to it, the step has the latent's shape.
Missing: observations with a larger shape than the latent (`C16_shape_violated`). -/
theorem C16_beta_binomial_shape_partial {rng Y latent post : Expr}
    (h : betaBinomialFinder rng Y = some [(latent, post)])
    {sh shY c : SShape} {r d aE bE rY sY dY nE : Expr}
    (hL : latent = .app (.rv .beta) sh [r, .const [] c, d, aE, bE])
    (hY : Y = .app (.rv .binomial) shY [rY, sY, dY, nE, latent])
    (σ : Expr → List Nat) {L N : List Nat} (hdraw : drawShape σ latent = some L) (hσY : σ Y = L)
    (hN : shapeOf σ nE = some N) (hNL : FitsIn N L) :
    drawShape σ post = some L := by
  subst hL
  subst hY
  simp only [betaBinomialFinder, finder, betaBinomialPosterior_app, Expr.args?, Option.bind_some,
    List.getLast?, List.getLast_cons_cons, List.getLast_singleton, Option.some.injEq,
    List.cons.injEq, Prod.mk.injEq, and_true, true_and] at h
  subst h
  simp only [drawShape] at hdraw
  cases ha : shapeOf σ aE with
  | none => simp [ha] at hdraw
  | some x =>
    cases hb : shapeOf σ bE with
    | none => simp [ha, hb] at hdraw
    | some z =>
      simp only [ha, hb, Option.bind_some] at hdraw
      have hx := bcast_absorb_left hdraw
      have hz := bcast_absorb_right hdraw
      obtain ⟨M, hM, hML⟩ := bcast_fits hz hNL
      simp [genBeta, drawShape, addE, subE, shapeOf, ha, hb, hN, hσY, hx, hM, hML, bcast_self]

/-- C16, beta-negative-binomial, partial (same restriction). -/
theorem C16_beta_nbinom_shape_partial {rng Y latent post : Expr}
    (h : betaNegBinomialFinder rng Y = some [(latent, post)])
    {sh shY c : SShape} {r d aE bE rY sY dY nE : Expr}
    (hL : latent = .app (.rv .beta) sh [r, .const [] c, d, aE, bE])
    (hY : Y = .app (.rv .nbinom) shY [rY, sY, dY, nE, latent])
    (σ : Expr → List Nat) {L N : List Nat} (hdraw : drawShape σ latent = some L) (hσY : σ Y = L)
    (hN : shapeOf σ nE = some N) (hNL : FitsIn N L) :
    drawShape σ post = some L := by
  subst hL
  subst hY
  simp only [betaNegBinomialFinder, finder, betaNegBinomialPosterior_app, Expr.args?,
    Option.bind_some, List.getLast?, List.getLast_cons_cons, List.getLast_singleton,
    Option.some.injEq, List.cons.injEq, Prod.mk.injEq, and_true, true_and] at h
  subst h
  simp only [drawShape] at hdraw
  cases ha : shapeOf σ aE with
  | none => simp [ha] at hdraw
  | some x =>
    cases hb : shapeOf σ bE with
    | none => simp [ha, hb] at hdraw
    | some z =>
      simp only [ha, hb, Option.bind_some] at hdraw
      have hx := bcast_absorb_left hdraw
      have hz := bcast_absorb_right hdraw
      obtain ⟨M, hM, hML⟩ := bcast_fits hz hNL
      simp [genBeta, drawShape, addE, shapeOf, ha, hb, hN, hσY, hx, hM, bcast_of_fits hML]

/-- C16, gamma-Poisson, partial (same restriction). -/
theorem C16_gamma_poisson_shape_partial {rng Y latent post : Expr}
    (h : gammaPoissonFinder rng Y = some [(latent, post)])
    {sh shY c : SShape} {r d aE bE rY sY dY : Expr}
    (hL : latent = .app (.rv .gamma) sh [r, .const [] c, d, aE, bE])
    (hY : Y = .app (.rv .poisson) shY [rY, sY, dY, latent])
    (σ : Expr → List Nat) {L : List Nat} (hdraw : drawShape σ latent = some L) (hσY : σ Y = L) :
    drawShape σ post = some L := by
  subst hL
  subst hY
  simp only [gammaPoissonFinder, finder, gammaPoissonPosterior_app, Expr.args?,
    Option.bind_some, List.getLast?, List.getLast_cons_cons, List.getLast_singleton,
    Option.some.injEq, List.cons.injEq, Prod.mk.injEq, and_true, true_and] at h
  subst h
  simp only [drawShape] at hdraw
  cases ha : shapeOf σ aE with
  | none => simp [ha] at hdraw
  | some x =>
    cases hb : shapeOf σ bE with
    | none => simp [ha, hb] at hdraw
    | some z =>
      simp only [ha, hb, Option.bind_some] at hdraw
      have hx := bcast_absorb_left hdraw
      have hz := bcast_absorb_right hdraw
      have h1 : bcast z [] = some z := by simp [bcast, bcRev_nil_right]
      have h2 : bcast [] z = some z := by simp [bcast, bcRev]
      simp [genGamma, drawShape, addE, oneE, shapeOf, ha, hb, hσY, hx, h1, h2, bcast_of_fits hz]

/-- The shape of the step for a scalar latent without size is the shape of the observation. -/
theorem scalar_latent_step_shape (a b : Rat) (rng rY sY dY : Expr) (shY : SShape)
    (r d : Expr) (c : SShape) (σ : Expr → List Nat) :
    let latent := Expr.app (.rv .gamma) [] [r, .const [] c, d, .const [a] [], .const [b] []]
    let Y := Expr.app (.rv .poisson) shY [rY, sY, dY, latent]
    ∃ post, gammaPoissonFinder rng Y = some [(latent, post)] ∧ drawShape σ latent = some [] ∧
      drawShape σ post = some (σ Y) := by
  refine ⟨_, rfl, ?_, ?_⟩
  · rfl
  · simp [genGamma, drawShape, addE, oneE, shapeOf, bcast, bcRev, bcRev_nil_right]

/-- C16 is violated: a scalar latent with any non-scalar observation gets a non-scalar step. -/
theorem C16_shape_violated (n : Nat) :
    ∃ (rng Y latent post : Expr) (σ : Expr → List Nat),
      gammaPoissonFinder rng Y = some [(latent, post)] ∧ σ Y = [n] ∧
      drawShape σ latent = some [] ∧ drawShape σ post ≠ drawShape σ latent := by
  obtain ⟨post, h1, h2, h3⟩ := scalar_latent_step_shape 1 1 (.input 0 []) (.input 1 []) (.const [] [])
    (.input 2 []) [none] (.input 3 []) (.input 4 []) [] (fun _ => [n])
  refine ⟨_, _, _, post, fun _ => [n], h1, rfl, h2, ?_⟩
  rw [h2, h3]
  simp

/-- A vector model meets the hypotheses of the partial theorems. -/
example : ∃ (rng Y latent post : Expr) (σ : Expr → List Nat),
    betaBinomialFinder rng Y = some [(latent, post)] ∧ drawShape σ latent = some [3] ∧ σ Y = [3] ∧
    shapeOf σ (.const [5] []) = some [] ∧ FitsIn [] [3] :=
  ⟨.input 0 [], .app (.rv .binomial) [none] [.input 1 [], .const [] [], .input 2 [], .const [5] [],
      .app (.rv .beta) [some 3] [.input 3 [], .const [] [], .input 4 [], .input 5 [some 3],
        .const [1] []]],
    _, _, fun _ => [3], rfl, rfl, rfl, rfl, rfl⟩

/-- Its step draws a vector of the same length. -/
example : ∃ latent post, betaBinomialFinder (.input 0 []) (.app (.rv .binomial) [none] [.input 1 [], .const [] [],
      .input 2 [], .const [5] [], .app (.rv .beta) [some 3] [.input 3 [], .const [] [], .input 4 [],
      .input 5 [some 3], .const [1] []]]) = some [(latent, post)] ∧ drawShape (fun _ => [3]) post = some [3] :=
  ⟨_, _, rfl, C16_beta_binomial_shape_partial rfl rfl rfl _ (N := []) rfl rfl rfl rfl⟩

/-- The same with a negative-binomial observation, and with a Poisson one. -/
example : ∃ latent post, betaNegBinomialFinder (.input 0 []) (.app (.rv .nbinom) [none] [.input 1 [], .const [] [],
      .input 2 [], .const [5] [], .app (.rv .beta) [some 3] [.input 3 [], .const [] [], .input 4 [],
      .input 5 [some 3], .const [1] []]]) = some [(latent, post)] ∧ drawShape (fun _ => [3]) post = some [3] :=
  ⟨_, _, rfl, C16_beta_nbinom_shape_partial rfl rfl rfl _ (N := []) rfl rfl rfl rfl⟩

example : ∃ latent post, gammaPoissonFinder (.input 0 []) (.app (.rv .poisson) [none] [.input 1 [], .const [] [],
      .input 2 [], .app (.rv .gamma) [some 3] [.input 3 [], .const [] [], .input 4 [],
      .input 5 [some 3], .const [1] []]]) = some [(latent, post)] ∧ drawShape (fun _ => [3]) post = some [3] :=
  ⟨_, _, rfl, C16_gamma_poisson_shape_partial rfl rfl rfl _ rfl rfl⟩

end Verif.Conj
