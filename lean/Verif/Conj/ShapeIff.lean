import Verif.Conj.Shape

/-!
# C16: exactly when a conjugate step has the latent's shape
-/

namespace Verif.Conj

open Verif

theorem FitsIn.antisymm {a b : List Nat} (h : FitsIn a b) (h' : FitsIn b a) : a = b := by
  have h1 : bcast a b = some b := h
  have h2 : bcast b a = some a := h'
  rw [bcast_comm, h2] at h1
  exact Option.some.inj h1

theorem bcRev_trans : ∀ {a b c : List Nat}, bcRev a b = some b → bcRev b c = some c → bcRev a c = some c
  | [], b, c, _, _ => by simp [bcRev]
  | a :: as, [], c, h, _ => by simp [bcRev] at h
  | a :: as, b :: bs, [], _, h => by simp [bcRev] at h
  | a :: as, b :: bs, c :: cs, h, h' => by
    obtain ⟨h1, h2⟩ := (bcRev_fits_cons _ _ _ _).1 h
    obtain ⟨h3, h4⟩ := (bcRev_fits_cons _ _ _ _).1 h'
    refine (bcRev_fits_cons _ _ _ _).2 ⟨?_, bcRev_trans h2 h4⟩
    rcases h1 with rfl | rfl
    · exact h3
    · exact Or.inr rfl

theorem bcast_rev {a b : List Nat} (h : bcast a b = some b) : bcRev a.reverse b.reverse = some b.reverse := by
  obtain ⟨M, hM, e⟩ := Option.map_eq_some_iff.1 h
  rw [hM, ← e, List.reverse_reverse]

theorem FitsIn.trans {a b c : List Nat} (h : FitsIn a b) (h' : FitsIn b c) : FitsIn a c := by
  have := bcRev_trans (bcast_rev h) (bcast_rev h')
  simp [FitsIn, bcast, this]

theorem fitsIn_nil (K : List Nat) : FitsIn [] K := by simp [FitsIn, bcast, bcRev]

/-- The size vector of a random-variable node, as a shape; `none` when no size is given. -/
def sizeOf : Expr → Option (List Nat)
  | .const [] _ => none
  | .const (d :: ds) _ => some ((d :: ds).map fun q => q.num.toNat)
  | _ => none

/-- A draw whose parameters have broadcast shape `P`. -/
theorem drawShape_eq {σ : Expr → List Nat} {dist : Dist} {sh : SShape} {r size d a b : Expr} {L : List Nat}
    (h : drawShape σ (.app (.rv dist) sh [r, size, d, a, b]) = some L) :
    ∃ x z P, shapeOf σ a = some x ∧ shapeOf σ b = some z ∧ bcast x z = some P ∧
      ((∃ c, size = .const [] c) ∧ P = L ∨
        ∃ e es c, size = .const (e :: es) c ∧ (e :: es).map (fun q => q.num.toNat) = L ∧ FitsIn P L) := by
  cases size with
  | const vals c =>
    cases vals with
    | nil =>
      simp only [drawShape] at h
      obtain ⟨x, hx, h⟩ := Option.bind_eq_some_iff.1 h
      obtain ⟨z, hz, h⟩ := Option.bind_eq_some_iff.1 h
      exact ⟨x, z, L, hx, hz, h, Or.inl ⟨⟨c, rfl⟩, rfl⟩⟩
    | cons e es =>
      simp only [drawShape] at h
      obtain ⟨x, hx, h⟩ := Option.bind_eq_some_iff.1 h
      obtain ⟨z, hz, h⟩ := Option.bind_eq_some_iff.1 h
      obtain ⟨P, hP, h⟩ := Option.bind_eq_some_iff.1 h
      split at h
      · rename_i hf
        cases h
        exact ⟨x, z, P, hx, hz, hP, Or.inr ⟨e, es, c, rfl, rfl, hf⟩⟩
      · cases h
  | input i s => simp [drawShape] at h
  | app o s as => simp [drawShape] at h

/-- The shape of a step whose parameters together have the shape `K` of the observation. -/
theorem step_shape {σ : Expr → List Nat} {dist : Dist} {sh : SShape} {r r' size d d' a b a' b' : Expr}
    {L K x' z' : List Nat} (h : drawShape σ (.app (.rv dist) sh [r, size, d, a, b]) = some L)
    (hLK : FitsIn L K) (ha : shapeOf σ a' = some x') (hb : shapeOf σ b' = some z')
    (hP : bcast x' z' = some K) (sh' : SShape) :
    (drawShape σ (.app (.rv dist) sh' [r', size, d', a', b']) = some L ↔ K = L) ∧
    (sizeOf size = none → drawShape σ (.app (.rv dist) sh' [r', size, d', a', b']) = some K) ∧
    (sizeOf size ≠ none → K ≠ L → drawShape σ (.app (.rv dist) sh' [r', size, d', a', b']) = none) := by
  obtain ⟨x, z, P, -, -, -, ⟨⟨c, rfl⟩, -⟩ | ⟨e, es, c, rfl, hL, -⟩⟩ := drawShape_eq h
  · refine ⟨?_, fun _ => ?_, fun h => absurd rfl h⟩ <;> simp [drawShape, ha, hb, hP]
  · have hd : drawShape σ (.app (.rv dist) sh' [r', .const (e :: es) c, d', a', b']) =
        if bcast K L = some L then some L else none := by
      simp only [drawShape, ha, hb, hP, Option.bind_some, hL]
    have key : bcast K L = some L ↔ K = L :=
      ⟨fun h => FitsIn.antisymm h hLK, fun h => h ▸ bcast_self _⟩
    rw [hd]
    refine ⟨?_, fun h => by simp [sizeOf] at h, fun _ hne => if_neg fun h => hne (key.1 h)⟩
    rw [← key]
    by_cases hk : bcast K L = some L <;> simp [hk]

/-- The parameters of a latent fit in every shape the latent fits in. -/
theorem params_fit {σ : Expr → List Nat} {dist : Dist} {sh : SShape} {r size d a b : Expr} {L K : List Nat}
    (h : drawShape σ (.app (.rv dist) sh [r, size, d, a, b]) = some L) (hLK : FitsIn L K) :
    ∃ x z, shapeOf σ a = some x ∧ shapeOf σ b = some z ∧ FitsIn x K ∧ FitsIn z K := by
  obtain ⟨x, z, P, hx, hz, hP, hs⟩ := drawShape_eq h
  have hPL : FitsIn P L := by
    rcases hs with ⟨-, rfl⟩ | ⟨_, _, _, -, -, hf⟩
    · exact bcast_self _
    · exact hf
  have hPK := hPL.trans hLK
  exact ⟨x, z, hx, hz, FitsIn.trans (bcast_absorb_left hP) hPK, FitsIn.trans (bcast_absorb_right hP) hPK⟩

/-- **C16 (partial), gamma-Poisson, exactly.** Whatever the shapes and whether or not a size is given for
the latent: the step has the latent's shape iff the observation has it.  Otherwise the step has the shape
of the observation when the latent was written without a size, and fails at run time when it was written
with one.  The full property asks for the latent's shape always.  (The observation's shape is one that
its rate broadcasts to, as for every draw.) -/
theorem C16_gamma_poisson_iff_partial {rng Y latent post r size d aE bE rY sY dY : Expr} {sh shY : SShape}
    (h : gammaPoissonFinder rng Y = some [(latent, post)])
    (hL : latent = .app (.rv .gamma) sh [r, size, d, aE, bE])
    (hY : Y = .app (.rv .poisson) shY [rY, sY, dY, latent])
    (σ : Expr → List Nat) {L : List Nat} (hdraw : drawShape σ latent = some L) (hLK : FitsIn L (σ Y)) :
    (drawShape σ post = some L ↔ σ Y = L) ∧
    (sizeOf size = none → drawShape σ post = some (σ Y)) ∧
    (sizeOf size ≠ none → σ Y ≠ L → drawShape σ post = none) := by
  have hpost : post = genGamma rng (addE aE Y) (addE bE oneE) size d := by
    subst hL
    subst hY
    simp only [gammaPoissonFinder, finder, gammaPoissonPosterior_app, Expr.args?,
      Option.bind_some, List.getLast?, List.getLast_cons_cons, List.getLast_singleton,
      Option.some.injEq, List.cons.injEq, Prod.mk.injEq, and_true, true_and] at h
    exact h.symm
  subst hpost
  rw [hL] at hdraw
  obtain ⟨x, z, hx, hz, hxK, hzK⟩ := params_fit hdraw hLK
  have hσ : shapeOf σ Y = some (σ Y) := by rw [hY]; rfl
  have ha : shapeOf σ (addE aE Y) = some (σ Y) := by
    simp only [addE, shapeOf, hx, hσ, Option.bind_some]
    exact hxK
  have hb : shapeOf σ (.app (.elem .trueDiv) [] [oneE, addE bE oneE]) = some z := by
    simp [addE, oneE, shapeOf, hz, bcast, bcRev_nil_right, bcRev]
  exact step_shape hdraw hLK ha hb (bcast_of_fits hzK) _

/-- **C16 (partial), beta-binomial, exactly** (as above; `N` is the shape of the number of trials). -/
theorem C16_beta_binomial_iff_partial {rng Y latent post r size d aE bE rY sY dY nE : Expr} {sh shY : SShape}
    (h : betaBinomialFinder rng Y = some [(latent, post)])
    (hL : latent = .app (.rv .beta) sh [r, size, d, aE, bE])
    (hY : Y = .app (.rv .binomial) shY [rY, sY, dY, nE, latent])
    (σ : Expr → List Nat) {L N : List Nat} (hdraw : drawShape σ latent = some L) (hLK : FitsIn L (σ Y))
    (hN : shapeOf σ nE = some N) (hNK : FitsIn N (σ Y)) :
    (drawShape σ post = some L ↔ σ Y = L) ∧
    (sizeOf size = none → drawShape σ post = some (σ Y)) ∧
    (sizeOf size ≠ none → σ Y ≠ L → drawShape σ post = none) := by
  have hpost : post = genBeta rng (addE aE Y) (subE (addE bE nE) Y) size d := by
    subst hL
    subst hY
    simp only [betaBinomialFinder, finder, betaBinomialPosterior_app, Expr.args?,
      Option.bind_some, List.getLast?, List.getLast_cons_cons, List.getLast_singleton,
      Option.some.injEq, List.cons.injEq, Prod.mk.injEq, and_true, true_and] at h
    exact h.symm
  subst hpost
  rw [hL] at hdraw
  obtain ⟨x, z, hx, hz, hxK, hzK⟩ := params_fit hdraw hLK
  have hσ : shapeOf σ Y = some (σ Y) := by rw [hY]; rfl
  have ha : shapeOf σ (addE aE Y) = some (σ Y) := by
    simp only [addE, shapeOf, hx, hσ, Option.bind_some]
    exact hxK
  obtain ⟨M, hM, hMK⟩ := bcast_fits hzK hNK
  have hb : shapeOf σ (subE (addE bE nE) Y) = some (σ Y) := by
    simp only [addE, subE, shapeOf, hz, hN, hσ, Option.bind_some, hM]
    exact hMK
  exact step_shape hdraw hLK ha hb (bcast_self _) _

/-- **C16 (partial), beta-negative-binomial, exactly** (as above). -/
theorem C16_beta_nbinom_iff_partial {rng Y latent post r size d aE bE rY sY dY nE : Expr} {sh shY : SShape}
    (h : betaNegBinomialFinder rng Y = some [(latent, post)])
    (hL : latent = .app (.rv .beta) sh [r, size, d, aE, bE])
    (hY : Y = .app (.rv .nbinom) shY [rY, sY, dY, nE, latent])
    (σ : Expr → List Nat) {L N : List Nat} (hdraw : drawShape σ latent = some L) (hLK : FitsIn L (σ Y))
    (hN : shapeOf σ nE = some N) (hNK : FitsIn N (σ Y)) :
    (drawShape σ post = some L ↔ σ Y = L) ∧
    (sizeOf size = none → drawShape σ post = some (σ Y)) ∧
    (sizeOf size ≠ none → σ Y ≠ L → drawShape σ post = none) := by
  have hpost : post = genBeta rng (addE aE Y) (addE bE nE) size d := by
    subst hL
    subst hY
    simp only [betaNegBinomialFinder, finder, betaNegBinomialPosterior_app, Expr.args?,
      Option.bind_some, List.getLast?, List.getLast_cons_cons, List.getLast_singleton,
      Option.some.injEq, List.cons.injEq, Prod.mk.injEq, and_true, true_and] at h
    exact h.symm
  subst hpost
  rw [hL] at hdraw
  obtain ⟨x, z, hx, hz, hxK, hzK⟩ := params_fit hdraw hLK
  have hσ : shapeOf σ Y = some (σ Y) := by rw [hY]; rfl
  have ha : shapeOf σ (addE aE Y) = some (σ Y) := by
    simp only [addE, shapeOf, hx, hσ, Option.bind_some]
    exact hxK
  obtain ⟨M, hM, hMK⟩ := bcast_fits hzK hNK
  have hb : shapeOf σ (addE bE nE) = some M := by
    simp only [addE, shapeOf, hz, hN, Option.bind_some, hM]
  exact step_shape hdraw hLK ha hb (bcast_of_fits hMK) _

/-- **C16 is violated with an explicit size too:** `p = beta(2, 3, size=(4,))` observed through a matrix of
binomials of shape `(n, 4)` gets a step that fails when it is run. -/
theorem C16_size_violated (n : Nat) :
    ∃ (rng Y latent post : Expr) (σ : Expr → List Nat),
      betaBinomialFinder rng Y = some [(latent, post)] ∧ σ Y = [n, 4] ∧ drawShape σ latent = some [4] ∧
      FitsIn [4] [n, 4] ∧ drawShape σ post = none := by
  have hF : FitsIn [4] [n, 4] := by simp [FitsIn, bcast, bcRev]
  have hF' : FitsIn [] [n, 4] := fitsIn_nil _
  refine ⟨.input 0 [], .app (.rv .binomial) [none, some 4] [.input 1 [], .const [] [], .input 2 [], .const [5] [],
      .app (.rv .beta) [some 4] [.input 3 [], .const [4] [some 1], .input 4 [], .const [2] [], .const [3] []]],
    _, _, fun _ => [n, 4], rfl, rfl, by simp [drawShape, shapeOf, bcast, bcRev], hF, ?_⟩
  refine (C16_beta_binomial_iff_partial rfl rfl rfl (fun _ => [n, 4]) (L := [4]) (N := [])
    (by simp [drawShape, shapeOf, bcast, bcRev]) hF rfl hF').2.2 (by simp [sizeOf]) (by simp)

/-- A scalar probability without a size, seen through seven negative-binomial counts: the step draws seven. -/
example : ∃ latent post, betaNegBinomialFinder (.input 0 []) (.app (.rv .nbinom) [some 7] [.input 1 [], .const [7] [some 1],
      .input 2 [], .const [5] [], .app (.rv .beta) [] [.input 3 [], .const [] [], .input 4 [],
      .const [2] [], .const [1] []]]) = some [(latent, post)] ∧ drawShape (fun _ => [7]) latent = some [] ∧
      drawShape (fun _ => [7]) post = some [7] :=
  ⟨_, _, rfl, rfl, (C16_beta_nbinom_iff_partial rfl rfl rfl (fun _ => [7]) (L := []) (N := []) rfl (fitsIn_nil _) rfl
    (fitsIn_nil _)).2.1 rfl⟩

/-- With a size for the latent and an observation of the same shape the step is right. -/
example : ∃ (rng Y latent post : Expr) (σ : Expr → List Nat),
    gammaPoissonFinder rng Y = some [(latent, post)] ∧ drawShape σ latent = some [2, 3] ∧ σ Y = [2, 3] ∧
    drawShape σ post = some [2, 3] :=
  ⟨.input 0 [], .app (.rv .poisson) [some 2, some 3] [.input 1 [], .const [] [], .input 2 [],
      .app (.rv .gamma) [some 2, some 3] [.input 3 [], .const [2, 3] [some 2], .input 4 [], .const [2] [],
        .const [3] []]], _, _, fun _ => [2, 3], rfl, by simp [drawShape, shapeOf, bcast, bcRev], rfl,
    (C16_gamma_poisson_iff_partial rfl rfl rfl (fun _ => [2, 3]) (L := [2, 3])
      (by simp [drawShape, shapeOf, bcast, bcRev]) (bcast_self _)).1.2 rfl⟩

end Verif.Conj
