import Verif.Conj.Model
import Verif.Expr.Lemmas
import Verif.Expr.Sem
import Verif.Prob.GammaBeta

/-!
# Helper lemmas for the conjugate finders
-/

open MeasureTheory ProbabilityTheory
open scoped ENNReal NNReal unitInterval

namespace Verif.Conj

open Verif

/-! ## Exact results of the three relations -/

theorem gammaPoissonPosterior_some {rng Y post : Expr} (h : gammaPoissonPosterior rng Y = some post) :
    ∃ shY rY sY dY shL rL size dtype alpha beta,
      Y = .app (.rv .poisson) shY [rY, sY, dY, .app (.rv .gamma) shL [rL, size, dtype, alpha, beta]] ∧
      post = genGamma rng (addE alpha Y) (addE beta oneE) size dtype := by
  unfold gammaPoissonPosterior at h
  cases hm : matchP gammaPoissonPat Y [] with
  | none => simp [hm] at h
  | some s =>
    have hi := (matchP_sound _ _ _ _ hm).2
    simp only [hm, Option.bind_eq_bind, Option.bind_some] at h
    cases Y with
    | input _ _ => cases hi
    | const _ _ => cases hi
    | app o sh as =>
      cases hi with
      | app ho ha =>
        cases ha with | cons h1 ha =>
        cases ha with | cons h2 ha =>
        cases ha with | cons h3 ha =>
        cases ha with | cons h4 ha =>
        cases ha
        cases h4 with | @app _ o4 sh4 _ _ ho4 ha4 =>
        cases ha4 with | cons g1 ha =>
        cases ha with | cons g2 ha =>
        cases ha with | cons g3 ha =>
        cases ha with | cons g4 ha =>
        cases ha with | cons g5 ha =>
        cases ha
        cases g2 with | lv g2 =>
        cases g3 with | lv g3 =>
        cases g4 with | lv g4 =>
        cases g5 with | lv g5 =>
        cases o <;> simp [Op.strip] at ho
        cases o4 <;> simp [Op.strip] at ho4
        subst ho ho4
        simp only [g2, g3, g4, g5, Option.bind_some, Option.pure_def, Option.some.injEq] at h
        exact ⟨_, _, _, _, _, _, _, _, _, _, rfl, h.symm⟩

theorem gammaPoissonPosterior_app (rng rY sY dY rL size dtype alpha beta : Expr) (shY shL : SShape) :
    gammaPoissonPosterior rng
      (.app (.rv .poisson) shY [rY, sY, dY, .app (.rv .gamma) shL [rL, size, dtype, alpha, beta]]) =
      some (genGamma rng (addE alpha
        (.app (.rv .poisson) shY [rY, sY, dY, .app (.rv .gamma) shL [rL, size, dtype, alpha, beta]]))
        (addE beta oneE) size dtype) := by
  rfl


theorem betaBinomialPosterior_some {rng Y post : Expr} (h : betaBinomialPosterior rng Y = some post) :
    ∃ shY rY sY dY n shL rL size dtype alpha beta,
      Y = .app (.rv .binomial) shY [rY, sY, dY, n, .app (.rv .beta) shL [rL, size, dtype, alpha, beta]] ∧
      post = genBeta rng (addE alpha Y) (subE (addE beta n) Y) size dtype := by
  unfold betaBinomialPosterior at h
  cases hm : matchP betaBinomialPat Y [] with
  | none => simp [hm] at h
  | some s =>
    have hi := (matchP_sound _ _ _ _ hm).2
    simp only [hm, Option.bind_eq_bind, Option.bind_some] at h
    cases Y with
    | input _ _ => cases hi
    | const _ _ => cases hi
    | app o sh as =>
      cases hi with
      | app ho ha =>
        cases ha with | cons h1 ha =>
        cases ha with | cons h2 ha =>
        cases ha with | cons h3 ha =>
        cases ha with | cons h4 ha =>
        cases ha with | cons h5 ha =>
        cases ha
        cases h4 with | lv h4 =>
        cases h5 with | @app _ o4 sh4 _ _ ho4 ha4 =>
        cases ha4 with | cons g1 ha =>
        cases ha with | cons g2 ha =>
        cases ha with | cons g3 ha =>
        cases ha with | cons g4 ha =>
        cases ha with | cons g5 ha =>
        cases ha
        cases g2 with | lv g2 =>
        cases g3 with | lv g3 =>
        cases g4 with | lv g4 =>
        cases g5 with | lv g5 =>
        cases o <;> simp [Op.strip] at ho
        cases o4 <;> simp [Op.strip] at ho4
        subst ho ho4
        simp only [h4, g2, g3, g4, g5, Option.bind_some, Option.pure_def, Option.some.injEq] at h
        exact ⟨_, _, _, _, _, _, _, _, _, _, _, rfl, h.symm⟩

theorem betaBinomialPosterior_app (rng rY sY dY n rL size dtype alpha beta : Expr) (shY shL : SShape) :
    betaBinomialPosterior rng
      (.app (.rv .binomial) shY [rY, sY, dY, n, .app (.rv .beta) shL [rL, size, dtype, alpha, beta]]) =
      some (let Y := .app (.rv .binomial) shY
              [rY, sY, dY, n, .app (.rv .beta) shL [rL, size, dtype, alpha, beta]]
            genBeta rng (addE alpha Y) (subE (addE beta n) Y) size dtype) := by
  rfl

theorem betaNegBinomialPosterior_some {rng Y post : Expr} (h : betaNegBinomialPosterior rng Y = some post) :
    ∃ shY rY sY dY n shL rL size dtype alpha beta,
      Y = .app (.rv .nbinom) shY [rY, sY, dY, n, .app (.rv .beta) shL [rL, size, dtype, alpha, beta]] ∧
      post = genBeta rng (addE alpha Y) (addE beta n) size dtype := by
  unfold betaNegBinomialPosterior at h
  cases hm : matchP betaNegBinomialPat Y [] with
  | none => simp [hm] at h
  | some s =>
    have hi := (matchP_sound _ _ _ _ hm).2
    simp only [hm, Option.bind_eq_bind, Option.bind_some] at h
    cases Y with
    | input _ _ => cases hi
    | const _ _ => cases hi
    | app o sh as =>
      cases hi with
      | app ho ha =>
        cases ha with | cons h1 ha =>
        cases ha with | cons h2 ha =>
        cases ha with | cons h3 ha =>
        cases ha with | cons h4 ha =>
        cases ha with | cons h5 ha =>
        cases ha
        cases h4 with | lv h4 =>
        cases h5 with | @app _ o4 sh4 _ _ ho4 ha4 =>
        cases ha4 with | cons g1 ha =>
        cases ha with | cons g2 ha =>
        cases ha with | cons g3 ha =>
        cases ha with | cons g4 ha =>
        cases ha with | cons g5 ha =>
        cases ha
        cases g2 with | lv g2 =>
        cases g3 with | lv g3 =>
        cases g4 with | lv g4 =>
        cases g5 with | lv g5 =>
        cases o <;> simp [Op.strip] at ho
        cases o4 <;> simp [Op.strip] at ho4
        subst ho ho4
        simp only [h4, g2, g3, g4, g5, Option.bind_some, Option.pure_def, Option.some.injEq] at h
        exact ⟨_, _, _, _, _, _, _, _, _, _, _, rfl, h.symm⟩

theorem betaNegBinomialPosterior_app (rng rY sY dY n rL size dtype alpha beta : Expr) (shY shL : SShape) :
    betaNegBinomialPosterior rng
      (.app (.rv .nbinom) shY [rY, sY, dY, n, .app (.rv .beta) shL [rL, size, dtype, alpha, beta]]) =
      some (let Y := .app (.rv .nbinom) shY
              [rY, sY, dY, n, .app (.rv .beta) shL [rL, size, dtype, alpha, beta]]
            genBeta rng (addE alpha Y) (addE beta n) size dtype) := by
  rfl

/-! ## Environments -/

/-- Evaluation does not depend on a variable the expression does not read. -/
theorem evalE_update {ρ : Env} {a : Expr} {θ : ℝ} : ∀ {e : Expr}, ¬ Reads a e →
    evalE (Function.update ρ a θ) e = evalE ρ e := by
  intro e
  induction e using evalE.induct with
  | case1 i s =>
    intro h
    have : Expr.input i s ≠ a := by rintro rfl; exact h .self
    simp [evalE, Function.update_of_ne this]
  | case2 q sh => intro _; simp [evalE]
  | case3 d sh hd =>
    intro _
    rw [evalE, evalE] <;> exact hd
  | case4 d s as =>
    intro h
    have : Expr.app (.rv d) s as ≠ a := by rintro rfl; exact h .self
    simp [evalE, Function.update_of_ne this]
  | case5 o s b ih =>
    intro h
    have hb : ¬ Reads a b := fun hr => h (.arg (by simp) (by simp) hr)
    simp [evalE, ih hb]
  | case6 o s b ih =>
    intro h
    have hb : ¬ Reads a b := fun hr => h (.arg (by simp) (by simp) hr)
    simp [evalE, ih hb]
  | case7 o s b c ihb ihc =>
    intro h
    have hb : ¬ Reads a b := fun hr => h (.arg (by simp) (by simp) hr)
    have hc : ¬ Reads a c := fun hr => h (.arg (by simp) (by simp) hr)
    simp [evalE, ihb hb, ihc hc]
  | case8 o s b c ihb ihc =>
    intro h
    have hb : ¬ Reads a b := fun hr => h (.arg (by simp) (by simp) hr)
    have hc : ¬ Reads a c := fun hr => h (.arg (by simp) (by simp) hr)
    simp [evalE, ihb hb, ihc hc]
  | case9 o s as h1 h2 h3 h4 h5 =>
    intro _
    rw [evalE, evalE] <;> assumption


theorem evalE_rv (ρ : Env) (d : Dist) (sh : SShape) (as : List Expr) :
    evalE ρ (.app (.rv d) sh as) = some (ρ (.app (.rv d) sh as)) := by
  simp [evalE]

theorem evalE_oneE (ρ : Env) : evalE ρ oneE = some 1 := by simp [oneE, evalE]

theorem evalE_addE (ρ : Env) {a b : Expr} {x y : ℝ} (ha : evalE ρ a = some x)
    (hb : evalE ρ b = some y) : evalE ρ (addE a b) = some (x + y) := by
  simp [addE, evalE, ha, hb, evalE.bin]

theorem evalE_subE (ρ : Env) {a b : Expr} {x y : ℝ} (ha : evalE ρ a = some x)
    (hb : evalE ρ b = some y) : evalE ρ (subE a b) = some (x - y) := by
  simp [subE, evalE, ha, hb, evalE.bin]

theorem lawAt_genBeta (ρ : Env) {a b rng size dtype : Expr} {x y : ℝ} (ha : evalE ρ a = some x)
    (hb : evalE ρ b = some y) (hx : 0 < x) (hy : 0 < y) :
    lawAt ρ (genBeta rng a b size dtype) = some (betaMeasure x y) := by
  simp [genBeta, lawAt, ha, hb, rvLaw, hx, hy]

theorem lawAt_genGamma (ρ : Env) {a r rng size dtype : Expr} {x y : ℝ} (ha : evalE ρ a = some x)
    (hr : evalE ρ r = some y) (hx : 0 < x) (hy : 0 < y) :
    lawAt ρ (genGamma rng a r size dtype) = some (gammaMeasure x y) := by
  simp [genGamma, lawAt, ha, hr, rvLaw, hx, hy, evalE, evalE.bin, oneE]

/-- A random-variable node with a law has parameters in the domain. -/
theorem lawAt_beta_inv {ρ : Env} {sh : SShape} {r s d a b : Expr} {μ : Measure ℝ}
    (h : lawAt ρ (.app (.rv .beta) sh [r, s, d, a, b]) = some μ) :
    ∃ x y, evalE ρ a = some x ∧ evalE ρ b = some y ∧ 0 < x ∧ 0 < y ∧ μ = betaMeasure x y := by
  cases ha : evalE ρ a with
  | none => simp [lawAt, ha] at h
  | some x =>
    cases hb : evalE ρ b with
    | none => simp [lawAt, ha, hb] at h
    | some y =>
      simp only [lawAt, List.mapM_cons, ha, hb, List.mapM_nil, Option.pure_def,
        Option.bind_eq_bind, Option.bind_some, rvLaw] at h
      split at h
      · rename_i hp; exact ⟨x, y, rfl, rfl, hp.1, hp.2, by simpa using h.symm⟩
      · cases h

theorem lawAt_gamma_inv {ρ : Env} {sh : SShape} {r s d a b : Expr} {μ : Measure ℝ}
    (h : lawAt ρ (.app (.rv .gamma) sh [r, s, d, a, b]) = some μ) :
    ∃ x y, evalE ρ a = some x ∧ evalE ρ b = some y ∧ 0 < x ∧ 0 < y ∧ μ = gammaMeasure x y⁻¹ := by
  cases ha : evalE ρ a with
  | none => simp [lawAt, ha] at h
  | some x =>
    cases hb : evalE ρ b with
    | none => simp [lawAt, ha, hb] at h
    | some y =>
      simp only [lawAt, List.mapM_cons, ha, hb, List.mapM_nil, Option.pure_def,
        Option.bind_eq_bind, Option.bind_some, rvLaw] at h
      split at h
      · rename_i hp; exact ⟨x, y, rfl, rfl, hp.1, hp.2, by simpa using h.symm⟩
      · cases h

/-! ## Likelihoods -/

theorem map_cast_singleton (μ : Measure ℕ) (k : ℕ) :
    (μ.map (fun n : ℕ => (n : ℝ))) {(k : ℝ)} = μ {k} := by
  rw [Measure.map_apply (by fun_prop) (measurableSet_singleton _)]
  congr 1
  ext m
  simp

theorem rvLaw_poisson {θ : ℝ} (h : 0 < θ) (k : ℕ) :
    ∃ μ, rvLaw .poisson [θ] = some μ ∧
      μ {(k : ℝ)} = ENNReal.ofReal (1 / (Nat.factorial k) * θ ^ (k : ℝ) * Real.exp (-(1 * θ))) := by
  refine ⟨_, by simp only [rvLaw]; rw [if_pos h.le], ?_⟩
  rw [map_cast_singleton, poissonMeasure_singleton]
  congr 1
  rw [Real.coe_toNNReal _ h.le, Real.rpow_natCast]
  ring_nf

theorem rvLaw_binomial {θ : ℝ} (h0 : 0 < θ) (h1 : θ < 1) {n k : ℕ} (hk : k ≤ n) :
    ∃ μ, rvLaw .binomial [(n : ℝ), θ] = some μ ∧
      μ {(k : ℝ)} = ENNReal.ofReal ((n.choose k) * θ ^ (k : ℝ) * (1 - θ) ^ ((n : ℝ) - k)) := by
  have hp : (∃ m : ℕ, (m : ℝ) = n) ∧ θ ∈ Set.Icc (0 : ℝ) 1 := ⟨⟨n, rfl⟩, h0.le, h1.le⟩
  refine ⟨_, by simp only [rvLaw]; rw [dif_pos hp], ?_⟩
  have hc : Classical.choose hp.1 = n := by
    have := Classical.choose_spec hp.1
    exact_mod_cast this
  rw [map_cast_singleton, binomial_singleton, hc]
  congr 1
  have h1' : 0 < 1 - θ := by linarith
  rw [Real.rpow_natCast, ← Nat.cast_sub hk, Real.rpow_natCast]

theorem nbMeasure_singleton (n p : ℝ) (k : ℕ) :
    nbMeasure n p {k} = ENNReal.ofReal (nbPMF n p k) := by
  rw [nbMeasure, Measure.sum_apply _ (measurableSet_singleton _), tsum_eq_single k]
  · simp
  · intro j hj
    simp [hj]

theorem rvLaw_nbinom {θ n : ℝ} (hn : 0 < n) (h0 : 0 < θ) (h1 : θ < 1) (k : ℕ) :
    ∃ μ, rvLaw .nbinom [n, θ] = some μ ∧
      μ {(k : ℝ)} = ENNReal.ofReal (Real.Gamma (k + n) / (Real.Gamma n * (Nat.factorial k)) *
        θ ^ n * (1 - θ) ^ (k : ℝ)) := by
  refine ⟨_, by simp only [rvLaw]; rw [if_pos ⟨hn, h0, h1.le⟩], ?_⟩
  rw [map_cast_singleton, nbMeasure_singleton, nbPMF, Real.rpow_natCast]

/-! ## Measurability of the likelihoods -/

theorem measurable_lik_poisson (k : ℕ) :
    Measurable (fun θ : ℝ => massOf (rvLaw .poisson [θ]) (k : ℝ)) := by
  have : (fun θ : ℝ => massOf (rvLaw .poisson [θ]) (k : ℝ)) =
      fun θ => if 0 ≤ θ then ENNReal.ofReal (Real.exp (-θ) * θ ^ k / (Nat.factorial k)) else 0 := by
    funext θ
    by_cases h : 0 ≤ θ
    · simp only [massOf, rvLaw, if_pos h, map_cast_singleton, poissonMeasure_singleton,
        Real.coe_toNNReal _ h]
    · simp only [massOf, rvLaw, if_neg h]
  rw [this]
  exact Measurable.ite measurableSet_Ici (by fun_prop) measurable_const

theorem measurable_lik_binomial (n k : ℕ) :
    Measurable (fun θ : ℝ => massOf (rvLaw .binomial [(n : ℝ), θ]) (k : ℝ)) := by
  have : (fun θ : ℝ => massOf (rvLaw .binomial [(n : ℝ), θ]) (k : ℝ)) =
      fun θ => if θ ∈ Set.Icc (0 : ℝ) 1 then
        ENNReal.ofReal ((n.choose k) * θ ^ k * (1 - θ) ^ (n - k)) else 0 := by
    funext θ
    by_cases h : θ ∈ Set.Icc (0 : ℝ) 1
    · have hp : (∃ m : ℕ, (m : ℝ) = n) ∧ θ ∈ Set.Icc (0 : ℝ) 1 := ⟨⟨n, rfl⟩, h⟩
      have hc : Classical.choose hp.1 = n := by
        have := Classical.choose_spec hp.1
        exact_mod_cast this
      simp only [massOf, rvLaw, dif_pos hp, if_pos h, map_cast_singleton, binomial_singleton, hc]
    · have hp : ¬ ((∃ m : ℕ, (m : ℝ) = n) ∧ θ ∈ Set.Icc (0 : ℝ) 1) := fun hh => h hh.2
      simp only [massOf, rvLaw, dif_neg hp, if_neg h]
  rw [this]
  exact Measurable.ite measurableSet_Icc (by fun_prop) measurable_const

theorem measurable_lik_nbinom (n : ℝ) (k : ℕ) :
    Measurable (fun θ : ℝ => massOf (rvLaw .nbinom [n, θ]) (k : ℝ)) := by
  have : (fun θ : ℝ => massOf (rvLaw .nbinom [n, θ]) (k : ℝ)) =
      fun θ => if θ ∈ {θ : ℝ | 0 < n ∧ 0 < θ ∧ θ ≤ 1} then ENNReal.ofReal (nbPMF n θ k) else 0 := by
    funext θ
    by_cases h : 0 < n ∧ 0 < θ ∧ θ ≤ 1
    · simp only [massOf, rvLaw, if_pos h, Set.mem_ofPred_eq, map_cast_singleton, nbMeasure_singleton]
    · simp only [massOf, rvLaw, if_neg h, Set.mem_ofPred_eq]
  rw [this]
  refine Measurable.ite ?_ ?_ measurable_const
  · by_cases hn : 0 < n
    · have : {θ : ℝ | 0 < n ∧ 0 < θ ∧ θ ≤ 1} = Set.Ioc 0 1 := by ext θ; simp [hn]
      rw [this]; exact measurableSet_Ioc
    · simp [hn]
  · unfold nbPMF
    refine ENNReal.measurable_ofReal.comp ?_
    fun_prop

end Verif.Conj
