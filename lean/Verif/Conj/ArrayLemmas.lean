import Verif.Conj.Props
import Verif.Prob.PiBayes

/-!
# Conjugate steps on arrays: helper lemmas
-/

open MeasureTheory ProbabilityTheory
open scoped ENNReal NNReal

namespace Verif.Conj

open Verif

theorem betaMeasure_atom (a b x : ℝ) : betaMeasure a b {x} = 0 :=
  withDensity_absolutelyContinuous _ _ (by simp)

theorem gammaMeasure_atom (a b x : ℝ) : gammaMeasure a b {x} = 0 :=
  withDensity_absolutelyContinuous _ _ (by simp)

theorem measurable_likAt_binomial {latent Y : Expr} (hm : IsConjugateModel .binomial .beta 1 Y latent)
    {sh : SShape} {rY sY dY nE pE : Expr} (hY : Y = .app (.rv .binomial) sh [rY, sY, dY, nE, pE])
    {ρ : Env} {n : ℕ} (hn : evalE ρ nE = some (n : ℝ)) (hread : ¬ Reads latent nE) (y : ℕ) :
    Measurable (likAt ρ latent Y y) ∧ (y ≤ n → ∀ θ, 0 < θ → θ < 1 → likAt ρ latent Y y θ =
      ENNReal.ofReal ((n.choose y : ℕ) * θ ^ (y : ℝ) * (1 - θ) ^ ((n : ℝ) - y))) := by
  obtain ⟨⟨sh', r', s', d', ps, hps, hY'⟩, ⟨shL, rL, sL, dL, a, b, hL⟩⟩ := hm
  obtain ⟨n', rfl⟩ := List.length_eq_one_iff.1 hps
  have hYY := hY'.symm.trans hY
  simp only [List.cons_append, List.nil_append, Expr.app.injEq, List.cons.injEq, and_true,
    true_and] at hYY
  obtain ⟨rfl, rfl, rfl, rfl, rfl, rfl⟩ := hYY
  have hlik : ∀ θ, likAt ρ latent Y y θ = massOf (rvLaw .binomial [(n : ℝ), θ]) (y : ℝ) := by
    intro θ
    have hl : evalE (Function.update ρ latent θ) latent = some θ := by
      conv_lhs => rw [hL, evalE_rv]
      rw [← hL, Function.update_self]
    rw [likAt, hY]
    simp only [lawAt, List.mapM_cons, evalE_update hread, hn, hl,
      List.mapM_nil, Option.pure_def, Option.bind_eq_bind, Option.bind_some]
  refine ⟨by rw [funext hlik]; exact measurable_lik_binomial n y, fun hyn θ h0 h1 => ?_⟩
  rw [hlik]
  obtain ⟨μ, h2, h3⟩ := rvLaw_binomial h0 h1 hyn
  simp only [h2, massOf, h3]

theorem measurable_likAt_poisson {latent Y : Expr} (hm : IsConjugateModel .poisson .gamma 0 Y latent)
    (ρ : Env) (y : ℕ) : Measurable (likAt ρ latent Y y) := by
  obtain ⟨⟨sh', r', s', d', ps, hps, hY⟩, ⟨shL, rL, sL, dL, a, b, hL⟩⟩ := hm
  obtain rfl := List.length_eq_zero_iff.1 hps
  have hlik : ∀ θ, likAt ρ latent Y y θ = massOf (rvLaw .poisson [θ]) (y : ℝ) := by
    intro θ
    have hl : evalE (Function.update ρ latent θ) latent = some θ := by
      conv_lhs => rw [hL, evalE_rv]
      rw [← hL, Function.update_self]
    rw [likAt, hY]
    simp only [List.cons_append, List.nil_append, lawAt, List.mapM_cons, hl,
      List.mapM_nil, Option.pure_def, Option.bind_eq_bind, Option.bind_some]
  rw [funext hlik]
  exact measurable_lik_poisson y

theorem measurable_likAt_nbinom {latent Y : Expr} (hm : IsConjugateModel .nbinom .beta 1 Y latent)
    {sh : SShape} {rY sY dY nE pE : Expr} (hY : Y = .app (.rv .nbinom) sh [rY, sY, dY, nE, pE])
    {ρ : Env} {n : ℝ} (hn : evalE ρ nE = some n) (hread : ¬ Reads latent nE) (y : ℕ) :
    Measurable (likAt ρ latent Y y) := by
  obtain ⟨⟨sh', r', s', d', ps, hps, hY'⟩, ⟨shL, rL, sL, dL, a, b, hL⟩⟩ := hm
  obtain ⟨n', rfl⟩ := List.length_eq_one_iff.1 hps
  have hYY := hY'.symm.trans hY
  simp only [List.cons_append, List.nil_append, Expr.app.injEq, List.cons.injEq, and_true,
    true_and] at hYY
  obtain ⟨rfl, rfl, rfl, rfl, rfl, rfl⟩ := hYY
  have hlik : ∀ θ, likAt ρ latent Y y θ = massOf (rvLaw .nbinom [n, θ]) (y : ℝ) := by
    intro θ
    have hl : evalE (Function.update ρ latent θ) latent = some θ := by
      conv_lhs => rw [hL, evalE_rv]
      rw [← hL, Function.update_self]
    rw [likAt, hY]
    simp only [lawAt, List.mapM_cons, evalE_update hread, hn, hl,
      List.mapM_nil, Option.pure_def, Option.bind_eq_bind, Option.bind_some]
  rw [funext hlik]
  exact measurable_lik_nbinom n y

/-- The product of binomial likelihoods of several observations. -/
theorem prod_binomial {ι : Type*} (S : Finset ι) {n y : ι → ℕ} (hyn : ∀ i ∈ S, y i ≤ n i)
    {l : ι → ℝ → ℝ≥0∞} (hl : ∀ i ∈ S, ∀ θ, 0 < θ → θ < 1 → l i θ =
      ENNReal.ofReal (((n i).choose (y i) : ℕ) * θ ^ (y i : ℝ) * (1 - θ) ^ ((n i : ℝ) - y i))) :
    ∃ k : ℝ, 0 < k ∧ ∀ θ, 0 < θ → θ < 1 → ∏ i ∈ S, l i θ =
      ENNReal.ofReal (k * θ ^ (∑ i ∈ S, (y i : ℝ)) * (1 - θ) ^ (∑ i ∈ S, ((n i : ℝ) - y i))) := by
  classical
  induction S using Finset.induction_on with
  | empty => exact ⟨1, one_pos, fun θ _ _ => by simp⟩
  | insert a S ha ih =>
    obtain ⟨k, hk, h⟩ := ih (fun i hi => hyn i (by simp [hi])) (fun i hi => hl i (by simp [hi]))
    have hc : 0 < (((n a).choose (y a) : ℕ) : ℝ) := by
      exact_mod_cast Nat.choose_pos (hyn a (by simp))
    refine ⟨((n a).choose (y a) : ℕ) * k, by positivity, fun θ h0 h1 => ?_⟩
    have h1' : 0 < 1 - θ := by linarith
    rw [Finset.prod_insert ha, Finset.sum_insert ha, Finset.sum_insert ha, h θ h0 h1,
      hl a (by simp) θ h0 h1, ← ENNReal.ofReal_mul (by positivity), Real.rpow_add h0,
      Real.rpow_add h1']
    congr 1
    ring

end Verif.Conj
