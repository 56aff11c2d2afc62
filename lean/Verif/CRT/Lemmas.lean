import Verif.CRT.Model
import Mathlib.RingTheory.Polynomial.Pochhammer
import Mathlib.Combinatorics.Enumerative.Stirling
import Mathlib.Tactic.FieldSimp
import Mathlib.Tactic.LinearCombination

/-!
# The Chinese-restaurant-table law through generating polynomials

`HasPoly μ P H` says that `μ` gives the integer `l ≥ 0` a weight proportional to `P.coeff l * H ^ l`.
A sum of independent variables corresponds to the product of the polynomials.
-/

open MeasureTheory ProbabilityTheory Polynomial
open scoped ENNReal

namespace Verif.CRT

/-- Expectation of a nonnegative function under a mass function. -/
noncomputable def expect {α : Type*} (μ : PMF α) (F : α → ℝ≥0∞) : ℝ≥0∞ := ∑' z, μ z * F z

theorem expect_pure {α : Type*} (a : α) (F : α → ℝ≥0∞) : expect (PMF.pure a) F = F a := by
  classical
  rw [expect, tsum_eq_single a]
  · simp
  · intro b hb
    simp [PMF.pure_apply, hb]

theorem expect_bind {α β : Type*} (μ : PMF α) (f : α → PMF β) (F : β → ℝ≥0∞) :
    expect (μ.bind f) F = expect μ fun z => expect (f z) F := by
  simp only [expect, PMF.bind_apply, ← ENNReal.tsum_mul_right, ← ENNReal.tsum_mul_left]
  rw [ENNReal.tsum_comm]
  simp only [mul_assoc]

theorem expect_map {α β : Type*} (μ : PMF α) (g : α → β) (F : β → ℝ≥0∞) :
    expect (μ.map g) F = expect μ fun z => F (g z) := by
  rw [PMF.map, expect_bind]
  simp only [Function.comp, expect_pure]

theorem expect_indicator {α : Type*} [DecidableEq α] (μ : PMF α) (a : α) :
    expect μ (fun z => if z = a then 1 else 0) = μ a := by
  rw [expect, tsum_eq_single a]
  · simp
  · intro b hb
    simp [hb]

theorem expect_bern {p : ℝ} (h1 : p ≤ 1) (F : Bool → ℝ≥0∞) :
    expect (bern p) F = ENNReal.ofReal p * F true + (1 - ENNReal.ofReal p) * F false := by
  have : ENNReal.ofReal p ≤ 1 := by simpa using h1
  rw [expect, tsum_bool, add_comm]
  simp [bern, min_eq_left this]

/-- The functional `F ↦ ∑ l, coeff l * H ^ l * F l`. -/
noncomputable def polyFun (P : ℕ[X]) (H : ℝ≥0∞) (F : ℤ → ℝ≥0∞) : ℝ≥0∞ :=
  P.sum fun l c => (c : ℝ≥0∞) * H ^ l * F l

theorem polyFun_add (P Q : ℕ[X]) (H : ℝ≥0∞) (F : ℤ → ℝ≥0∞) :
    polyFun (P + Q) H F = polyFun P H F + polyFun Q H F := by
  unfold polyFun
  exact sum_add_index _ _ _ (by simp) (by intros; push_cast; ring)

theorem polyFun_monomial (n c : ℕ) (H : ℝ≥0∞) (F : ℤ → ℝ≥0∞) :
    polyFun (monomial n c) H F = (c : ℝ≥0∞) * H ^ n * F n := by
  unfold polyFun
  exact sum_monomial_index _ _ (by simp)

theorem polyFun_fun_add (P : ℕ[X]) (H : ℝ≥0∞) (F G : ℤ → ℝ≥0∞) :
    polyFun P H (fun z => F z + G z) = polyFun P H F + polyFun P H G := by
  unfold polyFun
  simp only [mul_add]
  exact sum_add _ _ _

theorem polyFun_mul (P Q : ℕ[X]) (H : ℝ≥0∞) (F : ℤ → ℝ≥0∞) :
    polyFun (P * Q) H F = polyFun P H fun l => polyFun Q H fun m => F (l + m) := by
  induction P using Polynomial.induction_on' with
  | add P P' hP hP' => rw [add_mul, polyFun_add, hP, hP', polyFun_add]
  | monomial n c =>
    induction Q using Polynomial.induction_on' with
    | add Q Q' hQ hQ' =>
      rw [mul_add, polyFun_add, hQ, hQ']
      simp only [polyFun_add, polyFun_fun_add]
    | monomial m d =>
      rw [monomial_mul_monomial]
      simp only [polyFun_monomial]
      push_cast
      ring

theorem polyFun_const (P : ℕ[X]) (H c : ℝ≥0∞) :
    polyFun P H (fun _ => c) = P.eval₂ (Nat.castRingHom ℝ≥0∞) H * c := by
  unfold polyFun
  rw [eval₂_eq_sum, Polynomial.sum, Polynomial.sum, Finset.sum_mul]
  rfl

theorem polyFun_congr (P : ℕ[X]) (H : ℝ≥0∞) {F G : ℤ → ℝ≥0∞} (h : ∀ n : ℕ, F n = G n) :
    polyFun P H F = polyFun P H G := by
  unfold polyFun Polynomial.sum
  exact Finset.sum_congr rfl fun l _ => by simp only [h]

theorem polyFun_mul_const (P : ℕ[X]) (H c : ℝ≥0∞) (F : ℤ → ℝ≥0∞) :
    polyFun P H (fun z => c * F z) = c * polyFun P H F := by
  unfold polyFun Polynomial.sum
  rw [Finset.mul_sum]
  exact Finset.sum_congr rfl fun l _ => by ring

/-- The total weight. -/
noncomputable def polyVal (P : ℕ[X]) (H : ℝ≥0∞) : ℝ≥0∞ := P.eval₂ (Nat.castRingHom ℝ≥0∞) H

/-- `μ` is the law with weights `coeff l * H ^ l`. -/
def HasPoly (μ : PMF ℤ) (P : ℕ[X]) (H : ℝ≥0∞) : Prop :=
  ∀ F, polyVal P H * expect μ F = polyFun P H F

theorem polyVal_mul (P Q : ℕ[X]) (H : ℝ≥0∞) : polyVal (P * Q) H = polyVal P H * polyVal Q H :=
  eval₂_mul _ _

theorem hasPoly_add {μ ν : PMF ℤ} {P Q : ℕ[X]} {H : ℝ≥0∞} (hμ : HasPoly μ P H)
    (hν : HasPoly ν Q H) : HasPoly (μ.bind fun l => ν.map fun m => l + m) (P * Q) H := by
  intro F
  rw [polyVal_mul, polyFun_mul, expect_bind]
  simp only [expect_map]
  have h1 : (fun l => polyFun Q H fun m => F (l + m)) =
      fun l => polyVal Q H * expect ν fun m => F (l + m) :=
    funext fun l => (hν _).symm
  rw [h1, polyFun_mul_const, ← hμ]
  ring

theorem hasPoly_pure (n : ℕ) (H : ℝ≥0∞) :
    HasPoly (PMF.pure (n : ℤ)) (X ^ n) H := by
  intro F
  rw [expect_pure, X_pow_eq_monomial, polyFun_monomial, polyVal, eval₂_monomial]
  simp

/-- The polynomial of a Bernoulli draw with probability `h / (k + h)`. -/
theorem expect_bern_poly {h : ℝ} (hh : 0 < h) (k : ℕ) (F : ℤ → ℝ≥0∞) :
    polyVal (X + C k) (ENNReal.ofReal h) *
      expect (bern (h / (k + h))) (fun b => F (if b then 1 else 0)) =
      polyFun (X + C k) (ENNReal.ofReal h) F := by
  have hk : (0 : ℝ) ≤ k := by positivity
  have hp : h / (k + h) ≤ 1 := by
    rw [div_le_one (by positivity)]
    linarith
  have h2 : ENNReal.ofReal h + k = ENNReal.ofReal (k + h) := by
    rw [ENNReal.ofReal_add hk hh.le, add_comm, ENNReal.ofReal_natCast]
  have h3 : (1 : ℝ≥0∞) - ENNReal.ofReal (h / (k + h)) = ENNReal.ofReal (k / (k + h)) := by
    rw [← ENNReal.ofReal_one, ← ENNReal.ofReal_sub _ (by positivity)]
    congr 1
    field_simp
    ring
  have e1 : polyVal (X + C k) (ENNReal.ofReal h) = ENNReal.ofReal (k + h) := by
    rw [polyVal, eval₂_add, eval₂_X, eval₂_C, ← h2]
    rfl
  have e2 : polyFun (X + C k) (ENNReal.ofReal h) F = ENNReal.ofReal h * F 1 + k * F 0 := by
    rw [polyFun_add, ← monomial_one_one_eq_X, polyFun_monomial, ← monomial_zero_left,
      polyFun_monomial]
    simp
  rw [expect_bern hp, e1, e2, h3, mul_add, ← mul_assoc, ← mul_assoc,
    ← ENNReal.ofReal_mul (by positivity), ← ENNReal.ofReal_mul (by positivity)]
  have e3 : (k + h) * (h / (k + h)) = h := by field_simp
  have e4 : (k + h) * (k / (k + h)) = k := by field_simp
  simp [e3, e4]

/-- The integer value of a list of outcomes. -/
def boolSum (bs : List Bool) : ℤ := (bs.map fun b => if b then (1 : ℤ) else 0).sum

theorem hasPoly_bernVec {h : ℝ} (hh : 0 < h) (ks : List ℕ) :
    HasPoly ((bernVec (ks.map fun k : ℕ => h / ((k : ℝ) + h))).map boolSum)
      (ks.map fun k => (X + C k : ℕ[X])).prod (ENNReal.ofReal h) := by
  induction ks with
  | nil =>
    have := hasPoly_pure 0 (ENNReal.ofReal h)
    simpa [bernVec, boolSum, PMF.pure_map] using this
  | cons k ks ih =>
    intro F
    rw [List.map_cons, List.map_cons, List.prod_cons, polyVal_mul, polyFun_mul, bernVec, expect_map,
      expect_bind]
    simp only [expect_bind, expect_pure]
    rw [← expect_bern_poly hh]
    have h1 : ∀ l : ℤ, polyFun (ks.map fun k => (X + C k : ℕ[X])).prod (ENNReal.ofReal h)
        (fun m => F (l + m)) = polyVal (ks.map fun k => (X + C k : ℕ[X])).prod (ENNReal.ofReal h) *
          expect (bernVec (ks.map fun k : ℕ => h / ((k : ℝ) + h))) fun bs => F (l + boolSum bs) := by
      intro l
      rw [← ih, expect_map]
    simp only [h1]
    have h2 : ∀ (b : Bool) (bs : List Bool), boolSum (b :: bs) = (if b then 1 else 0) + boolSum bs :=
      fun b bs => by simp [boolSum]
    simp only [h2]
    rw [mul_assoc]
    congr 1
    rw [expect, expect, ← ENNReal.tsum_mul_left]
    exact tsum_congr fun b => by ring

theorem arange_eq (y : ℕ) : arange 2 ((y : ℤ) + 1) = (List.range (y - 1)).map fun k : ℕ => (k : ℤ) + 2 := by
  unfold arange
  have : ((y : ℤ) + 1 - 2).toNat = y - 1 := by omega
  rw [this]
  exact List.map_congr_left fun k _ => by ring

theorem crtProbs_eq (y : ℕ) (h : ℝ) :
    crtProbs y h = ((List.range (y - 1)).map fun k => k + 1).map fun k : ℕ => h / ((k : ℝ) + h) := by
  rw [crtProbs, arange_eq, List.map_map, List.map_map]
  refine List.map_congr_left fun k _ => ?_
  simp only [Function.comp]
  push_cast
  congr 2
  ring

theorem ascPochhammer_eq_prod (n : ℕ) :
    ascPochhammer ℕ (n + 1) =
      X * (((List.range n).map fun k => k + 1).map fun k => (X + C k : ℕ[X])).prod := by
  induction n with
  | zero => simp
  | succ n ih =>
    rw [ascPochhammer_succ_right, ih, List.range_succ]
    simp [mul_assoc]

/-- The generating polynomial of one entry is the rising factorial. -/
theorem hasPoly_singleCRT {h : ℝ} (hh : 0 < h) (y : ℕ) :
    HasPoly (singleCRT y h) (ascPochhammer ℕ y) (ENNReal.ofReal h) := by
  rcases y with _ | n
  · intro F
    have e : ∀ bs, crtValue ((0 : ℕ) : ℤ) bs = 0 := fun bs => by simp [crtValue]
    rw [singleCRT, expect_map]
    simp only [e]
    have := hasPoly_pure 0 (ENNReal.ofReal h) F
    rw [expect_pure] at this
    rw [ascPochhammer_zero, ← pow_zero X, ← this, expect, ENNReal.tsum_mul_right, PMF.tsum_coe]
    simp
  · rw [ascPochhammer_eq_prod]
    have hb := hasPoly_bernVec hh ((List.range n).map fun k => k + 1)
    have h1 := hasPoly_pure 1 (ENNReal.ofReal h)
    have h2 := hasPoly_add h1 hb
    rw [pow_one, PMF.pure_bind, PMF.map_comp] at h2
    have e : (fun m => ((1 : ℕ) : ℤ) + m) ∘ boolSum = crtValue ((n + 1 : ℕ) : ℤ) := by
      funext bs
      have : ¬ (((n + 1 : ℕ) : ℤ) < 1) := by push_cast; omega
      simp only [Function.comp, crtValue, if_neg this, boolSum]
      rfl
    rw [e] at h2
    rw [singleCRT, crtProbs_eq]
    exact h2

theorem coeff_ascPochhammer (n l : ℕ) : (ascPochhammer ℕ n).coeff l = Nat.stirlingFirst n l := by
  induction n generalizing l with
  | zero => cases l <;> simp [coeff_one]
  | succ n ih =>
    rw [ascPochhammer_succ_right, mul_add]
    cases l with
    | zero =>
      have : (n : ℕ[X]) = C n := by simp
      rw [coeff_add, this, coeff_mul_C, ih]
      cases n <;> simp
    | succ l =>
      rw [coeff_add, coeff_mul_X, ih, Nat.stirlingFirst_succ_succ]
      have : (n : ℕ[X]) = C n := by simp
      rw [this, coeff_mul_C, ih]
      ring

theorem polyVal_ascPochhammer {h : ℝ} (hh : 0 < h) (n : ℕ) :
    polyVal (ascPochhammer ℕ n) (ENNReal.ofReal h) =
      ENNReal.ofReal (Real.Gamma (h + n) / Real.Gamma h) := by
  have hG := Real.Gamma_pos_of_pos hh
  induction n with
  | zero => simp [polyVal, hG.ne']
  | succ n ih =>
    have hn : 0 < h + n := by positivity
    have e : h + ((n + 1 : ℕ) : ℝ) = h + n + 1 := by push_cast; ring
    rw [ascPochhammer_succ_right, polyVal_mul, ih, e, Real.Gamma_add_one hn.ne']
    have e2 : polyVal (X + (n : ℕ[X])) (ENNReal.ofReal h) = ENNReal.ofReal (h + n) := by
      rw [polyVal, eval₂_add, eval₂_X, eval₂_natCast, ENNReal.ofReal_add hh.le (by positivity),
        ENNReal.ofReal_natCast]
    have := Real.Gamma_pos_of_pos hn
    rw [e2, ← ENNReal.ofReal_mul (by positivity)]
    congr 1
    ring

theorem polyFun_indicator (P : ℕ[X]) (H : ℝ≥0∞) (l : ℕ) :
    polyFun P H (fun z => if z = (l : ℤ) then 1 else 0) = (P.coeff l : ℝ≥0∞) * H ^ l := by
  unfold polyFun Polynomial.sum
  rw [Finset.sum_eq_single l]
  · simp
  · intro m _ hm
    simp [hm]
  · intro hl
    simp [notMem_support_iff.1 hl]

theorem polyFun_negative (P : ℕ[X]) (H : ℝ≥0∞) {z : ℤ} (hz : z < 0) :
    polyFun P H (fun w => if w = z then 1 else 0) = 0 := by
  unfold polyFun Polynomial.sum
  refine Finset.sum_eq_zero fun m _ => ?_
  have : ¬ ((m : ℤ) = z) := by omega
  simp [this]

end Verif.CRT
