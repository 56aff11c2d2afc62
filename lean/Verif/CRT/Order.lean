import Verif.CRT.Dispersion
import Verif.Prob.Order

/-!
# Lemmas: the number of tables rises with the counts and with the dispersion
-/

open MeasureTheory ProbabilityTheory
open scoped ENNReal

namespace Verif.CRT

theorem expect_mono {α : Type*} (μ : PMF α) {F G : α → ℝ≥0∞} (h : ∀ z, F z ≤ G z) :
    expect μ F ≤ expect μ G :=
  ENNReal.tsum_le_tsum fun z => mul_le_mul_right (h z) _

theorem expect_const {α : Type*} (μ : PMF α) (c : ℝ≥0∞) : expect μ (fun _ => c) = c := by
  rw [expect, ENNReal.tsum_mul_right, μ.tsum_coe, one_mul]

theorem bern_true (p : ℝ) : bern p true = min (ENNReal.ofReal p) 1 := by simp [bern]

theorem bern_false (p : ℝ) : bern p false = 1 - min (ENNReal.ofReal p) 1 := by simp [bern]

/-- One indicator is larger when its probability is. -/
theorem bern_mono {p q : ℝ} (h : p ≤ q) {F G : Bool → ℝ≥0∞} (h0 : F false ≤ G false)
    (h1 : F true ≤ G true) (h2 : G false ≤ G true) : expect (bern p) F ≤ expect (bern q) G := by
  refine (expect_mono _ (G := G) (by rintro (_ | _) <;> assumption)).trans ?_
  rw [expect, expect, tsum_bool, tsum_bool, bern_true, bern_true, bern_false, bern_false]
  have hpq : min (ENNReal.ofReal p) 1 ≤ min (ENNReal.ofReal q) 1 :=
    min_le_min_right _ (ENNReal.ofReal_le_ofReal h)
  have hq : min (ENNReal.ofReal q) 1 ≤ 1 := min_le_right _ _
  generalize min (ENNReal.ofReal p) 1 = s at *
  generalize min (ENNReal.ofReal q) 1 = t at *
  have e : 1 - s = (1 - t) + (t - s) := (tsub_add_tsub_cancel hq hpq).symm
  have e' : t = (t - s) + s := (tsub_add_cancel_of_le hpq).symm
  calc (1 - s) * G false + s * G true
      = (1 - t) * G false + ((t - s) * G false + s * G true) := by rw [e]; ring
    _ ≤ (1 - t) * G false + ((t - s) * G true + s * G true) := by gcongr
    _ = (1 - t) * G false + ((t - s) + s) * G true := by ring
    _ = (1 - t) * G false + t * G true := by rw [← e']

/-- The number of successes among the indicators. -/
def count (bs : List Bool) : ℤ := (bs.map fun b => if b then (1 : ℤ) else 0).sum

theorem count_cons (b : Bool) (bs : List Bool) :
    count (b :: bs) = (if b then 1 else 0) + count bs := by
  simp [count]

theorem count_nonneg (bs : List Bool) : 0 ≤ count bs := by
  refine List.sum_nonneg fun x hx => ?_
  obtain ⟨b, -, rfl⟩ := List.mem_map.1 hx
  split <;> norm_num

theorem expect_bernVec_cons (p : ℝ) (ps : List ℝ) (F : List Bool → ℝ≥0∞) :
    expect (bernVec (p :: ps)) F =
      expect (bern p) fun b => expect (bernVec ps) fun bs => F (b :: bs) := by
  rw [bernVec, expect_bind]
  simp only [expect_bind, expect_pure]

theorem bernVec_mono {φ : ℤ → ℝ≥0∞} (hφ : Monotone φ) {ps qs : List ℝ}
    (h : List.Forall₂ (· ≤ ·) ps qs) (rs : List ℝ) (c : ℤ) :
    expect (bernVec ps) (fun bs => φ (c + count bs)) ≤
      expect (bernVec (qs ++ rs)) fun bs => φ (c + count bs) := by
  induction h generalizing c with
  | nil =>
    rw [bernVec, expect_pure]
    refine (expect_const (bernVec ([] ++ rs)) (φ (c + count []))).symm.le.trans
      (expect_mono _ fun bs => hφ ?_)
    have := count_nonneg bs
    simp only [count, List.map_nil, List.sum_nil] at *
    omega
  | @cons p q ps qs hpq _ ih =>
    rw [List.cons_append, expect_bernVec_cons, expect_bernVec_cons]
    simp only [count_cons, ← add_assoc]
    refine bern_mono hpq (ih _) (ih _) (expect_mono _ fun bs => hφ ?_)
    simp

theorem arange_two (y : ℤ) :
    arange 2 (y + 1) = (List.range (y - 1).toNat).map fun k : ℕ => 2 + (k : ℤ) := by
  rw [arange]
  congr 3
  omega

theorem crtProbs_mono {y y' : ℤ} (hy : y ≤ y') {h h' : ℝ} (hh : 0 < h) (hhh : h ≤ h') :
    ∃ qs rs, crtProbs y' h' = qs ++ rs ∧ List.Forall₂ (· ≤ ·) (crtProbs y h) qs := by
  have hp : crtProbs y h' <+: crtProbs y' h' := by
    rw [crtProbs, crtProbs, arange_two, arange_two]
    refine List.IsPrefix.map _ (List.IsPrefix.map _ ?_)
    rw [List.prefix_iff_eq_take, List.take_range, List.length_range,
      min_eq_left (by omega)]
  obtain ⟨rs, hrs⟩ := hp
  refine ⟨_, rs, hrs.symm, ?_⟩
  rw [crtProbs, crtProbs, List.forall₂_map_left_iff, List.forall₂_map_right_iff,
    List.forall₂_same]
  intro n hn
  rw [arange_two] at hn
  obtain ⟨k, -, rfl⟩ := List.mem_map.1 hn
  have hk : (0 : ℝ) ≤ k := by positivity
  push_cast
  rw [div_le_div_iff₀ (by linarith) (by linarith)]
  nlinarith

/-- One count. -/
theorem singleCRT_mono {φ : ℤ → ℝ≥0∞} (hφ : Monotone φ) {y y' : ℤ} (hy : y ≤ y') {h h' : ℝ}
    (hh : 0 < h) (hhh : h ≤ h') : expect (singleCRT y h) φ ≤ expect (singleCRT y' h') φ := by
  rw [singleCRT, singleCRT, expect_map, expect_map]
  by_cases h1 : y < 1
  · have e : ∀ bs, φ (crtValue y bs) = φ 0 := fun bs => by rw [crtValue, if_pos h1]
    simp only [e]
    rw [expect_const, ← expect_const (bernVec (crtProbs y' h')) (φ 0)]
    refine expect_mono _ fun bs => hφ ?_
    have := count_nonneg bs
    rw [crtValue]
    split
    · exact le_rfl
    · unfold count at this; omega
  · have h1' : ¬ y' < 1 := by omega
    obtain ⟨qs, rs, e, hq⟩ := crtProbs_mono hy hh hhh
    have e1 : ∀ {y : ℤ}, ¬ y < 1 → ∀ bs, crtValue y bs = 1 + count bs := fun h bs => by
      rw [crtValue, if_neg h, count]
    simp only [e1 h1, e1 h1', e]
    exact bernVec_mono hφ hq rs 1

theorem crtScan_mono {φ : ℤ → ℝ≥0∞} (hφ : Monotone φ) {ys ys' : List ℤ}
    (hy : List.Forall₂ (· ≤ ·) ys ys') {h h' : ℝ} (hh : 0 < h) (hhh : h ≤ h') (c : ℤ) :
    expect (crtScan h ys) (fun ls => φ (c + ls.sum)) ≤
      expect (crtScan h' ys') fun ls => φ (c + ls.sum) := by
  induction hy generalizing c with
  | nil => rw [crtScan, crtScan, expect_pure]
  | @cons y y' ys ys' hyy _ ih =>
    rw [crtScan, crtScan, expect_bind, expect_bind]
    simp only [expect_bind, expect_pure, List.sum_cons, ← add_assoc]
    refine (expect_mono _ fun l => ih (c + l)).trans ?_
    refine singleCRT_mono (φ := fun l => expect (crtScan h' ys') fun ls => φ (c + l + ls.sum))
      (fun l l' hl => expect_mono _ fun ls => hφ ?_) hyy hh hhh
    show c + l + ls.sum ≤ c + l' + ls.sum
    omega

/-- The total number of tables. -/
theorem crtTotal_mono {φ : ℤ → ℝ≥0∞} (hφ : Monotone φ) {ys ys' : List ℤ}
    (hy : List.Forall₂ (· ≤ ·) ys ys') {h h' : ℝ} (hh : 0 < h) (hhh : h ≤ h') :
    expect (crtTotal ys h) φ ≤ expect (crtTotal ys' h') φ := by
  rw [crtTotal_eq, crtTotal_eq, expect_map, expect_map]
  have := crtScan_mono hφ hy hh hhh 0
  simpa only [zero_add] using this

/-- Only natural numbers of tables matter. -/
theorem expect_crtTotal_congr {h : ℝ} (hh : 0 < h) {n : ℕ} (y : Fin n → ℕ) {F G : ℤ → ℝ≥0∞}
    (hFG : ∀ l : ℕ, F l = G l) :
    expect (crtTotal (List.ofFn fun i => (y i : ℤ)) h) F =
      expect (crtTotal (List.ofFn fun i => (y i : ℤ)) h) G := by
  have hF := hasPoly_total hh y F
  have hG := hasPoly_total hh y G
  have e : polyFun (crtPoly y) (ENNReal.ofReal h) F = polyFun (crtPoly y) (ENNReal.ofReal h) G := by
    unfold polyFun
    simp only [hFG]
  have hv := polyVal_crtPoly hh y
  have hpos := prod_gamma_pos hh y
  refine (ENNReal.mul_right_inj (a := polyVal (crtPoly y) (ENNReal.ofReal h)) ?_ ?_).1
    (hF.trans (e.trans hG.symm))
  · rw [hv]; simpa using hpos
  · rw [hv]; exact ENNReal.ofReal_ne_top

/-- The dispersion draw, with an arbitrary rate. -/
theorem stochLE_dispersion {n : ℕ} {y y' : Fin n → ℕ} (hy : ∀ i, y i ≤ y' i) {h h' : ℝ} (hh : 0 < h)
    (hhh : h ≤ h') {a a' r r' : ℝ} (ha : 0 < a) (haa : a ≤ a') (hr' : 0 < r') (hrr : r' ≤ r) :
    StochLE ((crtTotal (List.ofFn fun i => (y i : ℤ)) h).toMeasure.bind fun L =>
        gammaMeasure (a + (L : ℝ)) r)
      ((crtTotal (List.ofFn fun i => (y' i : ℤ)) h').toMeasure.bind fun L =>
        gammaMeasure (a' + (L : ℝ)) r') := by
  intro A hA hU
  rw [Measure.bind_apply hA (Measurable.of_discrete).aemeasurable,
    Measure.bind_apply hA (Measurable.of_discrete).aemeasurable, lintegral_toMeasure,
    lintegral_toMeasure]
  have c1 := expect_crtTotal_congr hh y (F := fun L => gammaMeasure (a + (L : ℝ)) r A)
    (G := fun L => gammaMeasure (a + ((max L 0 : ℤ) : ℝ)) r A) fun l => by simp
  have c2 := expect_crtTotal_congr (hh.trans_le hhh) y'
    (F := fun L => gammaMeasure (a' + (L : ℝ)) r' A)
    (G := fun L => gammaMeasure (a' + ((max L 0 : ℤ) : ℝ)) r' A) fun l => by simp
  rw [c1, c2]
  have hnn : ∀ L : ℤ, (0 : ℝ) ≤ ((max L 0 : ℤ) : ℝ) := fun L => by
    exact_mod_cast le_max_right L 0
  have hr : 0 < r := hr'.trans_le hrr
  refine (expect_mono _ (G := fun L => gammaMeasure (a' + ((max L 0 : ℤ) : ℝ)) r' A)
    fun L => ?_).trans (crtTotal_mono (fun L L' hL => ?_) ?_ hh hhh)
  · have := hnn L
    exact stochLE_gamma (by linarith) hr' (by linarith) hrr A hA hU
  · have := hnn L
    have h2 : ((max L 0 : ℤ) : ℝ) ≤ ((max L' 0 : ℤ) : ℝ) := by
      exact_mod_cast max_le_max_right 0 hL
    exact stochLE_gamma (by linarith) hr' (by linarith) le_rfl A hA hU
  · rw [List.forall₂_iff_get]
    refine ⟨by simp, fun i h1 h2 => ?_⟩
    simp only [List.get_ofFn]
    exact_mod_cast hy _

end Verif.CRT
