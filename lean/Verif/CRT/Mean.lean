import Verif.CRT.Order
import Verif.Horseshoe.Array

/-!
# Lemmas: the mean number of tables and the mean of the dispersion draw
-/

open MeasureTheory ProbabilityTheory
open scoped ENNReal

namespace Verif.CRT

/-- An integer as an extended nonnegative number. -/
noncomputable def toE (z : ℤ) : ℝ≥0∞ := ENNReal.ofReal (z : ℝ)

theorem toE_add {a b : ℤ} (ha : 0 ≤ a) (hb : 0 ≤ b) : toE (a + b) = toE a + toE b := by
  rw [toE, toE, toE, ← ENNReal.ofReal_add (by exact_mod_cast ha) (by exact_mod_cast hb)]
  push_cast
  rfl

theorem toE_natCast (l : ℕ) : toE (l : ℤ) = l := by simp [toE]

theorem expect_sum2 {α : Type*} (μ : PMF α) (F G : α → ℝ≥0∞) :
    expect μ (fun z => F z + G z) = expect μ F + expect μ G := by
  simp only [expect, mul_add, ENNReal.tsum_add]

theorem expect_times {α : Type*} (μ : PMF α) (F : α → ℝ≥0∞) (c : ℝ≥0∞) :
    expect μ (fun z => F z * c) = expect μ F * c := by
  simp only [expect, ← mul_assoc, ENNReal.tsum_mul_right]

theorem expect_bernVec_count : ∀ {ps : List ℝ}, (∀ p ∈ ps, p ≤ 1) → ∀ {c : ℤ}, 0 ≤ c →
    expect (bernVec ps) (fun bs => toE (c + count bs)) = toE c + (ps.map ENNReal.ofReal).sum
  | [], _, c, _ => by simp [bernVec, expect_pure, count]
  | p :: ps, h, c, hc => by
    have hp : ENNReal.ofReal p ≤ 1 := by
      rw [← ENNReal.ofReal_one]; exact ENNReal.ofReal_le_ofReal (h p (by simp))
    have ih := fun {c : ℤ} (hc : 0 ≤ c) =>
      expect_bernVec_count (ps := ps) (fun q hq => h q (by simp [hq])) hc
    rw [expect_bernVec_cons]
    simp only [count_cons, ← add_assoc]
    rw [expect, tsum_bool, bern_true, bern_false, min_eq_left hp]
    simp only [Bool.false_eq_true, if_false, if_true, add_zero]
    rw [ih hc, ih (c := c + 1) (by omega), toE_add hc zero_le_one]
    have e1 : toE 1 = 1 := by simp [toE]
    rw [e1, List.map_cons, List.sum_cons]
    generalize (ps.map ENNReal.ofReal).sum = S
    generalize ENNReal.ofReal p = s at hp ⊢
    calc (1 - s) * (toE c + S) + s * (toE c + 1 + S)
        = ((1 - s) + s) * (toE c + S) + s := by ring
      _ = toE c + (s + S) := by rw [tsub_add_cancel_of_le hp, one_mul]; ring

/-- The mean number of tables of one count. -/
noncomputable def tables (y : ℕ) (h : ℝ) : ℝ := ∑ k ∈ Finset.range y, h / (k + h)

theorem expect_tables {y : ℕ} {h : ℝ} (hh : 0 < h) :
    expect (singleCRT y h) toE = ENNReal.ofReal (tables y h) := by
  have hk : ∀ k : ℕ, 0 < (k : ℝ) + h := fun k => by positivity
  rw [singleCRT, expect_map]
  rcases Nat.eq_zero_or_pos y with rfl | hy
  · have e : ∀ bs, toE (crtValue ((0 : ℕ) : ℤ) bs) = 0 := fun bs => by simp [crtValue, toE]
    simp only [e]
    simp [expect_const, tables]
  · have e1 : ∀ bs, crtValue (y : ℤ) bs = 1 + count bs := fun bs => by
      rw [crtValue, if_neg (by omega), count]
    simp only [e1]
    have hle : ∀ p ∈ crtProbs (y : ℤ) h, p ≤ 1 := by
      intro p hp
      rw [crtProbs, arange_two] at hp
      obtain ⟨n, hn, rfl⟩ := List.mem_map.1 hp
      obtain ⟨k, -, rfl⟩ := List.mem_map.1 hn
      have : (0 : ℝ) ≤ k := by positivity
      push_cast
      rw [div_le_one (by linarith)]
      linarith
    rw [expect_bernVec_count hle zero_le_one, crtProbs, arange_two]
    obtain ⟨m, rfl⟩ : ∃ m, y = m + 1 := ⟨y - 1, by omega⟩
    have e2 : (((m + 1 : ℕ) : ℤ) - 1).toNat = m := by omega
    rw [e2, List.map_map, List.map_map, tables, Finset.sum_range_succ',
      ENNReal.ofReal_add (Finset.sum_nonneg fun k _ => (div_pos hh (by positivity)).le) (by positivity),
      ENNReal.ofReal_sum_of_nonneg fun k _ => (div_pos hh (by positivity)).le, add_comm,
      ← List.sum_toFinset _ List.nodup_range, List.toFinset_range]
    congr 1
    · refine Finset.sum_congr rfl fun k _ => ?_
      simp only [Function.comp]
      congr 2
      push_cast
      ring
    · simp [toE, hh.ne']

theorem singleCRT_nonneg_congr {y : ℤ} {h : ℝ} {F G : ℤ → ℝ≥0∞} (hFG : ∀ l, 0 ≤ l → F l = G l) :
    expect (singleCRT y h) F = expect (singleCRT y h) G := by
  rw [singleCRT, expect_map, expect_map]
  congr 1
  funext bs
  refine hFG _ ?_
  have := count_nonneg bs
  rw [crtValue]
  unfold count at this
  split <;> omega

theorem expect_crtScan {h : ℝ} (hh : 0 < h) : ∀ (ys : List ℕ) {c : ℤ}, 0 ≤ c →
    expect (crtScan h (ys.map fun y : ℕ => (y : ℤ))) (fun ls => toE (c + ls.sum)) =
      toE c + ENNReal.ofReal (ys.map fun y => tables y h).sum
  | [], c, _ => by simp [crtScan, expect_pure]
  | y :: ys, c, hc => by
    have ht : ∀ y, 0 ≤ tables y h := fun y => Finset.sum_nonneg fun k _ => by positivity
    rw [List.map_cons, crtScan, expect_bind]
    simp only [expect_bind, expect_pure, List.sum_cons, ← add_assoc]
    rw [singleCRT_nonneg_congr (G := fun l =>
      (toE c + ENNReal.ofReal (ys.map fun y => tables y h).sum) + toE l) fun l hl => by
        rw [expect_crtScan hh ys (by omega), toE_add hc hl]; ring]
    rw [expect_sum2, expect_const, expect_tables hh, List.map_cons, List.sum_cons,
      ENNReal.ofReal_add (ht y) (List.sum_nonneg fun x hx => by
        obtain ⟨z, -, rfl⟩ := List.mem_map.1 hx; exact ht z)]
    ring

theorem expect_crtTotal {h : ℝ} (hh : 0 < h) {n : ℕ} (y : Fin n → ℕ) :
    expect (crtTotal (List.ofFn fun i => (y i : ℤ)) h) toE = ENNReal.ofReal (∑ i, tables (y i) h) := by
  have := expect_crtScan hh (List.ofFn y) (c := 0) le_rfl
  rw [crtTotal_eq, expect_map]
  simp only [zero_add, List.map_ofFn, List.sum_ofFn] at this
  have e0 : toE 0 = 0 := by simp [toE]
  simpa only [e0, zero_add, Function.comp_def] using this

/-- The mean of the dispersion draw, with an arbitrary rate. -/
theorem mean_dispersion {n : ℕ} (y : Fin n → ℕ) {h a r : ℝ} (hh : 0 < h) (ha : 0 < a) (hr : 0 < r) :
    ∫⁻ x, ENNReal.ofReal x ∂((crtTotal (List.ofFn fun i => (y i : ℤ)) h).toMeasure.bind fun L =>
      gammaMeasure (a + (L : ℝ)) r) = ENNReal.ofReal ((a + ∑ i, tables (y i) h) / r) := by
  have ht : 0 ≤ ∑ i, tables (y i) h :=
    Finset.sum_nonneg fun i _ => Finset.sum_nonneg fun k _ => by positivity
  rw [Measure.lintegral_bind (Measurable.of_discrete).aemeasurable (by fun_prop),
    lintegral_toMeasure, expect_crtTotal_congr hh y (G := fun L =>
      (ENNReal.ofReal a + toE L) * ENNReal.ofReal r⁻¹) fun l => by
      rw [Horseshoe.lintegral_id_gammaMeasure (by positivity) hr, toE, div_eq_mul_inv,
        ENNReal.ofReal_mul (by positivity), ENNReal.ofReal_add ha.le (by positivity)],
    expect_times, expect_sum2, expect_const, expect_crtTotal hh,
    ← ENNReal.ofReal_add ha.le ht, ← ENNReal.ofReal_mul (add_nonneg ha.le ht), div_eq_mul_inv]

theorem tables_mono {y y' : ℕ} (hy : y ≤ y') {h h' : ℝ} (hh : 0 < h) (hhh : h ≤ h') :
    tables y h ≤ tables y' h' := by
  have hh' := hh.trans_le hhh
  refine (Finset.sum_le_sum fun k _ => ?_).trans
    (Finset.sum_le_sum_of_subset_of_nonneg (Finset.range_mono hy) fun k _ _ => ?_)
  · rw [div_le_div_iff₀ (by positivity) (by positivity)]
    have : (0 : ℝ) ≤ k := by positivity
    nlinarith
  · positivity

theorem tables_strict {y y' : ℕ} {h h' : ℝ} (hh : 0 < h) (hy : y ≤ y') (hhh : h ≤ h')
    (hs : y < y' ∨ (h < h' ∧ 2 ≤ y)) : tables y h < tables y' h' := by
  rcases hs with hs | ⟨hs, h2⟩
  · refine lt_of_lt_of_le ?_ (tables_mono (show y + 1 ≤ y' from hs) hh hhh)
    rw [tables, tables, Finset.sum_range_succ]
    have : 0 < h / ((y : ℝ) + h) := by positivity
    linarith
  · refine lt_of_lt_of_le ?_ (tables_mono hy (hh.trans hs) le_rfl)
    refine Finset.sum_lt_sum (fun k _ => ?_) ⟨1, Finset.mem_range.2 h2, ?_⟩
    · rw [div_le_div_iff₀ (by positivity) (by have := hh.trans hs; positivity)]
      have : (0 : ℝ) ≤ k := by positivity
      nlinarith
    · have := hh.trans hs
      rw [div_lt_div_iff₀ (by positivity) (by positivity)]
      push_cast
      nlinarith

/-- Strictness of the order of dispersion draws. -/
theorem dispersion_ne {n : ℕ} {y y' : Fin n → ℕ} (hy : ∀ i, y i ≤ y' i) {h h' : ℝ} (hh : 0 < h)
    (hhh : h ≤ h') {a a' r r' : ℝ} (ha : 0 < a) (haa : a ≤ a') (hr' : 0 < r') (hrr : r' ≤ r)
    (hs : a < a' ∨ r' < r ∨ (∃ i, y i < y' i) ∨ (h < h' ∧ ∃ i, 2 ≤ y i)) :
    ((crtTotal (List.ofFn fun i => (y i : ℤ)) h).toMeasure.bind fun L =>
        gammaMeasure (a + (L : ℝ)) r) ≠
      ((crtTotal (List.ofFn fun i => (y' i : ℤ)) h').toMeasure.bind fun L =>
        gammaMeasure (a' + (L : ℝ)) r') := by
  intro he
  have hr := hr'.trans_le hrr
  have hh' := hh.trans_le hhh
  have e1 := mean_dispersion y hh ha hr
  rw [he, mean_dispersion y' hh' (ha.trans_le haa) hr'] at e1
  have ht : ∀ (z : Fin n → ℕ) {g : ℝ}, 0 < g → 0 ≤ ∑ i, tables (z i) g := fun z g hg =>
    Finset.sum_nonneg fun i _ => Finset.sum_nonneg fun k _ => by positivity
  have t1 := ht y hh
  have t2 := ht y' hh'
  have hle : ∑ i, tables (y i) h ≤ ∑ i, tables (y' i) h' :=
    Finset.sum_le_sum fun i _ => tables_mono (hy i) hh hhh
  have ha' := ha.trans_le haa
  rw [ENNReal.ofReal_eq_ofReal_iff (div_nonneg (by linarith) hr'.le) (div_nonneg (by linarith) hr.le),
    div_eq_div_iff hr'.ne' hr.ne'] at e1
  have hlt : a + ∑ i, tables (y i) h < a' + ∑ i, tables (y' i) h' ∨ r' < r := by
    rcases hs with hs | hs | hs | hs
    · exact .inl (by linarith)
    · exact .inr hs
    · obtain ⟨i, hi⟩ := hs
      have := Finset.sum_lt_sum (s := Finset.univ) (f := fun i => tables (y i) h)
        (g := fun i => tables (y' i) h') (fun i _ => tables_mono (hy i) hh hhh)
        ⟨i, Finset.mem_univ _, tables_strict hh (hy i) hhh (.inl hi)⟩
      exact .inl (by linarith)
    · obtain ⟨hs, i, hi⟩ := hs
      have := Finset.sum_lt_sum (s := Finset.univ) (f := fun i => tables (y i) h)
        (g := fun i => tables (y' i) h') (fun i _ => tables_mono (hy i) hh hhh)
        ⟨i, Finset.mem_univ _, tables_strict hh (hy i) hhh (.inr ⟨hs, hi⟩)⟩
      exact .inl (by linarith)
  generalize ∑ i, tables (y i) h = s at *
  generalize ∑ i, tables (y' i) h' = t at *
  rcases hlt with hlt | hlt <;> nlinarith

end Verif.CRT
