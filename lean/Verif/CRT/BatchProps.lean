import Verif.CRT.BatchModel
import Verif.CRT.Props

/-!
# C80: several sets of counts at once
-/

open MeasureTheory ProbabilityTheory
open scoped ENNReal

namespace Verif.CRT

theorem crtScan_append (h : ℝ) (xs ys : List ℤ) :
    crtScan h (xs ++ ys) = (crtScan h xs).bind fun a => (crtScan h ys).map fun b => a ++ b := by
  induction xs with
  | nil =>
    rw [List.nil_append, crtScan, PMF.pure_bind]
    exact (PMF.map_id _).symm
  | cons x xs ih =>
    simp only [List.cons_append, crtScan, ih, PMF.bind_bind, PMF.pure_bind, PMF.map, Function.comp_def]

/-- The sums of consecutive pieces of length `n`. -/
def pieceSums (n M : ℕ) (data : List ℤ) (i : Fin M) : ℤ := ((data.drop (i * n)).take n).sum

theorem length_of_mem_crtScan {h : ℝ} {ys ls : List ℤ} (hl : ls ∈ (crtScan h ys).support) :
    ls.length = ys.length := by
  induction ys generalizing ls with
  | nil => simp_all [crtScan]
  | cons y ys ih =>
    simp only [crtScan, PMF.mem_support_bind_iff, PMF.support_pure, Set.mem_singleton_iff] at hl
    obtain ⟨l, -, ls', h2, rfl⟩ := hl
    simp [ih h2]

theorem expect_congr_support {α : Type*} (μ : PMF α) {F G : α → ℝ≥0∞} (h : ∀ a ∈ μ.support, F a = G a) :
    expect μ F = expect μ G := by
  refine tsum_congr fun a => ?_
  by_cases ha : μ a = 0
  · simp [ha]
  · rw [h a ((PMF.mem_support_iff _ _).2 ha)]

theorem expect_mul_left {α : Type*} (μ : PMF α) (c : ℝ≥0∞) (F : α → ℝ≥0∞) :
    expect μ (fun a => c * F a) = c * expect μ F := by
  simp only [expect, ← ENNReal.tsum_mul_left]
  exact tsum_congr fun a => by ring

theorem expect_mul_right {α : Type*} (μ : PMF α) (c : ℝ≥0∞) (F : α → ℝ≥0∞) :
    expect μ (fun a => F a * c) = expect μ F * c := by
  simp only [mul_comm _ c, expect_mul_left]

/-- Rows of tables are independent. -/
theorem expect_rows (h : ℝ) {n : ℕ} : ∀ {M : ℕ} (y : Fin M → Fin n → ℤ) (F : Fin M → ℤ → ℝ≥0∞),
    expect (crtScan h (ravelRows y)) (fun ls => ∏ i, F i (pieceSums n M ls i)) =
      ∏ i, expect (crtTotal (List.ofFn (y i)) h) (F i)
  | 0, y, F => by simp [ravelRows, crtScan, expect_pure]
  | M + 1, y, F => by
    have e : ravelRows y = List.ofFn (y 0) ++ ravelRows fun i : Fin M => y i.succ := by
      simp [ravelRows, List.ofFn_succ]
    rw [e, crtScan_append, expect_bind, Fin.prod_univ_succ, ← expect_rows h (fun i : Fin M => y i.succ) fun i => F i.succ,
      crtTotal, sampleCRT, PMF.map_comp, expect_map, ← expect_mul_right]
    refine expect_congr_support _ fun a ha => ?_
    have hl : a.length = n := by simpa using length_of_mem_crtScan ha
    rw [expect_map, ← expect_mul_left]
    refine tsum_congr fun b => ?_
    simp only [Fin.prod_univ_succ]
    congr 3
    · simp [pieceSums, hl, Function.comp]
    · funext i
      have : (i.val + 1) * n = a.length + i.val * n := by rw [hl]; ring
      have h2 : a.drop (a.length + i.val * n) = [] := List.drop_of_length_le (by omega)
      simp [pieceSums, this, List.drop_append, h2]

theorem isProbabilityMeasure_dispersion {n : ℕ} {p : Fin n → ℝ} {a b : ℝ} (ha : 0 < a) (hb : 0 < b)
    (hp0 : ∀ j, 0 < p j) (hp1 : ∀ j, p j < 1) (y : Fin n → ℕ) {h : ℝ} (hh : 0 < h) :
    IsProbabilityMeasure (dispersionPosterior (List.ofFn p) a b (List.ofFn fun j => (y j : ℤ)) h) := by
  have hr : (0 : ℝ) < b⁻¹ := inv_pos.2 hb
  have ht : 0 < b⁻¹ + -∑ i, Real.log (1 - p i) := by
    have : ∑ i, Real.log (1 - p i) ≤ 0 := Finset.sum_nonpos fun i _ =>
      Real.log_nonpos (by have := hp1 i; linarith) (by have := hp0 i; linarith)
    linarith
  rw [dispersion_eq p a b y hh]
  exact prob_crtKernel ha ht y h

theorem lintegral_toMeasure' {α : Type*} [MeasurableSpace α] [Countable α] [MeasurableSingletonClass α]
    (μ : PMF α) (F : α → ℝ≥0∞) : ∫⁻ z, F z ∂μ.toMeasure = expect μ F := by
  rw [lintegral_countable', expect]
  exact tsum_congr fun z => by
    rw [PMF.toMeasure_apply_singleton _ _ (measurableSet_singleton _), mul_comm]

/-- The sums of the rows of tables feed independent gamma draws. -/
theorem bind_rows_eq_pi {M n : ℕ} (p : Fin M → Fin n → ℝ) {a b : ℝ} (ha : 0 < a)
    (hb : 0 < b) (hp0 : ∀ i j, 0 < p i j) (hp1 : ∀ i j, p i j < 1) (y : Fin M → Fin n → ℕ) {h : ℝ}
    (hh : 0 < h) :
    ((crtScan h (ravelRows fun i j => (y i j : ℤ))).map (pieceSums n M)).toMeasure.bind (fun L => Measure.pi fun i =>
      gammaMeasure (a + (L i : ℝ)) (b⁻¹ - ((List.ofFn (p i)).map fun q => Real.log (1 - q)).sum)) =
      Measure.pi fun i => dispersionPosterior (List.ofFn (p i)) a b (List.ofFn fun j => (y i j : ℤ)) h := by
  have hpr : ∀ i, IsProbabilityMeasure
      (dispersionPosterior (List.ofFn (p i)) a b (List.ofFn fun j => (y i j : ℤ)) h) := fun i =>
    isProbabilityMeasure_dispersion ha hb (hp0 i) (hp1 i) (y i) hh
  refine (Measure.pi_eq fun S hS => ?_).symm
  have hσ : ∀ (L : Fin M → ℤ) i, SigmaFinite
      (gammaMeasure (a + (L i : ℝ)) (b⁻¹ - ((List.ofFn (p i)).map fun q => Real.log (1 - q)).sum)) :=
    fun L i => SigmaFinite.withDensity_ofReal _
  rw [Measure.bind_apply (MeasurableSet.univ_pi hS) (Measurable.of_discrete).aemeasurable,
    lintegral_toMeasure', expect_map]
  have := expect_rows h (fun i j => (y i j : ℤ)) fun i L => gammaMeasure (a + (L : ℝ))
    (b⁻¹ - ((List.ofFn (p i)).map fun q => Real.log (1 - q)).sum) (S i)
  refine Eq.trans (congrArg (expect _) (funext fun ls => ?_)) (this.trans ?_)
  · exact Measure.pi_pi _ _
  refine Finset.prod_congr rfl fun i _ => ?_
  rw [dispersionPosterior, Measure.bind_apply (hS i) (Measurable.of_discrete).aemeasurable,
    lintegral_toMeasure]

theorem sumLast_getD (s : List ℕ) (n : ℕ) {M : ℕ} (hM : s.prod = M) (ls : List ℤ) :
    (fun i : Fin M => (sumLast ⟨s ++ [n], ls⟩).data.getD i 0) = pieceSums n M ls := by
  subst hM
  funext i
  have hi : (i : ℕ) < (List.range s.prod).length := by simp
  simp [sumLast, pieceSums, List.getD_eq_getElem?_getD]

/-- **C80 (partial).** Counts in an array of any shape `s ++ [n]`, probabilities in one of the same shape,
and one current dispersion: `nbinom_dispersion_posterior` returns an array of shape `s`, each entry an
independent draw of the step for that row of counts alone. -/
theorem C80_rows_independent_partial (s : List ℕ) {n : ℕ} (p : Fin s.prod → Fin n → ℝ) {a b : ℝ} (ha : 0 < a)
    (hb : 0 < b) (hp0 : ∀ i j, 0 < p i j) (hp1 : ∀ i j, p i j < 1) (y : Fin s.prod → Fin n → ℕ) {h : ℝ}
    (hh : 0 < h) :
    batchDispersion s p a b (fun i j => (y i j : ℤ)) h =
      Measure.pi fun i => dispersionPosterior (List.ofFn (p i)) a b (List.ofFn fun j => (y i j : ℤ)) h := by
  rw [← bind_rows_eq_pi p ha hb hp0 hp1 y hh, batchDispersion, sampleCRT, PMF.map_comp]
  rw [← show ((fun (Ls : IntArr) (i : Fin s.prod) => (sumLast Ls).data.getD i 0) ∘ fun ls => ⟨s ++ [n], ls⟩) =
      pieceSums n s.prod from funext fun ls => sumLast_getD s n rfl ls]

/-- Three rows of two counts. -/
example (y : Fin [3].prod → Fin 2 → ℕ) : batchDispersion [3] (fun _ => ![1 / 4, 1 / 3]) 2 1
    (fun i j => (y i j : ℤ)) 5 = Measure.pi fun i => dispersionPosterior
      (List.ofFn ![1 / 4, 1 / 3]) 2 1 (List.ofFn fun j => (y i j : ℤ)) 5 :=
  C80_rows_independent_partial [3] (fun _ => ![1 / 4, 1 / 3]) two_pos one_pos
    (fun i j => by fin_cases j <;> norm_num) (fun i j => by fin_cases j <;> norm_num) y (by norm_num)

theorem length_arange (c : ℤ) : (arange 2 (c + 1)).length = (c - 1).toNat := by
  simp only [arange, List.length_map, List.length_range]
  congr 1
  ring

theorem bcast_isSome_iff {α β : Type*} (dyn : Bool) (xs : List α) (ys : List β) :
    (bcast dyn xs ys).isSome ↔
      xs.length = ys.length ∨ dyn = true ∧ (xs.length = 1 ∨ ys.length = 1) := by
  unfold bcast
  by_cases h : xs.length = ys.length
  · simp [h]
  · rw [if_neg h]
    simp only [h, false_or]
    cases dyn with
    | false => simp
    | true =>
      rcases xs with _ | ⟨x, _ | ⟨x', xs⟩⟩ <;> rcases ys with _ | ⟨y, _ | ⟨y', ys⟩⟩ <;> simp

theorem singleCRTVec_isSome_iff {dyn : Bool} {hs : List ℝ} (hm : 2 ≤ hs.length) (c : ℤ) :
    (singleCRTVec dyn c hs).isSome ↔ (c - 1).toNat = hs.length ∨ dyn = true ∧ c = 2 := by
  rw [singleCRTVec, Option.isSome_map, bcast_isSome_iff, length_arange]
  have h1 : ¬ hs.length = 1 := by omega
  have h2 : (c - 1).toNat = 1 ↔ c = 2 := by omega
  rw [h2]
  simp only [h1, or_false]

theorem crtScanVec_isSome_iff {dyn : Bool} {hs : List ℝ} (ys : List ℤ) :
    (crtScanVec dyn hs ys).isSome ↔ ∀ c ∈ ys, (singleCRTVec dyn c hs).isSome := by
  induction ys with
  | nil => simp [crtScanVec]
  | cons y ys ih =>
    rw [crtScanVec, List.forall_mem_cons, ← ih]
    cases singleCRTVec dyn y hs <;> cases crtScanVec dyn hs ys <;> simp

/-- **C80 (partial).** With a vector of two or more current dispersions `sample_CRT` and with it the
dispersion step return something only if every count is one more than the number of dispersions (or 2, where
vectors of length one are stretched).  The full property asks for a result for all counts. -/
theorem C80_vector_returns_iff_partial {dyn : Bool} {hs : List ℝ} (hm : 2 ≤ hs.length) {m n : ℕ}
    (p : Fin m → Fin n → ℝ) (a b : ℝ) (y : Fin m → Fin n → ℤ) :
    (batchDispersionVec dyn p a b y hs).isSome ↔
      ∀ i j, y i j = hs.length + 1 ∨ dyn = true ∧ y i j = 2 := by
  rw [batchDispersionVec, Option.isSome_map, sampleCRTVec, Option.isSome_map, crtScanVec_isSome_iff]
  simp only [singleCRTVec_isSome_iff hm, ravelRows, List.mem_flatten, List.mem_ofFn]
  have e : ∀ c : ℤ, (c - 1).toNat = hs.length ↔ c = hs.length + 1 := fun c => by omega
  simp only [e]
  constructor
  · intro h i j
    exact h _ ⟨_, ⟨i, rfl⟩, List.mem_ofFn.2 ⟨j, rfl⟩⟩
  · rintro h c ⟨l, ⟨i, rfl⟩, hc⟩
    obtain ⟨j, rfl⟩ := List.mem_ofFn.1 hc
    exact h i j

/-- Two rows of counts with two dispersions. -/
example (p : Fin 2 → Fin 2 → ℝ) :
    (batchDispersionVec false p 2 1 (fun _ _ => 3) [1, 2]).isSome = true ∧
    (batchDispersionVec true p 2 1 ![![3, 2], ![3, 4]] [1, 2]).isSome = false := by
  constructor
  · exact (C80_vector_returns_iff_partial (by simp) _ _ _ _).2 fun i j => Or.inl (by norm_num)
  · rw [Bool.eq_false_iff]
    intro h
    have := (C80_vector_returns_iff_partial (by simp) _ _ _ _).1 h 1 1
    simp at this

theorem crtScanVec_replicate (dyn : Bool) (h : ℝ) {k : ℕ} {ys : List ℤ} (hy : ∀ c ∈ ys, (c - 1).toNat = k) :
    crtScanVec dyn (List.replicate k h) ys = some (crtScan h ys) := by
  induction ys with
  | nil => rfl
  | cons c ys ih =>
    have e : singleCRTVec dyn c (List.replicate k h) = some (singleCRT c h) := by
      have hk := (length_arange c).trans (hy c (by simp))
      have hz : ∀ (xs : List ℤ), (xs.zip (List.replicate xs.length h)).map
          (fun q => q.2 / ((q.1 : ℝ) - 1 + q.2)) = xs.map fun n : ℤ => h / ((n : ℝ) - 1 + h) := by
        intro xs
        induction xs with
        | nil => rfl
        | cons x xs ih => simp [List.replicate_succ, ih]
      have hb : bcast dyn (arange 2 (c + 1)) (List.replicate k h) = some ((arange 2 (c + 1)).zip (List.replicate k h)) :=
        if_pos (by simpa using hk)
      rw [singleCRTVec, hb, Option.map_some, singleCRT, crtProbs, ← hz, hk]
    rw [crtScanVec, e, ih fun c hc => hy c (by simp [hc])]
    rfl

/-- **C80 (partial).** Where the call with a vector of current dispersions returns and they are all the same,
the result is right: each row of counts gets an independent draw of the step for that row alone. -/
theorem C80_vector_equal_partial (dyn : Bool) {m n k : ℕ} (p : Fin m → Fin n → ℝ) {a b : ℝ} (ha : 0 < a)
    (hb : 0 < b) (hp0 : ∀ i j, 0 < p i j) (hp1 : ∀ i j, p i j < 1) {y : Fin m → Fin n → ℕ}
    (hy : ∀ i j, y i j = k + 1) {h : ℝ} (hh : 0 < h) :
    batchDispersionVec dyn p a b (fun i j => (y i j : ℤ)) (List.replicate k h) =
      some (Measure.pi fun i => dispersionPosterior (List.ofFn (p i)) a b (List.ofFn fun j => (y i j : ℤ)) h) := by
  have hc : ∀ c ∈ ravelRows (fun i j => (y i j : ℤ)), (c - 1).toNat = k := by
    intro c hc
    simp only [ravelRows, List.mem_flatten, List.mem_ofFn] at hc
    obtain ⟨l, ⟨i, rfl⟩, hc⟩ := hc
    obtain ⟨j, rfl⟩ := List.mem_ofFn.1 hc
    rw [hy]
    simp
  rw [← bind_rows_eq_pi p ha hb hp0 hp1 y hh, batchDispersionVec, sampleCRTVec, crtScanVec_replicate dyn h hc,
    Option.map_some, Option.map_some, PMF.map_comp]
  rw [← show ((fun (Ls : IntArr) (i : Fin m) => (sumLast Ls).data.getD i 0) ∘ fun ls => ⟨[m, n], ls⟩) =
      pieceSums n m from funext fun ls => sumLast_getD [m] n (by simp) ls]

/-- Three rows of two counts of 3, and the dispersions 5 and 5. -/
example : batchDispersionVec false (m := 3) (fun _ => ![1 / 4, 1 / 3]) 2 1 (fun _ _ => ((3 : ℕ) : ℤ)) [5, 5] =
    some (Measure.pi fun _ => dispersionPosterior (List.ofFn ![1 / 4, 1 / 3]) 2 1
      (List.ofFn fun _ : Fin 2 => ((3 : ℕ) : ℤ)) 5) :=
  C80_vector_equal_partial false (m := 3) (k := 2) (y := fun _ _ => 3) (fun _ => ![1 / 4, 1 / 3]) two_pos one_pos
    (fun i j => by fin_cases j <;> norm_num) (fun i j => by fin_cases j <;> norm_num) (fun _ _ => rfl) (by norm_num)

/-- **C80 is violated**: two rows with dispersions of their own and a count of zero.  The call raises. -/
theorem C80_vector_raises_violated (dyn : Bool) {n : ℕ} (p : Fin 2 → Fin n → ℝ) (a b h₁ h₂ : ℝ)
    {y : Fin 2 → Fin n → ℤ} {i : Fin 2} {j : Fin n} (h0 : y i j = 0) :
    batchDispersionVec dyn p a b y [h₁, h₂] = none := by
  rw [← Option.not_isSome_iff_eq_none, C80_vector_returns_iff_partial (by simp)]
  intro h
  have := h i j
  rw [h0] at this
  simp at this

example (dyn : Bool) (p : Fin 2 → Fin 1 → ℝ) : batchDispersionVec dyn p 2 1 ![![5], ![0]] [1, 2] = none :=
  C80_vector_raises_violated dyn p 2 1 1 2 (i := 1) (j := 0) rfl

/-- **C80 is violated**: where the call returns, the tables of a row depend on the dispersions of the
others.  For counts 3 and 3 and dispersions 1 and 2 the first number of tables is 1 with probability 1/4
instead of 1/3. -/
theorem C80_vector_tables_violated (dyn : Bool) : ∃ q, sampleCRTVec dyn ⟨[2], [3, 3]⟩ [1, 2] = some q ∧
    (q.map fun Ls => Ls.data[0]?) (some 1) = ENNReal.ofReal (1 / 4) ∧
    ((sampleCRT ⟨[2], [3, 3]⟩ 1).map fun Ls => Ls.data[0]?) (some 1) = ENNReal.ofReal (1 / 3) := by
  have e1 : bcast dyn (arange 2 (3 + 1)) [(1 : ℝ), 2] = some [(2, 1), (3, 2)] := by
    simp [bcast, arange, List.range_succ]
  have e2 : singleCRTVec dyn 3 [1, 2] = some ((bernVec [1 / 2, 1 / 2]).map (crtValue 3)) := by
    rw [singleCRTVec, e1]
    norm_num
  refine ⟨((((bernVec [1 / 2, 1 / 2]).map (crtValue 3)).bind fun l =>
    (((bernVec [1 / 2, 1 / 2]).map (crtValue 3)).bind fun l =>
      (PMF.pure []).bind fun ls => PMF.pure (l :: ls)).bind fun ls => PMF.pure (l :: ls))).map
        (fun ls => ⟨[2], ls⟩), by simp only [sampleCRTVec, crtScanVec, e2, Option.map_some], ?_, ?_⟩
  · rw [← expect_indicator, expect_map, expect_map, expect_bind]
    simp only [expect_bind, expect_pure, expect_map, bernVec]
    rw [expect_bern (by norm_num)]
    simp only [expect_bern (show (1 / 2 : ℝ) ≤ 1 by norm_num), crtValue]
    have h1 : (1 : ℝ≥0∞) - ENNReal.ofReal (1 / 2) = ENNReal.ofReal (1 / 2) := by
      rw [← ENNReal.ofReal_one, ← ENNReal.ofReal_sub _ (by norm_num)]
      norm_num
    have h2 : ENNReal.ofReal (1 / 2) + ENNReal.ofReal (1 / 2) = 1 := by
      rw [← ENNReal.ofReal_add (by norm_num) (by norm_num)]
      norm_num
    have h3 : ENNReal.ofReal (1 / 2) * ENNReal.ofReal (1 / 2) = ENNReal.ofReal (1 / 4) := by
      rw [← ENNReal.ofReal_mul (by norm_num)]
      norm_num
    simp only [h1]
    norm_num [← mul_add, h2, h3]
  · have h := C31_crt_law (h := 1) one_pos (y := ⟨[2], [3, 3]⟩) (i := 0) (k := 3) rfl 1
    have e1 : Real.Gamma 1 = 1 := Real.Gamma_one
    have e2 : Real.Gamma (1 + (3 : ℕ)) = 6 := by
      have := Real.Gamma_nat_eq_factorial 3
      norm_num [Nat.factorial] at this ⊢
    have e3 : Nat.stirlingFirst 3 1 = 2 := by decide
    rw [e1, e2, e3] at h
    norm_num at h ⊢
    exact h

end Verif.CRT
