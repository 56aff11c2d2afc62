import Verif.CRT.Unique

/-!
# Properties of `sample_CRT` and `nbinom_dispersion_posterior` (C30–C32)
-/

open MeasureTheory ProbabilityTheory Matrix
open scoped ENNReal

namespace Verif.CRT

/-! ## C30 -/

theorem bernVec_length {ps : List ℝ} {bs : List Bool} (h : bs ∈ (bernVec ps).support) :
    bs.length = ps.length := by
  induction ps generalizing bs with
  | nil => simp_all [bernVec]
  | cons p ps ih =>
    rw [bernVec, PMF.mem_support_bind_iff] at h
    obtain ⟨b, _, h⟩ := h
    rw [PMF.mem_support_bind_iff] at h
    obtain ⟨cs, hc, h⟩ := h
    rw [PMF.mem_support_pure_iff] at h
    rw [h, List.length_cons, List.length_cons, ih hc]

theorem crtProbs_length (y : ℤ) (h : ℝ) : (crtProbs y h).length = (y - 1).toNat := by
  simp only [crtProbs, arange, List.length_map, List.length_range]
  congr 1
  ring

theorem boolSum_bounds (bs : List Bool) : 0 ≤ boolSum bs ∧ boolSum bs ≤ bs.length := by
  induction bs with
  | nil => simp [boolSum]
  | cons b bs ih =>
    have h : boolSum (b :: bs) = (if b then 1 else 0) + boolSum bs := by simp [boolSum]
    rw [h, List.length_cons]
    push_cast
    split <;> omega

/-- Spec.  What an entry of the result may be. -/
def EntryOk (y z : ℤ) : Prop := if y < 1 then z = 0 else 1 ≤ z ∧ z ≤ y

theorem singleCRT_ok {y : ℤ} {h : ℝ} {z : ℤ} (hz : z ∈ (singleCRT y h).support) : EntryOk y z := by
  rw [singleCRT, PMF.mem_support_map_iff] at hz
  obtain ⟨bs, hb, rfl⟩ := hz
  have hl := bernVec_length hb
  rw [crtProbs_length] at hl
  have := boolSum_bounds bs
  rw [EntryOk, crtValue, ← boolSum]
  split <;> omega

/-- **C30.** For all integer arrays, all `h` and all outcomes of the Bernoulli draws, `sample_CRT`
returns an array of the same shape with, entry by entry, `0` where `y < 1` and a value in `[1, y]`
elsewhere. -/
theorem C30_sample_CRT_range {y : IntArr} {h : ℝ} {z : IntArr} (hz : z ∈ (sampleCRT y h).support) :
    z.shape = y.shape ∧ List.Forall₂ EntryOk y.data z.data := by
  rw [sampleCRT, PMF.mem_support_map_iff] at hz
  obtain ⟨ls, hl, rfl⟩ := hz
  refine ⟨rfl, ?_⟩
  simp only
  generalize y.data = ks at hl
  induction ks generalizing ls with
  | nil =>
    rw [crtScan, PMF.mem_support_pure_iff] at hl
    rw [hl]
    exact .nil
  | cons k ks ih =>
    rw [crtScan, PMF.mem_support_bind_iff] at hl
    obtain ⟨l, h1, hl⟩ := hl
    rw [PMF.mem_support_bind_iff] at hl
    obtain ⟨ls', h2, hl⟩ := hl
    rw [PMF.mem_support_pure_iff] at hl
    rw [hl]
    exact .cons (singleCRT_ok h1) (ih _ h2)

example {z : IntArr} (hz : z ∈ (sampleCRT ⟨[2, 2], [0, 1, 5, -3]⟩ 2).support) : z.shape = [2, 2] :=
  (C30_sample_CRT_range hz).1

/-- **C30, no invalid draw.** For `h > 0` every Bernoulli parameter lies strictly between 0 and 1, so
no draw of `sample_CRT` is rejected by the library. -/
theorem C30_bernoulli_params_valid {h : ℝ} (hh : 0 < h) (y : ℤ) {q : ℝ} (hq : q ∈ crtProbs y h) :
    0 < q ∧ q < 1 := by
  simp only [crtProbs, arange, List.map_map, List.mem_map] at hq
  obtain ⟨k, _, rfl⟩ := hq
  have hk : (0 : ℝ) ≤ k := by positivity
  have e : ((2 + (k : ℤ) : ℤ) : ℝ) - 1 + h = (k : ℝ) + 1 + h := by push_cast; ring
  simp only [Function.comp, e]
  exact ⟨by positivity, by rw [div_lt_one (by positivity)]; linarith⟩

/-- The outcomes of C30 exist for a 2×2 array with zero, one and larger counts. -/
example : ∃ z, z ∈ (sampleCRT ⟨[2, 2], [0, 1, 5, -3]⟩ 2).support := (PMF.support_nonempty _)

/-! ## C31 -/

theorem scan_marginal (h : ℝ) {ys : List ℤ} {i : ℕ} {y : ℤ} (hi : ys[i]? = some y) :
    (crtScan h ys).map (fun ls => ls[i]?) = (singleCRT y h).map some := by
  induction ys generalizing i with
  | nil => simp at hi
  | cons k ks ih =>
    rw [crtScan, PMF.map_bind]
    simp only [PMF.map_bind, PMF.pure_map]
    cases i with
    | zero =>
      simp only [List.getElem?_cons_zero, Option.some.injEq] at hi
      simp only [List.getElem?_cons_zero, PMF.bind_const, hi]
      rfl
    | succ i =>
      simp only [List.getElem?_cons_succ] at hi ⊢
      have := ih hi
      rw [PMF.map] at this
      simp only [Function.comp_def] at this
      rw [this, PMF.bind_const]

/-- The law of the `i`-th entry of the result. -/
theorem entry_marginal {y : IntArr} {h : ℝ} {i : ℕ} {k : ℤ} (hi : y.data[i]? = some k) :
    (sampleCRT y h).map (fun z => z.data[i]?) = (singleCRT k h).map some := by
  rw [sampleCRT, PMF.map_comp]
  exact scan_marginal h hi

theorem map_some_apply (μ : PMF ℤ) (z : ℤ) : (μ.map some) (some z) = μ z := by
  rw [PMF.map_apply, tsum_eq_single z]
  · simp
  · intro w hw
    simp [Ne.symm hw]

theorem singleCRT_apply {h : ℝ} (hh : 0 < h) (k l : ℕ) :
    singleCRT k h l = ENNReal.ofReal
      (Nat.stirlingFirst k l * h ^ l * Real.Gamma h / Real.Gamma (h + k)) := by
  have h1 := hasPoly_singleCRT hh k (fun z => if z = (l : ℤ) then 1 else 0)
  have hG := Real.Gamma_pos_of_pos hh
  have hG2 : 0 < Real.Gamma (h + k) := Real.Gamma_pos_of_pos (by positivity)
  rw [expect_indicator, polyFun_indicator, polyVal_ascPochhammer hh, coeff_ascPochhammer,
    ← ENNReal.ofReal_natCast, ← ENNReal.ofReal_pow hh.le, ← ENNReal.ofReal_mul (by positivity)] at h1
  have h0 : ENNReal.ofReal (Real.Gamma (h + k) / Real.Gamma h) ≠ 0 := by
    simp only [ne_eq, ENNReal.ofReal_eq_zero, not_le]
    positivity
  have e : Nat.stirlingFirst k l * h ^ l * Real.Gamma h / Real.Gamma (h + k) =
      (Real.Gamma (h + k) / Real.Gamma h)⁻¹ * (Nat.stirlingFirst k l * h ^ l) := by
    field_simp
  rw [e, ENNReal.ofReal_mul (by positivity), ← h1, ENNReal.ofReal_inv_of_pos (by positivity),
    ← mul_assoc, ENNReal.inv_mul_cancel h0 ENNReal.ofReal_ne_top, one_mul]

/-- **C31 (law).** For every array of counts, every `h > 0` and every position `i` holding the count
`k`, the `i`-th entry of `sample_CRT` equals `l` with probability
`|s(k, l)| h ^ l Γ(h) / Γ(h + k)`. -/
theorem C31_crt_law {h : ℝ} (hh : 0 < h) {y : IntArr} {i k : ℕ} (hi : y.data[i]? = some (k : ℤ))
    (l : ℕ) :
    ((sampleCRT y h).map fun z => z.data[i]?) (some (l : ℤ)) = ENNReal.ofReal
      (Nat.stirlingFirst k l * h ^ l * Real.Gamma h / Real.Gamma (h + k)) := by
  rw [entry_marginal hi, map_some_apply, singleCRT_apply hh]

/-- A count of 4 with `h = 2`: one table with probability `6 * 2 / 120`. -/
example : ((sampleCRT ⟨[3], [0, 4, 7]⟩ 2).map fun z => z.data[1]?) (some 1) = ENNReal.ofReal (1 / 10) := by
  have h := C31_crt_law (h := 2) two_pos (y := ⟨[3], [0, 4, 7]⟩) (i := 1) (k := 4) rfl 1
  have e1 : Real.Gamma 2 = 1 := Real.Gamma_two
  have e2 : Real.Gamma (2 + (4 : ℕ)) = 120 := by
    have := Real.Gamma_nat_eq_factorial 5
    norm_num [Nat.factorial] at this ⊢
  have e3 : Nat.stirlingFirst 4 1 = 6 := by decide
  rw [e1, e2, e3] at h
  norm_num at h ⊢
  exact h

/-- **C31 (joint law).** The entries are independent: an array of the right length has as probability
the product of the probabilities of its entries. -/
theorem C31_crt_independent (h : ℝ) (y : IntArr) {zs : List ℤ} (hz : zs.length = y.data.length) :
    (sampleCRT y h) ⟨y.shape, zs⟩ = (List.zipWith (fun k z => singleCRT k h z) y.data zs).prod := by
  classical
  have e1 : (sampleCRT y h) ⟨y.shape, zs⟩ = crtScan h y.data zs := by
    rw [sampleCRT, PMF.map_apply, tsum_eq_single zs]
    · simp
    · intro w hw
      simp [Ne.symm hw]
  rw [e1]
  clear e1
  generalize y.data = ks at hz
  induction ks generalizing zs with
  | nil =>
    obtain rfl := List.length_eq_zero_iff.1 hz
    simp [crtScan]
  | cons k ks ih =>
    cases zs with
    | nil => simp at hz
    | cons z zs =>
      rw [crtScan, PMF.bind_apply, List.zipWith_cons_cons, List.prod_cons,
        ← ih (by simpa using hz), tsum_eq_single z]
      · congr 1
        rw [PMF.bind_apply, tsum_eq_single zs]
        · simp
        · intro w hw
          simp [PMF.pure_apply, Ne.symm hw]
      · intro w hw
        rw [PMF.bind_apply]
        simp [PMF.pure_apply, Ne.symm hw]

example (h : ℝ) : (sampleCRT ⟨[2], [4, 7]⟩ h) ⟨[2], [1, 3]⟩ = singleCRT 4 h 1 * singleCRT 7 h 3 := by
  rw [C31_crt_independent h ⟨[2], [4, 7]⟩ (zs := [1, 3]) rfl]
  simp

theorem expect_const {α : Type*} (μ : PMF α) (c : ℝ≥0∞) : expect μ (fun _ => c) = c := by
  rw [expect, ENNReal.tsum_mul_right, PMF.tsum_coe, one_mul]

theorem expect_add {α : Type*} (μ : PMF α) (F G : α → ℝ≥0∞) :
    expect μ (fun z => F z + G z) = expect μ F + expect μ G := by
  simp only [expect, mul_add, ENNReal.tsum_add]

theorem expect_boolSum {ps : List ℝ} (hp : ∀ q ∈ ps, 0 < q ∧ q < 1) :
    expect (bernVec ps) (fun bs => ENNReal.ofReal (boolSum bs)) = ENNReal.ofReal ps.sum := by
  induction ps with
  | nil => simp [bernVec, expect_pure, boolSum]
  | cons p ps ih =>
    have hp1 := hp p (by simp)
    have h1 : ∀ (b : Bool) (bs : List Bool), ENNReal.ofReal (boolSum (b :: bs)) =
        ENNReal.ofReal (if b then 1 else 0) + ENNReal.ofReal (boolSum bs) := by
      intro b bs
      have e : boolSum (b :: bs) = (if b then 1 else 0) + boolSum bs := by simp [boolSum]
      have h2 : (0 : ℝ) ≤ boolSum bs := by exact_mod_cast (boolSum_bounds bs).1
      rw [e, ← ENNReal.ofReal_add (by split <;> norm_num) h2]
      congr 1
      push_cast
      rfl
    have hs : 0 ≤ ps.sum := List.sum_nonneg fun q hq => (hp q (by simp [hq])).1.le
    rw [bernVec, expect_bind]
    simp only [expect_bind, expect_pure, h1, expect_add, expect_const]
    rw [ih fun q hq => hp q (by simp [hq]), expect_bern hp1.2.le, List.sum_cons,
      ENNReal.ofReal_add hp1.1.le hs]
    simp

theorem expect_singleCRT {h : ℝ} (hh : 0 < h) (k : ℕ) :
    expect (singleCRT k h) (fun z => ENNReal.ofReal z) =
      ENNReal.ofReal (∑ n ∈ Finset.Icc 1 k, h / (h + n - 1)) := by
  rcases k with _ | m
  · have e : ∀ bs, crtValue ((0 : ℕ) : ℤ) bs = 0 := fun bs => by simp [crtValue]
    rw [singleCRT, expect_map]
    simp only [e, expect_const]
    simp
  · have hm : ¬ (((m + 1 : ℕ) : ℤ) < 1) := by push_cast; omega
    have e : ∀ bs, ENNReal.ofReal (crtValue ((m + 1 : ℕ) : ℤ) bs) =
        1 + ENNReal.ofReal (boolSum bs) := by
      intro bs
      have h2 : (0 : ℝ) ≤ boolSum bs := by exact_mod_cast (boolSum_bounds bs).1
      have h3 : crtValue ((m + 1 : ℕ) : ℤ) bs = 1 + boolSum bs := if_neg hm
      rw [h3, ← ENNReal.ofReal_one, ← ENNReal.ofReal_add zero_le_one h2]
      push_cast
      rfl
    rw [singleCRT, expect_map]
    simp only [e]
    rw [expect_add, expect_const, expect_boolSum fun q hq => C30_bernoulli_params_valid hh _ hq]
    have hs : 0 ≤ (crtProbs ((m + 1 : ℕ) : ℤ) h).sum :=
      List.sum_nonneg fun q hq => (C30_bernoulli_params_valid hh _ hq).1.le
    rw [← ENNReal.ofReal_one, ← ENNReal.ofReal_add zero_le_one hs]
    congr 1
    have hI : Finset.Icc 1 (m + 1) = Finset.Ico 1 (m + 2) := by
      ext x
      simp only [Finset.mem_Icc, Finset.mem_Ico]
      omega
    have hL : ∀ (g : ℕ → ℝ) (j : ℕ), ((List.range j).map g).sum = ∑ x ∈ Finset.range j, g x := by
      intro g j
      induction j with
      | zero => simp
      | succ j ih => rw [List.range_succ, List.map_append, List.sum_append, ih, Finset.sum_range_succ]
                     simp
    rw [crtProbs_eq, List.map_map, hL, hI, Finset.sum_Ico_eq_sum_range, Nat.add_sub_cancel,
      show m + 2 - 1 = m + 1 from rfl, Finset.sum_range_succ' _ m, add_comm]
    congr 1
    · refine Finset.sum_congr rfl fun x _ => ?_
      simp only [Function.comp]
      push_cast
      congr 1
      ring
    · simp [hh.ne']

theorem singleCRT_neg {h : ℝ} (k : ℕ) {z : ℤ} (hz : z < 0) : singleCRT k h z = 0 := by
  by_contra h0
  have := singleCRT_ok ((PMF.mem_support_iff _ _).2 h0)
  rw [EntryOk] at this
  split at this <;> omega

/-- **C31 (mean).** The `i`-th entry has mean `∑_{n=1}^{k} h / (h + n - 1)`. -/
theorem C31_crt_mean {h : ℝ} (hh : 0 < h) {y : IntArr} {i k : ℕ} (hi : y.data[i]? = some (k : ℤ)) :
    ∑' z : ℤ, (((sampleCRT y h).map fun z => z.data[i]?) (some z)).toReal * z =
      ∑ n ∈ Finset.Icc 1 k, h / (h + n - 1) := by
  rw [entry_marginal hi]
  simp only [map_some_apply]
  have hp : 0 ≤ ∑ n ∈ Finset.Icc 1 k, h / (h + n - 1) := Finset.sum_nonneg fun n hn => by
    have : (1 : ℝ) ≤ n := by exact_mod_cast (Finset.mem_Icc.1 hn).1
    exact div_nonneg hh.le (by linarith)
  rw [← ENNReal.toReal_ofReal hp, ← expect_singleCRT hh, expect, ENNReal.tsum_toReal_eq]
  · refine tsum_congr fun z => ?_
    rcases lt_or_ge z 0 with hz | hz
    · rw [singleCRT_neg k hz]
      simp
    · rw [ENNReal.toReal_mul, ENNReal.toReal_ofReal (by exact_mod_cast hz)]
  · exact fun z => ENNReal.mul_ne_top (PMF.apply_ne_top _ _) ENNReal.ofReal_ne_top

/-- The hypotheses of C31 hold for a concrete array. -/
example : (IntArr.mk [3] [0, 4, 7]).data[1]? = some ((4 : ℕ) : ℤ) := rfl

/-! ## C32 -/

section

variable {n : ℕ}

/-- The code's step against an arbitrary candidate success probability. -/
theorem dispersion_stationary_iff {a b : ℝ} (ha : 0 < a) (hb : 0 < b) {p q : Fin n → ℝ}
    (hp0 : ∀ i, 0 < p i) (hp1 : ∀ i, p i < 1) (hq0 : ∀ i, 0 < q i) (hq1 : ∀ i, q i < 1)
    (y : Fin n → ℕ) :
    Stationary (bayes (gammaMeasure a b⁻¹) (nbDispLik q y))
      (dispersionPosterior (List.ofFn p) a b (List.ofFn fun i => (y i : ℤ))) ↔
      ∑ i, Real.log (q i) = ∑ i, Real.log (1 - p i) := by
  have hr : 0 < b⁻¹ := inv_pos.2 hb
  have ht : 0 < b⁻¹ + -∑ i, Real.log (1 - p i) := by
    have : ∑ i, Real.log (1 - p i) ≤ 0 := Finset.sum_nonpos fun i _ =>
      Real.log_nonpos (by have := hp1 i; linarith) (by have := hp0 i; linarith)
    linarith
  have ht' : 0 < b⁻¹ + -∑ i, Real.log (q i) := by
    have : ∑ i, Real.log (q i) ≤ 0 := Finset.sum_nonpos fun i _ =>
      Real.log_nonpos (hq0 i).le (hq1 i).le
    linarith
  have hiff := stationary_crtKernel_iff ha hr ht y ht'
  rw [posterior_eq hq0 hq1]
  have hac : bayes (gammaMeasure a b⁻¹) (crtMarg (-∑ i, Real.log (q i)) y) ≪ gammaMeasure a b⁻¹ :=
    bayes_absolutelyContinuous _ _
  have hK : crtKernel y a b⁻¹ (-∑ i, Real.log (1 - p i))
      =ᵐ[bayes (gammaMeasure a b⁻¹) (crtMarg (-∑ i, Real.log (q i)) y)]
      dispersionPosterior (List.ofFn p) a b (List.ofFn fun i => (y i : ℤ)) := by
    filter_upwards [hac.ae_le (ae_pos_gammaMeasure (a := a) (r := b⁻¹))] with h hh
    rw [dispersion_eq p a b y hh]
    rfl
  constructor
  · intro h
    have := hiff.1 (h.congr_ae hK.symm)
    linarith
  · intro h
    exact (hiff.2 (by rw [h])).congr_ae hK

/-- **C32 (partial).** For all counts `y`, probabilities `p`, and prior parameters (`b` the second
parameter stored in the gamma node, a scale), `nbinom_dispersion_posterior` leaves the posterior of the
dispersion given `y ~ NB(h, p)` invariant *exactly when* `∑ log p_i = ∑ log (1 - p_i)`.  The full
property asks for the left-hand side for all `p`. -/
theorem C32_dispersion_iff_partial {a b : ℝ} (ha : 0 < a) (hb : 0 < b) {p : Fin n → ℝ}
    (hp0 : ∀ i, 0 < p i) (hp1 : ∀ i, p i < 1) (y : Fin n → ℕ) :
    Stationary (bayes (gammaMeasure a b⁻¹) (nbDispLik p y))
      (dispersionPosterior (List.ofFn p) a b (List.ofFn fun i => (y i : ℤ))) ↔
      ∑ i, Real.log (p i) = ∑ i, Real.log (1 - p i) :=
  dispersion_stationary_iff ha hb hp0 hp1 hp0 hp1 y

example (y : Fin 2 → ℕ) : Stationary (bayes (gammaMeasure 2 1⁻¹) (nbDispLik ![1 / 4, 3 / 4] y))
    (dispersionPosterior (List.ofFn ![1 / 4, 3 / 4]) 2 1 (List.ofFn fun i => (y i : ℤ))) := by
  refine (C32_dispersion_iff_partial two_pos one_pos (fun i => ?_) (fun i => ?_) y).2 ?_
  · fin_cases i <;> norm_num
  · fin_cases i <;> norm_num
  · rw [Fin.sum_univ_two, Fin.sum_univ_two]
    norm_num
    ring

/-- **C32 (partial).** The step is exact when its argument `p` is the *failure* probability of the
observations, for all sizes, counts and prior parameters. -/
theorem C32_dispersion_complement_partial {a b : ℝ} (ha : 0 < a) (hb : 0 < b) {p : Fin n → ℝ}
    (hp0 : ∀ i, 0 < p i) (hp1 : ∀ i, p i < 1) (y : Fin n → ℕ) :
    BayesDefined (gammaMeasure a b⁻¹) (nbDispLik (fun i => 1 - p i) y) ∧
    Stationary (bayes (gammaMeasure a b⁻¹) (nbDispLik (fun i => 1 - p i) y))
      (dispersionPosterior (List.ofFn p) a b (List.ofFn fun i => (y i : ℤ))) := by
  have h0 : ∀ i, 0 < 1 - p i := fun i => by have := hp1 i; linarith
  have h1 : ∀ i, 1 - p i < 1 := fun i => by have := hp0 i; linarith
  exact ⟨posterior_defined ha (inv_pos.2 hb) h0 h1 y,
    (dispersion_stationary_iff ha hb hp0 hp1 h0 h1 y).2 rfl⟩

example (y : Fin 2 → ℕ) : Stationary (bayes (gammaMeasure 2 1⁻¹)
      (nbDispLik (fun i => 1 - (![1 / 4, 1 / 3] : Fin 2 → ℝ) i) y))
    (dispersionPosterior (List.ofFn ![1 / 4, 1 / 3]) 2 1 (List.ofFn fun i => (y i : ℤ))) :=
  (C32_dispersion_complement_partial two_pos one_pos (fun i => by fin_cases i <;> norm_num)
    (fun i => by fin_cases i <;> norm_num) y).2

theorem sigmoid_pos' (x : ℝ) : 0 < sigmoid x := by
  unfold sigmoid
  positivity

theorem sigmoid_lt_one' (x : ℝ) : sigmoid x < 1 := by
  unfold sigmoid
  rw [div_lt_one (by positivity)]
  linarith [Real.exp_pos (-x)]

theorem log_sigmoid_sub (x : ℝ) : Real.log (sigmoid x) - Real.log (1 - sigmoid x) = x := by
  have h1 : 1 - sigmoid x = Real.exp (-x) * sigmoid x := by
    unfold sigmoid
    have : (1 + Real.exp (-x)) ≠ 0 := by positivity
    field_simp
    ring
  rw [h1, Real.log_mul (Real.exp_pos _).ne' (sigmoid_pos' x).ne', Real.log_exp]
  ring

/-- **C32 (partial), as called by the negative-binomial finder.** For the model
`Y_i ~ NB(h, sigmoid(-(X β)_i))`, `h ~ Gamma(a, scale b)` accepted by the finder and any value of the
coefficients, the `h` step it builds leaves the posterior of `h` given `y` and the coefficients
invariant exactly when `∑_i (X β)_i = 0`.  The full property asks for the left-hand side always. -/
theorem C32_finder_step_iff_partial {q : ℕ} {a b : ℝ} (ha : 0 < a) (hb : 0 < b)
    (X : Matrix (Fin n) (Fin q) ℝ) (beta : Fin q → ℝ) (y : Fin n → ℕ) :
    Stationary (bayes (gammaMeasure a b⁻¹) (nbDispLik (fun i => sigmoid (-(X *ᵥ beta) i)) y))
      (finderDispersion X beta a b (List.ofFn fun i => (y i : ℤ))) ↔
      ∑ i, (X *ᵥ beta) i = 0 := by
  have e : (fun i => sigmoid (((-X) *ᵥ beta) i)) = fun i => sigmoid (-(X *ᵥ beta) i) := by
    rw [neg_mulVec]
    rfl
  have hiff := C32_dispersion_iff_partial ha hb (p := fun i => sigmoid (-(X *ᵥ beta) i))
    (fun i => sigmoid_pos' _) (fun i => sigmoid_lt_one' _) y
  have hs : ∑ i, Real.log (sigmoid (-(X *ᵥ beta) i)) -
      ∑ i, Real.log (1 - sigmoid (-(X *ᵥ beta) i)) = -∑ i, (X *ᵥ beta) i := by
    rw [← Finset.sum_sub_distrib, ← Finset.sum_neg_distrib]
    exact Finset.sum_congr rfl fun i _ => log_sigmoid_sub _
  have hd : finderDispersion X beta a b (List.ofFn fun i => (y i : ℤ)) =
      dispersionPosterior (List.ofFn fun i => sigmoid (-(X *ᵥ beta) i)) a b
        (List.ofFn fun i => (y i : ℤ)) := by
    funext h
    rw [finderDispersion, e]
  rw [hd, hiff]
  constructor <;> intro h <;> linarith

/-- Opposite linear predictors cancel; a single nonzero one does not. -/
example (y : Fin 2 → ℕ) (z : Fin 1 → ℕ) :
    Stationary (bayes (gammaMeasure 2 1⁻¹)
        (nbDispLik (fun i => sigmoid (-((!![1; -1] : Matrix (Fin 2) (Fin 1) ℝ) *ᵥ ![3]) i)) y))
      (finderDispersion !![1; -1] ![3] 2 1 (List.ofFn fun i => (y i : ℤ))) ∧
    ¬ Stationary (bayes (gammaMeasure 2 1⁻¹)
        (nbDispLik (fun i => sigmoid (-((!![1] : Matrix (Fin 1) (Fin 1) ℝ) *ᵥ ![3]) i)) z))
      (finderDispersion !![1] ![3] 2 1 (List.ofFn fun i => (z i : ℤ))) := by
  refine ⟨(C32_finder_step_iff_partial two_pos one_pos _ _ y).2 (by simp [Fin.sum_univ_two]),
    fun h => ?_⟩
  have := (C32_finder_step_iff_partial two_pos one_pos _ _ z).1 h
  norm_num at this

/-- **C32 is violated.** One observation `y = 3` with success probability `1/4`, prior
`Gamma(2, scale 1)`: the posterior is a proper law, and the step does not leave it invariant. -/
theorem C32_violated :
    BayesDefined (gammaMeasure 2 1⁻¹) (nbDispLik (n := 1) (fun _ => 1 / 4) fun _ => 3) ∧
    ¬ Stationary (bayes (gammaMeasure 2 1⁻¹) (nbDispLik (n := 1) (fun _ => 1 / 4) fun _ => 3))
      (dispersionPosterior [1 / 4] 2 1 [3]) := by
  refine ⟨posterior_defined two_pos (by norm_num) (fun _ => by norm_num) (fun _ => by norm_num) _,
    fun h => ?_⟩
  have h1 := (C32_dispersion_iff_partial (n := 1) (a := 2) (b := 1) two_pos one_pos
    (p := fun _ => 1 / 4) (fun _ => by norm_num) (fun _ => by norm_num) (fun _ => 3)).1 h
  simp only [Finset.univ_unique, Finset.sum_singleton] at h1
  have h2 : Real.log (1 / 4) < Real.log (1 - 1 / 4) :=
    Real.log_lt_log (by norm_num) (by norm_num)
  linarith

/-- The invariance case of C32 occurs with unequal probabilities: `1/4` and `3/4`. -/
example : ∑ i, Real.log ((![1 / 4, 3 / 4] : Fin 2 → ℝ) i) =
    ∑ i, Real.log (1 - (![1 / 4, 3 / 4] : Fin 2 → ℝ) i) := by
  rw [Fin.sum_univ_two, Fin.sum_univ_two]
  norm_num
  ring

end

end Verif.CRT
