import Verif.FFBS.Lemmas

/-!
# Properties of `ffbs_step` (C33–C35)
-/

open Matrix
open scoped ENNReal

namespace Verif.FFBS

variable {M N : ℕ}

theorem forwardPass_none {lb : ℝ} {a : Fin M → ℝ}
    {r : List ((Fin M → WithBot ℝ) × Matrix (Fin M) (Fin M) ℝ)} :
    forwardPass lb a r = none ↔ ∃ x ∈ r, ∀ k, x.1 k = ⊥ := by
  induction r generalizing a with
  | nil => simp [forwardPass]
  | cons x r ih =>
    obtain ⟨l, G⟩ := x
    rw [forwardPass]
    cases h : forwardStep lb l G a with
    | none =>
      have := forwardStep_none.1 h
      simp [this]
    | some a' =>
      have h1 : ¬ ∀ k, l k = ⊥ := fun h' => by
        rw [forwardStep_none.2 h'] at h
        exact absurd h (by simp)
      simp [ih, h1]

theorem weight_eq_zero_of_bot {γ₀ : Fin M → ℝ} {Γ : Fin N → Matrix (Fin M) (Fin M) ℝ}
    {ll : Fin N → Fin M → WithBot ℝ} {t : Fin N} (ht : ∀ k, ll t k = ⊥) (s : Fin N → Fin M) :
    weight γ₀ Γ ll s = 0 := by
  refine Finset.sum_eq_zero fun s₀ _ => ?_
  rw [Finset.prod_eq_zero (Finset.mem_univ t), mul_zero]
  rw [ht]
  simp [lik]

theorem map_reverse_apply (μ : PMF (Option (List (Fin M)))) (u : List (Fin M)) :
    (μ.map fun o => o.map List.reverse) (some u) = μ (some u.reverse) := by
  classical
  rw [PMF.map_apply, tsum_eq_single (some u.reverse)]
  · simp
  · intro o ho
    cases o with
    | none => simp
    | some l =>
      have : u ≠ l.reverse := fun h => ho (by rw [h, List.reverse_reverse])
      simp [this]

theorem map_cons_reverse (μ : PMF (Option (List (Fin M)))) (k : Fin M) (u : List (Fin M)) :
    (μ.map fun o => o.map fun l => (k :: l).reverse) (some u) =
      (μ.map fun o => o.map fun l => k :: l) (some u.reverse) := by
  rw [← map_reverse_apply, PMF.map_comp]
  congr 2
  funext o
  cases o <;> rfl

theorem reverse_ofFn (s : Fin (N + 1) → Fin M) :
    (List.ofFn s).reverse = s (Fin.last N) :: (List.ofFn fun t : Fin N => s t.castSucc).reverse := by
  rw [List.ofFn_succ', List.concat_eq_append, List.reverse_append, List.reverse_singleton,
    List.singleton_append]

theorem zip_ofFn {A B : Type*} (f : Fin N → A) (g : Fin N → B) :
    (List.ofFn f).zip (List.ofFn g) = List.ofFn fun t => (f t, g t) := by
  induction N with
  | zero => simp
  | succ N ih => simp [List.ofFn_succ, ih]

section

variable {γ₀ : Fin M → ℝ} (hγ : ∀ k, 0 ≤ γ₀ k) {Γ : Fin (N + 1) → Matrix (Fin M) (Fin M) ℝ}
  (hΓ : ∀ t i j, 0 ≤ Γ t i j) (ll : Fin (N + 1) → Fin M → WithBot ℝ) (lb : ℝ)
include hγ hΓ

theorem ffbs_law :
    (evidence γ₀ Γ ll = 0 → ffbsStep γ₀ (List.ofFn Γ) (List.ofFn ll) lb = PMF.pure none) ∧
    (0 < evidence γ₀ Γ ll → ∀ s : Fin (N + 1) → Fin M,
      ffbsStep γ₀ (List.ofFn Γ) (List.ofFn ll) lb (some (List.ofFn s)) =
        ENNReal.ofReal (smoothing γ₀ Γ ll s)) := by
  have hb : broadcastGammas (N + 1) (List.ofFn Γ) = some (List.ofFn Γ) := by
    simp [broadcastGammas]
  unfold ffbsStep
  simp only [List.length_ofFn, hb, zip_ofFn]
  cases hf : forwardPass lb (fun k => γ₀ k / ∑ i, γ₀ i) (List.ofFn fun t => (ll t, Γ t)) with
  | none =>
    refine ⟨fun _ => rfl, fun hev => ?_⟩
    obtain ⟨x, hx, hbot⟩ := forwardPass_none.1 hf
    rw [List.mem_ofFn] at hx
    obtain ⟨t, rfl⟩ := hx
    have : evidence γ₀ Γ ll = 0 := Finset.sum_eq_zero fun s _ => weight_eq_zero_of_bot hbot s
    exact absurd this hev.ne'
  | some alphas =>
    have hS : 0 ≤ ∑ i, γ₀ i := Finset.sum_nonneg fun i _ => hγ i
    have ha : ∀ k, 0 ≤ γ₀ k / ∑ i, γ₀ i := fun k => div_nonneg (hγ k) hS
    obtain ⟨L, α, rfl, hlen, hnn, hNP, c, hc, hsum, hw⟩ := main ha hΓ hf
    have hget : (L ++ [α])[N + 1 - 1]? = some α := by
      rw [Nat.add_sub_cancel, List.getElem?_append_right hlen.le, hlen]
      simp
    have htake : (L ++ [α]).take (N + 1 - 1) = L := by
      rw [Nat.add_sub_cancel, ← hlen]
      simp
    simp only [hget, htake]
    have hscale : ∀ s, weight (fun k => γ₀ k / ∑ i, γ₀ i) Γ ll s =
        (∑ i, γ₀ i)⁻¹ * weight γ₀ Γ ll s := by
      intro s
      rw [← weight_smul]
      simp only [div_eq_inv_mul]
    have hα : ∑ k, α k = c * ((∑ i, γ₀ i)⁻¹ * evidence γ₀ Γ ll) := by
      have := hsum fun _ => 1
      simp only [mul_one] at this
      rw [← this, evidence]
      simp only [hscale, Finset.mul_sum]
    refine ⟨fun hev => ?_, fun hev s => ?_⟩
    · rw [categorical_zero (by rw [hα, hev]; simp), PMF.pure_bind]
    · have hS0 : 0 < ∑ i, γ₀ i := by
        refine lt_of_le_of_ne hS fun h0 => hev.ne' ?_
        have hz : ∀ i, γ₀ i = 0 := fun i =>
          (Finset.sum_eq_zero_iff_of_nonneg fun i _ => hγ i).1 h0.symm i (Finset.mem_univ i)
        simp [evidence, weight, hz]
      rw [PMF.bind_apply, tsum_eq_single (some (s (Fin.last N)))]
      · rw [categorical_some hnn]
        simp only
        rw [map_cons_reverse, reverse_ofFn, map_cons_apply, if_pos rfl, backwardScan_apply hNP,
          ← ENNReal.ofReal_mul (div_nonneg (hnn _) (Finset.sum_nonneg fun i _ => hnn i)),
          div_mul_eq_mul_div, hw, hα, hscale, smoothing]
        congr 1
        field_simp
      · intro o ho
        cases o with
        | none => simp
        | some k =>
          simp only
          rw [map_cons_reverse, reverse_ofFn, map_cons_apply, if_neg (fun h => ho (by rw [h])),
            mul_zero]

/-- **C33.** For every number of states, every sequence length `N + 1 ≥ 1`, every nonnegative initial
weight vector, every nonnegative (time-varying) transition matrix, all log-likelihoods (including
`-∞`) with positive evidence, and every precision bound: the probability that `ffbs_step` returns the
sequence `s` is the posterior probability of `s` given the observations. -/
theorem C33_ffbs_smoothing (hev : 0 < evidence γ₀ Γ ll) (s : Fin (N + 1) → Fin M) :
    ffbsStep γ₀ (List.ofFn Γ) (List.ofFn ll) lb (some (List.ofFn s)) =
      ENNReal.ofReal (smoothing γ₀ Γ ll s) :=
  (ffbs_law hγ hΓ ll lb).2 hev s

omit hγ hΓ in
/-- **C33, shared transition matrix.** A single transition matrix is used at every time point. -/
theorem C33_ffbs_broadcast (G : Matrix (Fin M) (Fin M) ℝ) :
    ffbsStep γ₀ [G] (List.ofFn ll) lb =
      ffbsStep γ₀ (List.ofFn fun _ : Fin (N + 1) => G) (List.ofFn ll) lb := by
  have h1 : broadcastGammas (List.ofFn ll).length [G] =
      some (List.ofFn fun _ : Fin (N + 1) => G) := by
    rcases N with _ | N
    · simp [broadcastGammas]
    · simp [broadcastGammas, List.replicate_succ]
  have h2 : broadcastGammas (List.ofFn ll).length (List.ofFn fun _ : Fin (N + 1) => G) =
      some (List.ofFn fun _ : Fin (N + 1) => G) := by
    simp [broadcastGammas]
  unfold ffbsStep
  simp only [h1, h2]

omit hγ hΓ in
theorem smoothing_sum (hev : 0 < evidence γ₀ Γ ll) : ∑ s, smoothing γ₀ Γ ll s = 1 := by
  simp only [smoothing, ← Finset.sum_div]
  exact div_self hev.ne'

theorem smoothing_nonneg (hev : 0 < evidence γ₀ Γ ll) (s : Fin (N + 1) → Fin M) :
    0 ≤ smoothing γ₀ Γ ll s :=
  div_nonneg (weight_nonneg hγ hΓ ll s) hev.le

theorem ffbs_other (hev : 0 < evidence γ₀ Γ ll) {o : Option (List (Fin M))}
    (ho : ∀ s : Fin (N + 1) → Fin M, o ≠ some (List.ofFn s)) :
    ffbsStep γ₀ (List.ofFn Γ) (List.ofFn ll) lb o = 0 := by
  classical
  have hinj : Function.Injective fun s : Fin (N + 1) → Fin M => some (List.ofFn s) :=
    fun s s' h => List.ofFn_injective (Option.some.inj h)
  have h1 : ∑ s : Fin (N + 1) → Fin M,
      ffbsStep γ₀ (List.ofFn Γ) (List.ofFn ll) lb (some (List.ofFn s)) = 1 := by
    simp only [C33_ffbs_smoothing hγ hΓ ll lb hev]
    rw [← ENNReal.ofReal_sum_of_nonneg fun s _ => smoothing_nonneg hγ hΓ ll hev s,
      smoothing_sum ll hev, ENNReal.ofReal_one]
  have h2 := ENNReal.sum_le_tsum (f := fun o => ffbsStep γ₀ (List.ofFn Γ) (List.ofFn ll) lb o)
    (insert o (Finset.univ.image fun s : Fin (N + 1) → Fin M => some (List.ofFn s)))
  rw [PMF.tsum_coe, Finset.sum_insert, Finset.sum_image fun a _ b _ h => hinj h, h1] at h2
  · by_contra h0
    have h3 : (1 : ℝ≥0∞) < ffbsStep γ₀ (List.ofFn Γ) (List.ofFn ll) lb o + 1 := by
      rw [add_comm]
      exact ENNReal.lt_add_right ENNReal.one_ne_top h0
    exact absurd h2 (not_le.2 h3)
  · intro hmem
    obtain ⟨s, _, hs⟩ := Finset.mem_image.1 hmem
    exact ho s hs.symm

/-- **C35.** Whenever the evidence is positive, every possible outcome of `ffbs_step` is a list of
exactly one state below `M` per time point, and it has positive joint prior-and-likelihood weight (so
no impossible transition, initial state or observation occurs). -/
theorem C35_ffbs_support (hev : 0 < evidence γ₀ Γ ll) {o : Option (List (Fin M))}
    (ho : o ∈ (ffbsStep γ₀ (List.ofFn Γ) (List.ofFn ll) lb).support) :
    ∃ l : List (Fin M), o = some l ∧ l.length = N + 1 ∧ (∀ x ∈ l, (x : ℕ) < M) ∧
      ∃ s : Fin (N + 1) → Fin M, l = List.ofFn s ∧ 0 < weight γ₀ Γ ll s := by
  rw [PMF.mem_support_iff] at ho
  have : ∃ s : Fin (N + 1) → Fin M, o = some (List.ofFn s) := by
    by_contra h
    push Not at h
    exact ho (ffbs_other hγ hΓ ll lb hev h)
  obtain ⟨s, rfl⟩ := this
  refine ⟨_, rfl, List.length_ofFn, fun x _ => x.isLt, s, rfl, ?_⟩
  rw [C33_ffbs_smoothing hγ hΓ ll lb hev, ne_eq, ENNReal.ofReal_eq_zero, not_le, smoothing] at ho
  exact (div_pos_iff_of_pos_right hev).1 ho

/-- **C35, no evidence.** When no state sequence has positive weight there is no meaningful sample:
`ffbs_step` divides zero by zero. -/
theorem C35_ffbs_zero_evidence (hev : evidence γ₀ Γ ll = 0) :
    ffbsStep γ₀ (List.ofFn Γ) (List.ofFn ll) lb = PMF.pure none :=
  (ffbs_law hγ hΓ ll lb).1 hev

end

/-- **C35, transitions.** A sequence with positive weight uses only transitions with nonzero
probability and states with finite log-likelihood, and starts from a possible initial state. -/
theorem C35_positive_weight_possible {γ₀ : Fin M → ℝ} {Γ : Fin (N + 1) → Matrix (Fin M) (Fin M) ℝ}
    {ll : Fin (N + 1) → Fin M → WithBot ℝ} {s : Fin (N + 1) → Fin M} (h : 0 < weight γ₀ Γ ll s) :
    (∀ t, ll t (s t) ≠ ⊥) ∧ (∀ t : Fin N, Γ t.succ (s t.castSucc) (s t.succ) ≠ 0) ∧
      ∃ s₀, γ₀ s₀ ≠ 0 ∧ Γ 0 s₀ (s 0) ≠ 0 := by
  obtain ⟨s₀, _, hs⟩ := Finset.exists_ne_zero_of_sum_ne_zero h.ne'
  have hp := Finset.prod_ne_zero_iff.1 (right_ne_zero_of_mul hs)
  refine ⟨fun t hb => ?_, fun t hz => ?_, s₀, left_ne_zero_of_mul hs, fun hz => ?_⟩
  · refine hp t (Finset.mem_univ t) ?_
    rw [hb]
    simp [lik]
  · refine hp t.succ (Finset.mem_univ _) ?_
    have : (Fin.cons s₀ s : Fin (N + 2) → Fin M) t.succ.castSucc = s t.castSucc := by
      rw [Fin.castSucc_succ]
      rfl
    rw [this, hz, zero_mul]
  · refine hp 0 (Finset.mem_univ _) ?_
    have : (Fin.cons s₀ s : Fin (N + 2) → Fin M) (0 : Fin (N + 1)).castSucc = s₀ := rfl
    rw [this, hz, zero_mul]

/-- Inputs with proportional weights give the same law. -/
theorem ffbs_congr {γ₀ γ₀' : Fin M → ℝ} (hγ : ∀ k, 0 ≤ γ₀ k) (hγ' : ∀ k, 0 ≤ γ₀' k)
    {Γ Γ' : Fin (N + 1) → Matrix (Fin M) (Fin M) ℝ} (hΓ : ∀ t i j, 0 ≤ Γ t i j)
    (hΓ' : ∀ t i j, 0 ≤ Γ' t i j) (ll ll' : Fin (N + 1) → Fin M → WithBot ℝ) (lb lb' : ℝ) {c : ℝ}
    (hc : 0 < c) (h : ∀ s, weight γ₀' Γ' ll' s = c * weight γ₀ Γ ll s) :
    ffbsStep γ₀' (List.ofFn Γ') (List.ofFn ll') lb' = ffbsStep γ₀ (List.ofFn Γ) (List.ofFn ll) lb := by
  have hev : evidence γ₀' Γ' ll' = c * evidence γ₀ Γ ll := by
    simp only [evidence, h, Finset.mul_sum]
  have hnn : 0 ≤ evidence γ₀ Γ ll := Finset.sum_nonneg fun s _ => weight_nonneg hγ hΓ ll s
  rcases hnn.eq_or_lt with h0 | hpos
  · rw [(ffbs_law hγ hΓ ll lb).1 h0.symm, (ffbs_law hγ' hΓ' ll' lb').1 (by rw [hev, ← h0, mul_zero])]
  · have hpos' : 0 < evidence γ₀' Γ' ll' := by rw [hev]; positivity
    refine PMF.ext fun o => ?_
    by_cases ho : ∃ s : Fin (N + 1) → Fin M, o = some (List.ofFn s)
    · obtain ⟨s, rfl⟩ := ho
      rw [C33_ffbs_smoothing hγ hΓ ll lb hpos, C33_ffbs_smoothing hγ' hΓ' ll' lb' hpos', smoothing,
        smoothing, h, hev, mul_div_mul_left _ _ hc.ne']
    · push Not at ho
      rw [ffbs_other hγ hΓ ll lb hpos ho, ffbs_other hγ' hΓ' ll' lb' hpos' ho]

/-- **C34.** For all nonnegative inputs, including those without evidence, the law of `ffbs_step`
does not change when the precision bound is replaced by any other number, the initial weights are
multiplied by a positive constant, and a constant `d t` is added to all log-likelihoods of time point
`t`, for every `t`. -/
theorem C34_ffbs_rescaling {γ₀ : Fin M → ℝ} (hγ : ∀ k, 0 ≤ γ₀ k)
    {Γ : Fin (N + 1) → Matrix (Fin M) (Fin M) ℝ} (hΓ : ∀ t i j, 0 ≤ Γ t i j)
    (ll : Fin (N + 1) → Fin M → WithBot ℝ) (lb lb' : ℝ) {c : ℝ} (hc : 0 < c) (d : Fin (N + 1) → ℝ) :
    ffbsStep (fun k => c * γ₀ k) (List.ofFn Γ)
        (List.ofFn fun t k => ll t k + ((d t : ℝ) : WithBot ℝ)) lb' =
      ffbsStep γ₀ (List.ofFn Γ) (List.ofFn ll) lb := by
  have hl : ∀ (x : WithBot ℝ) (e : ℝ), lik (x + (e : WithBot ℝ)) = Real.exp e * lik x := by
    intro x e
    cases x with
    | bot => simp [lik]
    | coe x =>
      rw [← WithBot.coe_add]
      simp only [lik, Real.exp_add]
      ring
  refine ffbs_congr hγ (fun k => mul_nonneg hc.le (hγ k)) hΓ hΓ _ _ _ _
    (c := c * ∏ t, Real.exp (d t)) (mul_pos hc (Finset.prod_pos fun t _ => Real.exp_pos _))
    fun s => ?_
  rw [weight_smul, mul_assoc]
  congr 1
  simp only [weight, hl, Finset.mul_sum]
  refine Finset.sum_congr rfl fun s₀ _ => ?_
  rw [mul_left_comm]
  congr 1
  rw [← Finset.prod_mul_distrib]
  exact Finset.prod_congr rfl fun t _ => by ring

/-! ## Non-vacuity -/

/-- A two-state, two-step chain with an impossible transition and an impossible observation has
positive evidence. -/
theorem exEvidence : 0 < evidence (![1, 2] : Fin 2 → ℝ) (fun _ : Fin 2 => !![1, 1; 0, 1])
    (fun t => if t = 0 then ![((0 : ℝ) : WithBot ℝ), ⊥] else ![((0 : ℝ) : WithBot ℝ), ((1 : ℝ) : WithBot ℝ)]) := by
  have hnn : ∀ s : Fin 2 → Fin 2, 0 ≤ weight (![1, 2] : Fin 2 → ℝ) (fun _ : Fin 2 => !![1, 1; 0, 1])
      (fun t => if t = 0 then ![((0 : ℝ) : WithBot ℝ), ⊥]
        else ![((0 : ℝ) : WithBot ℝ), ((1 : ℝ) : WithBot ℝ)]) s :=
    weight_nonneg (by intro k; fin_cases k <;> simp)
      (by intro t i j; fin_cases i <;> fin_cases j <;> simp) _
  refine lt_of_lt_of_le ?_ (Finset.single_le_sum (fun s _ => hnn s) (Finset.mem_univ ![0, 0]))
  simp [weight, lik, Fin.sum_univ_two, Fin.prod_univ_two]

/-- In that chain a sequence of positive weight starts in the first state, which the first observation leaves. -/
example {s : Fin 2 → Fin 2} (h : 0 < weight (![1, 2] : Fin 2 → ℝ) (fun _ : Fin 2 => !![1, 1; 0, 1])
    (fun t => if t = 0 then ![((0 : ℝ) : WithBot ℝ), ⊥] else ![((0 : ℝ) : WithBot ℝ), ((1 : ℝ) : WithBot ℝ)]) s) :
    s 0 = 0 := by
  have h1 := (C35_positive_weight_possible h).1 0
  by_contra h0
  have h2 : s 0 = 1 := by
    rcases hs : s 0 with ⟨i, hi⟩
    rw [hs] at h0
    interval_cases i
    · exact absurd rfl h0
    · rfl
  rw [h2] at h1
  simp at h1

/-- So whatever `ffbs_step` returns for it is a sequence of two states of positive weight. -/
example (lb : ℝ) {o : Option (List (Fin 2))} (ho : o ∈ (ffbsStep (![1, 2] : Fin 2 → ℝ)
      (List.ofFn fun _ : Fin 2 => !![1, 1; 0, 1]) (List.ofFn fun t : Fin 2 => if t = 0 then
        ![((0 : ℝ) : WithBot ℝ), ⊥] else ![((0 : ℝ) : WithBot ℝ), ((1 : ℝ) : WithBot ℝ)]) lb).support) :
    ∃ l, o = some l ∧ l.length = 2 := by
  obtain ⟨l, h1, h2, -⟩ := C35_ffbs_support (by intro k; fin_cases k <;> simp)
    (by intro t i j; fin_cases i <;> fin_cases j <;> simp) _ lb exEvidence ho
  exact ⟨l, h1, h2⟩

/-- The chain that stays in its state, started in either with weights 1 and 3, with an observation that rules out
the second one: it is in the first state throughout; with a second observation that rules out the first one
there is nothing to draw. -/
example (lb : ℝ) : ffbsStep ![1, 3] [1] [![((0 : ℝ) : WithBot ℝ), ⊥]] lb (some [0]) = 1 ∧
    ffbsStep ![1, 3] [1] [![((0 : ℝ) : WithBot ℝ), ⊥], ![⊥, ((0 : ℝ) : WithBot ℝ)]] lb = PMF.pure none := by
  have hγ : ∀ k, 0 ≤ (![1, 3] : Fin 2 → ℝ) k := by intro k; fin_cases k <;> simp
  have hΓ : ∀ (i j : Fin 2), 0 ≤ (1 : Matrix (Fin 2) (Fin 2) ℝ) i j := by
    intro i j; fin_cases i <;> fin_cases j <;> simp
  constructor
  · have hw : ∀ s : Fin 1 → Fin 2, weight ![1, 3] (fun _ : Fin 1 => (1 : Matrix (Fin 2) (Fin 2) ℝ))
        (fun _ => ![((0 : ℝ) : WithBot ℝ), ⊥]) s = if s 0 = 0 then 1 else 0 := by
      intro s
      have hc : ∀ a : Fin 2, s 0 = a → weight ![1, 3] (fun _ : Fin 1 => (1 : Matrix (Fin 2) (Fin 2) ℝ))
          (fun _ => ![((0 : ℝ) : WithBot ℝ), ⊥]) s = if a = 0 then 1 else 0 := by
        intro a ha
        fin_cases a <;> simp_all [weight, lik, Matrix.one_apply]
      exact hc _ rfl
    have hs : evidence ![1, 3] (fun _ : Fin 1 => (1 : Matrix (Fin 2) (Fin 2) ℝ))
        (fun _ => ![((0 : ℝ) : WithBot ℝ), ⊥]) = 1 := by
      simp only [evidence, hw]
      rw [← (Equiv.funUnique (Fin 1) (Fin 2)).symm.sum_comp]
      simp
    have h := C33_ffbs_smoothing (N := 0) (lb := lb) hγ (Γ := fun _ => 1) (fun _ => hΓ)
      (fun _ => ![((0 : ℝ) : WithBot ℝ), ⊥]) (by rw [hs]; exact one_pos) ![0]
    rw [← C33_ffbs_broadcast, smoothing, hs, hw] at h
    simpa using h
  · have h := C35_ffbs_zero_evidence (N := 1) (lb := lb) hγ (Γ := fun _ => 1) (fun _ => hΓ)
      ![![((0 : ℝ) : WithBot ℝ), ⊥], ![⊥, ((0 : ℝ) : WithBot ℝ)]] (by
        refine Finset.sum_eq_zero fun s _ => ?_
        have hc : ∀ a b : Fin 2, s 0 = a → s 1 = b → weight ![1, 3] (fun _ : Fin 2 => (1 : Matrix (Fin 2) (Fin 2) ℝ))
            ![![((0 : ℝ) : WithBot ℝ), ⊥], ![⊥, ((0 : ℝ) : WithBot ℝ)]] s = 0 := by
          intro a b ha hb
          fin_cases a <;> fin_cases b <;>
            simp_all [weight, lik, Fin.prod_univ_two, Matrix.one_apply]
        exact hc _ _ rfl rfl)
    rw [← C33_ffbs_broadcast] at h
    simpa using h

end Verif.FFBS
