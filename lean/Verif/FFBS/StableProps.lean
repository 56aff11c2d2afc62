import Verif.FFBS.Stable

/-!
# C81: how the drawn hidden states react to the data
-/

open Matrix
open scoped ENNReal

namespace Verif.FFBS

variable {M N N' : ℕ}

/-- Spec.  Two log-likelihoods are both `-∞`, or both finite and at most `c` apart. -/
def Within (c : ℝ) (x y : WithBot ℝ) : Prop :=
  (x = ⊥ ∧ y = ⊥) ∨ ∃ a b : ℝ, x = a ∧ y = b ∧ |a - b| ≤ c

theorem Within.symm {c : ℝ} {x y : WithBot ℝ} (h : Within c x y) : Within c y x := by
  rcases h with ⟨h, h'⟩ | ⟨a, b, ha, hb, h⟩
  · exact .inl ⟨h', h⟩
  · exact .inr ⟨b, a, hb, ha, by rwa [abs_sub_comm]⟩

theorem Within.lik_le {c : ℝ} {x y : WithBot ℝ} (h : Within c x y) : lik y ≤ Real.exp c * lik x := by
  rcases h with ⟨rfl, rfl⟩ | ⟨a, b, rfl, rfl, h⟩
  · simp [lik]
  · simp only [lik]
    rw [← Real.exp_add]
    exact Real.exp_le_exp.2 (by linarith [(abs_le.1 h).1])

theorem weight_le {γ γ' : Fin M → ℝ} (hγ : ∀ k, 0 ≤ γ k)
    {Γ Γ' : Fin N → Matrix (Fin M) (Fin M) ℝ} (hΓ : ∀ t i j, 0 ≤ Γ t i j) (hΓ' : ∀ t i j, 0 ≤ Γ' t i j)
    {ll ll' : Fin N → Fin M → WithBot ℝ} {a b c : ℝ} (h1 : ∀ k, γ' k ≤ Real.exp a * γ k)
    (h2 : ∀ t i j, Γ' t i j ≤ Real.exp b * Γ t i j) (h3 : ∀ t k, lik (ll' t k) ≤ Real.exp c * lik (ll t k))
    (s : Fin N → Fin M) :
    weight γ' Γ' ll' s ≤ Real.exp (a + N * (b + c)) * weight γ Γ ll s := by
  unfold weight
  rw [Finset.mul_sum]
  refine Finset.sum_le_sum fun s₀ _ => ?_
  have e : Real.exp (a + N * (b + c)) = Real.exp a * ∏ _t : Fin N, (Real.exp b * Real.exp c) := by
    rw [Finset.prod_const, Finset.card_univ, Fintype.card_fin, Real.exp_add, Real.exp_nat_mul,
      Real.exp_add]
  rw [e, mul_mul_mul_comm, ← Finset.prod_mul_distrib]
  refine mul_le_mul (h1 s₀) (Finset.prod_le_prod (fun t _ => mul_nonneg (hΓ' _ _ _) (lik_nonneg _))
    fun t _ => ?_) (Finset.prod_nonneg fun t _ => mul_nonneg (hΓ' _ _ _) (lik_nonneg _))
    (mul_nonneg (Real.exp_pos _).le (hγ _))
  rw [mul_mul_mul_comm]
  exact mul_le_mul (h2 _ _ _) (h3 _ _) (lik_nonneg _) (mul_nonneg (Real.exp_pos _).le (hΓ _ _ _))

/-- **C81, small changes.** If the initial weights of two inputs agree up to a factor `e^a`, all
transition weights up to a factor `e^b`, and all log-likelihoods up to an absolute error `c`, then the
probability of every set of outcomes changes at most by the factor `e^{2(a + n(b + c))}`, where `n` is
the number of time points; in particular the outcomes that cannot occur are the same. -/
theorem C81_ffbs_small_changes {γ γ' : Fin M → ℝ} (hγ : ∀ k, 0 ≤ γ k) (hγ' : ∀ k, 0 ≤ γ' k)
    {Γ Γ' : Fin (N + 1) → Matrix (Fin M) (Fin M) ℝ} (hΓ : ∀ t i j, 0 ≤ Γ t i j)
    (hΓ' : ∀ t i j, 0 ≤ Γ' t i j) {ll ll' : Fin (N + 1) → Fin M → WithBot ℝ} {a b c : ℝ}
    (ha : 0 ≤ a) (hb : 0 ≤ b) (hc : 0 ≤ c) (h1 : ∀ k, γ' k ≤ Real.exp a * γ k ∧ γ k ≤ Real.exp a * γ' k)
    (h2 : ∀ t i j, Γ' t i j ≤ Real.exp b * Γ t i j ∧ Γ t i j ≤ Real.exp b * Γ' t i j)
    (h3 : ∀ t k, Within c (ll t k) (ll' t k)) (lb lb' : ℝ) (E : Set (Option (List (Fin M)))) :
    (ffbsStep γ' (List.ofFn Γ') (List.ofFn ll') lb').toOuterMeasure E ≤
      ENNReal.ofReal (Real.exp (2 * (a + ((N + 1 : ℕ) : ℝ) * (b + c)))) *
        (ffbsStep γ (List.ofFn Γ) (List.ofFn ll) lb).toOuterMeasure E := by
  classical
  set r : ℝ := Real.exp (a + ((N + 1 : ℕ) : ℝ) * (b + c)) with hr
  have hr0 : 0 < r := Real.exp_pos _
  have e2 : Real.exp (2 * (a + ((N + 1 : ℕ) : ℝ) * (b + c))) = r * r := by
    rw [hr, ← Real.exp_add]
    ring_nf
  have w1 : ∀ s, weight γ' Γ' ll' s ≤ r * weight γ Γ ll s := fun s =>
    weight_le hγ hΓ hΓ' (fun k => (h1 k).1) (fun t i j => (h2 t i j).1) (fun t k => (h3 t k).lik_le) s
  have w2 : ∀ s, weight γ Γ ll s ≤ r * weight γ' Γ' ll' s := fun s =>
    weight_le hγ' hΓ' hΓ (fun k => (h1 k).2) (fun t i j => (h2 t i j).2)
      (fun t k => (h3 t k).symm.lik_le) s
  have v1 : evidence γ' Γ' ll' ≤ r * evidence γ Γ ll := by
    unfold evidence
    rw [Finset.mul_sum]
    exact Finset.sum_le_sum fun s _ => w1 s
  have v2 : evidence γ Γ ll ≤ r * evidence γ' Γ' ll' := by
    unfold evidence
    rw [Finset.mul_sum]
    exact Finset.sum_le_sum fun s _ => w2 s
  have n1 := evidence_nonneg ll hγ hΓ
  have n2 := evidence_nonneg ll' hγ' hΓ'
  rw [e2]
  rcases n1.eq_or_lt with h0 | hpos
  · have h0' : evidence γ' Γ' ll' = 0 := le_antisymm (by rw [← h0, mul_zero] at v1; exact v1) n2
    rw [(ffbs_law hγ hΓ ll lb).1 h0.symm, (ffbs_law hγ' hΓ' ll' lb').1 h0']
    refine le_mul_of_one_le_left (zero_le) ?_
    rw [← ENNReal.ofReal_one]
    refine ENNReal.ofReal_le_ofReal ?_
    exact one_le_mul_of_one_le_of_one_le (Real.one_le_exp (by positivity)) (Real.one_le_exp (by positivity))
  · have hpos' : 0 < evidence γ' Γ' ll' := by
      by_contra h
      have := le_antisymm (not_lt.1 h) n2
      rw [this, mul_zero] at v2
      exact absurd hpos (not_lt.2 v2)
    rw [ffbs_event hγ hΓ ll lb hpos, ffbs_event hγ' hΓ' ll' lb' hpos',
      ← ENNReal.ofReal_mul (mul_pos hr0 hr0).le]
    refine ENNReal.ofReal_le_ofReal ?_
    have hE : ∑ s with some (List.ofFn s) ∈ E, weight γ' Γ' ll' s ≤
        r * ∑ s with some (List.ofFn s) ∈ E, weight γ Γ ll s := by
      rw [Finset.mul_sum]
      exact Finset.sum_le_sum fun s _ => w1 s
    have hE0 : 0 ≤ ∑ s with some (List.ofFn s) ∈ E, weight γ Γ ll s :=
      Finset.sum_nonneg fun s _ => weight_nonneg hγ hΓ ll s
    rw [← mul_div_assoc, div_le_div_iff₀ hpos' hpos]
    calc _ ≤ (r * ∑ s with some (List.ofFn s) ∈ E, weight γ Γ ll s) * evidence γ Γ ll :=
          mul_le_mul_of_nonneg_right hE hpos.le
      _ ≤ (r * ∑ s with some (List.ofFn s) ∈ E, weight γ Γ ll s) * (r * evidence γ' Γ' ll') :=
          mul_le_mul_of_nonneg_left v2 (mul_nonneg hr0.le hE0)
      _ = _ := by ring

/-- Two states, one of them impossible at the time point; every input is changed. -/
example : ∃ (γ γ' : Fin 2 → ℝ) (G G' : Matrix (Fin 2) (Fin 2) ℝ) (l l' : Fin 2 → WithBot ℝ),
    (∀ k, γ' k ≤ Real.exp 1 * γ k ∧ γ k ≤ Real.exp 1 * γ' k) ∧
    (∀ i j, G' i j ≤ Real.exp 1 * G i j ∧ G i j ≤ Real.exp 1 * G' i j) ∧ (∀ k, Within 1 (l k) (l' k)) ∧
    (∀ k, 0 ≤ γ k) ∧ (∀ k, 0 ≤ γ' k) ∧ (∀ i j, 0 ≤ G i j) ∧ (∀ i j, 0 ≤ G' i j) ∧
    γ ≠ γ' ∧ G ≠ G' ∧ l ≠ l' ∧ l 0 = ⊥ := by
  have he : (2 : ℝ) ≤ Real.exp 1 := by linarith [Real.add_one_le_exp 1]
  refine ⟨![1, 2], ![2, 2], !![1, 1; 0, 1], !![1, 2; 0, 1], ![⊥, ((0 : ℝ) : WithBot ℝ)],
    ![⊥, ((1 : ℝ) : WithBot ℝ)], ?_, ?_, ?_, ?_, ?_, ?_, ?_, ?_, ?_, ?_, rfl⟩
  · intro k; fin_cases k <;> (norm_num; try (constructor; all_goals linarith))
  · intro i j; fin_cases i <;> fin_cases j <;> (norm_num; try (constructor; all_goals linarith))
  · intro k
    fin_cases k
    · exact .inl ⟨rfl, rfl⟩
    · exact .inr ⟨0, 1, rfl, rfl, by norm_num⟩
  · intro k; fin_cases k <;> simp
  · intro k; fin_cases k <;> simp
  · intro i j; fin_cases i <;> fin_cases j <;> simp
  · intro i j; fin_cases i <;> fin_cases j <;> simp
  · intro h; have := congrFun h 0; norm_num at this
  · intro h; have := congrFun (congrFun h 0) 1; norm_num at this
  · intro h
    have h' : ((0 : ℝ) : WithBot ℝ) = ((1 : ℝ) : WithBot ℝ) := congrFun h 1
    norm_num at h'

/-! ## Better evidence for a state -/

theorem weight_update {γ : Fin M → ℝ} {Γ : Fin (N + 1) → Matrix (Fin M) (Fin M) ℝ}
    {ll : Fin (N + 1) → Fin M → WithBot ℝ} {t : Fin (N + 1)} {k : Fin M}
    {ll' : Fin (N + 1) → Fin M → WithBot ℝ} (h : ∀ u j, (u, j) ≠ (t, k) → ll' u j = ll u j)
    {s : Fin (N + 1) → Fin M} (hs : s t ≠ k) : weight γ Γ ll' s = weight γ Γ ll s := by
  unfold weight
  refine Finset.sum_congr rfl fun s₀ _ => ?_
  congr 1
  refine Finset.prod_congr rfl fun u _ => ?_
  rw [h u (s u) fun e => hs ((congrArg s (Prod.mk.inj e).1).symm.trans (Prod.mk.inj e).2)]

theorem weight_update' {γ : Fin M → ℝ} {Γ : Fin (N + 1) → Matrix (Fin M) (Fin M) ℝ}
    {ll : Fin (N + 1) → Fin M → WithBot ℝ} {t : Fin (N + 1)} {k : Fin M} {r : ℝ}
    {ll' : Fin (N + 1) → Fin M → WithBot ℝ} (h : ∀ u j, (u, j) ≠ (t, k) → ll' u j = ll u j)
    (hr : lik (ll' t k) = r * lik (ll t k)) {s : Fin (N + 1) → Fin M} (hs : s t = k) :
    weight γ Γ ll' s = r * weight γ Γ ll s := by
  unfold weight
  rw [Finset.mul_sum]
  refine Finset.sum_congr rfl fun s₀ _ => ?_
  rw [mul_left_comm]
  congr 1
  rw [← Finset.mul_prod_erase _ _ (Finset.mem_univ t), ← Finset.mul_prod_erase _ _ (Finset.mem_univ t),
    hs, hr, ← mul_assoc r]
  congr 1
  · ring
  · refine Finset.prod_congr rfl fun u hu => ?_
    rw [h u (s u) fun e => (Finset.mem_erase.1 hu).1 (Prod.mk.inj e).1]

theorem ratio_le {w k c r : ℝ} (hw : 0 ≤ w) (hc : 0 ≤ c) (hk : 0 ≤ k) (hr : 1 ≤ r)
    (h : 0 < k + c) : w / (k + c) ≤ r * w / (r * k + c) := by
  have h' : 0 < r * k + c := by nlinarith
  rw [div_le_div_iff₀ h h']
  nlinarith [mul_nonneg hw hc, mul_nonneg hw hk, mul_nonneg (mul_nonneg hw hc) (sub_nonneg.2 hr)]

open Classical in
/-- **C81, better evidence for a state.** Raising the log-likelihood of state `k` at time point `t` and
leaving everything else alone never lowers the probability of a set of sequences that are all in state
`k` at time `t`, and never raises the probability of a set of sequences none of which is. -/
theorem C81_ffbs_monotone {γ : Fin M → ℝ} (hγ : ∀ k, 0 ≤ γ k)
    {Γ : Fin (N + 1) → Matrix (Fin M) (Fin M) ℝ} (hΓ : ∀ t i j, 0 ≤ Γ t i j)
    {ll ll' : Fin (N + 1) → Fin M → WithBot ℝ} {t : Fin (N + 1)} {k : Fin M}
    (h : ∀ u j, (u, j) ≠ (t, k) → ll' u j = ll u j) (hle : ll t k ≤ ll' t k) (lb lb' : ℝ)
    (A : Set (List (Fin M))) :
    ((∀ l ∈ A, l[(t : ℕ)]? = some k) →
      (ffbsStep γ (List.ofFn Γ) (List.ofFn ll) lb).toOuterMeasure (some '' A) ≤
        (ffbsStep γ (List.ofFn Γ) (List.ofFn ll') lb').toOuterMeasure (some '' A)) ∧
    ((∀ l ∈ A, l[(t : ℕ)]? ≠ some k) →
      (ffbsStep γ (List.ofFn Γ) (List.ofFn ll') lb').toOuterMeasure (some '' A) ≤
        (ffbsStep γ (List.ofFn Γ) (List.ofFn ll) lb).toOuterMeasure (some '' A)) := by
  have hget : ∀ s : Fin (N + 1) → Fin M, (List.ofFn s)[(t : ℕ)]? = some (s t) := fun s => by
    rw [List.getElem?_eq_getElem (by rw [List.length_ofFn]; exact t.2), List.getElem_ofFn]
  have hmem : ∀ s : Fin (N + 1) → Fin M, some (List.ofFn s) ∈ some '' A ↔ List.ofFn s ∈ A := fun s =>
    ⟨fun ⟨l, hl, e⟩ => Option.some.inj e ▸ hl, fun hs => ⟨_, hs, rfl⟩⟩
  have hpure : ∀ γ' : PMF (Option (List (Fin M))), γ' = PMF.pure none →
      γ'.toOuterMeasure (some '' A) = 0 := by
    rintro _ rfl
    rw [PMF.toOuterMeasure_pure_apply, if_neg (by simp)]
  set K := ∑ s : Fin (N + 1) → Fin M with s t = k, weight γ Γ ll s with hK
  set K' := ∑ s : Fin (N + 1) → Fin M with s t = k, weight γ Γ ll' s with hK'
  set C := ∑ s : Fin (N + 1) → Fin M with ¬ s t = k, weight γ Γ ll s with hC
  have hC' : ∑ s : Fin (N + 1) → Fin M with ¬ s t = k, weight γ Γ ll' s = C :=
    Finset.sum_congr rfl fun s hs => weight_update h (Finset.mem_filter.1 hs).2
  have ev : evidence γ Γ ll = K + C := (Finset.sum_filter_add_sum_filter_not _ _ _).symm
  have ev' : evidence γ Γ ll' = K' + C := by
    rw [← hC']
    exact (Finset.sum_filter_add_sum_filter_not _ _ _).symm
  have hK0 : 0 ≤ K := Finset.sum_nonneg fun s _ => weight_nonneg hγ hΓ ll s
  have hC0 : 0 ≤ C := Finset.sum_nonneg fun s _ => weight_nonneg hγ hΓ ll s
  have hKK : K ≤ K' := by
    refine Finset.sum_le_sum fun s hs => ?_
    cases hx : ll t k with
    | bot =>
      rw [weight_update' (ll' := ll) (ll := ll') (r := 0) (fun u j e => (h u j e).symm)
        (by rw [hx]; simp [lik]) (Finset.mem_filter.1 hs).2, zero_mul]
      exact weight_nonneg hγ hΓ _ s
    | coe x =>
      rw [hx] at hle
      obtain ⟨y, hy, hxy⟩ := WithBot.coe_le_iff.1 hle
      rw [weight_update' (ll' := ll') (ll := ll) (r := Real.exp (y - x)) h
        (by rw [hx, hy]; simp [lik, ← Real.exp_add]) (Finset.mem_filter.1 hs).2]
      exact le_mul_of_one_le_left (weight_nonneg hγ hΓ _ s) (Real.one_le_exp (sub_nonneg.2 hxy))
  refine ⟨fun hA => ?_, fun hA => ?_⟩
  · rcases (evidence_nonneg ll hγ hΓ).eq_or_lt with h0 | hpos
    · rw [hpure _ ((ffbs_law hγ hΓ ll lb).1 h0.symm)]
      exact zero_le
    have hpos' : 0 < evidence γ Γ ll' := by rw [ev]at hpos; rw [ev']; linarith
    rw [ffbs_event hγ hΓ ll lb hpos, ffbs_event hγ hΓ ll' lb' hpos']
    refine ENNReal.ofReal_le_ofReal ?_
    have hst : ∀ s : Fin (N + 1) → Fin M, some (List.ofFn s) ∈ some '' A → s t = k := fun s hs =>
      Option.some.inj ((hget s).symm.trans (hA _ ((hmem s).1 hs)))
    cases hx : ll t k with
    | bot =>
      rw [Finset.sum_eq_zero, zero_div]
      · exact div_nonneg (Finset.sum_nonneg fun s _ => weight_nonneg hγ hΓ ll' s) hpos'.le
      · intro s hs
        rw [weight_update' (ll' := ll) (ll := ll') (r := 0) (fun u j e => (h u j e).symm)
          (by rw [hx]; simp [lik]) (hst s (Finset.mem_filter.1 hs).2), zero_mul]
    | coe x =>
      rw [hx] at hle
      obtain ⟨y, hy, hxy⟩ := WithBot.coe_le_iff.1 hle
      have hw : ∀ s : Fin (N + 1) → Fin M, s t = k →
          weight γ Γ ll' s = Real.exp (y - x) * weight γ Γ ll s := fun s hs =>
        weight_update' h (by rw [hx, hy]; simp [lik, ← Real.exp_add]) hs
      have e1 : K' = Real.exp (y - x) * K := by
        rw [hK', hK, Finset.mul_sum]
        exact Finset.sum_congr rfl fun s hs => hw s (Finset.mem_filter.1 hs).2
      rw [Finset.sum_congr rfl fun s hs => hw s (hst s (Finset.mem_filter.1 hs).2), ← Finset.mul_sum,
        ev, ev', e1]
      exact ratio_le (Finset.sum_nonneg fun s _ => weight_nonneg hγ hΓ ll s) hC0 hK0
        (Real.one_le_exp (sub_nonneg.2 hxy)) (ev ▸ hpos)
  · have hst : ∀ s : Fin (N + 1) → Fin M, some (List.ofFn s) ∈ some '' A → s t ≠ k := fun s hs e =>
      hA _ ((hmem s).1 hs) ((hget s).trans (by rw [e]))
    rcases (evidence_nonneg ll' hγ hΓ).eq_or_lt with h0 | hpos'
    · rw [hpure _ ((ffbs_law hγ hΓ ll' lb').1 h0.symm)]
      exact zero_le
    rw [ffbs_event hγ hΓ ll' lb' hpos',
      Finset.sum_congr rfl fun s hs => weight_update h (hst s (Finset.mem_filter.1 hs).2)]
    have hnn : 0 ≤ ∑ s with some (List.ofFn s) ∈ some '' A, weight γ Γ ll s :=
      Finset.sum_nonneg fun s _ => weight_nonneg hγ hΓ ll s
    rcases (evidence_nonneg ll hγ hΓ).eq_or_lt with h0 | hpos
    · rw [Finset.sum_eq_zero, zero_div, ENNReal.ofReal_zero]
      · exact zero_le
      · intro s _
        exact (Finset.sum_eq_zero_iff_of_nonneg fun s _ => weight_nonneg hγ hΓ ll s).1 h0.symm s
          (Finset.mem_univ s)
    · rw [ffbs_event hγ hΓ ll lb hpos]
      refine ENNReal.ofReal_le_ofReal (div_le_div_of_nonneg_left hnn hpos ?_)
      rw [ev, ev']
      linarith

/-- The log-likelihood of the second state at the second of two time points rises from `-∞` to `1`. -/
example : ∃ ll ll' : Fin 2 → Fin 2 → WithBot ℝ, (∀ u j, (u, j) ≠ ((1 : Fin 2), (1 : Fin 2)) → ll' u j = ll u j) ∧
    ll 1 1 < ll' 1 1 ∧ ll 0 0 = ⊥ := by
  refine ⟨fun u j => if u = j then ⊥ else ((0 : ℝ) : WithBot ℝ),
    fun u j => if u = j then (if u = 1 then ((1 : ℝ) : WithBot ℝ) else ⊥) else ((0 : ℝ) : WithBot ℝ), ?_, ?_, ?_⟩
  · intro u j h
    fin_cases u <;> fin_cases j <;> simp_all
  · simp
  · simp

/-! ## A known state -/

/-- Spec.  Two parts of a sequence, drawn one after the other, put together; nothing when one of them has
no meaningful draw. -/
def joined : Option (List (Fin M)) → Option (List (Fin M)) → Option (List (Fin M))
  | some u, some v => some (u ++ v)
  | _, _ => none

/-- **C81, a known state.** The data consist of two stretches, and at the last time point of the first
stretch only state `k` is possible.  Then the two stretches are drawn independently of each other: the
first as if the second did not exist (the transition weights of the second stretch play no part), the
second as a sequence of its own that starts from state `k`. -/
theorem C81_ffbs_known_state {γ : Fin M → ℝ} (hγ : ∀ k, 0 ≤ γ k)
    {Γ₁ : Fin (N + 1) → Matrix (Fin M) (Fin M) ℝ} (hΓ₁ : ∀ t i j, 0 ≤ Γ₁ t i j)
    {Γ₂ : Fin (N' + 1) → Matrix (Fin M) (Fin M) ℝ} (hΓ₂ : ∀ t i j, 0 ≤ Γ₂ t i j)
    {l₁ : Fin (N + 1) → Fin M → WithBot ℝ} (l₂ : Fin (N' + 1) → Fin M → WithBot ℝ) {k : Fin M}
    (hk : ∀ j, j ≠ k → l₁ (Fin.last N) j = ⊥) (lb lb₁ lb₂ : ℝ) :
    ffbsStep γ (List.ofFn Γ₁ ++ List.ofFn Γ₂) (List.ofFn l₁ ++ List.ofFn l₂) lb =
      (ffbsStep γ (List.ofFn Γ₁) (List.ofFn l₁) lb₁).bind fun u =>
        (ffbsStep (Pi.single k 1) (List.ofFn Γ₂) (List.ofFn l₂) lb₂).map fun v => joined u v := by
  have hδ : ∀ j, 0 ≤ (Pi.single k 1 : Fin M → ℝ) j := fun j => by
    by_cases h : j = k
    · subst h; simp
    · simp [h]
  have hΓ : ∀ (t : Fin (N + 1 + (N' + 1))) (i j : Fin M), 0 ≤ Fin.append Γ₁ Γ₂ t i j := fun t i j => by
    refine Fin.addCases (motive := fun t => 0 ≤ Fin.append Γ₁ Γ₂ t i j) (fun t => ?_) (fun t => ?_) t
    · rw [Fin.append_left]; exact hΓ₁ _ _ _
    · rw [Fin.append_right]; exact hΓ₂ _ _ _
  have hw : ∀ (s₁ : Fin (N + 1) → Fin M) (s₂ : Fin (N' + 1) → Fin M),
      weight γ (Fin.append Γ₁ Γ₂) (Fin.append l₁ l₂) (Fin.append s₁ s₂) =
        weight γ Γ₁ l₁ s₁ * weight (Pi.single k 1) Γ₂ l₂ s₂ := fun s₁ s₂ => by
    rw [weight_append]
    by_cases h : s₁ (Fin.last N) = k
    · rw [h]
    · have : weight γ Γ₁ l₁ s₁ = 0 := by
        unfold weight
        refine Finset.sum_eq_zero fun s₀ _ => ?_
        rw [Finset.prod_eq_zero (Finset.mem_univ (Fin.last N)), mul_zero]
        rw [hk _ h]
        simp [lik]
      rw [this, zero_mul, zero_mul]
  rw [← List.ofFn_fin_append, ← List.ofFn_fin_append]
  exact ffbs_pair (N := N + 1 + N') hγ hγ hδ hΓ hΓ₁ hΓ₂
    (Fin.append l₁ l₂ : Fin (N + 1 + (N' + 1)) → Fin M → WithBot ℝ) l₁ l₂ lb lb₁ lb₂
    (Fin.appendEquiv (N + 1) (N' + 1)) joined (fun s₁ s₂ => congrArg some (List.ofFn_fin_append s₁ s₂).symm)
    (fun o => by cases o <;> rfl) (fun o => by cases o <;> rfl) hw

/-- The second of four hidden states is known; the chain has a transition that cannot occur. -/
example : ∃ (G : Matrix (Fin 2) (Fin 2) ℝ) (l₁ : Fin 2 → Fin 2 → WithBot ℝ),
    (∀ i j, 0 ≤ G i j) ∧ (∀ j, j ≠ 1 → l₁ (Fin.last 1) j = ⊥) ∧
      0 < evidence ![1, 2] (fun _ : Fin 2 => G) l₁ ∧ G 1 0 = 0 := by
  refine ⟨!![1, 1; 0, 1], ![![((0 : ℝ) : WithBot ℝ), ((1 : ℝ) : WithBot ℝ)], ![⊥, ((0 : ℝ) : WithBot ℝ)]],
    ?_, ?_, ?_, rfl⟩
  · intro i j; fin_cases i <;> fin_cases j <;> simp
  · intro j hj; fin_cases j
    · rfl
    · exact absurd rfl hj
  · refine lt_of_lt_of_le ?_ (Finset.single_le_sum (fun s _ => weight_nonneg
      (by intro k; fin_cases k <;> simp) (by intro t i j; fin_cases i <;> fin_cases j <;> simp) _ s)
      (Finset.mem_univ ![0, 1]))
    simp [weight, lik, Fin.sum_univ_two, Fin.prod_univ_two]

end Verif.FFBS
