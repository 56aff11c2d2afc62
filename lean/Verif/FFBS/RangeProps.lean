import Verif.FFBS.Props
import Mathlib.Analysis.Complex.ExponentialBounds

/-!
# C85: the size of the weights of the forward pass
-/

open Matrix

namespace Verif.FFBS

variable {M : ℕ}

/-- Spec.  One time point of a hidden Markov model: log-likelihoods and transition probabilities (rows add
up to one) for which, from every state, the observation is not less likely than `lb` times what it would be
in the state that explains it best. -/
structure Plausible (lb : ℝ) (p : (Fin M → WithBot ℝ) × Matrix (Fin M) (Fin M) ℝ) : Prop where
  nonneg : ∀ i j, 0 ≤ p.2 i j
  rows : ∀ i, ∑ j, p.2 i j = 1
  enough : ∀ i k, lb * lik (p.1 k) ≤ ∑ j, p.2 i j * lik (p.1 j)

/-- The scaled likelihoods: those of the model divided by the largest of them. -/
theorem likN_spec {ll : Fin M → WithBot ℝ} {l : Fin M → ℝ} (h : likN ll = some l) :
    ∃ k₀, 0 < lik (ll k₀) ∧ (∀ k, lik (ll k) ≤ lik (ll k₀)) ∧ ∀ k, l k * lik (ll k₀) = lik (ll k) := by
  unfold likN at h
  split at h
  · simp at h
  · rename_i hne
    have hM : (Finset.univ : Finset (Fin M)).Nonempty := by
      by_contra hM
      rw [Finset.not_nonempty_iff_eq_empty] at hM
      rw [hM, Finset.sup_empty] at hne
      exact hne rfl
    obtain ⟨k₀, -, hk₀⟩ := Finset.exists_mem_eq_sup _ hM ll
    obtain ⟨m, hm⟩ := WithBot.ne_bot_iff_exists.1 hne
    have hk : ll k₀ = (m : WithBot ℝ) := by rw [← hk₀, hm]
    have hu : (Finset.univ.sup ll).unbot hne = m := by
      rw [WithBot.unbot_eq_iff]
      exact hm.symm
    have hl : lik (ll k₀) = Real.exp m := by rw [hk]; rfl
    simp only [Option.some.injEq] at h
    subst h
    refine ⟨k₀, by rw [hl]; exact Real.exp_pos m, fun k => ?_, fun k => ?_⟩
    · rw [hl]
      have : ll k ≤ (m : WithBot ℝ) := hm ▸ Finset.le_sup (f := ll) (Finset.mem_univ k)
      revert this
      induction ll k with
      | bot => intro _; exact (Real.exp_pos m).le
      | coe x => intro hx; exact Real.exp_le_exp.2 (WithBot.coe_le_coe.1 hx)
    · rw [hl]
      simp only [hu, expShift_eq]
      rw [mul_right_comm, ← Real.exp_add, neg_add_cancel, Real.exp_zero, one_mul]

/-- One step of the forward pass keeps the range. -/
theorem forwardStep_range {lb : ℝ} (h0 : 0 < lb) {p : (Fin M → WithBot ℝ) × Matrix (Fin M) (Fin M) ℝ}
    (hp : Plausible lb p) {a a' : Fin M → ℝ} (ha : ∀ k, 0 ≤ a k) (h1 : lb ≤ ∑ k, a k) (h2 : ∑ k, a k ≤ 1)
    (h : forwardStep lb p.1 p.2 a = some a') : (∀ k, 0 ≤ a' k) ∧ lb ≤ ∑ k, a' k ∧ ∑ k, a' k ≤ 1 := by
  unfold forwardStep at h
  cases hl : likN p.1 with
  | none => simp [hl] at h
  | some l =>
    obtain ⟨k₀, hk0, hmax, hl'⟩ := likN_spec hl
    have hlnn : ∀ k, 0 ≤ l k := fun k => by
      have := lik_nonneg (p.1 k)
      rw [← hl' k] at this
      exact nonneg_of_mul_nonneg_left this hk0
    have hl1 : ∀ k, l k ≤ 1 := fun k => by
      have := hmax k
      rw [← hl' k] at this
      exact le_of_mul_le_mul_right (by rwa [one_mul]) hk0
    have hrow : ∀ i, lb ≤ ∑ k, p.2 i k * l k := fun i => by
      have h := hp.enough i k₀
      have e : ∑ j, p.2 i j * lik (p.1 j) = (∑ k, p.2 i k * l k) * lik (p.1 k₀) := by
        rw [Finset.sum_mul]
        exact Finset.sum_congr rfl fun j _ => by rw [mul_assoc, hl' j]
      rw [e] at h
      exact le_of_mul_le_mul_right h hk0
    have hsum : ∑ k, (a ᵥ* p.2) k * l k = ∑ i, a i * ∑ k, p.2 i k * l k := by
      simp only [vecMul, dotProduct, Finset.sum_mul, Finset.mul_sum]
      rw [Finset.sum_comm]
      exact Finset.sum_congr rfl fun i _ => Finset.sum_congr rfl fun k _ => by ring
    have hnn : ∀ k, 0 ≤ (a ᵥ* p.2) k * l k := fun k =>
      mul_nonneg (by
        simp only [vecMul, dotProduct]
        exact Finset.sum_nonneg fun i _ => mul_nonneg (ha i) (hp.nonneg i k)) (hlnn k)
    have hlow : lb * ∑ i, a i ≤ ∑ k, (a ᵥ* p.2) k * l k := by
      rw [hsum, Finset.mul_sum]
      exact Finset.sum_le_sum fun i _ => by
        rw [mul_comm]
        exact mul_le_mul_of_nonneg_left (hrow i) (ha i)
    have hup : ∑ k, (a ᵥ* p.2) k * l k ≤ ∑ i, a i := by
      rw [hsum]
      refine Finset.sum_le_sum fun i _ => mul_le_of_le_one_right (ha i) ?_
      rw [← hp.rows i]
      exact Finset.sum_le_sum fun k _ => mul_le_of_le_one_right (hp.nonneg i k) (hl1 k)
    rw [hl] at h
    simp only [Option.map_some, Option.some.injEq] at h
    split at h
    · rename_i hlt
      subst h
      refine ⟨fun k => div_nonneg (hnn k) h0.le, ?_, ?_⟩
      · rw [← Finset.sum_div, le_div_iff₀ h0]
        nlinarith
      · rw [← Finset.sum_div, div_le_one h0]
        exact hlt.le
    · rename_i hge
      subst h
      exact ⟨hnn, not_lt.1 hge, hup.trans h2⟩

theorem forwardPass_range {lb : ℝ} (h0 : 0 < lb) :
    ∀ {data : List ((Fin M → WithBot ℝ) × Matrix (Fin M) (Fin M) ℝ)} (_ : ∀ p ∈ data, Plausible lb p)
      {a : Fin M → ℝ} (_ : ∀ k, 0 ≤ a k) (_ : lb ≤ ∑ k, a k) (_ : ∑ k, a k ≤ 1) {alphas : List (Fin M → ℝ)},
      forwardPass lb a data = some alphas →
        ∀ a' ∈ alphas, (∀ k, 0 ≤ a' k) ∧ lb ≤ ∑ k, a' k ∧ ∑ k, a' k ≤ 1
  | [], _, a, _, _, _, alphas, h => by
    simp only [forwardPass, Option.some.injEq] at h
    subst h
    simp
  | p :: data, hp, a, ha, h1, h2, alphas, h => by
    unfold forwardPass at h
    cases hs : forwardStep lb p.1 p.2 a with
    | none => simp [hs] at h
    | some a₁ =>
      obtain ⟨r1, r2, r3⟩ := forwardStep_range h0 (hp p (by simp)) ha h1 h2 hs
      rw [hs, Option.bind_some] at h
      cases hf : forwardPass lb a₁ data with
      | none => simp [hf] at h
      | some as =>
        rw [hf] at h
        simp only [Option.map_some, Option.some.injEq] at h
        subst h
        intro a' ha'
        rcases List.mem_cons.1 ha' with rfl | ha'
        · exact ⟨r1, r2, r3⟩
        · exact forwardPass_range h0 (fun q hq => hp q (by simp [hq])) r1 r2 r3 hf a' ha'

/-- **C85 (partial).** However long the sequence is: when from every state every observation is at least
`lower_prec_bound` times as likely as in the state that explains it best, all forward weights are
nonnegative and the sum of those at one time point, by which the code divides, stays between
`lower_prec_bound` and one.  Missing for the full property: data without this condition, for which the
weights can become as small as one likes (`C85_underflow_violated`). -/
theorem C85_forward_range_partial {lb : ℝ} (h0 : 0 < lb) (hlb : lb ≤ 1) {γ : Fin M → ℝ} (hγ : ∀ k, 0 ≤ γ k)
    (hγ' : 0 < ∑ k, γ k) {data : List ((Fin M → WithBot ℝ) × Matrix (Fin M) (Fin M) ℝ)}
    (hp : ∀ p ∈ data, Plausible lb p) {alphas : List (Fin M → ℝ)}
    (h : forwardPass lb (fun k => γ k / ∑ i, γ i) data = some alphas) :
    ∀ a ∈ alphas, (∀ k, 0 ≤ a k) ∧ lb ≤ ∑ k, a k ∧ ∑ k, a k ≤ 1 := by
  have h1 : ∑ k, γ k / ∑ i, γ i = 1 := by rw [← Finset.sum_div, div_self hγ'.ne']
  exact forwardPass_range h0 hp (fun k => div_nonneg (hγ k) hγ'.le) (by rw [h1]; exact hlb) h1.le h

/-- Two states that always alternate, with likelihoods that differ by a factor of `e ^ 40`. -/
example : Plausible 1e-20 (![((0 : ℝ) : WithBot ℝ), ((40 : ℝ) : WithBot ℝ)], (!![0, 1; 1, 0] : Matrix (Fin 2) (Fin 2) ℝ)) := by
  have he : Real.exp 40 ≤ 1e20 := by
    have h1 : Real.exp 40 = Real.exp 1 ^ 40 := by rw [← Real.exp_nat_mul]; norm_num
    rw [h1]
    refine (pow_le_pow_left₀ (Real.exp_pos 1).le Real.exp_one_lt_three.le 40).trans (by norm_num)
  have h1 : 1 ≤ Real.exp 40 := Real.one_le_exp (by norm_num)
  refine ⟨?_, ?_, ?_⟩
  · intro i j; fin_cases i <;> fin_cases j <;> simp
  · intro i; fin_cases i <;> simp [Fin.sum_univ_two]
  · intro i k
    fin_cases i <;> fin_cases k <;> simp [Fin.sum_univ_two, lik] <;> norm_num at he ⊢ <;> linarith

/-- **C85, backward draws (partial).** When all transition probabilities are at least `ε`, which is not less
than `lower_prec_bound`, the condition of `C85_forward_range_partial` holds for any observations, and the
sums by which the backward pass divides are at least `ε` times `lower_prec_bound`. -/
theorem C85_backward_range_partial {lb ε : ℝ} (h0 : 0 < lb) (hlb : lb ≤ 1) (hε : lb ≤ ε) {γ : Fin M → ℝ}
    (hγ : ∀ k, 0 ≤ γ k) (hγ' : 0 < ∑ k, γ k)
    {data : List ((Fin M → WithBot ℝ) × Matrix (Fin M) (Fin M) ℝ)}
    (hG : ∀ p ∈ data, (∀ i j, ε ≤ p.2 i j) ∧ ∀ i, ∑ j, p.2 i j = 1) {alphas : List (Fin M → ℝ)}
    (h : forwardPass lb (fun k => γ k / ∑ i, γ i) data = some alphas) :
    (∀ a ∈ alphas, lb ≤ ∑ k, a k ∧ ∑ k, a k ≤ 1) ∧
      ∀ a ∈ alphas, ∀ p ∈ data, ∀ k, ε * lb ≤ ∑ j, a j * p.2 j k := by
  have hp : ∀ p ∈ data, Plausible lb p := fun p hp => by
    obtain ⟨g1, g2⟩ := hG p hp
    refine ⟨fun i j => (h0.le.trans hε).trans (g1 i j), g2, fun i k => ?_⟩
    refine le_trans ?_ (Finset.single_le_sum (f := fun j => p.2 i j * lik (p.1 j))
      (fun j _ => mul_nonneg ((h0.le.trans hε).trans (g1 i j)) (lik_nonneg _)) (Finset.mem_univ k))
    exact mul_le_mul_of_nonneg_right (hε.trans (g1 i k)) (lik_nonneg _)
  have hr := C85_forward_range_partial h0 hlb hγ hγ' hp h
  refine ⟨fun a ha => (hr a ha).2, fun a ha p hpm k => ?_⟩
  obtain ⟨a1, a2, -⟩ := hr a ha
  calc ε * lb ≤ ε * ∑ j, a j := mul_le_mul_of_nonneg_left a2 (h0.le.trans hε)
    _ = ∑ j, a j * ε := by rw [mul_comm, Finset.sum_mul]
    _ ≤ _ := Finset.sum_le_sum fun j _ => mul_le_mul_of_nonneg_left ((hG p hpm).1 j k) (a1 j)

/-- A chain of two states with any log-likelihoods, at any number of time points. -/
example (N : ℕ) (ll : Fin N → Fin 2 → WithBot ℝ) {alphas : List (Fin 2 → ℝ)}
    (h : forwardPass 1e-20 (fun k => (![1, 3] : Fin 2 → ℝ) k / ∑ i, ![1, 3] i)
      (List.ofFn fun t => (ll t, !![0.9, 0.1; 0.2, 0.8])) = some alphas) :
    ∀ a ∈ alphas, 1e-20 ≤ ∑ k, a k ∧ ∑ k, a k ≤ 1 := by
  refine (C85_backward_range_partial (ε := 0.1) (by norm_num) (by norm_num) (by norm_num)
    (by intro k; fin_cases k <;> simp) (by simp [Fin.sum_univ_two]; norm_num) (fun p hp => ?_) h).1
  obtain ⟨t, rfl⟩ := (List.mem_ofFn' _ _).1 hp
  constructor
  · intro i j
    fin_cases i <;> fin_cases j <;> norm_num
  · intro i
    fin_cases i <;> norm_num [Fin.sum_univ_two]

/-- The forward pass for a chain whose states never change, started in the first of two, with observations
that the second explains better. -/
theorem forwardPass_fixed {lb c : ℝ} (h0 : 0 < lb) (hc : 0 ≤ c) (hlt : Real.exp (-c) < lb) :
    ∀ (N : ℕ) {s : ℝ} (_ : 0 ≤ s) (_ : s ≤ 1),
      forwardPass lb ![s, 0] (List.replicate N (![((0 : ℝ) : WithBot ℝ), (c : WithBot ℝ)],
        (1 : Matrix (Fin 2) (Fin 2) ℝ))) =
        some ((List.range N).map fun n => ![s * (Real.exp (-c) / lb) ^ (n + 1), 0]) := by
  have hsup : Finset.univ.sup ![((0 : ℝ) : WithBot ℝ), (c : WithBot ℝ)] = (c : WithBot ℝ) := by
    rw [show (Finset.univ : Finset (Fin 2)) = {0, 1} from rfl, Finset.sup_insert, Finset.sup_singleton]
    exact sup_eq_right.2 (WithBot.coe_le_coe.2 hc)
  have hlik : likN ![((0 : ℝ) : WithBot ℝ), (c : WithBot ℝ)] = some ![Real.exp (-c), 1] := by
    unfold likN
    rw [dif_neg (by rw [hsup]; exact WithBot.coe_ne_bot)]
    congr 1
    funext k
    simp only [hsup, WithBot.unbot_coe]
    fin_cases k
    · simp [expShift]
    · simp [expShift]
  intro N
  induction N with
  | zero => intro s _ _; rfl
  | succ N ih =>
    intro s hs hs1
    have hstep : forwardStep lb ![((0 : ℝ) : WithBot ℝ), (c : WithBot ℝ)] (1 : Matrix (Fin 2) (Fin 2) ℝ)
        ![s, 0] = some ![s * (Real.exp (-c) / lb), 0] := by
      unfold forwardStep
      rw [hlik]
      simp only [Option.map_some, vecMul_one, Fin.sum_univ_two]
      rw [if_pos]
      · congr 1
        funext k
        fin_cases k
        · simp [mul_div_assoc]
        · simp
      · simp only [cons_val_zero, cons_val_one, zero_mul, add_zero]
        exact lt_of_le_of_lt (mul_le_of_le_one_left (Real.exp_pos _).le hs1) hlt
    have hr1 : Real.exp (-c) / lb ≤ 1 := (div_le_one h0).2 hlt.le
    have hr0 : 0 ≤ Real.exp (-c) / lb := div_nonneg (Real.exp_pos _).le h0.le
    rw [List.replicate_succ, forwardPass, hstep, Option.bind_some,
      ih (mul_nonneg hs hr0) (mul_le_one₀ hs1 hr0 hr1), Option.map_some, List.range_succ_eq_map, List.map_cons,
      zero_add, pow_one, List.map_map]
    congr 2
    refine List.map_congr_left fun n _ => ?_
    simp only [Function.comp, Nat.succ_eq_add_one]
    rw [pow_succ' _ (n + 1), mul_assoc]

/-- **C85 is violated**: whatever the precision bound, the forward weights become as small as one likes, in
floating point zero, for data that a hidden Markov model can produce: the hidden state is known to be the
first at the beginning and never changes, and each observation looks more like the second state. -/
theorem C85_underflow_violated {lb η : ℝ} (h0 : 0 < lb) (hlb : lb ≤ 1) (hη : 0 < η) :
    ∃ (N : ℕ) (c : ℝ) (alphas : List (Fin 2 → ℝ)) (a : Fin 2 → ℝ),
      0 < evidence ![1, 0] (fun _ : Fin (N + 1) => (1 : Matrix (Fin 2) (Fin 2) ℝ))
          (fun _ => ![((0 : ℝ) : WithBot ℝ), (c : WithBot ℝ)]) ∧
        forwardPass lb (fun k => (![1, 0] : Fin 2 → ℝ) k / ∑ i, ![1, 0] i)
          ((List.ofFn fun _ : Fin (N + 1) => ![((0 : ℝ) : WithBot ℝ), (c : WithBot ℝ)]).zip
            (List.ofFn fun _ : Fin (N + 1) => (1 : Matrix (Fin 2) (Fin 2) ℝ))) = some alphas ∧
        alphas[N]? = some a ∧ 0 < ∑ k, a k ∧ ∑ k, a k < η := by
  obtain ⟨c, hc, hlt⟩ : ∃ c : ℝ, 0 ≤ c ∧ Real.exp (-c) < lb := by
    refine ⟨1 - Real.log lb, by have := Real.log_nonpos h0.le hlb; linarith, ?_⟩
    rw [← Real.lt_log_iff_exp_lt h0]
    linarith
  have hr0 : 0 < Real.exp (-c) / lb := div_pos (Real.exp_pos _) h0
  have hr1 : Real.exp (-c) / lb < 1 := (div_lt_one h0).2 hlt
  obtain ⟨N, hN⟩ := exists_pow_lt_of_lt_one hη hr1
  have hstart : (fun k => (![1, 0] : Fin 2 → ℝ) k / ∑ i, ![1, 0] i) = ![1, 0] := by
    funext k
    fin_cases k <;> simp
  refine ⟨N, c, (List.range (N + 1)).map fun n => ![1 * (Real.exp (-c) / lb) ^ (n + 1), 0],
    ![1 * (Real.exp (-c) / lb) ^ (N + 1), 0], ?_, ?_, ?_, ?_, ?_⟩
  · refine lt_of_lt_of_le ?_ (Finset.single_le_sum (fun s _ => weight_nonneg
      (by intro k; fin_cases k <;> simp) (by intro t i j; fin_cases i <;> fin_cases j <;> simp) _ s)
      (Finset.mem_univ fun _ => 0))
    rw [weight, Fin.sum_univ_two]
    have : ∀ t : Fin (N + 1), (Fin.cons 0 (fun _ => 0) : Fin (N + 2) → Fin 2) t.castSucc = 0 := by
      intro t
      refine Fin.cases rfl (fun t => rfl) t
    have e : ∏ t : Fin (N + 1), ((1 : Matrix (Fin 2) (Fin 2) ℝ)
        ((Fin.cons 0 (fun _ => 0) : Fin (N + 2) → Fin 2) t.castSucc) 0 *
          lik ((![((0 : ℝ) : WithBot ℝ), (c : WithBot ℝ)] : Fin 2 → WithBot ℝ) 0)) = 1 :=
      Finset.prod_eq_one fun t _ => by rw [this t]; simp [lik]
    rw [e]
    simp
  · rw [hstart, List.ofFn_const, List.ofFn_const, List.zip_replicate, min_self]
    exact forwardPass_fixed h0 hc hlt (N + 1) zero_le_one le_rfl
  · rw [List.getElem?_map, List.getElem?_range (Nat.lt_succ_self N)]
    rfl
  · simp only [one_mul, Fin.sum_univ_two, cons_val_zero, cons_val_one, add_zero]
    exact pow_pos hr0 _
  · simp only [one_mul, Fin.sum_univ_two, cons_val_zero, cons_val_one, add_zero]
    exact lt_of_le_of_lt (pow_le_pow_of_le_one hr0.le hr1.le (Nat.le_succ N)) hN

/-- With the default precision bound, far below what a double can represent accurately. -/
example : ∃ (N : ℕ) (c : ℝ) (alphas : List (Fin 2 → ℝ)) (a : Fin 2 → ℝ),
    0 < evidence ![1, 0] (fun _ : Fin (N + 1) => (1 : Matrix (Fin 2) (Fin 2) ℝ))
        (fun _ => ![((0 : ℝ) : WithBot ℝ), (c : WithBot ℝ)]) ∧
      forwardPass 1e-20 (fun k => (![1, 0] : Fin 2 → ℝ) k / ∑ i, ![1, 0] i)
        ((List.ofFn fun _ : Fin (N + 1) => ![((0 : ℝ) : WithBot ℝ), (c : WithBot ℝ)]).zip
          (List.ofFn fun _ : Fin (N + 1) => (1 : Matrix (Fin 2) (Fin 2) ℝ))) = some alphas ∧
      alphas[N]? = some a ∧ 0 < ∑ k, a k ∧ ∑ k, a k < (10 : ℝ)⁻¹ ^ 320 :=
  C85_underflow_violated (by norm_num) (by norm_num) (by positivity)

end Verif.FFBS
