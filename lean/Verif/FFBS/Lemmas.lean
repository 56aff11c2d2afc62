import Verif.FFBS.Model
import Verif.FFBS.Spec
import Mathlib.Algebra.BigOperators.Fin
import Mathlib.Tactic.FieldSimp
import Mathlib.Tactic.Linarith
import Mathlib.Tactic.Positivity

/-!
# Lemmas about forward filtering and backward sampling
-/

open Matrix
open scoped ENNReal

namespace Verif.FFBS

variable {M : ℕ}

/-! ## The specification -/

theorem lik_nonneg (x : WithBot ℝ) : 0 ≤ lik x := by
  cases x with
  | bot => exact le_rfl
  | coe x => exact (Real.exp_pos x).le

theorem lik_pos {x : WithBot ℝ} (h : x ≠ ⊥) : 0 < lik x := by
  cases x with
  | bot => exact absurd rfl h
  | coe x => exact Real.exp_pos x

theorem expShift_eq (m : ℝ) (x : WithBot ℝ) : expShift m x = Real.exp (-m) * lik x := by
  cases x with
  | bot => simp [expShift, lik]
  | coe x =>
    simp only [expShift, lik, ← Real.exp_add]
    congr 1
    ring

theorem weight_smul {N : ℕ} (c : ℝ) (γ : Fin M → ℝ) (Γ : Fin N → Matrix (Fin M) (Fin M) ℝ)
    (ll : Fin N → Fin M → WithBot ℝ) (s : Fin N → Fin M) :
    weight (fun k => c * γ k) Γ ll s = c * weight γ Γ ll s := by
  simp only [weight, Finset.mul_sum, mul_assoc]

theorem weight_one (γ : Fin M → ℝ) (Γ : Fin 1 → Matrix (Fin M) (Fin M) ℝ)
    (ll : Fin 1 → Fin M → WithBot ℝ) (s : Fin 1 → Fin M) :
    weight γ Γ ll s = (γ ᵥ* Γ 0) (s 0) * lik (ll 0 (s 0)) := by
  simp [weight, vecMul, dotProduct, Finset.sum_mul, mul_assoc]

theorem weight_succ {N : ℕ} (γ : Fin M → ℝ) (Γ : Fin (N + 2) → Matrix (Fin M) (Fin M) ℝ)
    (ll : Fin (N + 2) → Fin M → WithBot ℝ) (s : Fin (N + 2) → Fin M) :
    weight γ Γ ll s = weight γ (fun t : Fin (N + 1) => Γ t.castSucc) (fun t => ll t.castSucc)
        (fun t => s t.castSucc) *
      (Γ (Fin.last _) (s (Fin.last N).castSucc) (s (Fin.last _)) *
        lik (ll (Fin.last _) (s (Fin.last _)))) := by
  unfold weight
  rw [Finset.sum_mul]
  refine Finset.sum_congr rfl fun s₀ _ => ?_
  rw [Fin.prod_univ_castSucc, mul_assoc]
  congr 2
  refine Finset.prod_congr rfl fun t _ => ?_
  congr 2
  refine Fin.cases ?_ (fun t => ?_) t <;> rfl

theorem weight_nonneg {N : ℕ} {γ : Fin M → ℝ} (hγ : ∀ k, 0 ≤ γ k)
    {Γ : Fin N → Matrix (Fin M) (Fin M) ℝ} (hΓ : ∀ t i j, 0 ≤ Γ t i j)
    (ll : Fin N → Fin M → WithBot ℝ) (s : Fin N → Fin M) : 0 ≤ weight γ Γ ll s :=
  Finset.sum_nonneg fun _ _ => mul_nonneg (hγ _) (Finset.prod_nonneg fun _ _ =>
    mul_nonneg (hΓ _ _ _) (lik_nonneg _))

theorem sum_snoc {N : ℕ} (F : (Fin (N + 1) → Fin M) → ℝ) :
    ∑ s, F s = ∑ s : Fin N → Fin M, ∑ k, F (Fin.snoc s k) := by
  rw [← (Fin.snocEquiv fun _ : Fin (N + 1) => Fin M).sum_comp, Fintype.sum_prod_type,
    Finset.sum_comm]
  rfl

/-! ## The draws -/

theorem categorical_some {v : Fin M → ℝ} (hv : ∀ i, 0 ≤ v i) (k : Fin M) :
    categorical (fun i => v i / ∑ i, v i) (some k) = ENNReal.ofReal (v k / ∑ i, v i) := by
  classical
  unfold categorical
  by_cases h0 : ∑ i, v i = 0
  · rw [dif_neg]
    · simp [h0]
    · rintro ⟨_, h⟩
      simp [h0] at h
  · rw [dif_pos]
    · rw [PMF.map_apply, tsum_eq_single k]
      · simp
      · intro j hj
        simp [Ne.symm hj]
    · refine ⟨fun i => div_nonneg (hv i) (Finset.sum_nonneg fun i _ => hv i), ?_⟩
      rw [← Finset.sum_div, div_self h0]

theorem categorical_zero {v : Fin M → ℝ} (h0 : ∑ i, v i = 0) :
    categorical (fun i => v i / ∑ i, v i) = PMF.pure none := by
  unfold categorical
  rw [dif_neg]
  rintro ⟨_, h⟩
  simp [h0] at h

/-- Probability that the backward scan returns the given list. -/
noncomputable def bprob :
    List ((Fin M → ℝ) × Matrix (Fin M) (Fin M) ℝ) → Fin M → List (Fin M) → ℝ
  | [], _, [] => 1
  | (α, G) :: r, k, j :: t => α j * G j k / (∑ i, α i * G i k) * bprob r j t
  | _, _, _ => 0

/-- All entries are nonnegative. -/
def NonnegPairs (L : List ((Fin M → ℝ) × Matrix (Fin M) (Fin M) ℝ)) : Prop :=
  ∀ x ∈ L, (∀ i, 0 ≤ x.1 i) ∧ ∀ i j, 0 ≤ x.2 i j

theorem bprob_nonneg {L : List ((Fin M → ℝ) × Matrix (Fin M) (Fin M) ℝ)} (hL : NonnegPairs L)
    (k : Fin M) (t : List (Fin M)) : 0 ≤ bprob L k t := by
  induction L generalizing k t with
  | nil => cases t <;> simp [bprob]
  | cons x r ih =>
    obtain ⟨h1, h2⟩ := hL x (by simp)
    cases t with
    | nil => simp [bprob]
    | cons j t =>
      exact mul_nonneg (div_nonneg (mul_nonneg (h1 _) (h2 _ _))
        (Finset.sum_nonneg fun i _ => mul_nonneg (h1 _) (h2 _ _)))
        (ih (fun y hy => hL y (by simp [hy])) _ _)

theorem map_cons_apply (μ : PMF (Option (List (Fin M)))) (j k : Fin M) (t : List (Fin M)) :
    (μ.map fun o => o.map fun l => j :: l) (some (k :: t)) = if j = k then μ (some t) else 0 := by
  classical
  rw [PMF.map_apply]
  split
  · rename_i h
    subst h
    rw [tsum_eq_single (some t)]
    · simp
    · intro o ho
      cases o with
      | none => simp
      | some l =>
        have : t ≠ l := fun h => ho (by rw [h])
        simp [this]
  · rename_i h
    refine ENNReal.tsum_eq_zero.2 fun o => ?_
    cases o with
    | none => simp
    | some l => simp [Ne.symm h]

theorem map_cons_nil (μ : PMF (Option (List (Fin M)))) (j : Fin M) :
    (μ.map fun o => o.map fun l => j :: l) (some []) = 0 := by
  classical
  rw [PMF.map_apply]
  refine ENNReal.tsum_eq_zero.2 fun o => ?_
  cases o <;> simp

theorem backwardScan_apply {L : List ((Fin M → ℝ) × Matrix (Fin M) (Fin M) ℝ)}
    (hL : NonnegPairs L) (k : Fin M) (t : List (Fin M)) :
    backwardScan L k (some t) = ENNReal.ofReal (bprob L k t) := by
  induction L generalizing k t with
  | nil =>
    cases t <;> simp [backwardScan, bprob]
  | cons x r ih =>
    obtain ⟨h1, h2⟩ := hL x (by simp)
    have hr : NonnegPairs r := fun y hy => hL y (by simp [hy])
    obtain ⟨α, G⟩ := x
    have hb : ∀ j, 0 ≤ α j * G j k := fun j => mul_nonneg (h1 _) (h2 _ _)
    simp only [backwardScan]
    rw [PMF.bind_apply]
    cases t with
    | nil =>
      have hb0 : bprob ((α, G) :: r) k [] = 0 := by simp [bprob]
      rw [hb0, ENNReal.ofReal_zero]
      · refine ENNReal.tsum_eq_zero.2 fun o => ?_
        cases o with
        | none => simp
        | some j => rw [map_cons_nil, mul_zero]
    | cons i t =>
      rw [tsum_eq_single (some i)]
      · rw [categorical_some hb, map_cons_apply, if_pos rfl, ih hr, bprob,
          ENNReal.ofReal_mul (div_nonneg (hb i) (Finset.sum_nonneg fun j _ => hb j))]
      · intro o ho
        cases o with
        | none => simp
        | some j =>
          rw [map_cons_apply, if_neg (fun h => ho (by rw [h])), mul_zero]

/-! ## The forward pass -/

theorem forwardPass_concat (lb : ℝ) (a : Fin M → ℝ)
    (r : List ((Fin M → WithBot ℝ) × Matrix (Fin M) (Fin M) ℝ)) (ll : Fin M → WithBot ℝ)
    (G : Matrix (Fin M) (Fin M) ℝ) :
    forwardPass lb a (r ++ [(ll, G)]) = (forwardPass lb a r).bind fun L =>
      (forwardStep lb ll G (L.getLastD a)).map fun x => L ++ [x] := by
  induction r generalizing a with
  | nil =>
    simp only [List.nil_append, forwardPass, Option.bind_some, List.getLastD_nil]
    cases forwardStep lb ll G a <;> rfl
  | cons x r ih =>
    obtain ⟨l', G'⟩ := x
    rw [List.cons_append, forwardPass, forwardPass]
    cases h : forwardStep lb l' G' a with
    | none => rfl
    | some a' =>
      simp only [Option.bind_some]
      rw [ih]
      cases forwardPass lb a' r with
      | none => rfl
      | some L =>
        simp only [Option.bind_some, Option.map_some, List.getLastD_cons]
        cases forwardStep lb ll G (L.getLastD a') <;> rfl

theorem vecMul_nonneg {a : Fin M → ℝ} (ha : ∀ k, 0 ≤ a k) {G : Matrix (Fin M) (Fin M) ℝ}
    (hG : ∀ i j, 0 ≤ G i j) (k : Fin M) : 0 ≤ (a ᵥ* G) k := by
  rw [vecMul, dotProduct]
  exact Finset.sum_nonneg fun i _ => mul_nonneg (ha i) (hG i k)

/-- One forward step multiplies by the transition and the likelihood, up to a positive constant. -/
theorem forwardStep_some {lb : ℝ} {ll : Fin M → WithBot ℝ} {G : Matrix (Fin M) (Fin M) ℝ}
    {a x : Fin M → ℝ} (ha : ∀ k, 0 ≤ a k) (hG : ∀ i j, 0 ≤ G i j)
    (h : forwardStep lb ll G a = some x) :
    ∃ c > 0, ∀ k, x k = c * ((a ᵥ* G) k * lik (ll k)) := by
  unfold forwardStep at h
  rw [Option.map_eq_some_iff] at h
  obtain ⟨f, hf, hx⟩ := h
  unfold likN at hf
  have hn : ∀ k, 0 ≤ (a ᵥ* G) k := vecMul_nonneg ha hG
  split at hf
  · exact absurd hf (by simp)
  · rename_i hb
    generalize (Finset.univ.sup ll).unbot hb = m at hf
    obtain rfl := Option.some.inj hf
    simp only [expShift_eq] at hx
    split at hx
    · rename_i hlt
      have hlb : 0 < lb := lt_of_le_of_lt (Finset.sum_nonneg fun k _ =>
        mul_nonneg (hn k) (mul_nonneg (Real.exp_pos _).le (lik_nonneg _))) hlt
      refine ⟨Real.exp (-m) / lb, by positivity, fun k => ?_⟩
      rw [← hx]
      ring
    · refine ⟨Real.exp (-m), Real.exp_pos _, fun k => ?_⟩
      rw [← hx]
      ring

theorem forwardStep_none {lb : ℝ} {ll : Fin M → WithBot ℝ} {G : Matrix (Fin M) (Fin M) ℝ}
    {a : Fin M → ℝ} : forwardStep lb ll G a = none ↔ ∀ k, ll k = ⊥ := by
  unfold forwardStep
  rw [Option.map_eq_none_iff]
  unfold likN
  split
  · rename_i h
    rw [Finset.sup_eq_bot_iff] at h
    simpa using h
  · rename_i h
    simp only [reduceCtorEq, false_iff]
    intro h'
    exact h ((Finset.sup_eq_bot_iff _ _).2 fun k _ => h' k)

/-- What the forward and backward passes compute. -/
theorem main {lb : ℝ} {a : Fin M → ℝ} (ha : ∀ k, 0 ≤ a k) {N : ℕ}
    {Γ : Fin (N + 1) → Matrix (Fin M) (Fin M) ℝ} (hΓ : ∀ t i j, 0 ≤ Γ t i j)
    {ll : Fin (N + 1) → Fin M → WithBot ℝ} {alphas : List (Fin M → ℝ)}
    (h : forwardPass lb a (List.ofFn fun t => (ll t, Γ t)) = some alphas) :
    ∃ L α, alphas = L ++ [α] ∧ L.length = N ∧ (∀ k, 0 ≤ α k) ∧
      NonnegPairs (L.zip ((List.ofFn Γ).drop 1)).reverse ∧ ∃ c > 0,
      (∀ F : Fin M → ℝ, c * ∑ s, weight a Γ ll s * F (s (Fin.last N)) = ∑ k, α k * F k) ∧
      ∀ s : Fin (N + 1) → Fin M,
        α (s (Fin.last N)) * bprob (L.zip ((List.ofFn Γ).drop 1)).reverse (s (Fin.last N))
          (List.ofFn fun t : Fin N => s t.castSucc).reverse = c * weight a Γ ll s := by
  induction N generalizing alphas with
  | zero =>
    have e : (List.ofFn fun t : Fin 1 => (ll t, Γ t)) = [] ++ [(ll 0, Γ 0)] := by simp
    rw [e, forwardPass_concat] at h
    simp only [forwardPass, Option.bind_some, List.getLastD_nil, List.nil_append,
      Option.map_eq_some_iff] at h
    obtain ⟨α, hα, rfl⟩ := h
    obtain ⟨c, hc, hx⟩ := forwardStep_some ha (hΓ 0) hα
    have hnn : ∀ k, 0 ≤ α k := fun k => by
      rw [hx]
      exact mul_nonneg hc.le (mul_nonneg (vecMul_nonneg ha (hΓ 0) k) (lik_nonneg _))
    refine ⟨[], α, rfl, rfl, hnn, by simp [NonnegPairs], c, hc, fun F => ?_, fun s => ?_⟩
    · rw [sum_snoc, Fintype.sum_unique, Finset.mul_sum]
      refine Finset.sum_congr rfl fun k _ => ?_
      rw [weight_one, hx]
      simp only [Fin.last_zero, Fin.isValue]
      have : (Fin.snoc (default : Fin 0 → Fin M) k : Fin 1 → Fin M) 0 = k := rfl
      rw [this]
      ring
    · rw [weight_one, hx]
      simp [bprob]
  | succ N ih =>
    have e : (List.ofFn fun t : Fin (N + 2) => (ll t, Γ t)) =
        (List.ofFn fun t : Fin (N + 1) => (ll t.castSucc, Γ t.castSucc)) ++
          [(ll (Fin.last _), Γ (Fin.last _))] := by
      rw [List.ofFn_succ', List.concat_eq_append]
    rw [e, forwardPass_concat, Option.bind_eq_some_iff] at h
    obtain ⟨A, hA, h⟩ := h
    rw [Option.map_eq_some_iff] at h
    obtain ⟨α, hα, rfl⟩ := h
    obtain ⟨L, α', rfl, hlen, hnn', hNP, c, hc, hsum, hw⟩ :=
      ih (Γ := fun t => Γ t.castSucc) (ll := fun t => ll t.castSucc) (fun t => hΓ _) hA
    rw [List.getLastD_concat] at hα
    obtain ⟨c', hc', hx⟩ := forwardStep_some hnn' (hΓ _) hα
    have hnn : ∀ k, 0 ≤ α k := fun k => by
      rw [hx]
      exact mul_nonneg hc'.le (mul_nonneg (vecMul_nonneg hnn' (hΓ _) k) (lik_nonneg _))
    have hzip : ((L ++ [α']).zip ((List.ofFn Γ).drop 1)).reverse =
        (α', Γ (Fin.last _)) ::
          (L.zip ((List.ofFn fun t : Fin (N + 1) => Γ t.castSucc).drop 1)).reverse := by
      rw [List.ofFn_succ' Γ, List.concat_eq_append, List.drop_append_of_le_length (by simp),
        List.zip_append (by simp [hlen]), List.reverse_append]
      rfl
    refine ⟨L ++ [α'], α, rfl, by simp [hlen], hnn, ?_, c' * c, mul_pos hc' hc, fun F => ?_,
      fun s => ?_⟩
    · rw [hzip]
      intro x hx'
      rcases List.mem_cons.1 hx' with rfl | hx'
      · exact ⟨hnn', hΓ _⟩
      · exact hNP x hx'
    · rw [sum_snoc]
      have h1 : ∀ s : Fin (N + 1) → Fin M, ∑ k, weight a Γ ll (Fin.snoc s k : Fin (N + 2) → Fin M) *
          F ((Fin.snoc s k : Fin (N + 2) → Fin M) (Fin.last _)) =
          weight a (fun t : Fin (N + 1) => Γ t.castSucc) (fun t => ll t.castSucc) s *
            ∑ k, Γ (Fin.last _) (s (Fin.last N)) k * lik (ll (Fin.last _) k) * F k := by
        intro s
        rw [Finset.mul_sum]
        refine Finset.sum_congr rfl fun k _ => ?_
        rw [weight_succ]
        simp only [Fin.snoc_castSucc, Fin.snoc_last]
        ring
      simp only [h1]
      rw [mul_assoc, hsum fun j => ∑ k, Γ (Fin.last _) j k * lik (ll (Fin.last _) k) * F k]
      simp only [hx, vecMul, dotProduct, Finset.mul_sum, Finset.sum_mul]
      rw [Finset.sum_comm]
      refine Finset.sum_congr rfl fun k _ => Finset.sum_congr rfl fun j _ => ?_
      ring
    · have hs : (List.ofFn fun t : Fin (N + 1) => s t.castSucc).reverse = s (Fin.last N).castSucc ::
          (List.ofFn fun t : Fin N => s t.castSucc.castSucc).reverse := by
        rw [List.ofFn_succ', List.concat_eq_append, List.reverse_append, List.reverse_singleton,
          List.singleton_append]
      rw [hzip, hs, bprob, weight_succ, hx]
      have hw' := hw fun t => s t.castSucc
      set j := s (Fin.last N).castSucc with hj
      set k := s (Fin.last (N + 1)) with hk
      have hD : (α' ᵥ* Γ (Fin.last (N + 1))) k = ∑ i, α' i * Γ (Fin.last _) i k := rfl
      rw [hD]
      by_cases h0 : ∑ i, α' i * Γ (Fin.last (N + 1)) i k = 0
      · have hj0 : α' j * Γ (Fin.last (N + 1)) j k = 0 :=
          (Finset.sum_eq_zero_iff_of_nonneg fun i _ =>
            mul_nonneg (hnn' i) (hΓ _ i k)).1 h0 j (Finset.mem_univ j)
        rw [h0]
        have : c' * c * (weight a (fun t : Fin (N + 1) => Γ t.castSucc) (fun t => ll t.castSucc)
            (fun t => s t.castSucc) * (Γ (Fin.last _) j k * lik (ll (Fin.last _) k))) =
            c' * (c * weight a (fun t : Fin (N + 1) => Γ t.castSucc) (fun t => ll t.castSucc)
            (fun t => s t.castSucc)) * (Γ (Fin.last _) j k * lik (ll (Fin.last _) k)) := by ring
        rw [this, ← hw']
        simp only [zero_mul, mul_zero]
        have h2 := congrArg (fun z => c' * (z * (bprob (L.zip ((List.ofFn fun t : Fin (N + 1) =>
          Γ t.castSucc).drop 1)).reverse j (List.ofFn fun t : Fin N => s t.castSucc.castSucc).reverse *
            lik (ll (Fin.last _) k)))) hj0
        simp only [zero_mul, mul_zero] at h2
        rw [← h2]
        ring
      · rw [show c' * c * (weight a (fun t : Fin (N + 1) => Γ t.castSucc) (fun t => ll t.castSucc)
            (fun t => s t.castSucc) * (Γ (Fin.last _) j k * lik (ll (Fin.last _) k))) =
            c' * (c * weight a (fun t : Fin (N + 1) => Γ t.castSucc) (fun t => ll t.castSucc)
            (fun t => s t.castSucc)) * (Γ (Fin.last _) j k * lik (ll (Fin.last _) k)) by ring, ← hw']
        field_simp

end Verif.FFBS
