import Verif.Shapes.Batch
import Verif.FFBS.Lemmas
import Mathlib.Tactic.NormNum

/-!
# C56: FFBS and leading dimensions
-/

namespace Verif.Shapes

open Verif Verif.Conj

theorem fitsIn_three (G N M : Nat) (h : G = N ∨ G = 1) :
    bcast [G, M, M] [N, M, M] = some [N, M, M] := by
  refine fitsIn_rev.2 ?_
  simp only [List.reverse_cons, List.reverse_nil, List.nil_append, List.cons_append,
    bcRev_fits_cons, true_or, true_and]
  exact ⟨h, rfl⟩

/-- **C56 (part).** For arguments of exactly the documented shapes the result has one state per time
point. -/
theorem C56_single_sequence_partial (M N G : Nat) (hN : 1 ≤ N) (hG : G = N ∨ G = 1) :
    ffbs [M] [G, M, M] [M, N] = .ok [N] := by
  have h1 : forwardStep [M] [M, M] [M] = .ok [M] := by
    simp [forwardStep, matmul, bind, Except.bind, bc_self, sumLast, bc_nil_left]
  have h2 : backwardStep [M] [M, M] [] = .ok [] := by
    simp [backwardStep, idx0, bind, Except.bind, bc_self, sumLast, bc_nil_right]
  have h0 : N ≠ 0 := by omega
  simp only [ffbs, List.getLast?_cons_cons, List.getLast?_singleton, bind, Except.bind,
    List.reverse_cons, List.reverse_nil, List.nil_append, List.cons_append, List.take_succ_cons,
    List.take_zero, fitsIn_three G N M hG, ne_eq, not_true_eq_false, if_false, h0,
    List.dropLast, h1, h2, sumLast, bc_nil_right]
  split_ifs with h
  · rw [h]
  · rfl

example : ffbs [2] [1, 2, 2] [2, 10] = .ok [10] ∧ ffbs [2] [4, 2, 2] [2, 4] = .ok [4] :=
  ⟨rfl, rfl⟩

/-- For a batch of `B` sequences the function returns an array exactly when `B` is the number of states
or one, and the array then has one column per *state*. -/
theorem ffbs_batch (B M N G : Nat) (hN : 2 ≤ N) (hG : G = N ∨ G = 1) (r : Shape) :
    ffbs [B, M] [G, M, M] [B, M, N] = .ok r ↔ r = [N, M] ∧ (B = M ∨ B = 1) := by
  have h0 : N ≠ 0 := by omega
  have hN1 : N ≠ 1 := by omega
  have hfw : forwardStep [B, M] [M, M] [B, M] = bc [B] [B, M] := by
    simp [forwardStep, matmul22, bind, Except.bind, bc_self, sumLast]
  have hb1 : bcast [B] [B, M] = (bcDim B M).map fun y => [B, y] := by
    simp only [bcast, List.reverse_cons, List.reverse_nil, List.nil_append, List.singleton_append,
      bcRev, bcDim]
    split_ifs <;> simp_all
  by_cases hB : B = M ∨ B = 1
  · have h1 : forwardStep [B, M] [M, M] [B, M] = .ok [B, M] := by
      rw [hfw, bc_ok, hb1]
      rcases hB with rfl | rfl
      · rw [bcDim_self]; rfl
      · rw [bcDim_one]; rfl
    have h2 : bc [M, B] [M] = .ok [M, M] := by
      rw [bc_ok]
      have : bcast [M, B] [M] = (bcDim B M).map fun y => [M, y] := by
        simp only [bcast, List.reverse_cons, List.reverse_nil, List.nil_append,
          List.singleton_append, bcRev, bcDim]
        split_ifs <;> simp_all
      rw [this]
      rcases hB with rfl | rfl
      · rw [bcDim_self]; rfl
      · rw [bcDim_one]; rfl
    have h3 : bc [M, B] [M, M] = .ok [M, M] := by
      rw [bc_ok, bcast_two, bcDim_self]
      rcases hB with rfl | rfl
      · rw [bcDim_self]; rfl
      · rw [bcDim_one]; rfl
    have h4 : bc [M, M] [M] = .ok [M, M] := by
      rw [bc_ok]
      simp only [bcast, List.reverse_cons, List.reverse_nil, List.nil_append,
        List.singleton_append, bcRev]
      simp
    have h5 : backwardStep [B, M] [M, M] [M] = .ok [M] := by
      simp [backwardStep, idx0, bind, Except.bind, sumLast, h3, h4]
    have : ffbs [B, M] [G, M, M] [B, M, N] = .ok [N, M] := by
      simp only [ffbs, List.getLast?_cons_cons, List.getLast?_singleton, bind, Except.bind,
        List.reverse_cons, List.reverse_nil, List.nil_append, List.cons_append,
        List.take_succ_cons, List.take_zero, fitsIn_three G N M hG, ne_eq, not_true_eq_false,
        if_false, h0, List.dropLast, h1, h2, h5, sumLast, hN1]
    rw [this]
    simp [hB, eq_comm]
  · have : ffbs [B, M] [G, M, M] [B, M, N] ≠ .ok r := by
      intro h
      simp only [ffbs, List.getLast?_cons_cons, List.getLast?_singleton, bind, Except.bind,
        List.reverse_cons, List.reverse_nil, List.nil_append, List.cons_append,
        List.take_succ_cons, List.take_zero, fitsIn_three G N M hG, ne_eq, not_true_eq_false,
        if_false, h0, List.dropLast, hfw, bc, hb1] at h
      push Not at hB
      by_cases hM : M = 1
      · subst hM
        simp [bcDim, hB.1] at h
      · simp [bcDim, hB.1, hB.2, hM] at h
    simp [this, hB]

/-- **C56 (part).** A batch result has the documented shape, one column per sequence, exactly when there
are as many sequences as states. -/
theorem C56_batch_shape_partial (B M N G : Nat) (hN : 2 ≤ N) (hG : G = N ∨ G = 1) :
    ffbs [B, M] [G, M, M] [B, M, N] = .ok [N, B] ↔ B = M := by
  rw [ffbs_batch B M N G hN hG]
  constructor
  · rintro ⟨h, -⟩
    simpa using h
  · rintro rfl
    exact ⟨rfl, .inl rfl⟩

/-- Three sequences of ten observations: right with three states, wrong with two. -/
example : ffbs [3, 3] [1, 3, 3] [3, 3, 10] = .ok [10, 3] ∧
    ffbs [3, 2] [1, 2, 2] [3, 2, 10] ≠ .ok [10, 3] :=
  ⟨(C56_batch_shape_partial 3 3 10 1 (by norm_num) (Or.inr rfl)).2 rfl,
    fun h => absurd ((C56_batch_shape_partial 3 2 10 1 (by norm_num) (Or.inr rfl)).1 h) (by decide)⟩

/-- **C56 is violated.** Three sequences over two states fail; one sequence given with a leading
dimension of one comes back as two columns; two sequences over two states are sampled from weights that
are not probabilities, although each initial distribution is a probability vector, the transition matrix
is the identity and the observations carry no information. -/
theorem C56_violated :
    (∀ N, 2 ≤ N → ∀ r, ffbs [3, 2] [1, 2, 2] [3, 2, N] ≠ .ok r) ∧
    (∀ N, 2 ≤ N → ffbs [1, 2] [1, 2, 2] [1, 2, N] = .ok [N, 2]) ∧
    ∃ gamma0 : Fin 2 → Fin 2 → ℝ, (∀ b s, 0 < gamma0 b s) ∧ (∀ b, ∑ s, gamma0 b s = 1) ∧
      let step := forwardBatch (1 / 10 ^ 20) (fun _ _ => 0) 0 (fun r s => if r = s then 1 else 0)
      ∃ i, ∑ j, betaN (step (step (normBatch gamma0))) i j ≠ 1 := by
  refine ⟨fun N hN r h => ?_, fun N hN => ?_, ?_⟩
  · have := ((ffbs_batch 3 2 N 1 hN (.inr rfl) r).1 h).2
    omega
  · exact (ffbs_batch 1 2 N 1 hN (.inr rfl) _).2 ⟨rfl, .inr rfl⟩
  · refine ⟨fun b s => if b = 0 then (if s = 0 then 9 / 10 else 1 / 10) else
      (if s = 0 then 6 / 10 else 4 / 10), fun b s => ?_, fun b => ?_, 0, ?_⟩
    · dsimp only
      split_ifs <;> norm_num
    · fin_cases b <;> simp <;> norm_num
    · simp [forwardBatch, likBatch, normBatch, betaN, Fin.sum_univ_two]
      norm_num

/-- **C56 (partial), forward pass.** As long as no total falls below the bound, the forward pass treats
the sequences separately: the weights of each are, up to a factor, those it gets alone. -/
theorem C56_forward_rows_partial {k : ℕ} {bound : ℝ} {ll : Fin k → Fin k → ℝ} {m : ℝ}
    {Gamma : Matrix (Fin k) (Fin k) ℝ} (hG : ∀ i j, 0 ≤ Gamma i j) {alpha : Fin k → Fin k → ℝ}
    (hα : ∀ b s, 0 ≤ alpha b s)
    (hb : ∀ b, bound ≤ ∑ s, (∑ r, alpha b r * Gamma r s) * Real.exp (ll b s - m)) (b : Fin k) {bound' : ℝ}
    {alone : Fin k → ℝ}
    (h : FFBS.forwardStep bound' (fun s => (ll b s : WithBot ℝ)) Gamma (alpha b) = some alone) :
    ∃ c > 0, ∀ s, forwardBatch bound ll m Gamma alpha b s = c * alone s := by
  obtain ⟨c, hc, hx⟩ := FFBS.forwardStep_some (hα b) hG h
  refine ⟨Real.exp (-m) / c, by positivity, fun s => ?_⟩
  have h1 : ¬ ∑ r, (∑ q, alpha s q * Gamma q r) * likBatch ll m s r < bound := not_lt.2 (hb s)
  unfold forwardBatch
  simp only [h1, if_false]
  rw [hx s, likBatch, sub_eq_add_neg, Real.exp_add]
  have h2 : FFBS.lik ((ll b s : ℝ) : WithBot ℝ) = Real.exp (ll b s) := rfl
  rw [h2, Matrix.vecMul, dotProduct]
  field_simp

/-- Two sequences with different observations. -/
example : (∀ i j, 0 ≤ (!![2, 1; 1, 2] : Matrix (Fin 2) (Fin 2) ℝ) i j) ∧
    (∀ _b _s : Fin 2, 0 ≤ (1 : ℝ)) ∧
    (∀ b : Fin 2, (1 : ℝ) / 10 ^ 20 ≤ ∑ s, (∑ r, (1 : ℝ) * (!![2, 1; 1, 2] : Matrix (Fin 2) (Fin 2) ℝ) r s) *
      Real.exp ((b : ℕ) - (0 : ℝ))) ∧
    (FFBS.forwardStep (1 / 10 ^ 20) (fun _ : Fin 2 => ((3 : ℝ) : WithBot ℝ)) !![2, 1; 1, 2] fun _ => 1).isSome := by
  refine ⟨fun i j => by fin_cases i <;> fin_cases j <;> norm_num, fun _ _ => zero_le_one, fun b => ?_, ?_⟩
  · have h1 : (1 : ℝ) ≤ Real.exp ((b : ℕ) : ℝ) := Real.one_le_exp (by simp)
    simp only [Fin.sum_univ_two, one_mul]
    norm_num
    linarith
  · have : FFBS.forwardStep (1 / 10 ^ 20) (fun _ : Fin 2 => ((3 : ℝ) : WithBot ℝ)) !![2, 1; 1, 2] (fun _ => 1) ≠
        none := fun h => by
      have := FFBS.forwardStep_none.1 h 0
      simp at this
    exact Option.isSome_iff_ne_none.2 this

/-- **C56 is violated in the forward pass.** When the total of one of two sequences falls below the bound,
the weights of the *other* one change their proportions: without any information in the observations, with
the identity as transition matrix and equal weights of the states. -/
theorem C56_forward_violated : ∃ alpha : Fin 2 → Fin 2 → ℝ, (∀ b s, 0 < alpha b s) ∧
    FFBS.forwardStep (1 / 10 ^ 20) (fun _ => ((0 : ℝ) : WithBot ℝ)) 1 (alpha 0) = some (alpha 0) ∧
    ¬ ∃ c, ∀ s, forwardBatch (1 / 10 ^ 20) (fun _ _ => 0) 0 (1 : Matrix (Fin 2) (Fin 2) ℝ) alpha 0 s =
      c * alpha 0 s := by
  refine ⟨fun b _ => if b = 0 then 1 else 1 / 10 ^ 30, fun b s => ?_, ?_, ?_⟩
  · dsimp only
    split_ifs <;> norm_num
  · have hsup : Finset.univ.sup (fun _ : Fin 2 => ((0 : ℝ) : WithBot ℝ)) = ((0 : ℝ) : WithBot ℝ) :=
      Finset.sup_const Finset.univ_nonempty _
    have hl : FFBS.likN (fun _ : Fin 2 => ((0 : ℝ) : WithBot ℝ)) = some fun _ => 1 := by
      unfold FFBS.likN
      simp only [hsup, WithBot.coe_ne_bot, dif_neg, not_false_iff, WithBot.unbot_coe]
      congr 1
      funext k
      change Real.exp (0 - 0) = 1
      simp
    unfold FFBS.forwardStep
    rw [hl]
    simp [Matrix.vecMul_one]
    norm_num
  · rintro ⟨c, hc⟩
    have h0 := hc 0
    have h1 := hc 1
    simp [forwardBatch, likBatch, Matrix.one_apply] at h0 h1
    norm_num at h0 h1
    rw [← h0] at h1
    norm_num at h1

/-- **C56 is violated by the initial weights.** Only their proportions within a sequence should matter;
but giving those of the first of two sequences twice as large changes the weights its last state is drawn
with. -/
theorem C56_initial_violated : ∃ gamma0 : Fin 2 → Fin 2 → ℝ, (∀ b s, 0 < gamma0 b s) ∧
    let step := forwardBatch (1 / 10 ^ 20) (fun _ _ => 0) 0 (fun r s => if r = s then 1 else 0)
    betaN (step (normBatch fun b s => if b = 0 then 2 * gamma0 b s else gamma0 b s)) 0 0 ≠
      betaN (step (normBatch gamma0)) 0 0 := by
  refine ⟨fun _ _ => 1, fun _ _ => one_pos, ?_⟩
  simp [forwardBatch, likBatch, normBatch, betaN, Fin.sum_univ_two]
  norm_num

end Verif.Shapes
