import Verif.Fail.Laws

/-!
# C90: a run never fails in the middle

`Safe p Q` says that with probability one no operation of `p` is evaluated outside its domain, no generator
refuses its parameters, and the returned value satisfies `Q`; `failure p` is the probability that something
goes wrong.
-/

open MeasureTheory ProbabilityTheory Matrix
open scoped ENNReal

namespace Verif.Fail

open Prog

variable {p n : ℕ}

/-- **C90.** Any number of calls of the step of the shrinkage parameters, from any positive start and for any
coefficients: nothing ever goes wrong, the state stays positive, and each call draws from the law of
`Horseshoe/Model`. -/
theorem C90_horseshoe (conv : Horseshoe.ExpArg) (β : Fin p → ℝ) {q : (Fin p → ℝ) × ℝ}
    (hq : (∀ j, 0 < q.1 j) ∧ 0 < q.2) (k : ℕ) :
    Safe (run (horseshoeStepProg conv β) k q) (fun q' => (∀ j, 0 < q'.1 j) ∧ 0 < q'.2) ∧
      failure (run (horseshoeStepProg conv β) k q) = 0 ∧
      law (horseshoeStepProg conv β q) = Horseshoe.horseshoeStep conv β q := by
  have := Safe.run (fun s hs => horseshoeStepProg_safe conv β hs) k q hq
  exact ⟨this, this.failure_eq_zero, horseshoeStepProg_law conv β q⟩

example : failure (run (horseshoeStepProg .scale ![1, 0, -2]) 1000 (![1, 2, 3], 1 / 2)) = 0 :=
  (C90_horseshoe .scale ![1, 0, -2] (q := (![1, 2, 3], 1 / 2))
    ⟨fun j => by fin_cases j <;> norm_num, by norm_num⟩ 1000).2.1

/-- **C90.** Any number of calls for the coefficients of a negative-binomial regression with known positive
dispersions and positive prior standard deviations, from any start and for any design matrix and counts. -/
theorem C90_nb_known {la : LinAlg} (hla : la.Sound) {std : Fin p → ℝ} (hstd : ∀ j, 0 < std j)
    (X : Matrix (Fin n) (Fin p) ℝ) {h : Fin n → ℝ} (hh : ∀ i, 0 < h i) (y : Fin n → ℕ) (beta : Fin p → ℝ)
    (k : ℕ) :
    failure (run (nbProg la std X h y) k beta) = 0 ∧
      law (nbProg la std X h y beta) = nbinomNormalPosterior la std X h y beta :=
  ⟨(Safe.run (Q := fun _ => True) (fun s _ => nbProg_safe hla hstd X hh y s) k beta trivial).failure_eq_zero,
    (nbProg_law hla hstd X hh y beta).1⟩

example : failure (run (nbProg stdLinAlg ![1, 2] !![1, 0; 0, 0; 3, -1] (fun _ => 2) ![0, 5, 1]) 10 ![0, 7]) = 0 :=
  (C90_nb_known stdLinAlg_sound (fun j => by fin_cases j <;> norm_num) _ (fun _ => two_pos) _ _ 10).1

/-- **C90.** Any number of calls for the coefficients of a Bernoulli regression. -/
theorem C90_bern {la : LinAlg} (hla : la.Sound) {std : Fin p → ℝ} (hstd : ∀ j, 0 < std j)
    (X : Matrix (Fin n) (Fin p) ℝ) (y : Fin n → Bool) (beta : Fin p → ℝ) (k : ℕ) :
    failure (run (bernProg la std X y) k beta) = 0 ∧
      law (bernProg la std X y beta) = bernNormalPosterior la std X y beta :=
  ⟨(Safe.run (Q := fun _ => True) (fun s _ => bernProg_safe hla hstd X y s) k beta trivial).failure_eq_zero,
    (bernProg_law hla hstd X y beta).1⟩

example : failure (run (bernProg stdLinAlg ![1, 2, 3] !![1, 0, 4; 0, 0, 1] ![true, false]) 10 ![0, 7, 1]) = 0 :=
  (C90_bern stdLinAlg_sound (fun j => by fin_cases j <;> norm_num) _ _ _ 10).1

/-- **C90.** Any number of calls of `nbinom_dispersion_posterior`, for any counts, probabilities in `[0, 1)` and a
gamma prior with positive parameters. -/
theorem C90_dispersion {ps : List ℝ} (hp : ∀ q ∈ ps, 0 ≤ q ∧ q < 1) {a b : ℝ} (ha : 0 < a) (hb : 0 < b)
    (y : List ℤ) {h : ℝ} (hh : 0 < h) (k : ℕ) :
    Safe (run (dispersionProg ps a b y) k h) (fun h' => 0 < h') ∧
      failure (run (dispersionProg ps a b y) k h) = 0 ∧
      law (dispersionProg ps a b y h) = CRT.dispersionPosterior ps a b y h := by
  have := Safe.run (fun s hs => dispersionProg_safe hp ha hb y hs) k h hh
  exact ⟨this, this.failure_eq_zero, (dispersionProg_law ps a b y h).1⟩

example : failure (run (dispersionProg [0, 1 / 2, 2 / 3] 1 2 [0, 4, 17]) 10 (1 / 3)) = 0 :=
  (C90_dispersion (fun q hq => by
    simp only [List.mem_cons, List.not_mem_nil, or_false] at hq
    rcases hq with rfl | rfl | rfl <;> norm_num) one_pos two_pos _ (by norm_num) 10).2.1

/-- **C90.** Any number of calls of the sampler for the coefficients and the dispersion of a negative-binomial
regression: nothing goes wrong and the dispersion stays positive. -/
theorem C90_nb {la : LinAlg} (hla : la.Sound) {std : Fin p → ℝ} (hstd : ∀ j, 0 < std j)
    (X : Matrix (Fin n) (Fin p) ℝ) {a b : ℝ} (ha : 0 < a) (hb : 0 < b) (y : Fin n → ℕ)
    {q : (Fin p → ℝ) × ℝ} (hq : 0 < q.2) (k : ℕ) :
    Safe (run (nbCall la std X a b y) k q) (fun q' => 0 < q'.2) ∧
      failure (run (nbCall la std X a b y) k q) = 0 ∧
      law (nbCall la std X a b y q) = NbReg.sweep la std X a b y q := by
  have := Safe.run (step := nbCall la std X a b y) (Q := fun q' => 0 < q'.2) (fun s hs =>
    (nbProg_safe hla hstd X (fun _ => hs) y s.1).bind fun beta _ =>
      (finderDispersionProg_safe X beta ha hb _ hs).bind fun h hh => hh) k q hq
  exact ⟨this, this.failure_eq_zero, nbCall_law hla hstd X ha hb y hq⟩

example : failure (run (nbCall stdLinAlg ![1, 2] !![1, 0; 0, 0; 3, -1] 1 2 ![0, 5, 1]) 10 (![0, 7], 3)) = 0 :=
  (C90_nb stdLinAlg_sound (fun j => by fin_cases j <;> norm_num) _ one_pos two_pos _ (q := (![0, 7], 3))
    (by norm_num) 10).2.1

/-- **C90.** Any number of calls of the sampler for a negative-binomial regression with a horseshoe prior and
known dispersions, whichever shrinkage parameters the step of the coefficients reads. -/
theorem C90_horseshoe_nb (conv : Horseshoe.ExpArg) (rd : HsReg.Reads) {la : LinAlg} (hla : la.Sound)
    (X : Matrix (Fin n) (Fin p) ℝ) {h : Fin n → ℝ} (hh : ∀ i, 0 < h i) (y : Fin n → ℕ)
    {q : (Fin p → ℝ) × ((Fin p → ℝ) × ℝ)} (hq : (∀ j, 0 < q.2.1 j) ∧ 0 < q.2.2) (k : ℕ) :
    Safe (run (hsNbCall conv rd la X h y) k q) (fun q' => (∀ j, 0 < q'.2.1 j) ∧ 0 < q'.2.2) ∧
      failure (run (hsNbCall conv rd la X h y) k q) = 0 ∧
      law (hsNbCall conv rd la X h y q) = HsReg.nbSweep conv rd la X h y q := by
  have := Safe.run (step := hsNbCall conv rd la X h y) (Q := fun q' => (∀ j, 0 < q'.2.1 j) ∧ 0 < q'.2.2)
    (fun q hq => (horseshoeStepProg_safe conv q.1 hq).bind fun s hs =>
      (nbProg_safe hla (read_pos hq hs) X hh y q.1).bind fun beta _ => hs) k q hq
  exact ⟨this, this.failure_eq_zero, hsNbCall_law conv rd hla X hh y hq⟩

example : failure (run (hsNbCall .scale ⟨false, false⟩ stdLinAlg !![1, 0; 0, 0; 3, -1] (fun _ => 1) ![0, 5, 1])
    10 (![0, 7], (![1, 2], 3))) = 0 :=
  (C90_horseshoe_nb .scale _ stdLinAlg_sound _ (fun _ => one_pos) _ (q := (![0, 7], (![1, 2], 3)))
    ⟨fun j => by fin_cases j <;> norm_num, by norm_num⟩ 10).2.1

/-- **C90.** Any number of calls of the sampler for a Bernoulli regression with a horseshoe prior. -/
theorem C90_horseshoe_bern (conv : Horseshoe.ExpArg) (rd : HsReg.Reads) {la : LinAlg} (hla : la.Sound)
    (X : Matrix (Fin n) (Fin p) ℝ) (y : Fin n → Bool)
    {q : (Fin p → ℝ) × ((Fin p → ℝ) × ℝ)} (hq : (∀ j, 0 < q.2.1 j) ∧ 0 < q.2.2) (k : ℕ) :
    Safe (run (hsBernCall conv rd la X y) k q) (fun q' => (∀ j, 0 < q'.2.1 j) ∧ 0 < q'.2.2) ∧
      failure (run (hsBernCall conv rd la X y) k q) = 0 ∧
      law (hsBernCall conv rd la X y q) = HsReg.bernSweep conv rd la X y q := by
  have := Safe.run (step := hsBernCall conv rd la X y) (Q := fun q' => (∀ j, 0 < q'.2.1 j) ∧ 0 < q'.2.2)
    (fun q hq => (horseshoeStepProg_safe conv q.1 hq).bind fun s hs =>
      (bernProg_safe hla (read_pos hq hs) X y q.1).bind fun beta _ => hs) k q hq
  exact ⟨this, this.failure_eq_zero, hsBernCall_law conv rd hla X y hq⟩

example : failure (run (hsBernCall .rate ⟨true, false⟩ stdLinAlg !![1, 0; 0, 0; 3, -1] ![true, false, true])
    10 (![0, 7], (![1, 2], 3))) = 0 :=
  (C90_horseshoe_bern .rate _ stdLinAlg_sound _ _ (q := (![0, 7], (![1, 2], 3)))
    ⟨fun j => by fin_cases j <;> norm_num, by norm_num⟩ 10).2.1

/-- **C90.** Any number of calls of the sampler for a negative-binomial regression with a horseshoe prior and
unknown dispersion. -/
theorem C90_horseshoe_dispersion (conv : Horseshoe.ExpArg) (rd : HsReg.Reads) {la : LinAlg} (hla : la.Sound)
    (X : Matrix (Fin n) (Fin p) ℝ) {a b : ℝ} (ha : 0 < a) (hb : 0 < b) (y : Fin n → ℕ)
    {r : ((Fin p → ℝ) × ((Fin p → ℝ) × ℝ)) × ℝ} (hr : ((∀ j, 0 < r.1.2.1 j) ∧ 0 < r.1.2.2) ∧ 0 < r.2)
    (k : ℕ) :
    Safe (run (hsDispCall conv rd la X a b y) k r)
        (fun r' => ((∀ j, 0 < r'.1.2.1 j) ∧ 0 < r'.1.2.2) ∧ 0 < r'.2) ∧
      failure (run (hsDispCall conv rd la X a b y) k r) = 0 ∧
      law (hsDispCall conv rd la X a b y r) = HsDisp.call conv rd la X a b y r := by
  have := Safe.run (step := hsDispCall conv rd la X a b y)
    (Q := fun r' => ((∀ j, 0 < r'.1.2.1 j) ∧ 0 < r'.1.2.2) ∧ 0 < r'.2)
    (fun r hr => (horseshoeStepProg_safe conv r.1.1 hr.1).bind fun s hs =>
      (nbProg_safe hla (read_pos hr.1 hs) X (fun _ => hr.2) y r.1.1).bind fun beta _ =>
        (finderDispersionProg_safe X beta ha hb _ hr.2).bind fun h hh => ⟨hs, hh⟩) k r hr
  exact ⟨this, this.failure_eq_zero, hsDispCall_law conv rd hla X ha hb y hr⟩

example : failure (run (hsDispCall .scale ⟨false, false⟩ stdLinAlg !![1, 0; 0, 0; 3, -1] 1 2 ![0, 5, 1])
    10 ((![0, 7], (![1, 2], 3)), 4)) = 0 :=
  (C90_horseshoe_dispersion .scale _ stdLinAlg_sound _ one_pos two_pos _ (r := ((![0, 7], (![1, 2], 3)), 4))
    ⟨⟨fun j => by fin_cases j <;> norm_num, by norm_num⟩, by norm_num⟩ 10).2.1

/-- **C90.** The conditions are needed.  A run fails for certain in its first call when the start has a local or the
global shrinkage parameter at zero, when a count plus the dispersion is not positive, or, for the dispersion
alone, when the first count is at least two and the current dispersion is the negative of a number below it. -/
theorem C90_conditions_needed (conv : Horseshoe.ExpArg) (la : LinAlg) (k : ℕ) :
    (∀ (β : Fin p → ℝ) (q : (Fin p → ℝ) × ℝ), ((∃ j, q.1 j = 0) ∨ q.2 = 0) →
      failure (run (horseshoeStepProg conv β) (k + 1) q) = 1) ∧
    (∀ (std : Fin p → ℝ) (X : Matrix (Fin n) (Fin p) ℝ) (h : Fin n → ℝ) (y : Fin n → ℕ) (beta : Fin p → ℝ),
      (∃ i, (y i : ℝ) + h i ≤ 0) → failure (run (nbProg la std X h y) (k + 1) beta) = 1) ∧
    ∀ (ps : List ℝ) (a b : ℝ) (y : ℤ) (ys : List ℤ) (m : ℕ), 1 ≤ m → (m : ℤ) < y →
      failure (run (dispersionProg ps a b (y :: ys)) (k + 1) (-m)) = 1 := by
  refine ⟨fun β q hq => ?_, fun std X h y beta hi => ?_, fun ps a b y ys m hm hy => ?_⟩
  · rw [run, horseshoeStepProg, horseshoeProg, Prog.bind, Prog.failure]
    split_ifs with h1
    · rcases hq with ⟨j, hj⟩ | hq
      · exact absurd (by simp [hj]) (h1 j)
      · rw [Prog.bind, Prog.failure, if_neg (by simp [hq])]
    · rfl
  · obtain ⟨i, hi⟩ := hi
    rw [run, nbProg, Prog.bind, Prog.failure, if_neg fun hc => (hc i).not_ge hi]
  · rw [run, dispersionProg, crtProg, Prog.bind, Prog.bind, Prog.failure, if_neg]
    intro hc
    refine hc (m + 1) ?_ (by push_cast; ring)
    exact List.mem_map.2 ⟨m - 1, List.mem_range.2 (by omega), by omega⟩

example : failure (run (horseshoeStepProg .scale ![1, 2]) 3 (![0, 1], 1)) = 1 :=
  (C90_conditions_needed (n := 0) .scale stdLinAlg 2).1 _ _ (Or.inl ⟨0, rfl⟩)

end Verif.Fail
