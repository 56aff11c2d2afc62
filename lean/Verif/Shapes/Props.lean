import Verif.Shapes.RegLemmas
import Verif.Match.Props

/-!
# C55: a Gibbs step returns an array of the shape of the variable it updates
-/

namespace Verif.Shapes

open Verif Verif.Conj

/-- **C55, Bernoulli regression (partial).** With `X` of shape `(n, p)`, coefficients of shape `(p,)` and
one response per row, the step returns an array exactly when the prior scale has shape `(p,)`, or shape
`(1,)` and `p ≤ n`; the array then has the shape of the coefficients.  Missing: a scalar scale, a scale
of shape `(1,)` when `n < p`, and replicated responses (`C55_violated`). -/
theorem C55_bern_step_partial (n p : Nat) (s r : Shape) :
    bernNormal [p] s [n, p] [n] = .ok r ↔ r = [p] ∧ (s = [p] ∨ s = [1] ∧ p ≤ n) := by
  rw [← regression_vec]
  simp [bernNormal, matmul21, bind, Except.bind, bc_nil_left, bc_self]

/-- A common prior scale fails with more coefficients than observations. -/
example (r : Shape) : bernNormal [5] [1] [3, 5] [3] ≠ .ok r := fun h =>
  absurd ((C55_bern_step_partial 3 5 [1] r).1 h).2 (by decide)

/-- **C55, negative-binomial regression (partial).** The same, for a dispersion that is a scalar, has
length one, or has one entry per row. -/
theorem C55_nbinom_step_partial (n p : Nat) (s h r : Shape) (hh : FitsIn h [n]) :
    nbinomNormal [p] s [n, p] h [n] = .ok r ↔ r = [p] ∧ (s = [p] ∨ s = [1] ∧ p ≤ n) := by
  rw [← regression_vec]
  have e : bc [n] h = .ok [n] := bc_ok.2 (bcast_of_fits hh)
  simp [nbinomNormal, matmul21, bind, Except.bind, e, bc_self]

example : bernNormal [3] [3] [5, 3] [5] = .ok [3] ∧ bernNormal [5] [5] [3, 5] [3] = .ok [5] ∧
    bernNormal [3] [1] [5, 3] [5] = .ok [3] ∧ FitsIn [] [5] ∧ FitsIn [1] [5] ∧
    nbinomNormal [3] [3] [5, 3] [] [5] = .ok [3] :=
  ⟨rfl, rfl, rfl, rfl, rfl, rfl⟩

/-- **C55, the generator the regressions use.** `multivariate_normal_rue2005` called with a vector returns
a vector of its length exactly when the matrix is square of that size, and otherwise fails. -/
theorem C55_rue2005 (k : Nat) (Q r : Shape) : rue2005 [k] Q = .ok r ↔ Q = [k, k] ∧ r = [k] := by
  constructor
  · intro h
    match Q with
    | [] => simp [rue2005, cholesky, bind, Except.bind] at h
    | [a] => simp [rue2005, cholesky, bind, Except.bind] at h
    | a :: b :: c :: l => simp [rue2005, cholesky, bind, Except.bind] at h
    | [a, b] =>
      by_cases hab : a = b
      · subst hab
        by_cases hk : a = k
        · subst hk
          rw [rue2005_vec] at h
          cases h
          exact ⟨rfl, rfl⟩
        · simp [rue2005, cholesky, solve, bind, Except.bind, hk] at h
      · simp [rue2005, cholesky, bind, Except.bind, hab] at h
  · rintro ⟨rfl, rfl⟩
    exact rue2005_vec k

example : rue2005 [3] [3, 3] = .ok [3] ∧ ∀ r, rue2005 [1] [3, 3] ≠ .ok r :=
  ⟨(C55_rue2005 3 _ _).2 ⟨rfl, rfl⟩, fun r h => absurd ((C55_rue2005 1 _ r).1 h).1 (by decide)⟩

/-- **C55, horseshoe (partial).** With a scalar `sigma2`, the step returns `lambda` and `tau` with their
own shapes exactly when the coefficients are not a scalar and both they and `tau` broadcast to the shape
of `lambda`.  Missing: all other shapes the prior accepts (`C55_violated`). -/
theorem C55_horseshoe_step_partial (b l t : Shape) :
    horseshoe b [] l t = .ok (l, t) ↔ b ≠ [] ∧ FitsIn b l ∧ FitsIn t l := by
  cases hbt : bcast b t with
  | none =>
    have : ¬ (FitsIn b l ∧ FitsIn t l) := by
      rintro ⟨h1, h2⟩
      obtain ⟨M, hM, -⟩ := bcast_fits h1 h2
      rw [hbt] at hM
      cases hM
    simp [horseshoe, bind, Except.bind, bc, hbt]
    tauto
  | some M =>
    have hM := bcast_fitsIn (L := l) hbt
    cases b with
    | nil =>
      simp only [horseshoe, bind, Except.bind, bc, bcast_nil_right, bcast_nil_left, idx0]
      constructor
      · intro h
        split at h <;> cases h
      · intro h
        exact absurd rfl h.1
    | cons b0 bs =>
      have hb : bc (b0 :: bs) t = .ok M := bc_ok.2 hbt
      cases hl : bcast l M with
      | none =>
        have : ¬ FitsIn M l := fun h => by
          rw [bcast_of_fits h] at hl
          cases hl
        rw [hM] at this
        have hl' : bc l M = .error .run := by simp [bc, hl]
        simp [horseshoe, bind, Except.bind, hb, bc_nil_right, hl']
        tauto
      | some K =>
        have hfit : FitsIn (b0 :: bs) K :=
          fitsIn_trans (bcast_absorb_left hbt) (bcast_absorb_right hl)
        have hbK : bc (b0 :: bs) K = .ok K := bc_ok.2 hfit
        have hlM : bc l M = .ok K := bc_ok.2 hl
        have e : horseshoe (b0 :: bs) [] l t = .ok (K, t) := by
          simp [horseshoe, bind, Except.bind, hb, bc_nil_right, bc_nil_left, hlM, hbK, idx0, pure,
            Except.pure]
        rw [e, ← hM]
        have hKl : K = l ↔ FitsIn M l := by
          constructor
          · rintro rfl
            rw [FitsIn, bcast_comm]
            exact hl
          · intro h
            rw [bcast_of_fits h] at hl
            cases hl
            rfl
        simp [hKl]

/-- The layout of the documented model: one local parameter per coefficient, one global parameter. -/
example : horseshoe [4] [] [4] [] = .ok ([4], []) ∧ horseshoe [4] [] [4] [1] = .ok ([4], [1]) ∧
    FitsIn [4] [4] ∧ FitsIn [] [4] ∧ FitsIn [1] [4] :=
  ⟨rfl, rfl, rfl, rfl, rfl⟩

theorem mapM_bc {h : Shape} : ∀ {ys : List Nat}, (∀ y ∈ ys, (bcast h [y - 1]).isSome) →
    ∃ l, (ys.mapM fun yi => bc h [yi - 1]) = .ok l
  | [], _ => ⟨[], rfl⟩
  | y :: ys, hy => by
    obtain ⟨l, hl⟩ := mapM_bc (h := h) (ys := ys) fun z hz => hy z (List.mem_cons_of_mem _ hz)
    obtain ⟨a, ha⟩ := Option.isSome_iff_exists.1 (hy y List.mem_cons_self)
    refine ⟨a :: l, ?_⟩
    rw [List.mapM_cons, hl, bc_ok.2 ha]
    rfl

theorem bc_of_mapM {h : Shape} : ∀ {ys : List Nat} {l : List Shape},
    (ys.mapM fun yi => bc h [yi - 1]) = .ok l → ∀ y ∈ ys, (bcast h [y - 1]).isSome
  | [], _, _ => by simp
  | z :: ys, l, hm => by
    rw [List.mapM_cons] at hm
    obtain ⟨a, ha, hm⟩ := bind_ok hm
    obtain ⟨l', hl', -⟩ := bind_ok hm
    intro y hy
    rcases List.mem_cons.1 hy with rfl | hy
    · rw [bc_ok.1 ha]
      rfl
    · exact bc_of_mapM hl' y hy

/-- **C55, dispersion (partial).** With one count and one probability per row, the step returns an array
of the shape of `h` exactly when that is the broadcast of the shapes of the gamma parameters `a` and `b`
and `h` broadcasts with the vectors of length `y_i - 1` made from the counts.  Missing: all other shapes
of `h`, and replicated counts (`C55_violated`). -/
theorem C55_dispersion_step_partial (n : Nat) (ys : List Nat) (h a b : Shape) :
    dispersion ys h [n] a b [n] = .ok h ↔
      bcast a b = some h ∧ ∀ y ∈ ys, (bcast h [y - 1]).isSome := by
  constructor
  · intro hd
    simp only [dispersion, sampleCRT, bind] at hd
    obtain ⟨Ls, hL, hd⟩ := bind_ok hd
    obtain ⟨l, hl, hL⟩ := bind_ok hL
    cases hL
    refine ⟨?_, bc_of_mapM hl⟩
    simp [sumLast, Except.bind, bc_nil_right] at hd
    exact bc_ok.1 hd
  · rintro ⟨hab, hy⟩
    obtain ⟨l, hl⟩ := mapM_bc hy
    simp [dispersion, sampleCRT, bind, Except.bind, hl, pure, Except.pure, sumLast, bc_nil_right,
      bc_ok.2 hab]

example : dispersion [3, 0, 7] [2] [3] [2] [] [3] ≠ .ok [2] := fun h =>
  absurd (((C55_dispersion_step_partial 3 [3, 0, 7] [2] [2] []).1 h).2 7 (by simp)) (by decide)

/-- A scalar dispersion with scalar parameters is updated for all counts. -/
theorem dispersion_scalar (n : Nat) (ys : List Nat) : dispersion ys [] [n] [] [] [n] = .ok [] :=
  (C55_dispersion_step_partial n ys [] [] []).2
    ⟨rfl, fun y _ => by rw [bcast_nil_left]; rfl⟩

example : dispersion [3, 0, 7] [] [3] [] [] [3] = .ok [] := dispersion_scalar 3 _

/-- **C55 is violated**, on models the finders accept:
* coefficients `normal(0, 2, size=p)`: the step cannot be built, whatever `n` and `p`;
* a prior scale of shape `(1,)` with fewer rows than coefficients: the step fails when run;
* `k` replicated responses per row: the step never returns an array of the shape of the coefficients;
* one `lambda` shared by `p` coefficients: the new `lambda` has shape `(p,)`;
* a single scalar coefficient with a horseshoe prior: the step cannot be built;
* a dispersion `gamma(a, b, size=1)`: the new dispersion is a scalar;
* a dispersion vector with at least two entries: the step fails when a count is two more than
  its length;
* `k` replicated counts per row: the new dispersion has shape `(k,)`. -/
theorem C55_violated :
    (∃ y β std X, Match.bernLogisticFinder y = .ok (some [⟨β, .bernRegression, [β, std, X, y]⟩]) ∧
      std.shape = [] ∧ ∀ n p, bernNormal [p] [] [n, p] [n] = .error .build ∧
        ∀ h, FitsIn h [n] → nbinomNormal [p] [] [n, p] h [n] = .error .build) ∧
    (∀ n p r, n < p → p ≠ 1 → bernNormal [p] [1] [n, p] [n] ≠ .ok r) ∧
    (∀ n p k s, bernNormal [p] s [n, p] [k, n] ≠ .ok [p]) ∧
    (∃ y l t args, Match.horseshoeFinder y =
        .ok (some [⟨l, .horseshoe, args⟩, ⟨t, .horseshoe, args⟩]) ∧ l.shape = [] ∧ t.shape = [] ∧
      (∀ p, horseshoe [p] [] [] [] = .ok ([p], [])) ∧ horseshoe [] [] [] [] = .error .build) ∧
    (∀ n ys, dispersion ys [1] [n] [] [] [n] = .ok []) ∧
    (∀ n m ys a b r, 2 ≤ m → m + 2 ∈ ys → dispersion ys [m] [n] a b [n] ≠ .ok r) ∧
    ∀ n k ys, dispersion ys [] [n] [] [] [k, n] = .ok [k] := by
  have hreg : ∀ n p, regression [n] [] [n, p] [n] = .error .build := fun n p => by
    simp [regression, idx0, idx1, bind, Except.bind, cong2017_scalar]
  refine ⟨⟨Match.bernGraph (.const [-1] [some 1]) (.app (.rv .normal) [none] [.input 6 [],
      .input 7 [], .input 8 [], .const [0] [], .const [2] []]), _, .const [2] [], _, rfl, rfl,
      fun n p => ⟨?_, fun h hh => ?_⟩⟩, fun n p r hnp hp h => ?_, fun n p k s h => ?_,
    ⟨Match.hsGraph (.const [0] []) (Match.hcVar 5 [] (.const [0] []) (.const [1] []))
      (Match.hcVar 6 [] (.const [0] []) (.const [1] [])), _, _, _, rfl, rfl, rfl, fun p => ?_, rfl⟩,
    fun n ys => ?_, fun n m ys a b r hm hmem h => ?_, fun n k ys => ?_⟩
  · simp [bernNormal, matmul21, bind, Except.bind, bc_nil_left, bc_self, hreg]
  · have e : bc [n] h = .ok [n] := bc_ok.2 (bcast_of_fits hh)
    simp [nbinomNormal, matmul21, bind, Except.bind, e, bc_self, hreg]
  · obtain ⟨-, h | ⟨-, h⟩⟩ := (C55_bern_step_partial n p [1] r).1 h
    · simp at h
      omega
    · omega
  · simp only [bernNormal, bind] at h
    obtain ⟨Xb, -, h⟩ := bind_ok h
    obtain ⟨w, -, h⟩ := bind_ok h
    obtain ⟨z, hz, h⟩ := bind_ok h
    have hl := bc_length hz
    have := regression_length (by rw [hl]; simp) h
    simp at this
  · simp [horseshoe, bind, Except.bind, bc_nil_left, bc_nil_right, bc_self, idx0, pure,
      Except.pure]
  · obtain ⟨l, hl⟩ := mapM_bc (h := [1]) (ys := ys) fun y _ => by
      rw [bcast_one]
      by_cases h1 : 1 = y - 1
      · rw [if_pos h1]
        rfl
      · rw [if_neg h1, if_pos rfl]
        rfl
    simp [dispersion, sampleCRT, bind, Except.bind, hl, pure, Except.pure, sumLast, bc_nil_right]
  · simp only [dispersion, sampleCRT, bind] at h
    obtain ⟨Ls, hL, -⟩ := bind_ok h
    obtain ⟨l, hl, -⟩ := bind_ok hL
    have := bc_of_mapM hl _ hmem
    rw [bcast_one, if_neg (by omega), if_neg (by omega), if_neg (by omega)] at this
    cases this
  · obtain ⟨l, hl⟩ := mapM_bc (h := []) (ys := ys) fun y _ => by rw [bcast_nil_left]; rfl
    have hs : sampleCRT ys [k, n] [] = .ok [k, n] := by
      simp only [sampleCRT, bind, hl]
      rfl
    simp [dispersion, hs, bind, Except.bind, sumLast, bc_nil_right, bc_nil_left]

end Verif.Shapes
