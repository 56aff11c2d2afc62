import Verif.Fail.Model
import Verif.Horseshoe.Prec
import Verif.Mvn.Lemmas
import Verif.NbReg.Lemmas
import Verif.CRT.Props

/-!
# Helper lemmas: each function of the samplers never fails on admissible input
-/

open MeasureTheory ProbabilityTheory Matrix

namespace Verif.Fail

open Prog

variable {p n : ℕ}

theorem ae_pi_pos {μ : Fin p → Measure ℝ} [∀ j, SigmaFinite (μ j)] (h : ∀ j, ∀ᵐ x ∂μ j, 0 < x) :
    ∀ᵐ x ∂Measure.pi μ, ∀ j, 0 < x j :=
  ae_all_iff.2 fun j => (Measure.tendsto_eval_ae_ae (μ := μ) (i := j)).eventually (h j)

theorem ae_pos_expGen (conv : Horseshoe.ExpArg) {args : Fin p → ℝ} (h : ∀ j, 0 < args j) :
    ∀ᵐ x ∂(expGen conv args).law, ∀ j, 0 < x j := by
  have : ∀ j, IsProbabilityMeasure (Horseshoe.expDraw conv (args j)) := fun j => by
    rw [Horseshoe.expDraw_eq]
    exact isProbabilityMeasure_gammaMeasure one_pos (Horseshoe.eRate_pos conv (h j))
  exact ae_pi_pos fun j => by rw [Horseshoe.expDraw_eq]; exact ae_pos_gammaMeasure

theorem ae_pos_pgGen {b : Fin n → ℝ} (hb : ∀ i, 0 < b i) (c : Fin n → ℝ) :
    ∀ᵐ w ∂(pgGen b c).law, ∀ i, 0 < w i := by
  have h0 : ∀ i, IsProbabilityMeasure (pg0 (b i)) := fun i => isProbabilityMeasure_pg0 (hb i)
  have h : ∀ᵐ w ∂Measure.pi fun i => pg0 (b i), ∀ i, 0 < w i := ae_pi_pos fun i => ae_pos_pg0 (hb i)
  rw [pgGen, pi_pg_eq_withDensity hb]
  exact (withDensity_absolutelyContinuous _ _).ae_le h

theorem ae_pos_auxGen (conv : Horseshoe.ExpArg) {lambda2 : Fin p → ℝ} (hl : ∀ j, 0 < lambda2 j) {tau2 : ℝ}
    (ht : 0 < tau2) :
    ∀ᵐ x ∂((expGen conv fun j => 1 + (lambda2 j)⁻¹).pair (expGen1 conv (1 + tau2⁻¹))).law,
      (∀ j, 0 < x.1 j) ∧ 0 < x.2 := by
  have := Horseshoe.ae_pos_auxLaw conv hl ht
  simp only [one_div] at this
  exact this

/-- `horseshoe_posterior` on positive input. -/
theorem horseshoeProg_safe (conv : Horseshoe.ExpArg) (rows : ℕ) (β : Fin p → ℝ) {sigma2 : ℝ}
    (hs : 0 < sigma2) {lambda2 : Fin p → ℝ} (hl : ∀ j, 0 < lambda2 j) {tau2 : ℝ} (ht : 0 < tau2) :
    Safe (horseshoeProg conv rows β sigma2 lambda2 tau2) fun q => (∀ j, 0 < q.1 j) ∧ 0 < q.2 := by
  refine ⟨fun j => (hl j).ne', ht.ne', ⟨fun j => ?_, ?_⟩, ?_⟩
  · have := hl j
    positivity
  · change 0 < 1 + tau2⁻¹
    positivity
  filter_upwards [ae_pos_auxGen conv hl ht] with x hx
  have harg : ∀ j, 0 < x.1 j + 0.5 * β j ^ 2 * tau2⁻¹ / sigma2 := fun j =>
    add_pos_of_pos_of_nonneg (hx.1 j) (by positivity)
  refine ⟨hs.ne', harg, ?_⟩
  filter_upwards [ae_pos_expGen conv harg] with w hw
  refine ⟨⟨by positivity, add_pos_of_pos_of_nonneg hx.2 ?_⟩, ?_⟩
  · have : 0 ≤ ∑ j, β j ^ 2 * w j := Finset.sum_nonneg fun j _ => mul_nonneg (sq_nonneg _) (hw j).le
    positivity
  refine ae_pos_gammaMeasure.mono fun t ht' => ?_
  exact ⟨fun j => (hw j).le, fun j => (Real.sqrt_pos.2 (hw j)).ne', ht'.le, (Real.sqrt_pos.2 ht').ne',
    fun j => inv_pos.2 (Real.sqrt_pos.2 (hw j)), inv_pos.2 (Real.sqrt_pos.2 ht')⟩

theorem horseshoeStepProg_safe (conv : Horseshoe.ExpArg) (β : Fin p → ℝ) {q : (Fin p → ℝ) × ℝ}
    (hq : (∀ j, 0 < q.1 j) ∧ 0 < q.2) :
    Safe (horseshoeStepProg conv β q) fun q => (∀ j, 0 < q.1 j) ∧ 0 < q.2 :=
  horseshoeProg_safe conv p β one_pos (fun j => pow_pos (hq.1 j) 2) (pow_pos hq.2 2)

theorem rueProg_safe {la : LinAlg} (hla : la.Sound) (b : Fin n → ℝ) {Q : Matrix (Fin n) (Fin n) ℝ}
    (hQ : Q.PosDef) : Safe (rueProg la b Q) fun _ => True :=
  ⟨hQ, fun i => ((hla.chol hQ).2.1 i).ne', trivial, Filter.Eventually.of_forall fun _ => trivial⟩

theorem over_matrix (omega : Fin n → ℝ) (d : Fin p → ℝ) (X : Matrix (Fin n) (Fin p) ℝ) :
    setDiagAdd (Xᵀ * (of fun i j => omega i * X i j)) d = diagonal d + Xᵀ * diagonal omega * X := by
  have : (of fun i j => omega i * X i j) = diagonal omega * X := by
    ext i j
    simp
  rw [setDiagAdd_eq, this, add_comm, Matrix.mul_assoc]

theorem under_matrix (A : Fin p → ℝ) (omega : Fin n → ℝ) (phi : Matrix (Fin n) (Fin p) ℝ) :
    setDiagAdd (phi * (of fun i j => 1 / A i * phi j i)) (fun i => 1 / omega i) =
      phi * diagonal A⁻¹ * phiᵀ + diagonal omega⁻¹ := by
  have : (of fun i j => 1 / A i * phi j i) = diagonal A⁻¹ * phiᵀ := by
    ext i j
    simp
  rw [setDiagAdd_eq, this, Matrix.mul_assoc]
  congr 2
  ext i
  simp

theorem congProg_safe (la : LinAlg) {A : Fin p → ℝ} (hA : ∀ j, 0 < A j) {omega : Fin n → ℝ}
    (hω : ∀ i, 0 < omega i) (phi : Matrix (Fin n) (Fin p) ℝ) (t : Fin n → ℝ) :
    Safe (congProg la A omega phi t) fun _ => True := by
  refine ⟨fun j => (hA j).ne', trivial, Filter.Eventually.of_forall fun z => ?_⟩
  refine ⟨fun j => (one_div_pos.2 (hA j)).le, fun i => (hω i).le, fun i => (Real.sqrt_pos.2 (hω i)).ne',
    fun i => (hω i).ne', ?_, trivial⟩
  rw [under_matrix]
  exact posDef_B hA hω phi

theorem regressionProg_safe {la : LinAlg} (hla : la.Sound) {omega : Fin n → ℝ} (hω : ∀ i, 0 < omega i)
    {d : Fin p → ℝ} (hd : ∀ j, 0 < d j) (X : Matrix (Fin n) (Fin p) ℝ) (z : Fin n → ℝ) :
    Safe (regressionProg la omega d X z) fun _ => True := by
  unfold regressionProg
  split_ifs
  · exact congProg_safe la hd hω X z
  · refine rueProg_safe hla _ ?_
    rw [over_matrix]
    exact posDef_diag_add hd hω X

theorem nbProg_safe {la : LinAlg} (hla : la.Sound) {std : Fin p → ℝ} (hstd : ∀ j, 0 < std j)
    (X : Matrix (Fin n) (Fin p) ℝ) {h : Fin n → ℝ} (hh : ∀ i, 0 < h i) (y : Fin n → ℕ) (beta : Fin p → ℝ) :
    Safe (nbProg la std X h y beta) fun _ => True := by
  have hb : ∀ i, 0 < (y i : ℝ) + h i := fun i => add_pos_of_nonneg_of_pos (Nat.cast_nonneg _) (hh i)
  refine ⟨hb, ?_⟩
  filter_upwards [ae_pos_pgGen hb (X *ᵥ beta)] with w hw
  exact ⟨fun i => (hw i).ne', fun j => (hstd j).ne',
    regressionProg_safe hla hw (fun j => inv_pos.2 (hstd j)) X _⟩

theorem bernProg_safe {la : LinAlg} (hla : la.Sound) {std : Fin p → ℝ} (hstd : ∀ j, 0 < std j)
    (X : Matrix (Fin n) (Fin p) ℝ) (y : Fin n → Bool) (beta : Fin p → ℝ) :
    Safe (bernProg la std X y beta) fun _ => True := by
  refine ⟨fun _ => one_pos, ?_⟩
  filter_upwards [ae_pos_pgGen (fun _ => one_pos) (X *ᵥ beta)] with w hw
  exact ⟨fun i => (hw i).ne', fun j => (hstd j).ne',
    regressionProg_safe hla hw (fun j => inv_pos.2 (hstd j)) X _⟩

theorem mem_arange_two {y n : ℤ} (h : n ∈ CRT.arange 2 (y + 1)) : 2 ≤ n := by
  obtain ⟨k, -, rfl⟩ := List.mem_map.1 h
  omega

theorem crtValue_nonneg (y : ℤ) (bs : List Bool) : 0 ≤ CRT.crtValue y bs := by
  unfold CRT.crtValue
  split_ifs
  · rfl
  · have : 0 ≤ (bs.map fun b => if b then (1 : ℤ) else 0).sum := List.sum_nonneg fun x hx => by
      obtain ⟨b, -, rfl⟩ := List.mem_map.1 hx
      split_ifs <;> norm_num
    omega

theorem crtProg_safe {h : ℝ} (hh : 0 < h) :
    ∀ ys : List ℤ, Safe (crtProg h ys) fun ls => ls.length = ys.length ∧ 0 ≤ ls.sum
  | [] => ⟨rfl, le_rfl⟩
  | y :: ys => by
    have h2 : ∀ n ∈ CRT.arange 2 (y + 1), (2 : ℝ) ≤ (n : ℝ) := fun n hn => by
      exact_mod_cast mem_arange_two hn
    refine ⟨fun n hn => ?_, fun q hq => ?_, Filter.Eventually.of_forall fun bs => ?_⟩
    · have := h2 n hn
      exact (by linarith : (0 : ℝ) < (n : ℝ) - 1 + h).ne'
    · obtain ⟨n, hn, rfl⟩ := List.mem_map.1 hq
      have := h2 n hn
      have hpos : (0 : ℝ) < (n : ℝ) - 1 + h := by linarith
      exact ⟨by positivity, (div_le_one hpos).2 (by linarith)⟩
    · refine (crtProg_safe hh ys).bind fun ls hls => ⟨by simp [hls.1], ?_⟩
      rw [List.sum_cons]
      exact add_nonneg (crtValue_nonneg y bs) hls.2

theorem dispersionProg_safe {ps : List ℝ} (hp : ∀ q ∈ ps, 0 ≤ q ∧ q < 1) {a b : ℝ} (ha : 0 < a) (hb : 0 < b)
    (y : List ℤ) {h : ℝ} (hh : 0 < h) : Safe (dispersionProg ps a b y h) fun h' => 0 < h' := by
  refine (crtProg_safe hh y).bind fun Ls hLs => ?_
  refine ⟨hb.ne', fun q hq => by linarith [(hp q hq).2], ⟨?_, ?_⟩, ae_pos_gammaMeasure⟩
  · have : (0 : ℝ) ≤ (Ls.sum : ℤ) := by exact_mod_cast hLs.2
    linarith
  · have h1 : (ps.map fun q => Real.log (1 - q)).sum ≤ 0 := by
      clear hh y Ls hLs
      induction ps with
      | nil => simp
      | cons q ps ih =>
        have hq := hp q (by simp)
        have := Real.log_nonpos (by linarith [hq.2] : 0 ≤ 1 - q) (by linarith [hq.1])
        have := ih fun r hr => hp r (List.mem_cons_of_mem _ hr)
        rw [List.map_cons, List.sum_cons]
        linarith
    have := inv_pos.2 hb
    linarith

theorem finderDispersionProg_safe (X : Matrix (Fin n) (Fin p) ℝ) (beta : Fin p → ℝ) {a b : ℝ} (ha : 0 < a)
    (hb : 0 < b) (y : List ℤ) {h : ℝ} (hh : 0 < h) :
    Safe (finderDispersionProg X beta a b y h) fun h' => 0 < h' := by
  refine dispersionProg_safe (fun q hq => ?_) ha hb y hh
  obtain ⟨i, rfl⟩ := List.mem_ofFn.1 hq
  exact ⟨(CRT.sigmoid_pos' _).le, CRT.sigmoid_lt_one' _⟩

end Verif.Fail
