import Verif.Fail.Lemmas
import Verif.HsDisp.Lemmas
import Verif.NbReg.Props

/-!
# The programs draw from the laws of the models

If nothing goes wrong, the value a program returns has the law given in `Horseshoe/Model`, `Mvn/Model`,
`PG/Model`, `CRT/Model`, `NbReg/Model`, `HsReg/Model` and `HsDisp/Model`.
-/

open MeasureTheory ProbabilityTheory Matrix

namespace Verif.Fail

namespace Prog

variable {α β : Type} [MeasurableSpace α] [MeasurableSpace β]

/-- The laws of what follows a draw depend measurably on the draw. -/
def Regular : Prog α → Prop
  | .ret _ => True
  | .need _ p => Regular p
  | @Prog.draw _ _ _ g k => AEMeasurable (fun x => law (k x)) g.law ∧ ∀ᵐ x ∂g.law, Regular (k x)

theorem law_bind [MeasurableSingletonClass α] {p : Prog α} {f : α → Prog β} (hp : Regular p)
    (hf : AEMeasurable (fun a => law (f a)) (law p)) :
    law (p.bind f) = (law p).bind fun a => law (f a) := by
  induction p with
  | ret a =>
    obtain ⟨g, hg, he⟩ := hf
    rw [law] at he ⊢
    rw [Measure.bind_congr_right he, Measure.dirac_bind hg, bind]
    rwa [Filter.EventuallyEq, ae_dirac_eq, Filter.eventually_pure] at he
  | need P p ih => exact ih hp hf
  | draw g k ih =>
    rw [law] at hf
    simp only [bind, law]
    rw [Measure.bind_bind hp.1 hf]
    refine Measure.bind_congr_right ?_
    filter_upwards [hp.2, AEMeasurable.ae_of_bind hp.1 hf] with x hx hx2
    exact ih x hx hx2

theorem law_map [MeasurableSingletonClass α] {p : Prog α} (hp : Regular p) {g : α → β} (hg : Measurable g) :
    law (p.bind fun a => .ret (g a)) = (law p).map g := by
  have hm : Measurable fun a => law (.ret (g a) : Prog β) := Measure.measurable_dirac.comp hg
  rw [law_bind hp hm.aemeasurable]
  exact Measure.bind_dirac_eq_map _ hg

theorem regular_bind [MeasurableSingletonClass α] {p : Prog α} {f : α → Prog β} (hp : Regular p)
    (hf : Measurable fun a => law (f a)) (hr : ∀ a, Regular (f a)) : Regular (p.bind f) := by
  induction p with
  | ret a => exact hr a
  | need P p ih => exact ih hp
  | draw g k ih =>
    refine ⟨?_, hp.2.mono fun x hx => ih x hx⟩
    refine ((Measure.measurable_bind' hf).comp_aemeasurable hp.1).congr ?_
    filter_upwards [hp.2] with x hx
    exact (law_bind hx hf.aemeasurable).symm

end Prog

open Prog

variable {p n : ℕ}

/-! ## The shrinkage parameters -/

theorem horseshoeProg_law (conv : Horseshoe.ExpArg) (rows : ℕ) (β : Fin p → ℝ) (sigma2 : ℝ)
    (lambda2 : Fin p → ℝ) (tau2 : ℝ) :
    law (horseshoeProg conv rows β sigma2 lambda2 tau2) =
      Horseshoe.horseshoeArray conv rows β sigma2 lambda2 tau2 :=
  Measure.bind_congr_right (ae_of_all _ fun _ => Measure.bind_congr_right (ae_of_all _ fun _ =>
    Measure.bind_dirac_eq_map _ (by fun_prop)))

theorem horseshoeStepProg_law (conv : Horseshoe.ExpArg) (β : Fin p → ℝ) (q : (Fin p → ℝ) × ℝ) :
    law (horseshoeStepProg conv β q) = Horseshoe.horseshoeStep conv β q :=
  horseshoeProg_law conv p β 1 _ _

theorem global_law (β : Fin p → ℝ) (q aux : (Fin p → ℝ) × ℝ) (ha : 0 < aux.2) {w : Fin p → ℝ}
    (hw : ∀ j, 0 < w j) :
    (gammaMeasure (0.5 * ((p : ℝ) + 1)) (aux.2 + 0.5 * (∑ j, β j ^ 2 * w j) / 1)).bind
      (fun t => Measure.dirac ((fun j => (√(w j))⁻¹, (√t)⁻¹) : (Fin p → ℝ) × ℝ)) =
      HsReg.globalK (((β, q), aux), w) := by
  have h4 : 0 < aux.2 + 0.5 * (∑ j, β j ^ 2 * w j) / 1 := by
    have : 0 ≤ ∑ j, β j ^ 2 * w j := Finset.sum_nonneg fun j _ => by
      have := hw j
      positivity
    positivity
  rw [Measure.bind_dirac_eq_map _ (by fun_prop), HsReg.globalK, posOr1_of_pos h4]

theorem mid_law (conv : Horseshoe.ExpArg) (β : Fin p → ℝ) {q aux : (Fin p → ℝ) × ℝ} (hq : 0 < q.2)
    (ha : (∀ j, 0 < aux.1 j) ∧ 0 < aux.2) :
    ((expGen conv fun j => aux.1 j + 0.5 * β j ^ 2 * (q.2 ^ 2)⁻¹ / 1).law.bind fun w =>
      (gammaMeasure (0.5 * ((p : ℝ) + 1)) (aux.2 + 0.5 * (∑ j, β j ^ 2 * w j) / 1)).bind
        (fun t => Measure.dirac ((fun j => (√(w j))⁻¹, (√t)⁻¹) : (Fin p → ℝ) × ℝ))) =
      HsReg.midK conv ((β, q), aux) := by
  have h3 : ∀ j, 0 < aux.1 j + 0.5 * β j ^ 2 * (q.2 ^ 2)⁻¹ / 1 := fun j => by
    have := ha.1 j
    positivity
  have e2 : (expGen conv fun j => aux.1 j + 0.5 * β j ^ 2 * (q.2 ^ 2)⁻¹ / 1).law =
      HsReg.localK conv ((β, q), aux) := by
    unfold expGen HsReg.localK
    simp only [HsReg.expPos_of_pos conv (h3 _)]
  have hpos := ae_pos_expGen conv h3
  rw [e2] at hpos ⊢
  refine Measure.bind_congr_right ?_
  filter_upwards [hpos] with w hw
  exact global_law β q aux ha.2 hw

theorem horseshoeStepProg_regular (conv : Horseshoe.ExpArg) (β : Fin p → ℝ) {q : (Fin p → ℝ) × ℝ}
    (hq : (∀ j, 0 < q.1 j) ∧ 0 < q.2) : Regular (horseshoeStepProg conv β q) := by
  have hae := ae_pos_auxGen conv (lambda2 := fun j => q.1 j ^ 2) (fun j => pow_pos (hq.1 j) 2)
    (pow_pos hq.2 2)
  have hm : Measurable fun aux => HsReg.midK conv ((β, q), aux) :=
    (HsReg.measurable_midK conv).comp measurable_prodMk_left
  refine ⟨hm.aemeasurable.congr ?_, ?_⟩
  · filter_upwards [hae] with aux ha
    exact (mid_law conv β hq.2 ha).symm
  · filter_upwards [hae] with aux ha
    have hg : Measurable fun w => HsReg.globalK (((β, q), aux), w) :=
      HsReg.measurable_globalK.comp measurable_prodMk_left
    have hpos := ae_pos_expGen conv (args := fun j => aux.1 j + 0.5 * β j ^ 2 * (q.2 ^ 2)⁻¹ / 1)
      fun j => by
        have := ha.1 j
        have := hq.2
        positivity
    refine ⟨hg.aemeasurable.congr ?_, ae_of_all _ fun w => ⟨?_, ae_of_all _ fun t => trivial⟩⟩
    · filter_upwards [hpos] with w hw
      exact (global_law β q aux ha.2 hw).symm
    · exact (Measure.measurable_dirac.comp (by fun_prop)).aemeasurable

/-! ## The coefficients -/

theorem measurable_rue2005 {la : LinAlg} (hla : la.Sound) (b : Fin n → ℝ) {Q : Matrix (Fin n) (Fin n) ℝ}
    (hQ : Q.PosDef) : Measurable (rue2005 la b Q) := by
  obtain ⟨C, -, h⟩ := rue2005_eq hla b hQ
  rw [funext h]
  exact Continuous.measurable (by fun_prop)

theorem measurable_cong2017 {la : LinAlg} (hla : la.Sound) {A : Fin p → ℝ} {omega : Fin n → ℝ}
    (hA : ∀ i, 0 < A i) (hω : ∀ i, 0 < omega i) (phi : Matrix (Fin n) (Fin p) ℝ) (t : Fin n → ℝ) :
    Measurable (cong2017 la A omega phi t) := by
  obtain ⟨C, -, h⟩ := cong2017_eq hla hA hω phi t
  rw [funext h]
  exact Continuous.measurable (by fun_prop)

theorem regressionProg_law {la : LinAlg} (hla : la.Sound) {omega : Fin n → ℝ} (hω : ∀ i, 0 < omega i)
    {d : Fin p → ℝ} (hd : ∀ j, 0 < d j) (X : Matrix (Fin n) (Fin p) ℝ) (z : Fin n → ℝ) :
    law (regressionProg la omega d X z) = normalRegression la omega d X z ∧
      Regular (regressionProg la omega d X z) := by
  have hQ : (setDiagAdd (Xᵀ * (of fun i j => omega i * X i j)) d).PosDef := by
    rw [over_matrix]
    exact posDef_diag_add hd hω X
  unfold regressionProg normalRegression
  split_ifs
  · have hm := measurable_cong2017 hla hd hω X z
    exact ⟨Measure.bind_dirac_eq_map _ hm,
      (Measure.measurable_dirac.comp hm).aemeasurable, ae_of_all _ fun _ => trivial⟩
  · have hm := measurable_rue2005 hla (Xᵀ *ᵥ (omega * z)) hQ
    exact ⟨Measure.bind_dirac_eq_map _ hm,
      (Measure.measurable_dirac.comp hm).aemeasurable, ae_of_all _ fun _ => trivial⟩

theorem pgProg_law {la : LinAlg} (hla : la.Sound) {std : Fin p → ℝ} (hstd : ∀ j, 0 < std j)
    (X : Matrix (Fin n) (Fin p) ℝ) {b : Fin n → ℝ} (hb : ∀ i, 0 < b i) (κ : Fin n → ℝ) (beta : Fin p → ℝ) :
    ((pgGen b (X *ᵥ beta)).law.bind fun w =>
      law (regressionProg la w (fun j => (std j)⁻¹) X fun i => κ i / w i)) =
      ((Measure.pi fun i => pg (b i) ((X *ᵥ beta) i)).bind fun w =>
        normalRegression la w (fun j => (std j)⁻¹) X fun i => κ i / w i) ∧
    AEMeasurable (fun w => law (regressionProg la w (fun j => (std j)⁻¹) X fun i => κ i / w i))
      (pgGen b (X *ᵥ beta)).law ∧
    ∀ᵐ w ∂(pgGen b (X *ᵥ beta)).law,
      Regular (regressionProg la w (fun j => (std j)⁻¹) X fun i => κ i / w i) := by
  have hd : ∀ j, 0 < (std j)⁻¹ := fun j => inv_pos.2 (hstd j)
  have hae := ae_pos_pgGen hb (X *ᵥ beta)
  refine ⟨Measure.bind_congr_right ?_, ?_, ?_⟩
  · filter_upwards [hae] with w hw
    exact (regressionProg_law hla hw hd X _).1
  · refine (measurable_bayes_pgJoint (fun j => (std j)⁻¹) X κ).aemeasurable.congr ?_
    filter_upwards [hae] with w hw
    rw [(regressionProg_law hla hw hd X _).1, (normalRegression_eq_bayes hla hd X κ hw).2]
  · filter_upwards [hae] with w hw
    exact (regressionProg_law hla hw hd X _).2

theorem nbProg_law {la : LinAlg} (hla : la.Sound) {std : Fin p → ℝ} (hstd : ∀ j, 0 < std j)
    (X : Matrix (Fin n) (Fin p) ℝ) {h : Fin n → ℝ} (hh : ∀ i, 0 < h i) (y : Fin n → ℕ) (beta : Fin p → ℝ) :
    law (nbProg la std X h y beta) = nbinomNormalPosterior la std X h y beta ∧
      Regular (nbProg la std X h y beta) := by
  have hb : ∀ i, 0 < (y i : ℝ) + h i := fun i => add_pos_of_nonneg_of_pos (Nat.cast_nonneg _) (hh i)
  have := pgProg_law hla hstd X hb (fun i => 0.5 * ((y i : ℝ) - h i)) beta
  exact ⟨this.1, this.2⟩

theorem bernProg_law {la : LinAlg} (hla : la.Sound) {std : Fin p → ℝ} (hstd : ∀ j, 0 < std j)
    (X : Matrix (Fin n) (Fin p) ℝ) (y : Fin n → Bool) (beta : Fin p → ℝ) :
    law (bernProg la std X y beta) = bernNormalPosterior la std X y beta ∧
      Regular (bernProg la std X y beta) := by
  have := pgProg_law hla hstd X (b := fun _ => 1) (fun _ => one_pos) (fun i => boolVal (y i) - 0.5) beta
  exact ⟨this.1, this.2⟩

/-! ## The dispersion -/

scoped instance : MeasurableSingletonClass (List Bool) := ⟨fun _ => trivial⟩

scoped instance : MeasurableSingletonClass (List ℤ) := ⟨fun _ => trivial⟩

theorem measurable_of_list {γ : Type} [MeasurableSpace γ] (f : List ℤ → γ) : Measurable f := fun _ _ => trivial

theorem measurable_of_bools {γ : Type} [MeasurableSpace γ] (f : List Bool → γ) : Measurable f :=
  fun _ _ => trivial

theorem toMeasure_bind {α β : Type} [MeasurableSpace α] [Countable α] [MeasurableSingletonClass α]
    [MeasurableSpace β] (μ : PMF α) (f : α → PMF β) (hf : Measurable fun a => (f a).toMeasure) :
    (μ.bind f).toMeasure = μ.toMeasure.bind fun a => (f a).toMeasure := by
  ext s hs
  rw [PMF.toMeasure_bind_apply μ f s hs, Measure.bind_apply hs hf.aemeasurable, lintegral_countable']
  exact tsum_congr fun a => by
    rw [PMF.toMeasure_apply_singleton _ _ (measurableSet_singleton _), mul_comm]

theorem crtProg_law (h : ℝ) : ∀ ys : List ℤ,
    law (crtProg h ys) = (CRT.crtScan h ys).toMeasure ∧ Regular (crtProg h ys)
  | [] => ⟨(PMF.toMeasure_pure _).symm, trivial⟩
  | y :: ys => by
    have ih := crtProg_law h ys
    have e : ∀ bs : List Bool,
        law ((crtProg h ys).bind fun ls => .ret (CRT.crtValue y bs :: ls)) =
          ((CRT.crtScan h ys).bind fun ls => PMF.pure (CRT.crtValue y bs :: ls)).toMeasure := by
      intro bs
      rw [law_map ih.2 (measurable_of_list _), ih.1, PMF.toMeasure_map _ _ (measurable_of_list _)]
      rfl
    refine ⟨?_, (measurable_of_bools _).aemeasurable, ae_of_all _ fun bs => ?_⟩
    · change (bernGen (CRT.crtProbs y h)).law.bind (fun bs => law _) = _
      simp only [e]
      rw [CRT.crtScan, CRT.singleCRT, PMF.bind_map, toMeasure_bind _ _ (measurable_of_bools _)]
      rfl
    · exact regular_bind ih.2 (measurable_of_list _) fun _ => trivial

theorem dispersionProg_law (ps : List ℝ) (a b : ℝ) (y : List ℤ) (h : ℝ) :
    law (dispersionProg ps a b y h) = CRT.dispersionPosterior ps a b y h ∧
      Regular (dispersionProg ps a b y h) := by
  have hc := crtProg_law h y
  have hret : ∀ g : Gen ℝ, law (.draw g .ret) = g.law ∧ Regular (.draw g .ret) := fun g =>
    ⟨Measure.bind_dirac, Measure.measurable_dirac.aemeasurable, ae_of_all _ fun _ => trivial⟩
  refine ⟨?_, regular_bind hc.2 (measurable_of_list _) fun Ls => (hret _).2⟩
  rw [dispersionProg, law_bind hc.2 (measurable_of_list _).aemeasurable, hc.1, CRT.dispersionPosterior,
    CRT.crtTotal_eq, ← PMF.toMeasure_map _ _ (measurable_of_list List.sum)]
  rw [Measure.bind, Measure.bind, Measure.map_map (measurable_of_countable _) (measurable_of_list _)]
  congr 2
  ext1 Ls
  exact (hret _).1

/-! ## Whole calls -/

theorem dispersion_part (X : Matrix (Fin n) (Fin p) ℝ) (a b : ℝ) (y : Fin n → ℕ) (h : ℝ) {γ : Type}
    [MeasurableSpace γ] {g : ℝ → γ} (hg : Measurable g) (beta : Fin p → ℝ) :
    law ((finderDispersionProg X beta a b (List.ofFn fun i => (y i : ℤ)) h).bind fun h => .ret (g h)) =
      (CRT.finderDispersion X beta a b (List.ofFn fun i => (y i : ℤ)) h).map g := by
  rw [finderDispersionProg, law_map (dispersionProg_law _ a b _ _).2 hg,
    (dispersionProg_law _ a b _ _).1, CRT.finderDispersion]

theorem nbCall_law {la : LinAlg} (hla : la.Sound) {std : Fin p → ℝ} (hstd : ∀ j, 0 < std j)
    (X : Matrix (Fin n) (Fin p) ℝ) {a b : ℝ} (ha : 0 < a) (hb : 0 < b) (y : Fin n → ℕ)
    {q : (Fin p → ℝ) × ℝ} (hq : 0 < q.2) :
    law (nbCall la std X a b y q) = NbReg.sweep la std X a b y q := by
  have h1 := nbProg_law hla hstd X (fun _ => hq) y q.1
  have h2 := fun beta => dispersion_part X a b y q.2 (g := fun h => (beta, h)) (by fun_prop) beta
  have hK : Measurable fun beta : Fin p → ℝ => NbReg.dispK X a b y (beta, q.2) :=
    (NbReg.measurable_dispK X a b y).comp (by fun_prop)
  have hm : Measurable fun beta : Fin p → ℝ => (NbReg.dispK X a b y (beta, q.2)).map fun h => (beta, h) :=
    measurable_map_param hK (fun _ => NbReg.prob_dispK X ha hb y _)
      (g := fun v : (Fin p → ℝ) × ℝ => v) measurable_id
  have h3 : ∀ beta, (NbReg.dispK X a b y (beta, q.2)).map (fun h => (beta, h)) =
      law ((finderDispersionProg X beta a b (List.ofFn fun i => (y i : ℤ)) q.2).bind
        fun h => .ret (beta, h)) := fun beta => by rw [h2, NbReg.dispK_eq X a b y hq]
  rw [nbCall, law_bind h1.2 (hm.aemeasurable.congr (ae_of_all _ h3)), h1.1, NbReg.sweep]
  simp only [h2]

/-- A program for the shrinkage parameters, followed by one for the coefficients. -/
theorem hsCall_law (conv : Horseshoe.ExpArg) (rd : HsReg.Reads) {K : (Fin p → ℝ) × ((Fin p → ℝ) × ℝ) →
    Measure (Fin p → ℝ)} (hK : Measurable K) (hp : ∀ q, IsProbabilityMeasure (K q))
    {q : (Fin p → ℝ) × ((Fin p → ℝ) × ℝ)} (hq : (∀ j, 0 < q.2.1 j) ∧ 0 < q.2.2)
    {P : (Fin p → ℝ) × ℝ → Prog (Fin p → ℝ)}
    (hP : ∀ s : (Fin p → ℝ) × ℝ, (∀ j, 0 < s.1 j) ∧ 0 < s.2 →
      Regular (P s) ∧ law (P s) = K (q.1, rd.read q.2 s)) :
    law ((horseshoeStepProg conv q.1 q.2).bind fun s => (P s).bind fun beta => .ret (beta, s)) =
      (Horseshoe.horseshoeStep conv q.1 q.2).bind fun s => (law (P s)).map fun beta => (beta, s) := by
  have hpos : ∀ᵐ s ∂law (horseshoeStepProg conv q.1 q.2), (∀ j, 0 < s.1 j) ∧ 0 < s.2 := by
    rw [horseshoeStepProg_law, HsReg.shrinkK_eq conv q.1 hq]
    exact Shared.ae_shrinkK_pos conv (q.1, q.2)
  have e : ∀ s : (Fin p → ℝ) × ℝ, (∀ j, 0 < s.1 j) ∧ 0 < s.2 →
      law ((P s).bind fun beta => .ret (beta, s)) = (law (P s)).map fun beta => (beta, s) := fun s hs =>
    law_map (hP s hs).1 (by fun_prop)
  have hm : Measurable fun s => HsReg.readInner rd K (q, s) :=
    (HsReg.measurable_readInner rd hK hp).comp measurable_prodMk_left
  rw [law_bind (horseshoeStepProg_regular conv q.1 hq), ← horseshoeStepProg_law]
  · refine Measure.bind_congr_right ?_
    filter_upwards [hpos] with s hs
    exact e s hs
  · refine hm.aemeasurable.congr ?_
    filter_upwards [hpos] with s hs
    rw [e s hs, (hP s hs).2, HsReg.readInner]

theorem read_pos {rd : HsReg.Reads} {old new : (Fin p → ℝ) × ℝ} (ho : (∀ j, 0 < old.1 j) ∧ 0 < old.2)
    (hn : (∀ j, 0 < new.1 j) ∧ 0 < new.2) (j : Fin p) : 0 < (rd.read old new).1 j * (rd.read old new).2 := by
  have : Horseshoe.AllPos (rd.read old new) := HsReg.read_pos rd ho hn
  exact mul_pos (this.1 j) this.2

theorem hsNbCall_law (conv : Horseshoe.ExpArg) (rd : HsReg.Reads) {la : LinAlg} (hla : la.Sound)
    (X : Matrix (Fin n) (Fin p) ℝ) {h : Fin n → ℝ} (hh : ∀ i, 0 < h i) (y : Fin n → ℕ)
    {q : (Fin p → ℝ) × ((Fin p → ℝ) × ℝ)} (hq : (∀ j, 0 < q.2.1 j) ∧ 0 < q.2.2) :
    law (hsNbCall conv rd la X h y q) = HsReg.nbSweep conv rd la X h y q := by
  have hb : ∀ i, 0 < (y i : ℝ) + h i := fun i => add_pos_of_nonneg_of_pos (Nat.cast_nonneg _) (hh i)
  rw [hsNbCall, hsCall_law conv rd
    (HsReg.measurable_coefK X (fun i => (y i : ℝ) + h i) fun i => 0.5 * ((y i : ℝ) - h i))
    (HsReg.prob_coefK X _ _) hq, HsReg.nbSweep]
  · rw [← horseshoeStepProg_law]
    refine Measure.bind_congr_right ?_
    have hpos : ∀ᵐ s ∂law (horseshoeStepProg conv q.1 q.2), (∀ j, 0 < s.1 j) ∧ 0 < s.2 := by
      rw [horseshoeStepProg_law, HsReg.shrinkK_eq conv q.1 hq]
      exact Shared.ae_shrinkK_pos conv (q.1, q.2)
    filter_upwards [hpos] with s hs
    rw [(nbProg_law hla (read_pos hq hs) X hh y q.1).1]
  · intro s hs
    have := nbProg_law hla (read_pos (rd := rd) hq hs) X hh y q.1
    refine ⟨this.2, this.1.trans ?_⟩
    rw [nbinomNormalPosterior_eq]
    exact HsReg.coefK_eq hla X hb _ (HsReg.read_pos rd hq hs) q.1

theorem hsBernCall_law (conv : Horseshoe.ExpArg) (rd : HsReg.Reads) {la : LinAlg} (hla : la.Sound)
    (X : Matrix (Fin n) (Fin p) ℝ) (y : Fin n → Bool)
    {q : (Fin p → ℝ) × ((Fin p → ℝ) × ℝ)} (hq : (∀ j, 0 < q.2.1 j) ∧ 0 < q.2.2) :
    law (hsBernCall conv rd la X y q) = HsReg.bernSweep conv rd la X y q := by
  rw [hsBernCall, hsCall_law conv rd
    (HsReg.measurable_coefK X (fun _ => 1) fun i => boolVal (y i) - 0.5)
    (HsReg.prob_coefK X _ _) hq, HsReg.bernSweep]
  · rw [← horseshoeStepProg_law]
    refine Measure.bind_congr_right ?_
    have hpos : ∀ᵐ s ∂law (horseshoeStepProg conv q.1 q.2), (∀ j, 0 < s.1 j) ∧ 0 < s.2 := by
      rw [horseshoeStepProg_law, HsReg.shrinkK_eq conv q.1 hq]
      exact Shared.ae_shrinkK_pos conv (q.1, q.2)
    filter_upwards [hpos] with s hs
    rw [(bernProg_law hla (read_pos hq hs) X y q.1).1]
  · intro s hs
    have := bernProg_law hla (read_pos (rd := rd) hq hs) X y q.1
    refine ⟨this.2, this.1.trans ?_⟩
    rw [bernNormalPosterior_eq]
    exact HsReg.coefK_eq hla X (fun _ => one_pos) _ (HsReg.read_pos rd hq hs) q.1

theorem hsDispCall_law (conv : Horseshoe.ExpArg) (rd : HsReg.Reads) {la : LinAlg} (hla : la.Sound)
    (X : Matrix (Fin n) (Fin p) ℝ) {a b : ℝ} (ha : 0 < a) (hb : 0 < b) (y : Fin n → ℕ)
    {r : ((Fin p → ℝ) × ((Fin p → ℝ) × ℝ)) × ℝ} (hr : ((∀ j, 0 < r.1.2.1 j) ∧ 0 < r.1.2.2) ∧ 0 < r.2) :
    law (hsDispCall conv rd la X a b y r) = HsDisp.call conv rd la X a b y r := by
  have hpos : ∀ᵐ s ∂law (horseshoeStepProg conv r.1.1 r.1.2), (∀ j, 0 < s.1 j) ∧ 0 < s.2 := by
    rw [horseshoeStepProg_law, HsReg.shrinkK_eq conv r.1.1 hr.1]
    exact Shared.ae_shrinkK_pos conv (r.1.1, r.1.2)
  have h2 := fun (s : (Fin p → ℝ) × ℝ) (beta : Fin p → ℝ) =>
    dispersion_part X a b y r.2 (g := fun h => ((beta, s), h)) (by fun_prop) beta
  have hT : ∀ s : (Fin p → ℝ) × ℝ, Measurable fun beta => HsDisp.tailK X a b y ((r, s), beta) := fun s =>
    (HsDisp.measurable_tailK X ha hb y).comp measurable_prodMk_left
  have h3 : ∀ s beta, HsDisp.tailK X a b y ((r, s), beta) =
      law ((finderDispersionProg X beta a b (List.ofFn fun i => (y i : ℤ)) r.2).bind
        fun h => .ret ((beta, s), h)) := fun s beta => by
    rw [h2, NbReg.dispK_eq X a b y hr.2]
    rfl
  have e : ∀ s : (Fin p → ℝ) × ℝ, (∀ j, 0 < s.1 j) ∧ 0 < s.2 →
      law ((nbProg la (fun j => (rd.read r.1.2 s).1 j * (rd.read r.1.2 s).2) X (fun _ => r.2) y
        r.1.1).bind fun beta => (finderDispersionProg X beta a b (List.ofFn fun i => (y i : ℤ)) r.2).bind
          fun h => .ret ((beta, s), h)) =
      (nbinomNormalPosterior la (fun j => (rd.read r.1.2 s).1 j * (rd.read r.1.2 s).2) X (fun _ => r.2) y
        r.1.1).bind fun beta =>
          (CRT.finderDispersion X beta a b (List.ofFn fun i => (y i : ℤ)) r.2).map fun h => ((beta, s), h) := by
    intro s hs
    have h1 := nbProg_law hla (read_pos (rd := rd) hr.1 hs) X (fun _ => hr.2) y r.1.1
    rw [law_bind h1.2 ((hT s).aemeasurable.congr (ae_of_all _ (h3 s))), h1.1]
    simp only [h2]
  have hm : Measurable fun s => HsDisp.midK rd X a b y (r, s) :=
    (HsDisp.measurable_midK rd X ha hb y).comp measurable_prodMk_left
  rw [hsDispCall, law_bind (horseshoeStepProg_regular conv r.1.1 hr.1), HsDisp.call,
    ← horseshoeStepProg_law]
  · refine Measure.bind_congr_right ?_
    filter_upwards [hpos] with s hs
    exact e s hs
  · refine hm.aemeasurable.congr ?_
    filter_upwards [hpos] with s hs
    have hd : ∀ j, 0 < (rd.read r.1.2 s).1 j * (rd.read r.1.2 s).2 := read_pos hr.1 hs
    rw [e s hs, NbReg.coefK_eq hla hd X y hr.2, HsDisp.midK, HsDisp.coefP]
    simp only [posOr1_of_pos (inv_pos.2 (hd _))]
    exact Measure.bind_congr_right (ae_of_all _ fun beta => (h3 s beta).trans (h2 s beta))

end Verif.Fail
