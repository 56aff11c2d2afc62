import Verif.Graph.Sweep
import Verif.Graph.Witness
import Mathlib.Probability.Distributions.Uniform
import Mathlib.Tactic.NormNum
import Mathlib.Tactic.IntervalCases

/-!
# Concrete models for C53: a sweep that keeps the posterior, and one that does not

Two variables `lam = 0` and `beta = 1` with values in `{0, 1}`; under the posterior `lam` is uniform and
`beta` differs from `lam` with probability `1/4`.  A Gibbs step sets one variable to the other, flipped with
probability `1/4`.
-/

open MeasureTheory ProbabilityTheory

namespace Verif.Graph

open Verif.Py

namespace Sweep

/-! ## Uniform measures on finite types -/

/-- All points have the same probability. -/
def Unif {α : Type} [Fintype α] [MeasurableSpace α] (μ : Measure α) : Prop :=
  ∀ a, μ {a} = (Fintype.card α : ENNReal)⁻¹

theorem Unif.apply {α : Type} [Fintype α] [MeasurableSpace α] [MeasurableSingletonClass α]
    {μ : Measure α} (h : Unif μ) (s : Finset α) :
    μ s = s.card * (Fintype.card α : ENNReal)⁻¹ := by
  rw [← sum_measure_singleton]
  simp [h _]

theorem Unif.prod {α β : Type} [Fintype α] [Fintype β] [MeasurableSpace α] [MeasurableSpace β]
    {μ : Measure α} {ν : Measure β} [SFinite ν] (h : Unif μ) (h' : Unif ν) : Unif (μ.prod ν) := by
  rintro ⟨a, b⟩
  rw [← Set.singleton_prod_singleton, Measure.prod_prod, h, h', Fintype.card_prod, Nat.cast_mul,
    ENNReal.mul_inv (by simp) (by simp)]

/-- The uniform law on `Fin n`. -/
noncomputable def unif (n : ℕ) [NeZero n] : Measure (Fin n) :=
  (PMF.uniformOfFintype (Fin n)).toMeasure

instance (n : ℕ) [NeZero n] : IsProbabilityMeasure (unif n) := by
  unfold unif
  infer_instance

theorem unif_unif (n : ℕ) [NeZero n] : Unif (unif n) := by
  intro a
  unfold unif
  rw [PMF.toMeasure_apply_singleton _ _ (measurableSet_singleton a), PMF.uniformOfFintype_apply]

/-- Two images of uniform laws agree when the fibres have proportional sizes. -/
theorem Unif.map_eq {α β γ : Type} [Fintype α] [Fintype β] [Fintype γ] [DecidableEq γ]
    [MeasurableSpace α] [MeasurableSpace β] [MeasurableSpace γ]
    [MeasurableSingletonClass α] [MeasurableSingletonClass β] [MeasurableSingletonClass γ]
    {μ : Measure α} {ν : Measure β} (hμ : Unif μ) (hν : Unif ν) (f : α → γ) (f' : β → γ)
    (h : ∀ c, (Finset.univ.filter fun a => f a = c).card * Fintype.card β =
      (Finset.univ.filter fun b => f' b = c).card * Fintype.card α)
    (hα : Fintype.card α ≠ 0) (hβ : Fintype.card β ≠ 0) : μ.map f = ν.map f' := by
  refine Measure.ext_of_singleton fun c => ?_
  rw [Measure.map_apply (measurable_of_finite f) (measurableSet_singleton c),
    Measure.map_apply (measurable_of_finite f') (measurableSet_singleton c)]
  have h1 : f ⁻¹' {c} = ((Finset.univ.filter fun a => f a = c : Finset α) : Set α) := by
    ext; simp
  have h2 : f' ⁻¹' {c} = ((Finset.univ.filter fun a => f' a = c : Finset β) : Set β) := by
    ext; simp
  rw [h1, h2, hμ.apply, hν.apply, ← div_eq_mul_inv, ← div_eq_mul_inv,
    ENNReal.div_eq_div_iff (by exact_mod_cast hβ) (by simp) (by exact_mod_cast hα) (by simp)]
  have := h c
  norm_cast
  rw [mul_comm, this, mul_comm]

/-! ## The two-variable posterior -/

/-- `x`, flipped if `e = 0`. -/
def flip (x e : ℕ) : ℕ := if e = 0 then 1 - x else x

/-- Current values and two generators. -/
abbrev Om := ((Fin 2 × Fin 4) × Fin 4) × Fin 4

/-- Their law: everything independent and uniform. -/
noncomputable def PP : Measure Om := (((unif 2).prod (unif 4)).prod (unif 4)).prod (unif 4)

instance : IsProbabilityMeasure PP := by
  unfold PP
  infer_instance

/-- The state with values `a`, `b` for `lam`, `beta` and 3 for the observed variable. -/
def state (a b : ℕ) : Var → ℕ := fun v => if v = 0 then a else if v = 1 then b else 3

/-- The current state. -/
def cur0 (q : Fin 2 × Fin 4) : Var → ℕ := state q.1 (flip q.1 q.2)

/-- The current state on the whole space. -/
def curS (ω : Om) : Var → ℕ := cur0 ω.1.1
/-- The first generator. -/
def e0 (ω : Om) : ℕ := ω.1.2
/-- The second generator. -/
def e1 (ω : Om) : ℕ := ω.2

/-- The posterior. -/
noncomputable def post : Measure (Var → ℕ) := ((unif 2).prod (unif 4)).map cur0

theorem map_curS : PP.map curS = post := by
  have h : curS = cur0 ∘ Prod.fst ∘ Prod.fst := rfl
  unfold post PP
  rw [h, ← Measure.map_map (measurable_of_finite _) (measurable_of_finite _),
    ← Measure.map_map (measurable_of_finite _) (measurable_of_finite _), Measure.map_fst_prod,
    measure_univ, one_smul, Measure.map_fst_prod, measure_univ, one_smul]

theorem map_e0 : PP.map e0 = (unif 4).map fun x : Fin 4 => (x : ℕ) := by
  have h : e0 = (fun x : Fin 4 => (x : ℕ)) ∘ Prod.snd ∘ Prod.fst := rfl
  unfold PP
  rw [h, ← Measure.map_map (measurable_of_finite _) (measurable_of_finite _),
    ← Measure.map_map (measurable_of_finite _) (measurable_of_finite _), Measure.map_fst_prod,
    measure_univ, one_smul, Measure.map_snd_prod, measure_univ, one_smul]

theorem map_e1 : PP.map e1 = (unif 4).map fun x : Fin 4 => (x : ℕ) := by
  have h : e1 = (fun x : Fin 4 => (x : ℕ)) ∘ Prod.snd := rfl
  unfold PP
  rw [h, ← Measure.map_map (measurable_of_finite _) (measurable_of_finite _), Measure.map_snd_prod,
    measure_univ, one_smul]

theorem indep01 {A : Type} [MeasurableSpace A] (X : Fin 2 × Fin 4 → A) :
    IndepFun (fun ω : Om => X ω.1.1) e0 PP := by
  have h := indepFun_prod (μ := (unif 2).prod (unif 4)) (ν := unif 4)
    (measurable_of_finite X) (measurable_of_finite fun x : Fin 4 => (x : ℕ))
  rw [indepFun_iff_map_prod_eq_prod_map_map (measurable_of_finite _).aemeasurable
    (measurable_of_finite _).aemeasurable] at h ⊢
  have hf : PP.map Prod.fst = ((unif 2).prod (unif 4)).prod (unif 4) := by
    unfold PP
    rw [Measure.map_fst_prod, measure_univ, one_smul]
  rw [← hf, Measure.map_map (measurable_of_finite _) (measurable_of_finite _),
    Measure.map_map (measurable_of_finite _) (measurable_of_finite _),
    Measure.map_map (measurable_of_finite _) (measurable_of_finite _)] at h
  exact h

theorem indep2 {A : Type} [MeasurableSpace A] (X : (Fin 2 × Fin 4) × Fin 4 → A) :
    IndepFun (fun ω : Om => X ω.1) e1 PP :=
  indepFun_prod (μ := ((unif 2).prod (unif 4)).prod (unif 4)) (ν := unif 4)
    (measurable_of_finite X) (measurable_of_finite fun x : Fin 4 => (x : ℕ))

theorem measurable_flip (v : Var) :
    Measurable fun p : (Var → ℕ) × ℕ => flip (p.1 v) p.2 := by
  have h1 : Measurable fun p : (Var → ℕ) × ℕ => (p.1 v, p.2) :=
    ((measurable_pi_apply v).comp measurable_fst).prodMk measurable_snd
  exact (measurable_of_countable fun q : ℕ × ℕ => flip q.1 q.2).comp h1

/-- A state from its two values. -/
def ofPair (p : Fin 2 × Fin 2) : Var → ℕ := state p.1 p.2

/-- The current values as elements of `{0, 1}`. -/
def curPair (q : Fin 2 × Fin 4) : Fin 2 × Fin 2 := (q.1, if q.2 = 0 then 1 - q.1 else q.1)

theorem cur0_eq (q : Fin 2 × Fin 4) : cur0 q = ofPair (curPair q) := by
  funext v
  unfold cur0 ofPair state curPair flip
  revert q
  by_cases h0 : v = 0
  · simp [h0]
  · by_cases h1 : v = 1
    · simp only [h1]
      decide
    · simp [h0, h1]

theorem post_eq : post = (((unif 2).prod (unif 4)).map curPair).map ofPair := by
  rw [Measure.map_map (measurable_of_finite _) (measurable_of_finite _)]
  unfold post
  congr 1
  funext q
  exact cur0_eq q

/-- A step that keeps the posterior, reduced to a count. -/
theorem step_keeps (F : (Var → ℕ) × ℕ → Var → ℕ) (hF : Measurable F)
    (G : (Fin 2 × Fin 4) × Fin 4 → Fin 2 × Fin 2)
    (hFG : ∀ x, F (cur0 x.1, (x.2 : ℕ)) = ofPair (G x))
    (h : ∀ c, (Finset.univ.filter fun a => G a = c).card * 8 =
      (Finset.univ.filter fun b => curPair b = c).card * 32) :
    (post.prod ((unif 4).map fun x : Fin 4 => (x : ℕ))).map F = post := by
  conv_lhs => unfold post
  rw [Measure.map_prod_map _ _ (measurable_of_finite _) (measurable_of_finite _),
    Measure.map_map hF (measurable_of_finite _), post_eq]
  have : F ∘ Prod.map cur0 (fun x : Fin 4 => (x : ℕ)) = ofPair ∘ G := by
    funext x
    exact hFG x
  rw [this, ← Measure.map_map (measurable_of_finite _) (measurable_of_finite _)]
  congr 1
  exact Unif.map_eq (((unif_unif 2).prod (unif_unif 4)).prod (unif_unif 4))
    ((unif_unif 2).prod (unif_unif 4)) G curPair (by simpa using h) (by simp) (by simp)

theorem keeps0 : (post.prod ((unif 4).map fun x : Fin 4 => (x : ℕ))).map
    (fun p => Function.update p.1 0 (flip (p.1 1) p.2)) = post := by
  refine step_keeps _ ((measurable_update' (X := fun _ : Var => ℕ) (a := (0 : Var))).comp
    (measurable_fst.prodMk (measurable_flip 1)))
    (fun x => (if x.2 = 0 then 1 - (curPair x.1).2 else (curPair x.1).2, (curPair x.1).2)) ?_
    (by decide)
  intro x
  rw [cur0_eq]
  funext v
  by_cases h0 : v = 0
  · subst h0
    rw [Function.update_self]
    revert x
    decide
  · rw [Function.update_of_ne h0]
    simp [ofPair, state, h0]

theorem keeps1 : (post.prod ((unif 4).map fun x : Fin 4 => (x : ℕ))).map
    (fun p => Function.update p.1 1 (flip (p.1 0) p.2)) = post := by
  refine step_keeps _ ((measurable_update' (X := fun _ : Var => ℕ) (a := (1 : Var))).comp
    (measurable_fst.prodMk (measurable_flip 0)))
    (fun x => ((curPair x.1).1, if x.2 = 0 then 1 - (curPair x.1).1 else (curPair x.1).1)) ?_
    (by decide)
  intro x
  rw [cur0_eq]
  funext v
  by_cases h0 : v = 1
  · subst h0
    rw [Function.update_self]
    revert x
    decide
  · rw [Function.update_of_ne h0]
    simp [ofPair, state, h0]

/-! ## A sweep with one closed-form step and NUTS that keeps the posterior -/

/-- Owners: `lam = 0` (no sampler), `beta = 1`, `y = 2` observed as 8, the step of `beta` is 5 (node 4) and
the value NUTS returns is 7 (node 6). -/
def ownE : Owner := ownT [(0, (5, 1)), (1, (1, 1)), (2, (2, 1)), (5, (4, 0)), (7, (6, 0))]
/-- The heap: the step of `beta` reads `lam`, `y` and the generator 11; NUTS reads the new `beta` and the
generator 10. -/
def insE : Ins := insT [(1, [0]), (2, [1]), (4, [0, 2, 11]), (6, [5, 10])]
/-- Discovered steps. -/
def discE : Dict Var (List StepDesc) := [(1, [⟨1, 5, none⟩])]
/-- Observations. -/
def obsE : Dict Var Var := [(2, 8)]
/-- NUTS returns variable 7. -/
def nutsE : Dict Var Var → Dict Var Var → NutsResult := fun a _ => ⟨a.map fun p => (p.1, 7), []⟩
/-- What the nodes compute. -/
def semE : Node → Nat → List ℕ → ℕ := fun n _ xs =>
  if n = 4 then flip (xs.getD 0 0) (xs.getD 2 0) else flip (xs.getD 0 0) (xs.getD 1 0)
/-- Values of the leaves. -/
def givenE (ω : Om) : Var → Option ℕ := fun v =>
  Dict.get? [(12, curS ω 0), (13, curS ω 1), (8, 3), (11, e0 ω), (10, e1 ω)] v

theorem setupE : Setup ownE insE [0, 1, 2] obsE 12 :=
  setup3 (by decide) (fun i => ownT_none (by decide) i) (by decide) (by decide)

theorem noSamplerE (r : Var) : NoSampler discE [0, 1, 2] obsE r ↔ r = 0 := by
  rw [noSampler_iff]
  constructor
  · rintro ⟨h1, h2, h3⟩
    have : r = 0 ∨ r = 1 ∨ r = 2 := by simpa using h1
    rcases this with rfl | rfl | rfl
    · rfl
    · cases h3
    · exact absurd (by decide) h2
  · rintro rfl
    decide

theorem modelVarE {v : Var} (h : v = 0 ∨ v = 1 ∨ v = 2) : ModelVar [0, 1, 2] obsE v :=
  Or.inl (by rcases h with rfl | rfl | rfl <;> decide)

theorem overE {ρ : Var → ℕ} {gv : Var → Option ℕ} (v : Var) (h : v = 0 ∨ v = 1 ∨ v = 2) :
    over (ModelVar [0, 1, 2] obsE) ρ gv v = some (ρ v) := by
  unfold over
  rw [if_pos (modelVarE h)]

theorem overE_other {ρ : Var → ℕ} {gv : Var → Option ℕ} (v : Nat) (h : 2 < v) :
    over (ModelVar [0, 1, 2] obsE) ρ gv v = gv v := by
  unfold over
  rw [if_neg (show ¬ ModelVar [0, 1, 2] obsE v from not_modelVar3 v h)]

/-- `C53_sweep_partial` on this model. -/
example : ∃ out, constructSampler ownE insE [0, 1, 2] obsE n2oA discE 12 id nutsE = some out ∧
    ∃ new : Om → Var → ℕ,
      (∀ ω, ∀ r ∈ [0, 1, 2], r ∉ obsE.keys → ∃ v, out.steps.get? (20 + r) = some v ∧
        Ev ownE semE (givenE ω) out.ins v (new ω r)) ∧
      (∀ ω r, ¬ (r ∈ [0, 1, 2] ∧ r ∉ obsE.keys) → new ω r = curS ω r) ∧ PP.map new = post := by
  have hrun : (constructSamplerC ownE 5 insE [0, 1, 2] obsE n2oA discE 12 id nutsE).map
      (fun o => (o.steps, o.inits, o.ins 6, o.ins 4)) =
      some ([(20, 7), (21, 5)], [(20, 12), (21, 13)], [5, 10], [12, 8, 11]) := by decide
  have hsv : stepVars discE obsE [0, 1, 2] = [1] := by decide
  refine C53_sweep_partial (g := fun _ ρ x => flip (ρ 0) x) (ξ := fun _ => e0)
    (gN := fun _ ρ x => flip (ρ 1) x) (ζ := e1) (cur := curS) (given := givenE) setupE oldA injA
    idOrder ?_ ?_ ?_ ?_ ?_ ?_ (fun _ => measurable_flip 0) (fun _ => measurable_flip 1)
    (measurable_of_finite _) (fun _ => measurable_of_finite _) (measurable_of_finite _) map_curS
    ?_ ?_ ?_ ?_
  · intro a b
    change (a.map fun p => (p.1, 7)).map Prod.fst = a.map Prod.fst
    rw [List.map_map]
    rfl
  · intro ω p hp
    have : p = (0, 12) ∨ p = (1, 13) := by
      have h : initVals 12 (unobs [0, 1, 2] obsE) = [(0, 12), (1, 13)] := by decide
      rw [h] at hp
      simpa using hp
    rcases this with rfl | rfl <;> rfl
  · intro ω p hp
    rw [obsE, List.mem_singleton] at hp
    subst hp
    exact .given rfl
  · intro ω r sd ρ hc
    have hr : r = 1 := by
      by_contra hne
      unfold chosen discE Dict.get? at hc
      rw [if_neg (Ne.symm hne)] at hc
      split_ifs at hc
      cases hc
    subst hr
    cases hc
    refine Ev.node' (n := 4) (i := 0) (vs := [0, 2, 11]) (xs := [ρ 0, ρ 2, e0 ω])
      ((overE_other 5 (by decide)).trans rfl) rfl rfl ?_ rfl
    exact .cons (.given (overE 0 (by decide))) (.cons (.given (overE 2 (by decide)))
      (.cons (.given (by rw [overE_other 11 (by decide)]; rfl)) .nil))
  · intro a b r sd r' sd' n e hr' hc hc' hn hin w hw
    rcases split3 e with ⟨rfl, rfl⟩ | ⟨rfl, rfl⟩ | ⟨rfl, rfl⟩
    · cases hr'
    · rw [List.mem_singleton] at hr'
      subst hr'
      cases hc'
    · cases hc
  · intro out hout ts re hts h4 h6 h7 ω s hval r v hv
    obtain ⟨out', ho', eo⟩ := Option.map_eq_some_iff.1 hrun
    have := constructSamplerC_eq ho'
    rw [hout] at this
    cases this
    simp only [Prod.mk.injEq] at eo
    have hv7 : v = 7 := by
      have := Dict.mem_of_get? _ _ _ hv
      obtain ⟨p, -, hp⟩ := List.mem_map.1 this
      exact (Prod.mk.inj hp).2.symm
    subst hv7
    have h5 : re.get? 1 = some 5 := by
      rw [h6 1 (by decide) (by decide) (by rw [noSamplerE]; decide), eo.1]
      rfl
    refine Ev.node' (n := 6) (i := 0) (vs := [5, 10]) (xs := [s 1, e1 ω]) rfl rfl eo.2.2.1 ?_ rfl
    exact .cons (hval 1 5 (Or.inr h5)) (.cons (.given rfl) .nil)
  · intro r hr
    rw [hsv, List.mem_singleton] at hr
    subst hr
    rw [map_e0]
    exact keeps1
  · intro _
    rw [map_e1]
    refine Eq.trans ?_ keeps0
    congr 1
    funext p v
    unfold nutsBlock
    by_cases hv : v = 0
    · subst hv
      rw [if_pos ((noSamplerE 0).2 rfl), Function.update_self]
    · rw [if_neg fun h => hv ((noSamplerE v).1 h), Function.update_of_ne hv]
  · intro a b r e
    rw [hsv] at e
    have ha : a = [] := by
      cases a with
      | nil => rfl
      | cons x a => simp at e
    subst ha
    refine (indep01 fun q => (cur0 q, fun _ : {x // x ∈ ([] : List Var)} => 0)).congr
      (ae_of_all _ fun ω => Prod.ext rfl ?_) (ae_of_all _ fun ω => rfl)
    funext x
    exact absurd x.2 (by simp)
  · intro _
    exact indep2 fun q => (cur0 q.1, fun _ => (q.2 : ℕ))

/-! ## C53 fails when a model node is shared by two steps

The hierarchical model of `C03_violated`, with generators: `u = 3` (node 0) is computed from `lam` and is a
parameter of `beta`; the step for `lam` (4, node 3) reads `beta`, so that `u` is rewritten to read the
initial `lam`; the step for `beta` (5, node 4) reads `u`. -/

/-- Heap of model D; the owners are those of model B. -/
def insD : Ins := insT [(0, [0]), (1, [3]), (2, [1]), (3, [1, 10]), (4, [3, 2, 11])]
/-- What the nodes compute. -/
def semD : Node → Nat → List ℕ → ℕ := fun n _ xs =>
  if n = 0 then xs.getD 0 0 else if n = 3 then flip (xs.getD 0 0) (xs.getD 1 0)
  else flip (xs.getD 0 0) (xs.getD 2 0)
/-- Values of the leaves. -/
def givenD (ω : Om) : Var → Option ℕ := fun v =>
  Dict.get? [(12, curS ω 0), (13, curS ω 1), (6, 3), (10, e0 ω), (11, e1 ω)] v
/-- The steps as functions of the state. -/
def gD (r : Var) (ρ : Var → ℕ) (x : ℕ) : ℕ := if r = 0 then flip (ρ 1) x else flip (ρ 0) x
/-- The generators of the steps. -/
def xiD (r : Var) : Om → ℕ := if r = 0 then e0 else e1

theorem setupD : Setup ownB insD [0, 1, 2] obsA 12 :=
  setup3 (by decide) (fun i => ownT_none (by decide) i) (by decide) (by decide)

theorem overD {ρ : Var → ℕ} {gv : Var → Option ℕ} (v : Var) (h : v = 0 ∨ v = 1 ∨ v = 2) :
    over (ModelVar [0, 1, 2] obsA) ρ gv v = some (ρ v) := by
  unfold over
  rw [if_pos (modelVarA h)]

theorem overD_other {ρ : Var → ℕ} {gv : Var → Option ℕ} (v : Nat) (h : 2 < v) :
    over (ModelVar [0, 1, 2] obsA) ρ gv v = gv v := by
  unfold over
  rw [if_neg (show ¬ ModelVar [0, 1, 2] obsA v from not_modelVar3 v h)]

/-- **C53 is false in general.** On this model every hypothesis of `C53_sweep_partial` but `hshare` holds
(all variables have closed-form steps, so that NUTS is not called): each step on its own keeps the posterior and has its own
independent generator.  But the law of the returned values is not the posterior: whatever values `new` the
returned steps evaluate to, `lam = beta` has probability `9/16` instead of `3/4`. -/
theorem C53_violated :
    Setup ownB insD [0, 1, 2] obsA 12 ∧ (∀ r, ¬ NoSampler discB [0, 1, 2] obsA r) ∧
    (∀ ω, ∀ p ∈ initVals 12 (unobs [0, 1, 2] obsA), givenD ω p.2 = some (curS ω p.1)) ∧
    (∀ ω, ∀ p ∈ obsA, Ev ownB semD (givenD ω) insD p.2 (curS ω p.1)) ∧
    (∀ ω r sd ρ, chosen discB obsA r = some sd →
      Ev ownB semD (over (ModelVar [0, 1, 2] obsA) ρ (givenD ω)) insD sd.step (gD r ρ (xiD r ω))) ∧
    PP.map curS = post ∧
    (∀ r ∈ stepVars discB obsA [0, 1, 2],
      (post.prod (PP.map (xiD r))).map (fun p => Function.update p.1 r (gD r p.1 p.2)) = post) ∧
    (∀ a b r, stepVars discB obsA [0, 1, 2] = a ++ r :: b →
      IndepFun (fun ω => (curS ω, fun x : {x // x ∈ a} => xiD x ω)) (xiD r) PP) ∧
    ∃ out, constructSampler ownB insD [0, 1, 2] obsA n2oA discB 12 id nutsT = some out ∧
      ∀ new : Om → Var → ℕ,
        (∀ ω, ∀ r ∈ [0, 1, 2], r ∉ obsA.keys → ∃ v, out.steps.get? (20 + r) = some v ∧
          Ev ownB semD (givenD ω) out.ins v (new ω r)) → PP.map new ≠ post := by
  have hsv : stepVars discB obsA [0, 1, 2] = [0, 1] := by decide
  refine ⟨setupD, ?_, ?_, ?_, ?_, map_curS, ?_, ?_, ?_⟩
  · intro r h
    obtain ⟨h1, h2, h3⟩ := noSampler_iff.1 h
    have : r = 0 ∨ r = 1 ∨ r = 2 := by simpa using h1
    rcases this with rfl | rfl | rfl
    · cases h3
    · cases h3
    · exact absurd (by decide) h2
  · intro ω p hp
    have : p = (0, 12) ∨ p = (1, 13) := by
      have h : initVals 12 (unobs [0, 1, 2] obsA) = [(0, 12), (1, 13)] := by decide
      rw [h] at hp
      simpa using hp
    rcases this with rfl | rfl <;> rfl
  · intro ω p hp
    rw [obsA, List.mem_singleton] at hp
    subst hp
    exact .given rfl
  · intro ω r sd ρ hc
    by_cases hr0 : r = 0
    · subst hr0
      cases hc
      refine Ev.node' (n := 3) (i := 0) (vs := [1, 10]) (xs := [ρ 1, e0 ω])
        ((overD_other 4 (by decide)).trans rfl) rfl rfl ?_ rfl
      exact .cons (.given (overD 1 (by decide)))
        (.cons (.given (by rw [overD_other 10 (by decide)]; rfl)) .nil)
    · by_cases hr1 : r = 1
      · subst hr1
        cases hc
        refine Ev.node' (n := 4) (i := 0) (vs := [3, 2, 11]) (xs := [ρ 0, ρ 2, e1 ω])
          ((overD_other 5 (by decide)).trans rfl) rfl rfl ?_ rfl
        refine .cons ?_ (.cons (.given (overD 2 (by decide)))
          (.cons (.given (by rw [overD_other 11 (by decide)]; rfl)) .nil))
        exact Ev.node' (n := 0) (i := 0) (vs := [0]) (xs := [ρ 0])
          (by rw [overD_other 3 (by decide)]; rfl) rfl rfl
          (.cons (.given (overD 0 (by decide))) .nil) rfl
      · exfalso
        unfold chosen discB Dict.get? Dict.get? at hc
        rw [if_neg (Ne.symm hr0), if_neg (Ne.symm hr1)] at hc
        split_ifs at hc
        cases hc
  · intro r hr
    rw [hsv, List.mem_cons, List.mem_singleton] at hr
    rcases hr with rfl | rfl
    · have h : xiD 0 = e0 := rfl
      rw [h, map_e0]
      exact keeps0
    · have h : xiD 1 = e1 := rfl
      rw [h, map_e1]
      exact keeps1
  · intro a b r e
    rw [hsv] at e
    match a, e with
    | [], e =>
      have : r = 0 := by simpa using (List.cons.inj e).1.symm
      subst this
      refine (indep01 fun q => (cur0 q, fun _ : {x // x ∈ ([] : List Var)} => 0)).congr
        (ae_of_all _ fun ω => Prod.ext rfl ?_) (ae_of_all _ fun ω => rfl)
      funext x
      exact absurd x.2 (by simp)
    | [x], e =>
      simp only [List.cons_append, List.nil_append, List.cons.injEq] at e
      obtain ⟨rfl, rfl, -⟩ := e
      have h := indep2 fun q : (Fin 2 × Fin 4) × Fin 4 =>
        (cur0 q.1, fun _ : {x : Var // x ∈ [0]} => (q.2 : ℕ))
      refine h.congr (ae_of_all _ fun ω => ?_) (ae_of_all _ fun ω => rfl)
      refine Prod.ext rfl ?_
      funext x
      have hx : (x : Var) = 0 := List.mem_singleton.1 x.2
      change e0 ω = xiD x ω
      rw [hx]
      rfl
    | _ :: _ :: _, e => simp at e
  · have hrun : (constructSamplerC ownB 5 insD [0, 1, 2] obsA n2oA discB 12 id nutsT).map
        (fun o => (o.steps, o.ins 0, o.ins 3, o.ins 4)) =
        some ([(20, 4), (21, 5)], [12], [13, 10], [3, 6, 11]) := by decide
    obtain ⟨out, ho, e⟩ := Option.map_eq_some_iff.1 hrun
    simp only [Prod.mk.injEq] at e
    refine ⟨out, constructSamplerC_eq ho, fun new hnew hlaw => ?_⟩
    have hn0 : ∀ ω, new ω 0 = flip (curS ω 1) (e0 ω) := by
      intro ω
      obtain ⟨v, hv, hev⟩ := hnew ω 0 (by decide) (by decide)
      rw [e.1] at hv
      cases hv
      refine hev.det (Ev.node' (n := 3) (i := 0) (vs := [13, 10]) (xs := [curS ω 1, e0 ω]) rfl rfl
        e.2.2.1 ?_ rfl)
      exact .cons (.given rfl) (.cons (.given rfl) .nil)
    have hn1 : ∀ ω, new ω 1 = flip (curS ω 0) (e1 ω) := by
      intro ω
      obtain ⟨v, hv, hev⟩ := hnew ω 1 (by decide) (by decide)
      rw [e.1] at hv
      cases hv
      refine hev.det (Ev.node' (n := 4) (i := 0) (vs := [3, 6, 11]) (xs := [curS ω 0, 3, e1 ω]) rfl
        rfl e.2.2.2 ?_ rfl)
      refine .cons ?_ (.cons (.given rfl) (.cons (.given rfl) .nil))
      exact Ev.node' (n := 0) (i := 0) (vs := [12]) (xs := [curS ω 0]) rfl rfl e.2.1
        (.cons (.given rfl) .nil) rfl
    have hA : MeasurableSet {s : Var → ℕ | s 0 = s 1} :=
      measurableSet_eq_fun (measurable_pi_apply 0) (measurable_pi_apply 1)
    have hU : Unif PP := (((unif_unif 2).prod (unif_unif 4)).prod (unif_unif 4)).prod (unif_unif 4)
    have h1 : post {s | s 0 = s 1} = 96 * (128 : ENNReal)⁻¹ := by
      rw [← map_curS, Measure.map_apply (measurable_of_finite _) hA]
      have : curS ⁻¹' {s | s 0 = s 1} =
          ((Finset.univ.filter fun ω : Om => curS ω 0 = curS ω 1 : Finset Om) : Set Om) := by
        ext; simp
      rw [this, hU.apply]
      have hc : (Finset.univ.filter fun ω : Om => curS ω 0 = curS ω 1).card = 96 := by decide +kernel
      rw [hc]
      norm_num [Fintype.card_prod]
    have h2 : PP.map new {s | s 0 = s 1} = 72 * (128 : ENNReal)⁻¹ := by
      rw [Measure.map_apply (measurable_of_finite _) hA]
      have : new ⁻¹' {s | s 0 = s 1} = ((Finset.univ.filter fun ω : Om =>
          flip (curS ω 1) (e0 ω) = flip (curS ω 0) (e1 ω) : Finset Om) : Set Om) := by
        ext ω
        simp [hn0, hn1]
      rw [this, hU.apply]
      have hc : (Finset.univ.filter fun ω : Om =>
          flip (curS ω 1) (e0 ω) = flip (curS ω 0) (e1 ω)).card = 72 := by decide +kernel
      rw [hc]
      norm_num [Fintype.card_prod]
    rw [hlaw, h1] at h2
    have h3 : (96 : ENNReal) * 128⁻¹ ≠ 72 * 128⁻¹ := by
      rw [← div_eq_mul_inv, ← div_eq_mul_inv, ne_eq,
        ENNReal.div_eq_div_iff (by norm_num) (by norm_num) (by norm_num) (by norm_num)]
      norm_num
    exact h3 h2

end Sweep

end Verif.Graph
