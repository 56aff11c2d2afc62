import Verif.Graph.Props
import Mathlib.Probability.Independence.Basic

/-!
# One call of the sampler is a Gibbs sweep that keeps the posterior (C53)
-/

open MeasureTheory ProbabilityTheory

namespace Verif.Graph

open Verif.Py

section Abstract

variable {Val Ξ : Type} {g : Var → (Var → Val) → Ξ → Val}

/-- Spec.  Update the variables of a list one after the other: `r` gets the value `g r s (e r)`, where
`s` is the state at that moment and `e r` the randomness of its step. -/
def sweep (g : Var → (Var → Val) → Ξ → Val) (e : Var → Ξ) : List Var → (Var → Val) → Var → Val
  | [], s => s
  | r :: l, s => sweep g e l (Function.update s r (g r s (e r)))

theorem sweep_append (e : Var → Ξ) (a b : List Var) (s : Var → Val) :
    sweep g e (a ++ b) s = sweep g e b (sweep g e a s) := by
  induction a generalizing s with
  | nil => rfl
  | cons r a ih => exact ih _

theorem sweep_not_mem (e : Var → Ξ) {l : List Var} {v : Var} (h : v ∉ l) (s : Var → Val) :
    sweep g e l s v = s v := by
  induction l generalizing s with
  | nil => rfl
  | cons r l ih =>
    rw [List.mem_cons, not_or] at h
    rw [sweep, ih h.2, Function.update_of_ne h.1]

/-- The same with the randomness of the listed variables only. -/
def sweepOn (g : Var → (Var → Val) → Ξ → Val) :
    (l : List Var) → (Var → Val) → ({x // x ∈ l} → Ξ) → Var → Val
  | [], s, _ => s
  | r :: l, s, e => sweepOn g l (Function.update s r (g r s (e ⟨r, List.mem_cons_self⟩)))
      fun x => e ⟨x, List.mem_cons_of_mem _ x.2⟩

theorem sweepOn_eq (l : List Var) (s : Var → Val) (e : Var → Ξ) :
    sweepOn g l s (fun x => e x) = sweep g e l s := by
  induction l generalizing s with
  | nil => rfl
  | cons r l ih => exact ih _

variable [MeasurableSpace Val] [MeasurableSpace Ξ]

theorem measurable_step (hg : ∀ r, Measurable fun p : (Var → Val) × Ξ => g r p.1 p.2) (r : Var) :
    Measurable fun p : (Var → Val) × Ξ => Function.update p.1 r (g r p.1 p.2) := by
  have h := (measurable_update' (X := fun _ : Var => Val) (a := r)).comp
    (measurable_fst.prodMk (hg r))
  exact h

theorem measurable_sweepOn (hg : ∀ r, Measurable fun p : (Var → Val) × Ξ => g r p.1 p.2) :
    ∀ l : List Var, Measurable fun p : (Var → Val) × ({x // x ∈ l} → Ξ) => sweepOn g l p.1 p.2
  | [] => measurable_fst
  | r :: l => by
    have h1 : Measurable fun p : (Var → Val) × ({x // x ∈ r :: l} → Ξ) =>
        Function.update p.1 r (g r p.1 (p.2 ⟨r, List.mem_cons_self⟩)) :=
      (measurable_step hg r).comp
        (measurable_fst.prodMk ((measurable_pi_apply _).comp measurable_snd))
    have h2 : Measurable fun p : (Var → Val) × ({x // x ∈ r :: l} → Ξ) =>
        fun x : {x // x ∈ l} => p.2 ⟨x, List.mem_cons_of_mem _ x.2⟩ :=
      measurable_pi_lambda _ fun x => (measurable_pi_apply _).comp measurable_snd
    exact (measurable_sweepOn hg l).comp (h1.prodMk h2)

variable {Ω : Type} [MeasurableSpace Ω] {P : Measure Ω} [IsProbabilityMeasure P]
  {cur : Ω → Var → Val} {ξ : Var → Ω → Ξ} {π : Measure (Var → Val)}

theorem measurable_sweep (hg : ∀ r, Measurable fun p : (Var → Val) × Ξ => g r p.1 p.2)
    (hcur : Measurable cur) (hξ : ∀ r, Measurable (ξ r)) (l : List Var) :
    Measurable fun ω => sweep g (fun r => ξ r ω) l (cur ω) := by
  have : (fun ω => sweep g (fun r => ξ r ω) l (cur ω)) =
      (fun p : (Var → Val) × ({x // x ∈ l} → Ξ) => sweepOn g l p.1 p.2) ∘
        fun ω => (cur ω, fun x => ξ x ω) := by
    funext ω
    exact (sweepOn_eq l (cur ω) fun r => ξ r ω).symm
  rw [this]
  exact (measurable_sweepOn hg l).comp (hcur.prodMk (measurable_pi_lambda _ fun x => hξ x))

omit [IsProbabilityMeasure P] in
theorem indep_sweep (hg : ∀ r, Measurable fun p : (Var → Val) × Ξ => g r p.1 p.2)
    {l : List Var} {Ξ' : Type} [MeasurableSpace Ξ'] {ζ : Ω → Ξ'}
    (hi : IndepFun (fun ω => (cur ω, fun x : {x // x ∈ l} => ξ x ω)) ζ P) :
    IndepFun (fun ω => sweep g (fun r => ξ r ω) l (cur ω)) ζ P := by
  have := hi.comp (measurable_sweepOn hg l) measurable_id
  refine this.congr (ae_of_all _ fun ω => ?_) (ae_of_all _ fun ω => rfl)
  exact sweepOn_eq l (cur ω) fun r => ξ r ω

/-- Each step keeps `π` and uses randomness independent of what came before: the sweep keeps `π`. -/
theorem sweep_law (hg : ∀ r, Measurable fun p : (Var → Val) × Ξ => g r p.1 p.2)
    (hcur : Measurable cur) (hξ : ∀ r, Measurable (ξ r)) (hπ : P.map cur = π) {l : List Var}
    (hinv : ∀ r ∈ l,
      (π.prod (P.map (ξ r))).map (fun p => Function.update p.1 r (g r p.1 p.2)) = π)
    (hind : ∀ a b r, l = a ++ r :: b →
      IndepFun (fun ω => (cur ω, fun x : {x // x ∈ a} => ξ x ω)) (ξ r) P) :
    P.map (fun ω => sweep g (fun r => ξ r ω) l (cur ω)) = π := by
  have key : ∀ a b, l = a ++ b → P.map (fun ω => sweep g (fun r => ξ r ω) a (cur ω)) = π := by
    intro a
    induction a using List.reverseRecOn with
    | nil => exact fun _ _ => hπ
    | append_singleton a r ih =>
      intro b e
      have e' : l = a ++ r :: b := by simpa using e
      have hX := measurable_sweep (g := g) hg hcur hξ a
      have h1 : (fun ω => sweep g (fun r => ξ r ω) (a ++ [r]) (cur ω)) =
          (fun p : (Var → Val) × Ξ => Function.update p.1 r (g r p.1 p.2)) ∘
            fun ω => (sweep g (fun r => ξ r ω) a (cur ω), ξ r ω) := by
        funext ω
        rw [sweep_append]
        rfl
      rw [h1, ← Measure.map_map (measurable_step hg r) (hX.prodMk (hξ r)),
        (indepFun_iff_map_prod_eq_prod_map_map hX.aemeasurable (hξ r).aemeasurable).1
          (indep_sweep hg (hind a b r e')), ih (r :: b) e', hinv r (by simp [e'])]
  exact key l [] (by simp)

end Abstract

/-- Spec.  The variables with a closed-form step, in scan order. -/
def stepVars (disc : Dict Var (List StepDesc)) (obs : Dict Var Var) (outs : List Var) : List Var :=
  outs.filter fun r => (chosen disc obs r).isSome

theorem mem_stepVars {disc : Dict Var (List StepDesc)} {obs : Dict Var Var} {outs : List Var}
    {r : Var} : r ∈ stepVars disc obs outs ↔ r ∈ outs ∧ (chosen disc obs r).isSome := by
  simp [stepVars]

open Classical in
/-- Spec.  The block update of NUTS: the variables without a sampler get the values `gN r s z`. -/
noncomputable def nutsBlock {Val Ξ : Type} (disc : Dict Var (List StepDesc)) (outs : List Var)
    (obs : Dict Var Var) (gN : Var → (Var → Val) → Ξ → Val) (z : Ξ) (s : Var → Val) : Var → Val :=
  fun v => if NoSampler disc outs obs v then gN v s z else s v

theorem scanVal_sweep {Val Ξ : Type} {disc : Dict Var (List StepDesc)} {obs : Dict Var Var}
    (g : Var → (Var → Val) → Ξ → Val) (e : Var → Ξ) (s : Var → Val)
    {a b : List Var} (hn : (a ++ b).Nodup) :
    scanVal disc obs (sweep g e (stepVars disc obs (a ++ b)) s) s a =
      sweep g e (stepVars disc obs a) s := by
  funext v
  have happ : stepVars disc obs (a ++ b) = stepVars disc obs a ++ stepVars disc obs b := by
    simp [stepVars]
  unfold scanVal
  split_ifs with h
  · rw [happ, sweep_append, sweep_not_mem]
    intro hb
    rw [List.nodup_append] at hn
    exact hn.2.2 v h.1 v (mem_stepVars.1 hb).1 rfl
  · rw [sweep_not_mem]
    rwa [mem_stepVars]

/-- **C53, with the hypothesis of C03 on sharing.** Let the current values of the model's variables
have the law `π`, and let every returned closed-form step be a function `g r` of the values of the model's
variables and of its own randomness `ξ r`, independent of the current values and of the randomness of the
steps before it; likewise NUTS, which updates the remaining variables together.  If each of these updates on its
own keeps `π`, evaluating all the returned steps once keeps `π`: the returned values, together
with the observed ones, have the law `π`.

Missing from the full claim: `hshare`, as in `C03_scan_partial`.  Without it the claim is false, see
`C53_violated`. -/
theorem C53_sweep_partial {Val Ξ Ξ' Ω : Type} [MeasurableSpace Val] [MeasurableSpace Ξ]
    [MeasurableSpace Ξ'] [MeasurableSpace Ω] {P : Measure Ω} [IsProbabilityMeasure P]
    {own : Owner} {ins : Ins} {outs : List Var}
    {obs newToOld : Dict Var Var} {disc : Dict Var (List StepDesc)} {base : Nat}
    {order : List Var → List Var} {nuts : Dict Var Var → Dict Var Var → NutsResult} {f : Var → Var}
    {sem : Node → Nat → List Val → Val} {given : Ω → Var → Option Val} {cur : Ω → Var → Val}
    {g : Var → (Var → Val) → Ξ → Val} {ξ : Var → Ω → Ξ} {gN : Var → (Var → Val) → Ξ' → Val}
    {ζ : Ω → Ξ'} {π : Measure (Var → Val)}
    (hs : Setup own ins outs obs base) (hold : ∀ r ∈ outs, newToOld.get? r = some (f r))
    (hinj : ∀ a ∈ outs, ∀ b ∈ outs, f a = f b → a = b) (horder : ∀ l, (order l).Perm l)
    (hnuts : ∀ a b, (nuts a b).steps.keys = a.keys)
    (hinit : ∀ ω, ∀ p ∈ initVals base (unobs outs obs), given ω p.2 = some (cur ω p.1))
    (hobs : ∀ ω, ∀ p ∈ obs, Ev own sem (given ω) ins p.2 (cur ω p.1))
    (hstep : ∀ ω r sd ρ, chosen disc obs r = some sd →
      Ev own sem (over (ModelVar outs obs) ρ (given ω)) ins sd.step (g r ρ (ξ r ω)))
    (hshare : ∀ a b r sd r' sd' n, outs = a ++ r :: b → r' ∈ a → chosen disc obs r = some sd →
      chosen disc obs r' = some sd' → NodeCut own (ModelVar outs obs) ins sd.step n →
      NodeIn own ins sd'.outs n → ∀ w ∈ ins n, ¬ ModelVar outs obs w)
    (hN : ∀ out, constructSampler own ins outs obs newToOld disc base order nuts = some out →
      ∀ ts re, (∀ r, r ∈ ts.keys ↔ NoSampler disc outs obs r) →
      (∀ r, NoSampler disc outs obs r → ts.get? r = out.inits.get? (f r)) →
      (∀ r ∈ outs, r ∉ obs.keys → ¬ NoSampler disc outs obs r →
        re.get? r = out.steps.get? (f r)) → (∀ r ∈ obs.keys, re.get? r = obs.get? r) →
      ∀ ω s, (∀ r v, ts.get? r = some v ∨ re.get? r = some v →
        Ev own sem (given ω) out.ins v (s r)) →
      ∀ r v, (nuts ts re).steps.get? r = some v → Ev own sem (given ω) out.ins v (gN r s (ζ ω)))
    (hg : ∀ r, Measurable fun p : (Var → Val) × Ξ => g r p.1 p.2)
    (hgN : ∀ r, Measurable fun p : (Var → Val) × Ξ' => gN r p.1 p.2)
    (hcur : Measurable cur) (hξ : ∀ r, Measurable (ξ r)) (hζ : Measurable ζ)
    (hπ : P.map cur = π)
    (hinv : ∀ r ∈ stepVars disc obs outs,
      (π.prod (P.map (ξ r))).map (fun p => Function.update p.1 r (g r p.1 p.2)) = π)
    (hinvN : (∃ r, NoSampler disc outs obs r) →
      (π.prod (P.map ζ)).map (fun p => nutsBlock disc outs obs gN p.2 p.1) = π)
    (hind : ∀ a b r, stepVars disc obs outs = a ++ r :: b →
      IndepFun (fun ω => (cur ω, fun x : {x // x ∈ a} => ξ x ω)) (ξ r) P)
    (hindN : (∃ r, NoSampler disc outs obs r) →
      IndepFun (fun ω => (cur ω, fun x : {x // x ∈ stepVars disc obs outs} => ξ x ω)) ζ P) :
    ∃ out, constructSampler own ins outs obs newToOld disc base order nuts = some out ∧
      ∃ new : Ω → Var → Val,
        (∀ ω, ∀ r ∈ outs, r ∉ obs.keys → ∃ v, out.steps.get? (f r) = some v ∧
          Ev own sem (given ω) out.ins v (new ω r)) ∧
        (∀ ω r, ¬ (r ∈ outs ∧ r ∉ obs.keys) → new ω r = cur ω r) ∧ P.map new = π := by
  classical
  -- the values after the closed-form steps
  let mid : Ω → Var → Val := fun ω => sweep g (fun r => ξ r ω) (stepVars disc obs outs) (cur ω)
  have hmid : Measurable mid := measurable_sweep hg hcur hξ _
  have hmidlaw : P.map mid = π := sweep_law hg hcur hξ hπ hinv hind
  have hscan : ∀ ω, ∃ out, constructSampler own ins outs obs newToOld disc base order nuts = some out ∧
      ∀ r ∈ outs, (chosen disc obs r).isSome →
        ∃ v, out.steps.get? (f r) = some v ∧ Ev own sem (given ω) out.ins v (mid ω r) := by
    intro ω
    refine C03_scan_partial hs hold hinj horder hnuts (hinit ω) (hobs ω) ?_ hshare
    intro a b r sd e hc
    have hnd := hs.outs_nodup
    have hst : scanVal disc obs (mid ω) (cur ω) a =
        sweep g (fun r => ξ r ω) (stepVars disc obs a) (cur ω) := by
      have := scanVal_sweep (disc := disc) (obs := obs) g (fun r => ξ r ω) (cur ω)
        (a := a) (b := r :: b) (e ▸ hnd)
      rw [← e] at this
      exact this
    rw [hst]
    have hval : mid ω r = g r (sweep g (fun r => ξ r ω) (stepVars disc obs a) (cur ω)) (ξ r ω) := by
      have happ : stepVars disc obs outs =
          stepVars disc obs a ++ r :: stepVars disc obs b := by
        rw [e]
        simp [stepVars, hc]
      change sweep g (fun r => ξ r ω) (stepVars disc obs outs) (cur ω) r = _
      rw [happ, sweep_append, sweep, sweep_not_mem, Function.update_self]
      intro hb
      rw [e, List.nodup_append] at hnd
      exact (List.nodup_cons.1 hnd.2.1).1 (mem_stepVars.1 hb).1
    rw [hval]
    exact hstep ω r sd _ hc
  obtain ⟨pss, upd, out, -, -, hout, -, hinits, -, -⟩ :=
    constructSampler_eq (disc := disc) hs hold hinj horder hnuts
  have hmidEv : ∀ ω, ∀ r ∈ outs, (chosen disc obs r).isSome →
      ∃ v, out.steps.get? (f r) = some v ∧ Ev own sem (given ω) out.ins v (mid ω r) := by
    intro ω
    obtain ⟨out', h1, h2⟩ := hscan ω
    rw [hout] at h1
    cases h1
    exact h2
  have hmidcur : ∀ ω r, ¬ (r ∈ outs ∧ (chosen disc obs r).isSome) → mid ω r = cur ω r := by
    intro ω r hr
    exact sweep_not_mem _ (by rwa [mem_stepVars]) _
  have hchobs : ∀ r, r ∈ obs.keys → chosen disc obs r = none := by
    intro r hr
    unfold chosen
    rw [if_pos hr]
  refine ⟨out, hout, fun ω => nutsBlock disc outs obs gN (ζ ω) (mid ω), ?_, ?_, ?_⟩
  · intro ω r hr hro
    by_cases hc : (chosen disc obs r).isSome
    · obtain ⟨v, hv, he⟩ := hmidEv ω r hr hc
      refine ⟨v, hv, ?_⟩
      have : ¬ NoSampler disc outs obs r := by
        rw [noSampler_iff]
        rintro ⟨-, -, h⟩
        rw [h] at hc
        cases hc
      dsimp only [nutsBlock]
      rwa [if_neg this]
    · have hno : NoSampler disc outs obs r :=
        noSampler_iff.2 ⟨hr, hro, by simpa using hc⟩
      obtain ⟨out', ts, re, h1, -, h3, h4, h5, h6, h7, h8⟩ :=
        C06_nuts (disc := disc) hs hold hinj horder hnuts ⟨r, hno⟩
      rw [hout] at h1
      cases h1
      have hrk : r ∈ (nuts ts re).steps.keys := by
        rw [hnuts, h3]
        exact hno
      obtain ⟨v, hv⟩ := (Dict.get?_isSome_iff _ r).2 hrk
      refine ⟨v, (h8 r hno).trans hv, ?_⟩
      dsimp only [nutsBlock]
      rw [if_pos hno]
      refine hN out hout ts re h3 h4 h6 h7 ω (mid ω) ?_ r v hv
      intro r' v' hr'
      rcases hr' with hr' | hr'
      · have hno' : NoSampler disc outs obs r' := (h3 r').1 (by
          rw [← Dict.get?_isSome_iff]
          exact ⟨v', hr'⟩)
        have hno'' := noSampler_iff.1 hno'
        rw [h4 r' hno', hinits] at hr'
        have hivk : (initVals base (unobs outs obs)).keys = unobs outs obs :=
          initVals_keys (hs.outs_nodup.filter _)
        rw [get?_map_key (fun a ha b hb e => by
          rw [hivk] at ha hb
          exact hinj a (mem_unobs.1 ha).1 b (mem_unobs.1 hb).1 e) (by
            rw [hivk]; exact mem_unobs.2 ⟨hno''.1, hno''.2.1⟩)] at hr'
        rw [hmidcur ω r' (by rintro ⟨-, h⟩; rw [hno''.2.2] at h; cases h)]
        exact .given (hinit ω _ (Dict.mem_of_get? _ _ _ hr'))
      · have hk := (h5 r').1 (by
          rw [← Dict.get?_isSome_iff]
          exact ⟨v', hr'⟩)
        by_cases hob : r' ∈ obs.keys
        · rw [h7 r' hob] at hr'
          rw [hmidcur ω r' (by rintro ⟨-, h⟩; rw [hchobs r' hob] at h; cases h)]
          have hmem := Dict.mem_of_get? _ _ _ hr'
          have hcl := hs.obs_closed _ hmem
          have hinvF := inv_init (own := own) (ins₀ := ins) disc hs
          obtain ⟨_, _, out'', _, _, hout'', _, _, _, hins''⟩ :=
            constructSampler_eq (disc := disc) hs hold hinj horder hnuts
          rw [hout] at hout''
          cases hout''
          refine (hobs ω _ hmem).congr_closed (D := ModelVar outs obs) ?_ hcl
          intro n hn
          rw [hins'']
          exact loop_frame outs (initState ins outs obs disc base) hinvF (fun r hr => Or.inl hr) n hn
        · have hro' : r' ∈ outs := by
            rcases hk.1 with h | h
            · exact h
            · exact absurd h hob
          have hcs : (chosen disc obs r').isSome := by
            by_contra hcc
            exact hk.2 (noSampler_iff.2 ⟨hro', hob, by simpa using hcc⟩)
          rw [h6 r' hro' hob hk.2] at hr'
          obtain ⟨v'', hv'', he''⟩ := hmidEv ω r' hro' hcs
          rw [hr'] at hv''
          cases hv''
          exact he''
  · intro ω r hr
    have hno : ¬ NoSampler disc outs obs r := by
      rw [noSampler_iff]
      exact fun h => hr ⟨h.1, h.2.1⟩
    dsimp only [nutsBlock]
    rw [if_neg hno]
    refine hmidcur ω r ?_
    rintro ⟨h1, h2⟩
    refine hr ⟨h1, fun h => ?_⟩
    rw [hchobs r h] at h2
    cases h2
  · by_cases hex : ∃ r, NoSampler disc outs obs r
    · have hm : Measurable fun p : (Var → Val) × Ξ' => nutsBlock disc outs obs gN p.2 p.1 := by
        refine measurable_pi_lambda _ fun v => ?_
        unfold nutsBlock
        by_cases hv : NoSampler disc outs obs v
        · simp only [if_pos hv]
          exact hgN v
        · simp only [if_neg hv]
          exact (measurable_pi_apply v).comp measurable_fst
      have hi : IndepFun mid ζ P := indep_sweep hg (hindN hex)
      have hcomp : (fun ω => nutsBlock disc outs obs gN (ζ ω) (mid ω)) =
          (fun p : (Var → Val) × Ξ' => nutsBlock disc outs obs gN p.2 p.1) ∘
            fun ω => (mid ω, ζ ω) := rfl
      rw [hcomp, ← Measure.map_map hm (hmid.prodMk hζ),
        (indepFun_iff_map_prod_eq_prod_map_map hmid.aemeasurable hζ.aemeasurable).1 hi, hmidlaw]
      exact hinvN hex
    · have hid : (fun ω => nutsBlock disc outs obs gN (ζ ω) (mid ω)) = mid := by
        funext ω v
        unfold nutsBlock
        rw [if_neg fun h => hex ⟨v, h⟩]
      rw [hid]
      exact hmidlaw

end Verif.Graph
