import Verif.Graph.Loop

/-!
# Values of graphs, and the Gibbs scan
-/

namespace Verif.Graph

open Verif.Py

variable {own : Owner} {Val : Type} {obs : Dict Var Var}

mutual
/-- Spec.  `Ev own sem given ins v x`: with the variables in `given` fixed, the variable `v`
evaluates to `x` in the heap `ins`.  `sem n i` is the function computed by output `i` of node `n`.
Random draws are functions of the RNG states, which are leaves. -/
inductive Ev (own : Owner) (sem : Node → Nat → List Val → Val) (given : Var → Option Val)
    (ins : Ins) : Var → Val → Prop
  | given {v x} : given v = some x → Ev own sem given ins v x
  | node {v n i xs} : given v = none → own v = some (n, i) → EvL own sem given ins (ins n) xs →
      Ev own sem given ins v (sem n i xs)
/-- The same for lists. -/
inductive EvL (own : Owner) (sem : Node → Nat → List Val → Val) (given : Var → Option Val)
    (ins : Ins) : List Var → List Val → Prop
  | nil : EvL own sem given ins [] []
  | cons {v x vs xs} : Ev own sem given ins v x → EvL own sem given ins vs xs →
      EvL own sem given ins (v :: vs) (x :: xs)
end

variable {sem : Node → Nat → List Val → Val}

/-- A variable has at most one value. -/
theorem Ev.det {given : Var → Option Val} {ins : Ins} {v : Var} {x y : Val}
    (h : Ev own sem given ins v x) (h' : Ev own sem given ins v y) : x = y := by
  refine Ev.rec (motive_1 := fun v x _ => ∀ y, Ev own sem given ins v y → x = y)
    (motive_2 := fun vs xs _ => ∀ ys, EvL own sem given ins vs ys → xs = ys)
    ?_ ?_ ?_ ?_ h y h'
  · intro v x hg y hy
    cases hy with
    | given hg' => rw [hg] at hg'; exact Option.some.inj hg'
    | node hg' _ _ => rw [hg] at hg'; cases hg'
  · intro v n i xs hg ho _ ih y hy
    cases hy with
    | given hg' => rw [hg] at hg'; cases hg'
    | node _ ho' hl =>
      rw [ho] at ho'
      cases ho'
      rw [ih _ hl]
  · intro ys hy
    cases hy
    rfl
  · intro v x vs xs _ _ ih1 ih2 ys hy
    cases hy with
    | cons h1 h2 => rw [ih1 _ h1, ih2 _ h2]

/-- Values of closed variables survive changes to nodes that read `D`. -/
theorem Ev.congr_closed {D : Var → Prop} {given : Var → Option Val} {ins ins' : Ins}
    (hf : ∀ n, (∀ w ∈ ins n, ¬ D w) → ins' n = ins n) {v : Var} {x : Val}
    (hc : Closed own D ins v) (h : Ev own sem given ins v x) : Ev own sem given ins' v x := by
  refine Ev.rec (motive_1 := fun v x _ => Closed own D ins v → Ev own sem given ins' v x)
    (motive_2 := fun vs xs _ => (∀ v ∈ vs, Closed own D ins v) → EvL own sem given ins' vs xs)
    ?_ ?_ ?_ ?_ h hc
  · intro v x hg _
    exact .given hg
  · intro v n i xs hg ho _ ih hc
    have hn : ins' n = ins n :=
      hf n fun w hw => hc w (.single ⟨n, i, ho, hw⟩)
    refine .node hg ho ?_
    rw [hn]
    exact ih fun w hw => hc.edge ⟨n, i, ho, hw⟩
  · intro _
    exact .nil
  · intro v x vs xs _ _ ih1 ih2 hc
    exact .cons (ih1 (hc v (by simp))) (ih2 fun w hw => hc w (by simp [hw]))

open Classical in
/-- Spec.  Fix the model's variables to the values `ρ`. -/
noncomputable def over (D : Var → Prop) (ρ : Var → Val) (given : Var → Option Val) :
    Var → Option Val :=
  fun v => if D v then some (ρ v) else given v

/-- Substituting values for the variables before the cut. -/
theorem Ev.subst {D : Var → Prop} {given : Var → Option Val} {ins ins' : Ins} {ρ : Var → Val}
    {σ : Var → Var} {S : Var} (hσ : ∀ v, ¬ D v → σ v = v)
    (hD : ∀ r, D r → Ev own sem given ins' (σ r) (ρ r))
    (hn : ∀ n, NodeCut own D ins S n → ins' n = (ins n).map σ) {v : Var} {x : Val}
    (hv : ReachCut own D ins S v) (h : Ev own sem (over D ρ given) ins v x) :
    Ev own sem given ins' (σ v) x := by
  refine Ev.rec (motive_1 := fun v x _ => ReachCut own D ins S v → Ev own sem given ins' (σ v) x)
    (motive_2 := fun vs xs _ => (∀ v ∈ vs, ReachCut own D ins S v) →
      EvL own sem given ins' (vs.map σ) xs) ?_ ?_ ?_ ?_ h hv
  · intro v x hg _
    unfold over at hg
    split_ifs at hg with hDv
    · cases hg
      exact hD v hDv
    · rw [hσ v hDv]
      exact .given hg
  · intro v n i xs hg ho _ ih hc
    unfold over at hg
    split_ifs at hg with hDv
    rw [hσ v hDv]
    refine .node hg ho ?_
    rw [hn n ⟨v, i, hc, hDv, ho⟩]
    exact ih fun w hw => .tail hc hDv ho hw
  · intro _
    exact .nil
  · intro v x vs xs _ _ ih1 ih2 hc
    exact .cons (ih1 (hc v (by simp))) (ih2 fun w hw => hc w (by simp [hw]))

/-! ## Which nodes have been changed -/

section
variable {D : Var → Prop} {ins₀ : Ins}

/-- A variable that is not closed is reached along unchanged edges. -/
theorem Inv.reach_orig {st : LoopState} (h : Inv own D ins₀ st) {o w : Var}
    (hr : Reach own st.ins o w) : Closed own D st.ins w ∨ Reach own ins₀ o w := by
  induction hr with
  | refl => exact Or.inr .refl
  | tail _ e ih =>
    rcases ih with hc | hr
    · exact Or.inl (hc.edge e)
    · obtain ⟨n, i, hn, hw⟩ := e
      rcases h.reads n _ hw with h0 | hc
      · exact Or.inr (hr.tail ⟨n, i, hn, h0⟩)
      · exact Or.inl hc

/-- Nodes changed so far belong to the original graph of a processed step and read the model. -/
def Changed (own : Owner) (D : Var → Prop) (ins₀ : Ins) (sds : List StepDesc) (ins : Ins) : Prop :=
  ∀ n, ins n ≠ ins₀ n → ∃ sd ∈ sds, NodeIn own ins₀ sd.outs n ∧ ∃ r ∈ ins₀ n, D r

theorem Inv.changed_step {st : LoopState} (h : Inv own D ins₀ st) {sds : List StepDesc}
    (hc : Changed own D ins₀ sds st.ins) (sd : StepDesc) :
    Changed own D ins₀ (sds ++ [sd]) (replaceAll own (st.ins, sd.outs) st.pss).1 := by
  intro n hn
  by_cases h1 : (replaceAll own (st.ins, sd.outs) st.pss).1 n = st.ins n
  · rw [h1] at hn
    obtain ⟨sd', hm, hh⟩ := hc n hn
    exact ⟨sd', by simp [hm], hh⟩
  · obtain ⟨⟨o, ho, u, i, hu, hown⟩, r, hr, hDr⟩ := replaceAll_changed h.closed h1
    refine ⟨sd, by simp, ?_, ?_⟩
    · rcases h.reach_orig hu with hcl | hr0
      · exact absurd hDr (hcl r (.single ⟨n, i, hown, hr⟩))
      · exact ⟨o, ho, u, i, hr0, hown⟩
    · rcases h.reads n r hr with h0 | hcl
      · exact ⟨r, h0, hDr⟩
      · exact absurd hDr (hcl r .refl)

theorem reachCut_congr {ins ins' : Ins} {S w : Var}
    (hn : ∀ n, NodeCut own D ins S n → ins' n = ins n) (h : ReachCut own D ins S w) :
    ReachCut own D ins' S w := by
  induction h with
  | refl => exact .refl
  | tail hc hD ho hu ih => exact .tail ih hD ho (by rw [hn _ ⟨_, _, hc, hD, ho⟩]; exact hu)

end

/-! ## The scan -/

/-- Spec.  The values a Gibbs scan in the order `l` shows to the step after `l`: new values for the
variables of `l` that have a step, current values otherwise. -/
def scanVal (disc : Dict Var (List StepDesc)) (obs : Dict Var Var) (new cur : Var → Val)
    (l : List Var) (r : Var) : Val :=
  if r ∈ l ∧ (chosen disc obs r).isSome then new r else cur r

theorem scan_loop {D : Var → Prop} {ins₀ : Ins} {disc : Dict Var (List StepDesc)}
    {given : Var → Option Val} {new cur : Var → Val} :
    ∀ (l pre : List Var) (st : LoopState) (sds : List StepDesc), (pre ++ l).Nodup →
    (∀ r ∈ l, D r) → (∀ r ∈ l, st.disc.get? r = disc.get? r) → Inv own D ins₀ st →
    Changed own D ins₀ sds st.ins → (∀ sd ∈ sds, ∃ r ∈ pre, chosen disc obs r = some sd) →
    (∀ r v, st.pss.get? r = some v → Ev own sem given st.ins v (scanVal disc obs new cur pre r)) →
    (∀ a b r sd, l = a ++ r :: b → chosen disc obs r = some sd →
      Ev own sem (over D (scanVal disc obs new cur (pre ++ a)) given) ins₀ sd.step (new r)) →
    (∀ a b r sd r' sd' n, l = a ++ r :: b → r' ∈ pre ++ a → chosen disc obs r = some sd →
      chosen disc obs r' = some sd' → NodeCut own D ins₀ sd.step n → NodeIn own ins₀ sd'.outs n →
      ∀ w ∈ ins₀ n, ¬ D w) →
    ∀ r v, (loop own obs st l).pss.get? r = some v →
      Ev own sem given (loop own obs st l).ins v (scanVal disc obs new cur (pre ++ l) r) := by
  intro l
  induction l with
  | nil =>
    intro pre st sds _ _ _ _ _ _ hv _ _ r v hg
    rw [List.append_nil]
    exact hv r v hg
  | cons rv l ih =>
    intro pre st sds hnd hD hdisc hinv hch hsds hv hscan hshare
    change ∀ r v, (loop own obs (processRV own obs st rv) l).pss.get? r = some v →
      Ev own sem given (loop own obs (processRV own obs st rv) l).ins v _
    have happ : pre ++ rv :: l = (pre ++ [rv]) ++ l := by simp
    rw [happ] at hnd ⊢
    have hnd' := hnd
    rw [List.nodup_append] at hnd'
    have hrvpre : rv ∉ pre := by
      have := hnd'.1
      rw [List.nodup_append] at this
      intro hm
      exact this.2.2 rv hm rv (by simp) rfl
    have hdl : ∀ r ∈ l, r ≠ rv := by
      rintro r hr rfl
      exact hnd'.2.2 r (by simp) r hr rfl
    have hd' : ∀ r ∈ l, (processRV own obs st rv).disc.get? r = disc.get? r := fun r hr => by
      rw [processRV_disc (hdl r hr), hdisc r (by simp [hr])]
    have hcr : chosen st.disc obs rv = chosen disc obs rv := chosen_congr (hdisc rv (by simp))
    have hscan' : ∀ a b r sd, l = a ++ r :: b → chosen disc obs r = some sd →
        Ev own sem (over D (scanVal disc obs new cur ((pre ++ [rv]) ++ a)) given) ins₀ sd.step
          (new r) := by
      intro a b r sd e hc
      have := hscan (rv :: a) b r sd (by simp [e]) hc
      rwa [show pre ++ [rv] ++ a = pre ++ rv :: a by simp]
    have hshare' : ∀ a b r sd r' sd' n, l = a ++ r :: b → r' ∈ (pre ++ [rv]) ++ a →
        chosen disc obs r = some sd → chosen disc obs r' = some sd' →
        NodeCut own D ins₀ sd.step n → NodeIn own ins₀ sd'.outs n → ∀ w ∈ ins₀ n, ¬ D w := by
      intro a b r sd r' sd' n e hr'
      exact hshare (rv :: a) b r sd r' sd' n (by simp [e]) (by simpa using hr')
    have hinv' : Inv own D ins₀ (processRV own obs st rv) := hinv.step (hD rv (by simp))
    have hsc : ∀ r, r ≠ rv →
        scanVal disc obs new cur (pre ++ [rv]) r = scanVal disc obs new cur pre r := by
      intro r hr
      unfold scanVal
      simp [hr]
    cases hc : chosen disc obs rv with
    | none =>
      have hsame : (processRV own obs st rv).ins = st.ins ∧
          (processRV own obs st rv).pss = st.pss := by
        rw [processRV_none (hcr.trans hc)]
        split_ifs <;> exact ⟨rfl, rfl⟩
      refine ih (pre ++ [rv]) _ sds hnd (fun r hr => hD r (by simp [hr])) hd' hinv' ?_ ?_ ?_ hscan'
        hshare'
      · rw [hsame.1]
        exact hch
      · intro sd hsd
        obtain ⟨r, hr, hh⟩ := hsds sd hsd
        exact ⟨r, by simp [hr], hh⟩
      · rw [hsame.1, hsame.2]
        intro r v hg
        have := hv r v hg
        by_cases hr : r = rv
        · subst hr
          unfold scanVal at this ⊢
          simpa [hc] using this
        · rwa [hsc r hr]
    | some sd =>
      obtain ⟨h1, h2, -, -⟩ := processRV_some (own := own) (hcr.trans hc)
      have hpristine : ∀ n, NodeCut own D ins₀ sd.step n → st.ins n = ins₀ n := by
        intro n hn
        by_contra hne
        obtain ⟨sd', hsd', hin, r, hr, hDr⟩ := hch n hne
        obtain ⟨r', hr', hc'⟩ := hsds sd' hsd'
        exact hshare [] l rv sd r' sd' n rfl (by simpa using hr') hc hc' hn hin r hr hDr
      have hnode : ∀ n, NodeCut own D ins₀ sd.step n →
          (replaceAll own (st.ins, sd.outs) st.pss).1 n = (ins₀ n).map (subAll st.pss) := by
        intro n hn
        have hn' : NodeCut own D st.ins sd.step n := by
          obtain ⟨w, i, hr, hDw, ho⟩ := hn
          exact ⟨w, i, reachCut_congr hpristine hr, hDw, ho⟩
        rw [replaceAll_nodeCut (s := (st.ins, sd.outs)) hinv.pairs sd.mem_outs hn']
        exact congrArg _ (hpristine n hn)
      have hsubD : ∀ r, D r → ∃ v, st.pss.get? r = some v ∧ subAll st.pss r = v := by
        intro r hr
        obtain ⟨v, hg⟩ := (Dict.get?_isSome_iff st.pss r).2 (hinv.all r hr)
        refine ⟨v, hg, ?_⟩
        clear * - hg
        generalize st.pss = d at hg
        induction d with
        | nil => cases hg
        | cons p d ih =>
          obtain ⟨a, b⟩ := p
          unfold Dict.get? at hg
          unfold subAll
          split_ifs at hg with e
          · cases hg
            rw [if_pos e.symm]
          · rw [if_neg (Ne.symm e)]
            exact ih hg
      have hclosedv : ∀ r v, st.pss.get? r = some v → Closed own D st.ins v := fun r v hg =>
        (hinv.closed _ (Dict.mem_of_get? _ _ _ hg)).2
      have htrans : ∀ r v, st.pss.get? r = some v → Ev own sem given
          (replaceAll own (st.ins, sd.outs) st.pss).1 v (scanVal disc obs new cur pre r) :=
        fun r v hg => (hv r v hg).congr_closed (hinv.replaceAll_frame sd.outs) (hclosedv r v hg)
      have hnew : Ev own sem given (replaceAll own (st.ins, sd.outs) st.pss).1
          (subAll st.pss sd.step) (new rv) := by
        refine Ev.subst (D := D) (S := sd.step) (ρ := scanVal disc obs new cur pre)
          (fun v hv' => subAll_of_not_D (fun p hp => (hinv.pairs p hp).1) hv') ?_ hnode .refl ?_
        · intro r hr
          obtain ⟨v, hg, e⟩ := hsubD r hr
          rw [e]
          exact htrans r v hg
        · have := hscan [] l rv sd rfl hc
          rwa [List.append_nil] at this
      have hhead : (replaceAll own (st.ins, sd.outs) st.pss).2.headD sd.step =
          subAll st.pss sd.step := by
        rw [outs_replaceAll (s := (st.ins, sd.outs)) hinv.pairs]
        rfl
      refine ih (pre ++ [rv]) _ (sds ++ [sd]) hnd (fun r hr => hD r (by simp [hr])) hd' hinv' ?_ ?_
        ?_ hscan' hshare'
      · rw [h1]
        exact hinv.changed_step hch sd
      · intro sd' hsd'
        rcases List.mem_append.1 hsd' with h | h
        · obtain ⟨r, hr, hh⟩ := hsds sd' h
          exact ⟨r, by simp [hr], hh⟩
        · rw [List.mem_singleton] at h
          subst h
          exact ⟨rv, by simp, hc⟩
      · rw [h1, h2, hhead]
        intro r v hg
        rw [Dict.get?_set] at hg
        by_cases hr : rv = r
        · subst hr
          rw [if_pos rfl] at hg
          cases hg
          unfold scanVal
          simpa [hc] using hnew
        · rw [if_neg hr] at hg
          rw [hsc r (Ne.symm hr)]
          exact htrans r v hg

end Verif.Graph
