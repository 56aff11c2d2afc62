import Verif.Graph.Heap

/-!
# Lemmas about the loop of `construct_sampler`
-/

namespace Verif.Graph

open Verif.Py

/-- Spec.  The variables of the model that `construct_sampler` knows: the outputs of the model graph
and the observed variables. -/
def ModelVar (outs : List Var) (obs : Dict Var Var) (r : Var) : Prop := r ∈ outs ∨ r ∈ obs.keys

/-- Spec.  The step that should be used for `rv`: the last one recorded, for unobserved variables. -/
def chosen (disc : Dict Var (List StepDesc)) (obs : Dict Var Var) (rv : Var) : Option StepDesc :=
  if rv ∈ obs.keys then none else (disc.get? rv).bind List.getLast?

/-- All the variables that are outputs of a step's graph. -/
def StepDesc.outs (sd : StepDesc) : List Var :=
  sd.step :: ((sd.updates.getD []).map Prod.fst ++ (sd.updates.getD []).map Prod.snd)

theorem StepDesc.mem_outs (sd : StepDesc) : sd.step ∈ sd.outs := by
  simp [StepDesc.outs]

/-- What is assumed about the graph before the loop. -/
structure Setup (own : Owner) (ins : Ins) (outs : List Var) (obs : Dict Var Var) (base : Nat) :
    Prop where
  outs_nodup : outs.Nodup
  obs_nodup : obs.keys.Nodup
  init_own : ∀ i, own (base + i) = none
  init_fresh : ∀ i, ¬ ModelVar outs obs (base + i)
  obs_closed : ∀ p ∈ obs, Closed own (ModelVar outs obs) ins p.2

theorem has_iff {β : Type} (d : Dict Var β) (k : Var) : d.has k = true ↔ k ∈ d.keys := by
  simp [Dict.has]

variable {own : Owner} {obs : Dict Var Var}

theorem processRV_none {st : LoopState} {rv : Var} (h : chosen st.disc obs rv = none) :
    processRV own obs st rv =
      if rv ∈ obs.keys then st else { st with rest := setAdd st.rest rv } := by
  unfold processRV
  unfold chosen at h
  simp only [has_iff]
  split_ifs with h1
  · rfl
  · rw [if_neg h1] at h
    cases hd : st.disc.get? rv with
    | none => rfl
    | some steps =>
      rw [hd] at h
      have : steps.getLast? = none := by simpa using h
      simp only [this]

theorem replaceAll_length {own : Owner} : ∀ (ps : List (Var × Var)) (s : Ins × List Var),
    (replaceAll own s ps).2.length = s.2.length
  | [], _ => rfl
  | (r, v) :: ps, s => by
    unfold replaceAll
    rw [replaceAll_length ps]
    simp [replace]

theorem processRV_some {st : LoopState} {rv : Var} {sd : StepDesc}
    (h : chosen st.disc obs rv = some sd) :
    (processRV own obs st rv).ins = (replaceAll own (st.ins, sd.outs) st.pss).1 ∧
    (processRV own obs st rv).pss =
      st.pss.set rv ((replaceAll own (st.ins, sd.outs) st.pss).2.headD sd.step) ∧
    (processRV own obs st rv).rest = st.rest ∧
    (∀ r, r ≠ rv → (processRV own obs st rv).disc.get? r = st.disc.get? r) := by
  unfold chosen at h
  split_ifs at h with h1
  cases hd : st.disc.get? rv with
  | none => simp [hd] at h
  | some steps =>
    rw [hd] at h
    have h2 : steps.getLast? = some sd := by simpa using h
    unfold processRV
    simp only [has_iff, if_neg h1, hd, h2]
    refine ⟨rfl, rfl, trivial, fun r hr => ?_⟩
    rw [Dict.get?_set, if_neg (Ne.symm hr)]

theorem processRV_disc {st : LoopState} {rv r : Var} (h : r ≠ rv) :
    (processRV own obs st rv).disc.get? r = st.disc.get? r := by
  cases hc : chosen st.disc obs rv with
  | none =>
    rw [processRV_none hc]
    split_ifs <;> rfl
  | some sd => exact (processRV_some hc).2.2.2 r h

theorem chosen_congr {disc disc' : Dict Var (List StepDesc)} {rv : Var}
    (h : disc.get? rv = disc'.get? rv) : chosen disc obs rv = chosen disc' obs rv := by
  unfold chosen
  rw [h]

/-! ## Keys -/

theorem processRV_keys {st : LoopState} {rv : Var} (h : rv ∈ st.pss.keys) :
    (processRV own obs st rv).pss.keys = st.pss.keys := by
  cases hc : chosen st.disc obs rv with
  | none =>
    rw [processRV_none hc]
    split_ifs <;> rfl
  | some sd =>
    rw [(processRV_some hc).2.1]
    exact Dict.keys_set_of_mem _ _ _ h

theorem loop_keys : ∀ (l : List Var) (st : LoopState), (∀ r ∈ l, r ∈ st.pss.keys) →
    (loop own obs st l).pss.keys = st.pss.keys
  | [], _, _ => rfl
  | r :: l, st, h => by
    change (loop own obs (processRV own obs st r) l).pss.keys = _
    have h1 := processRV_keys (own := own) (obs := obs) (h r (by simp))
    rw [loop_keys l _ (fun x hx => by rw [h1]; exact h x (by simp [hx])), h1]

theorem setAdd_of_not_mem {s : List Var} {x : Var} (h : x ∉ s) : setAdd s x = s ++ [x] := by
  simp [setAdd, h]

/-- The variables left for NUTS: the unobserved ones without a recorded step, in order. -/
theorem loop_rest : ∀ (l : List Var) (st : LoopState) (disc : Dict Var (List StepDesc)),
    l.Nodup → (∀ r ∈ l, st.disc.get? r = disc.get? r) → (∀ r ∈ l, r ∉ st.rest) →
    (loop own obs st l).rest =
      st.rest ++ l.filter fun r => decide (r ∉ obs.keys ∧ chosen disc obs r = none)
  | [], st, _, _, _, _ => by simp [loop]
  | r :: l, st, disc, hn, hd, hr => by
    rw [List.nodup_cons] at hn
    change (loop own obs (processRV own obs st r) l).rest = _
    have hd' : ∀ x ∈ l, (processRV own obs st r).disc.get? x = disc.get? x := fun x hx => by
      rw [processRV_disc (by rintro rfl; exact hn.1 hx), hd x (by simp [hx])]
    have hcr : chosen st.disc obs r = chosen disc obs r := chosen_congr (hd r (by simp))
    cases hc : chosen disc obs r with
    | none =>
      have hp := processRV_none (own := own) (hcr.trans hc)
      by_cases h1 : r ∈ obs.keys
      · rw [if_pos h1] at hp
        rw [hp] at hd' ⊢
        rw [loop_rest l st disc hn.2 hd' fun x hx => hr x (by simp [hx])]
        simp [h1]
      · rw [if_neg h1] at hp
        rw [hp] at hd' ⊢
        rw [loop_rest l _ disc hn.2 hd']
        · simp only [setAdd_of_not_mem (hr r (by simp)), List.append_assoc]
          rw [List.filter_cons]
          simp [h1, hc]
        · intro x hx
          simp only [setAdd_of_not_mem (hr r (by simp)), List.mem_append, List.mem_singleton, not_or]
          exact ⟨hr x (by simp [hx]), by rintro rfl; exact hn.1 hx⟩
    | some sd =>
      have hp := processRV_some (own := own) (hcr.trans hc)
      rw [loop_rest l _ disc hn.2 hd' fun x hx => by rw [hp.2.2.1]; exact hr x (by simp [hx]),
        hp.2.2.1]
      rw [List.filter_cons]
      simp [hc]

/-! ## Closedness and frame -/

section
variable {outs : List Var} {base : Nat} {ins₀ : Ins}

/-- The loop invariant for C02, C03 and C08. -/
structure Inv (own : Owner) (D : Var → Prop) (ins₀ : Ins) (st : LoopState) : Prop where
  all : ∀ r, D r → r ∈ st.pss.keys
  closed : ∀ p ∈ st.pss, D p.1 ∧ Closed own D st.ins p.2
  frame : ∀ n, (∀ w ∈ ins₀ n, ¬ D w) → st.ins n = ins₀ n
  reads : ∀ n, ∀ w ∈ st.ins n, w ∈ ins₀ n ∨ Closed own D st.ins w

theorem Inv.pairs {D : Var → Prop} {st : LoopState} (h : Inv own D ins₀ st) :
    ∀ p ∈ st.pss, D p.1 ∧ ¬ D p.2 := fun p hp =>
  ⟨(h.closed p hp).1, (h.closed p hp).2 p.2 .refl⟩

theorem Inv.noD {D : Var → Prop} {st : LoopState} (h : Inv own D ins₀ st) {n : Node}
    (h0 : ∀ w ∈ ins₀ n, ¬ D w) : ∀ w ∈ st.ins n, ¬ D w := by
  rw [h.frame n h0]
  exact h0

theorem Inv.replaceAll_frame {D : Var → Prop} {st : LoopState} (h : Inv own D ins₀ st)
    (os : List Var) (n : Node) (hn : ∀ w ∈ st.ins n, ¬ D w) :
    (replaceAll own (st.ins, os) st.pss).1 n = st.ins n :=
  replaceAll_frame_D (D := D) (fun p hp => (h.closed p hp).1) n hn

theorem Inv.closed_replaceAll {D : Var → Prop} {st : LoopState} (h : Inv own D ins₀ st)
    (os : List Var) {v : Var} (hv : Closed own D st.ins v) :
    Closed own D (replaceAll own (st.ins, os) st.pss).1 v :=
  closed_of_frame (h.replaceAll_frame os) hv

theorem Inv.step {D : Var → Prop} {st : LoopState} {rv : Var} (h : Inv own D ins₀ st) (hrv : D rv) :
    Inv own D ins₀ (processRV own obs st rv) := by
  cases hc : chosen st.disc obs rv with
  | none =>
    rw [processRV_none hc]
    split_ifs
    · exact h
    · exact ⟨h.all, h.closed, h.frame, h.reads⟩
  | some sd =>
    obtain ⟨h1, h2, -, -⟩ := processRV_some (own := own) hc
    have hlen := replaceAll_length (own := own) st.pss (st.ins, sd.outs)
    refine ⟨?_, ?_, ?_, ?_⟩
    · intro r hr
      rw [h2, Dict.mem_keys_set]
      exact Or.inr (h.all r hr)
    · intro p hp
      rw [h2] at hp
      rw [h1]
      rcases Dict.mem_set _ _ _ _ hp with hp | rfl
      · exact ⟨(h.closed p hp).1, h.closed_replaceAll _ (h.closed p hp).2⟩
      · refine ⟨hrv, ?_⟩
        apply Verif.Graph.closed_replaceAll (fun q hq => h.closed q hq)
        · intro r hr
          obtain ⟨q, hq, e⟩ := List.mem_map.1 (h.all r hr)
          exact ⟨q, hq, e⟩
        · cases hs : (replaceAll own (st.ins, sd.outs) st.pss).2 with
          | nil => rw [hs] at hlen; simp [StepDesc.outs] at hlen
          | cons a l => simp
    · intro n hn
      rw [h1, h.replaceAll_frame _ _ (h.noD hn), h.frame n hn]
    · intro n w hw
      rw [h1] at hw ⊢
      have hr := replaceAll_reads (own := own) (s := (st.ins, sd.outs)) h.pairs n
      obtain ⟨i, hi, rfl⟩ := List.getElem_of_mem hw
      have hl := hr.length_eq
      have hi' : i < (st.ins n).length := by
        have : i < (st.ins n).length := by
          change (st.ins n).length = _ at hl
          omega
        exact this
      have hg := List.forall₂_iff_get.1 hr
      rcases hg.2 i hi' hi with e | e
      · have e' : (st.ins n)[i] = ((replaceAll own (st.ins, sd.outs) st.pss).1 n)[i] := e
        rw [← e']
        rcases h.reads n _ (List.getElem_mem hi') with hh | hh
        · exact Or.inl hh
        · exact Or.inr (h.closed_replaceAll _ hh)
      · exact Or.inr (h.closed_replaceAll _ (h.closed _ e).2)

theorem Inv.loop {D : Var → Prop} : ∀ (l : List Var) {st : LoopState}, Inv own D ins₀ st →
    (∀ r ∈ l, D r) → Inv own D ins₀ (Verif.Graph.loop own obs st l)
  | [], _, h, _ => h
  | r :: l, _, h, hl => Inv.loop l (h.step (hl r (by simp))) fun x hx => hl x (by simp [hx])

theorem initVals_eq {rvs : List Var} (h : rvs.Nodup) :
    initVals base rvs = rvs.zipIdx.map fun p => (p.1, base + p.2) := by
  unfold initVals
  rw [Dict.update_nil_of_nodup]
  · rfl
  · have : ([] ++ rvs.zipIdx.map fun p : Var × Nat => (p.1, base + p.2)).map Prod.fst = rvs := by
      simp only [List.nil_append, List.map_map, Function.comp_def]
      exact List.zipIdx_map_fst 0 rvs
    rw [this]
    exact h

theorem initVals_keys {rvs : List Var} (h : rvs.Nodup) : (initVals base rvs).keys = rvs := by
  rw [initVals_eq h]
  simp only [Dict.keys, List.map_map, Function.comp_def]
  exact List.zipIdx_map_fst 0 rvs

theorem initVals_mem {rvs : List Var} {p : Var × Var} (h : p ∈ initVals base rvs) :
    p.1 ∈ rvs ∧ ∃ i, p.2 = base + i := by
  rcases Dict.mem_update _ _ _ h with h | h
  · simp at h
  · obtain ⟨q, hq, rfl⟩ := List.mem_map.1 h
    obtain ⟨a, i⟩ := q
    refine ⟨?_, i, rfl⟩
    have := List.mem_zipIdx hq
    simp only [Nat.zero_add, Nat.sub_zero] at this
    obtain ⟨-, h2, h3⟩ := this
    simp only [h3]
    exact List.getElem_mem _

theorem initState_keys (disc : Dict Var (List StepDesc)) (hs : Setup own ins₀ outs obs base) :
    ∀ r, r ∈ (initState ins₀ outs obs disc base).pss.keys ↔ ModelVar outs obs r := by
  intro r
  change r ∈ (Dict.update _ obs).keys ↔ _
  rw [Dict.mem_keys_update, initVals_keys (hs.outs_nodup.filter _)]
  simp only [List.mem_filter, Bool.not_eq_true', Dict.has, decide_eq_false_iff_not, ModelVar]
  tauto

theorem inv_init (disc : Dict Var (List StepDesc)) (hs : Setup own ins₀ outs obs base) :
    Inv own (ModelVar outs obs) ins₀ (initState ins₀ outs obs disc base) := by
  refine ⟨fun r hr => (initState_keys disc hs r).2 hr, ?_, fun n _ => rfl,
    fun n w hw => Or.inl hw⟩
  intro p hp
  refine ⟨(initState_keys disc hs p.1).1 (List.mem_map.2 ⟨p, hp, rfl⟩), ?_⟩
  rcases Dict.mem_update _ _ _ hp with h | h
  · obtain ⟨-, i, e⟩ := initVals_mem h
    rw [e]
    exact closed_of_input (hs.init_own i) (hs.init_fresh i)
  · exact hs.obs_closed p h

theorem inv_final (disc : Dict Var (List StepDesc)) (hs : Setup own ins₀ outs obs base) :
    Inv own (ModelVar outs obs) ins₀
      (loop own obs (initState ins₀ outs obs disc base) outs) :=
  (inv_init disc hs).loop outs fun _ hr => Or.inl hr

end

end Verif.Graph
