import Verif.Parts.Marks
import Verif.Graph.Regression

/-!
# Unrelated parts of a model do not influence each other (C70)
-/

namespace Verif.Graph

open Verif.Py

/-- Spec.  `C` marks a separate part of the model: the graph of the step chosen for a variable contains only model
variables of the same part. -/
def Apart (own : Owner) (ins : Ins) (outs : List Var) (obs : Dict Var Var) (disc : Dict Var (List StepDesc))
    (C : Var → Bool) : Prop :=
  ∀ r ∈ outs, ∀ sd, chosen disc obs r = some sd → ∀ o ∈ sd.outs, ∀ u, Reach own ins o u →
    ModelVar outs obs u → C u = C r

/-- Spec.  The identifiers from `base` on are not in use. -/
structure Unused (ins : Ins) (outs : List Var) (obs : Dict Var Var) (disc : Dict Var (List StepDesc))
    (base : Nat) : Prop where
  reads : ∀ n, ∀ w ∈ ins n, w < base
  values : ∀ p ∈ obs, p.2 < base
  steps : ∀ r ∈ outs, ∀ sd, chosen disc obs r = some sd → ∀ o ∈ sd.outs, o < base

/-- Spec.  Two assignments of values to leaves agree: on everything but initial values, and on the initial values of the
variables `rs`, given under the user's names `f r`. -/
def Agree {Val : Type} (base : Nat) (f : Var → Var) (rs : List Var) (outW outA : SamplerOut)
    (gW gA : Var → Option Val) : Prop :=
  (∀ y < base, gW y = gA y) ∧ ∀ r ∈ rs, ∀ v v', outW.inits.get? (f r) = some v →
    outA.inits.get? (f r) = some v' → gW v = gA v'

/-- Spec.  Successive calls of a sampler: in call `k` the leaves have the values `g k`, and each call starts from the values the call
before returned for the variables `rs`.  The other leaves, among them the generators, are free. -/
def Run {Val : Type} (own : Owner) (sem : Node → Nat → List Val → Val) (f : Var → Var) (rs : List Var)
    (out : SamplerOut) (g : Nat → Var → Option Val) : Prop :=
  ∀ k, ∀ r ∈ rs, ∀ v, out.inits.get? (f r) = some v →
    ∃ x, Returns own sem (g k) out (f r) x ∧ g (k + 1) v = some x

section
variable {own : Owner} {ins : Ins} {outs : List Var} {obs newToOld : Dict Var Var}
  {disc : Dict Var (List StepDesc)} {base : Nat} {order order' : List Var → List Var}
  {nuts nuts' : Dict Var Var → Dict Var Var → NutsResult} {f : Var → Var} {C : Var → Bool}

theorem Setup.part (hs : Setup own ins outs obs base) (C : Var → Bool) :
    Setup own ins (outs.filter C) (obs.filter fun p => C p.1) base := by
  have hsub : ∀ r, ModelVar (outs.filter C) (obs.filter fun p => C p.1) r → ModelVar outs obs r := by
    rintro r (h | h)
    · exact Or.inl (List.mem_filter.1 h).1
    · exact Or.inr ((keys_filter obs r).1 h).1
  refine ⟨hs.outs_nodup.filter C, ?_, hs.init_own, fun i h => hs.init_fresh i (hsub _ h), fun p hp w hw h =>
    hs.obs_closed p (List.mem_filter.1 hp).1 w hw (hsub _ h)⟩
  have : Dict.keys (obs.filter fun p => C p.1) = obs.keys.filter C := by
    rw [Dict.keys, Dict.keys, List.filter_map]
    rfl
  rw [this]
  exact hs.obs_nodup.filter C

/-- The renaming of the initial values of the part. -/
def partRename (base : Nat) (outs : List Var) (obs : Dict Var Var) (C : Var → Bool) : Var → Var :=
  rename base (unobs outs obs) ((unobs outs obs).filter C)

theorem lt_base (hs : Setup own ins outs obs base) {r : Var} (h : ModelVar outs obs r) : r < base := by
  by_contra hn
  refine hs.init_fresh (r - base) ?_
  rw [Nat.add_sub_cancel' (Nat.not_lt.1 hn)]
  exact h

theorem marks (hs : Setup own ins outs obs base) (C : Var → Bool) :
    Marks own (ModelVar outs obs) (fun v => ∀ u, Reach own ins v u → ModelVar outs obs u → C u = true)
      (fun v => ∀ u, Reach own ins v u → ModelVar outs obs u → C u = false) C (partRename base outs obs C) ins := by
  have hhigh : ∀ x, ¬ x < base → own x = none ∧ ∃ j, partRename base outs obs C x = base + j := by
    intro x hx
    refine ⟨?_, ?_⟩
    · have := hs.init_own (x - base)
      rwa [Nat.add_sub_cancel' (Nat.not_lt.1 hx)] at this
    · unfold partRename rename
      rw [if_neg hx]
      exact ⟨_, rfl⟩
  refine ⟨fun v n i hv ho w hw u hu => hv u (.head ⟨n, i, ho, hw⟩ hu),
    fun v n i hv ho w hw u hu => hv u (.head ⟨n, i, ho, hw⟩ hu), fun r hD h => h r .refl hD,
    fun r hD h => h r .refl hD, fun x => ?_, fun x r hr => ?_, fun x hx => ?_⟩
  · by_cases h : x < base
    · rw [partRename, rename_low h]
    · obtain ⟨h1, j, h2⟩ := hhigh x h
      rw [h1, h2, hs.init_own]
  · by_cases h : x < base
    · rw [partRename, rename_low h]
    · obtain ⟨-, j, h2⟩ := hhigh x h
      rw [h2]
      constructor
      · rintro rfl
        exact absurd hr (hs.init_fresh j)
      · rintro rfl
        exact absurd (lt_base hs hr) h
  · by_cases h : x < base
    · rw [partRename, rename_low h]
      exact hx
    · obtain ⟨-, j, h2⟩ := hhigh x h
      intro u hu hD
      rw [h2] at hu
      exact absurd hD (closed_of_input (hs.init_own j) (hs.init_fresh j) u hu)

/-- The loop on the model and on the part. -/
theorem lock_final (hs : Setup own ins outs obs base) (hu : Unused ins outs obs disc base)
    (hsep : Apart own ins outs obs disc C) :
    Lock own (ModelVar outs obs) (fun v => ∀ u, Reach own ins v u → ModelVar outs obs u → C u = true)
      (fun v => ∀ u, Reach own ins v u → ModelVar outs obs u → C u = false) C (partRename base outs obs C) ins
      (loop own obs (initState ins outs obs disc base) outs)
      (loop own (obs.filter fun p => C p.1)
        (initState ins (outs.filter C) (obs.filter fun p => C p.1) disc base) (outs.filter C)) := by
  have hlow : ∀ l : List Var, (∀ w ∈ l, w < base) → l.map (partRename base outs obs C) = l := by
    intro l hl
    conv_rhs => rw [← List.map_id l]
    exact List.map_congr_left fun w hw => rename_low (hl w hw)
  have hpA : (initState ins (outs.filter C) (obs.filter fun p => C p.1) disc base).pss =
      initVals base ((unobs outs obs).filter C) ++ obs.filter fun p => C p.1 := by
    rw [initState_pss disc (hs.part C), unobs_filter]
  refine Lock.loop (marks hs C) outs _ _ hs.outs_nodup ⟨inv_init disc hs, ?_, ?_, ?_, ?_, ?_, ?_⟩
    (fun r hr => Or.inl hr) (fun _ _ => rfl) (fun _ _ => rfl) (fun r hr sd hc o ho => ?_)
  · rw [hpA, initState_pss disc hs, List.filter_append, List.map_append,
      initVals_filter (show (unobs outs obs).Nodup from hs.outs_nodup.filter _)]
    congr 1
    conv_lhs => rw [← List.map_id (List.filter _ obs)]
    refine List.map_congr_left fun p hp => ?_
    rw [partRename, rename_low (hu.values p (List.mem_filter.1 hp).1)]
    rfl
  · intro n _
    exact (hlow _ (hu.reads n)).symm
  · exact fun n hn w hw => hn w hw
  · rw [hpA]
    intro p hp u hr hD
    rcases List.mem_append.1 hp with hp | hp
    · obtain ⟨-, i, e⟩ := initVals_mem hp
      rw [e] at hr
      exact absurd hD (closed_of_input (hs.init_own i) (hs.init_fresh i) u hr)
    · exact absurd hD (hs.obs_closed p (List.mem_filter.1 hp).1 u hr)
  · exact fun n hn w hw => hn w hw
  · rw [initState_pss disc hs]
    intro p hp _ u hr hD
    rcases List.mem_append.1 hp with hp | hp
    · obtain ⟨-, i, e⟩ := initVals_mem hp
      rw [e] at hr
      exact absurd hD (closed_of_input (hs.init_own i) (hs.init_fresh i) u hr)
    · exact absurd hD (hs.obs_closed p hp u hr)
  · have h := hsep r hr sd hc o ho
    cases hC : C r with
    | true =>
      rw [if_pos rfl]
      exact ⟨fun u hr hD => (h u hr hD).trans hC, rename_low (hu.steps r hr sd hc o ho)⟩
    | false =>
      rw [if_neg (by simp)]
      exact fun u hr hD => (h u hr hD).trans hC

/-- The result of `construct_sampler` for the variables with a step. -/
theorem built (hs : Setup own ins outs obs base) (hold : ∀ r ∈ outs, newToOld.get? r = some (f r))
    (hinj : ∀ a ∈ outs, ∀ b ∈ outs, f a = f b → a = b) (horder : ∀ l, (order l).Perm l)
    (hnuts : ∀ a b, (nuts a b).steps.keys = a.keys) :
    ∃ out, constructSampler own ins outs obs newToOld disc base order nuts = some out ∧
      out.ins = (loop own obs (initState ins outs obs disc base) outs).ins ∧
      (∀ r ∈ unobs outs obs, out.inits.get? (f r) = some (base + (unobs outs obs).idxOf r)) ∧
      ∀ r ∈ outs, (chosen disc obs r).isSome → ∃ v, out.steps.get? (f r) = some v ∧
        (loop own obs (initState ins outs obs disc base) outs).pss.get? r = some v := by
  obtain ⟨pss, upd, out, ha, hpk, hout, hsteps, hinits, -, hins⟩ :=
    constructSampler_eq (disc := disc) hs hold hinj horder hnuts
  have hrest := loop_rest (own := own) (obs := obs) outs (initState ins outs obs disc base) disc
    hs.outs_nodup (fun _ _ => rfl) (by simp [initState])
  have hkeys := final_keys disc hs
  refine ⟨out, hout, hins, fun r hr => ?_, fun r hr hc => ?_⟩
  · have hn : (unobs outs obs).Nodup := hs.outs_nodup.filter _
    rw [hinits, get?_map_key]
    · refine Dict.get?_of_mem _ (by rw [initVals_keys hn]; exact hn) _ _ ?_
      rw [initVals_idx hn]
      exact List.mem_map.2 ⟨r, hr, rfl⟩
    · intro a ha b hb e
      rw [initVals_keys hn] at ha hb
      exact hinj a (mem_unobs.1 ha).1 b (mem_unobs.1 hb).1 e
    · rw [initVals_keys hn]
      exact hr
  have hro : r ∉ obs.keys := by
    intro h
    unfold chosen at hc
    rw [if_pos h] at hc
    cases hc
  have hu : r ∈ unobs outs obs := mem_unobs.2 ⟨hr, hro⟩
  generalize loop own obs (initState ins outs obs disc base) outs = st at ha hrest hkeys
  obtain ⟨v, hv⟩ := (Dict.get?_isSome_iff st.pss r).2 (by
    rw [hkeys]; exact List.mem_append_left _ hu)
  refine ⟨v, ?_, hv⟩
  have hpv : pss.get? r = some v := by
    unfold afterNuts at ha
    split_ifs at ha with he
    · cases ha
      exact hv
    · obtain ⟨a, ha1, ha2⟩ := Option.map_eq_some_iff.1 ha
      cases ha2
      rw [Dict.get?_update_of_not_mem, hv]
      have hrn : st.rest.Nodup := by
        rw [hrest]
        exact hs.outs_nodup.filter _
      have hmr : ∀ x, x ∈ st.rest ↔ x ∈ outs ∧ x ∉ obs.keys ∧ chosen disc obs x = none := by
        intro x
        rw [hrest]
        simp [initState]
      obtain ⟨ts, re, he', htk, -, -⟩ := nutsArgs_eq (hkeys ▸ keys_nodup hs)
        ((horder st.rest).nodup_iff.2 hrn) (by
          intro x hx
          have := (hmr x).1 ((horder _).mem_iff.1 hx)
          rw [hkeys]
          exact List.mem_append_left _ (mem_unobs.2 ⟨this.1, this.2.1⟩))
      rw [he'] at ha1
      cases ha1
      have := hnuts ts re
      rw [Dict.keys] at this
      rw [this, htk, (horder _).mem_iff, hmr]
      rintro ⟨-, -, hcn⟩
      rw [hcn] at hc
      cases hc
  have hk : r ∈ Dict.keys (pss.filter fun p => !obs.has p.1) := by
    rw [Dict.keys, filter_keys hpk]
    exact hu
  rw [hsteps, get?_map_key _ hk, get?_filter (q := fun k => !obs.has k) (by simp [Dict.has, hro]),
    hpv]
  intro a ha b hb e
  rw [Dict.keys, filter_keys hpk] at ha hb
  exact hinj a (mem_unobs.1 ha).1 b (mem_unobs.1 hb).1 e

/-- **C70.** Let `C` mark a separate part of a model.  `construct_sampler` is run on the whole model and on
the part alone (its outputs, observations and steps; the iteration orders and the NUTS calls of the two runs are arbitrary).
Given the same leaves and the same current values of the part, both samplers return the same values for every
variable of the part that has a closed-form step, whatever the rest of the model is and whatever its current
values are.  Nothing is assumed about how the steps share nodes. -/
theorem C70_part (hs : Setup own ins outs obs base) (hu : Unused ins outs obs disc base)
    (hold : ∀ r ∈ outs, newToOld.get? r = some (f r))
    (hinj : ∀ a ∈ outs, ∀ b ∈ outs, f a = f b → a = b)
    (horder : ∀ l, (order l).Perm l) (hnuts : ∀ a b, (nuts a b).steps.keys = a.keys)
    (horder' : ∀ l, (order' l).Perm l) (hnuts' : ∀ a b, (nuts' a b).steps.keys = a.keys)
    (hsep : Apart own ins outs obs disc C) :
    ∃ outW outA, constructSampler own ins outs obs newToOld disc base order nuts = some outW ∧
      constructSampler own ins (outs.filter C) (obs.filter fun p => C p.1) newToOld disc base order' nuts' =
        some outA ∧
      ∀ r ∈ outs, C r = true → (chosen disc obs r).isSome →
        ∀ (Val : Type) (sem : Node → Nat → List Val → Val) (gW gA : Var → Option Val),
        Agree base f ((unobs outs obs).filter C) outW outA gW gA →
        ∀ x, Returns own sem gW outW (f r) x ↔ Returns own sem gA outA (f r) x := by
  have hsA := hs.part C
  have hold' : ∀ r ∈ outs.filter C, newToOld.get? r = some (f r) := fun r hr => hold r (List.mem_filter.1 hr).1
  have hinj' : ∀ a ∈ outs.filter C, ∀ b ∈ outs.filter C, f a = f b → a = b := fun a ha b hb =>
    hinj a (List.mem_filter.1 ha).1 b (List.mem_filter.1 hb).1
  obtain ⟨outW, hW, hinsW, hiW, hstW⟩ := built (disc := disc) hs hold hinj horder hnuts
  obtain ⟨outA, hA, hinsA, hiA, hstA⟩ := built (disc := disc) hsA hold' hinj' horder' hnuts'
  refine ⟨outW, outA, hW, hA, fun r hr hC hc Val sem gW gA hag x => ?_⟩
  have L := lock_final hs hu hsep
  have M := marks hs C
  have hkW := final_keys disc hs
  have hcA : (chosen disc (obs.filter fun p => C p.1) r).isSome := by
    rw [chosen_filter hC]
    exact hc
  obtain ⟨v, hv, hpv⟩ := hstA r (List.mem_filter.2 ⟨hr, hC⟩) hcA
  obtain ⟨v', hv', hpv'⟩ := hstW r hr hc
  rw [unobs_filter] at hiA
  -- the variables that occur in the graph of the part
  obtain ⟨hG, hGp⟩ := loop_marked (own := own) (obs := obs.filter fun p => C p.1) (disc := disc)
    (GV := fun v => v < base ∨ ∃ r ∈ (unobs outs obs).filter C, v = base + ((unobs outs obs).filter C).idxOf r)
    (outs.filter C) (initState ins (outs.filter C) (obs.filter fun p => C p.1) disc base) hsA.outs_nodup
    (fun n w hw => Or.inl (hu.reads n w hw)) (by
      rw [initState_pss disc hsA, unobs_filter]
      intro p hp
      rcases List.mem_append.1 hp with hp | hp
      · rw [initVals_idx ((show (unobs outs obs).Nodup from hs.outs_nodup.filter _).filter _)] at hp
        obtain ⟨q, hq, rfl⟩ := List.mem_map.1 hp
        exact Or.inr ⟨q, hq, rfl⟩
      · exact Or.inl (hu.values p (List.mem_filter.1 hp).1)) (fun _ _ => rfl) (by
      intro q hq sd hqc o ho
      obtain ⟨hq1, hq2⟩ := List.mem_filter.1 hq
      rw [chosen_filter hq2] at hqc
      exact Or.inl (hu.steps q hq1 sd hqc o ho))
  -- the value of `r` in the whole
  have hmem : (r, v) ∈ (loop own (obs.filter fun p => C p.1)
      (initState ins (outs.filter C) (obs.filter fun p => C p.1) disc base) (outs.filter C)).pss :=
    Dict.mem_of_get? _ _ _ hpv
  have hv2 : v' = partRename base outs obs C v := by
    have h1 : (r, partRename base outs obs C v) ∈
        (loop own obs (initState ins outs obs disc base) outs).pss.filter fun p => C p.1 := by
      rw [L.pss]
      exact List.mem_map.2 ⟨_, hmem, rfl⟩
    have h2 := Dict.get?_of_mem _ (hkW ▸ keys_nodup hs) _ _ (List.mem_filter.1 h1).1
    rw [h2] at hpv'
    exact (Option.some.inj hpv').symm
  have key := Ev.rename (sem := sem) (gW := gW) (gA := gA) (x := x) (v := v)
    (PV := fun v => (∀ u, Reach own ins v u → ModelVar outs obs u → C u = true) ∧
      (v < base ∨ ∃ r ∈ (unobs outs obs).filter C, v = base + ((unobs outs obs).filter C).idxOf r))
    (P := fun n => ∀ w ∈ ins n, ∀ u, Reach own ins w u → ModelVar outs obs u → C u = true)
    (fun v n i h => M.hP v n i h.1) M.own_eq L.heap (fun n hn w hw => ⟨L.hin n hn w hw, hG n w hw⟩) (by
      rintro y ⟨-, hy | ⟨q, hq, rfl⟩⟩
      · rw [partRename, rename_low hy]
        exact hag.1 y hy
      · rw [partRename, rename_init hq]
        exact hag.2 q hq _ _ (hiW q (List.mem_filter.1 hq).1) (hiA q hq)) ⟨L.hval _ hmem, hGp _ hmem⟩
  rw [← hinsW, ← hinsA, ← hv2] at key
  constructor
  · rintro ⟨w, hw, hE⟩
    rw [hv'] at hw
    cases hw
    exact ⟨v, hv, key.1 hE⟩
  · rintro ⟨w, hw, hE⟩
    rw [hv] at hw
    cases hw
    exact ⟨v', hv', key.2 hE⟩

/-- **C70, repeated calls.** If in addition every unobserved variable of the part has a closed-form step, the values of the
part stay the same however often the two samplers are called, as long as each call finds the same leaves. -/
theorem C70_runs (hs : Setup own ins outs obs base) (hu : Unused ins outs obs disc base)
    (hold : ∀ r ∈ outs, newToOld.get? r = some (f r))
    (hinj : ∀ a ∈ outs, ∀ b ∈ outs, f a = f b → a = b)
    (horder : ∀ l, (order l).Perm l) (hnuts : ∀ a b, (nuts a b).steps.keys = a.keys)
    (horder' : ∀ l, (order' l).Perm l) (hnuts' : ∀ a b, (nuts' a b).steps.keys = a.keys)
    (hsep : Apart own ins outs obs disc C)
    (hall : ∀ r ∈ (unobs outs obs).filter C, (chosen disc obs r).isSome) :
    ∃ outW outA, constructSampler own ins outs obs newToOld disc base order nuts = some outW ∧
      constructSampler own ins (outs.filter C) (obs.filter fun p => C p.1) newToOld disc base order' nuts' =
        some outA ∧
      ∀ (Val : Type) (sem : Node → Nat → List Val → Val) (gW gA : Nat → Var → Option Val),
        Run own sem f (unobs outs obs) outW gW → Run own sem f ((unobs outs obs).filter C) outA gA →
        (∀ k, ∀ y < base, gW k y = gA k y) →
        Agree base f ((unobs outs obs).filter C) outW outA (gW 0) (gA 0) →
        ∀ k, ∀ r ∈ (unobs outs obs).filter C, ∀ x,
          Returns own sem (gW k) outW (f r) x ↔ Returns own sem (gA k) outA (f r) x := by
  obtain ⟨outW, outA, hW, hA, h⟩ := C70_part hs hu hold hinj horder hnuts horder' hnuts' hsep
  refine ⟨outW, outA, hW, hA, fun Val sem gW gA rW rA hl h0 => ?_⟩
  have hret : ∀ k, Agree base f ((unobs outs obs).filter C) outW outA (gW k) (gA k) →
      ∀ r ∈ (unobs outs obs).filter C, ∀ x,
        Returns own sem (gW k) outW (f r) x ↔ Returns own sem (gA k) outA (f r) x := by
    intro k hk r hr x
    obtain ⟨hr1, hr2⟩ := List.mem_filter.1 hr
    exact h r (mem_unobs.1 hr1).1 hr2 (hall r hr) Val sem _ _ hk x
  have hag : ∀ k, Agree base f ((unobs outs obs).filter C) outW outA (gW k) (gA k) := by
    intro k
    induction k with
    | zero => exact h0
    | succ k ih =>
      refine ⟨hl (k + 1), fun r hr v v' hv hv' => ?_⟩
      obtain ⟨x, hx, e⟩ := rW k r (List.mem_filter.1 hr).1 v hv
      obtain ⟨x', hx', e'⟩ := rA k r hr v' hv'
      obtain ⟨w, hw, hE⟩ := (hret k ih r hr x).1 hx
      obtain ⟨w', hw', hE'⟩ := hx'
      rw [hw] at hw'
      cases hw'
      rw [e, e', hE.det hE']
  exact fun k => hret k (hag k)

end

end Verif.Graph
