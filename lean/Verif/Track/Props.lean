import Verif.Track.Model
import Verif.Graph.Order

/-!
# C04: each finder's answer is recorded once, and the last recorded step is used
-/

namespace Verif.Track

open Verif.Py

variable {α σ : Type} [DecidableEq α]

/-- Spec.  The finder answered with at least one step. -/
def Visit.steps (v : Visit α σ) : List (α × σ) := v.answer.getD []

/-- Spec.  A finder applied to a variable. -/
def Visit.key (v : Visit α σ) : Nat × α := (v.name, v.rv)

/-- Spec.  The first visits with an answer: of each finder and variable, the first call that
returned something. -/
def firsts : List (Visit α σ) → List (Visit α σ)
  | [] => []
  | v :: h => if v.steps = [] then firsts h else v :: (firsts h).filter fun u => u.key ≠ v.key

/-- Spec.  The steps for `rv` in one answer, in order. -/
def stepsFor (rv : α) (v : Visit α σ) : List (Nat × σ) :=
  (v.steps.filter fun p => p.1 = rv).map fun p => (v.name, p.2)

/-! ## Lemmas -/

theorem get?_foldl_record (name : Nat) : ∀ (l : List (α × σ)) (d : Dict α (List (Nat × σ))) (rv : α),
    ((l.foldl (record name) d).get? rv).getD [] =
      (d.get? rv).getD [] ++ (l.filter fun p => p.1 = rv).map fun p => (name, p.2)
  | [], d, rv => by simp
  | p :: l, d, rv => by
    rw [List.foldl_cons, get?_foldl_record name l, List.filter_cons]
    unfold record
    rw [Dict.get?_set]
    by_cases e : p.1 = rv
    · subst e
      simp
    · simp [e]

theorem visit_of_nil {t : Tracker α σ} {v : Visit α σ} (h : v.steps = []) : visit t v = t := by
  unfold visit
  split_ifs
  · rfl
  · unfold Visit.steps at h
    cases ha : v.answer with
    | none => rfl
    | some l =>
      rw [ha] at h
      cases l with
      | nil => rfl
      | cons p l => simp at h

theorem visit_of_seen {t : Tracker α σ} {v : Visit α σ} (h : v.key ∈ t.seen) : visit t v = t := by
  unfold visit
  exact if_pos h

theorem visit_of_new {t : Tracker α σ} {v : Visit α σ} (hk : v.key ∉ t.seen) (h : v.steps ≠ []) :
    visit t v = ⟨v.steps.foldl (record v.name) t.samplers, v.key :: t.seen⟩ := by
  unfold visit
  rw [if_neg (show (v.name, v.rv) ∉ t.seen from hk)]
  unfold Visit.steps at h ⊢
  cases ha : v.answer with
  | none => rw [ha] at h; exact absurd rfl h
  | some l =>
    rw [ha] at h
    cases l with
    | nil => exact absurd rfl h
    | cons p l => rfl

theorem run_samplers : ∀ (h : List (Visit α σ)) (t : Tracker α σ) (rv : α),
    ((run t h).samplers.get? rv).getD [] = (t.samplers.get? rv).getD [] ++
      ((firsts h).filter fun v => decide (v.key ∉ t.seen)).flatMap (stepsFor rv)
  | [], t, rv => by simp [run, firsts]
  | v :: h, t, rv => by
    change ((run (visit t v) h).samplers.get? rv).getD [] = _
    by_cases hn : v.steps = []
    · rw [visit_of_nil hn, run_samplers h t rv, show firsts (v :: h) = firsts h from if_pos hn]
    · unfold firsts
      rw [if_neg hn]
      by_cases hk : v.key ∈ t.seen
      · rw [visit_of_seen hk, run_samplers h t rv, List.filter_cons, if_neg (by simpa using hk),
          List.filter_filter]
        congr 2
        apply List.filter_congr
        intro u _
        by_cases hu : u.key ∈ t.seen
        · simp [hu]
        · have : u.key ≠ v.key := fun e => hu (e ▸ hk)
          simp [hu, this]
      · rw [run_samplers h _ rv, visit_of_new hk hn, get?_foldl_record, List.filter_cons,
          if_pos (by simpa using hk), List.flatMap_cons, List.filter_filter, List.append_assoc]
        have : (firsts h).filter (fun u => decide (u.key ∉ v.key :: t.seen)) =
            (firsts h).filter fun u => decide (u.key ∉ t.seen) && decide (u.key ≠ v.key) := by
          apply List.filter_congr
          intro u _
          by_cases h1 : u.key = v.key <;> by_cases h2 : u.key ∈ t.seen <;> simp [h1, h2]
        rw [this]
        rfl

theorem firsts_sublist : ∀ h : List (Visit α σ), (firsts h).Sublist h
  | [] => .slnil
  | v :: h => by
    unfold firsts
    split_ifs
    · exact (firsts_sublist h).cons v
    · exact (List.filter_sublist.trans (firsts_sublist h)).cons_cons v

theorem mem_firsts_key : ∀ {h : List (Visit α σ)} {v : Visit α σ}, v ∈ h → v.steps ≠ [] →
    ∃ u ∈ firsts h, u.key = v.key
  | w :: h, v, hv, hne => by
    unfold firsts
    split_ifs with hw
    · rcases List.mem_cons.1 hv with rfl | hv
      · exact absurd hw hne
      · exact mem_firsts_key hv hne
    · rcases List.mem_cons.1 hv with rfl | hv
      · exact ⟨v, by simp, rfl⟩
      · by_cases e : v.key = w.key
        · exact ⟨w, by simp, e.symm⟩
        · obtain ⟨u, hu, hk⟩ := mem_firsts_key hv hne
          exact ⟨u, List.mem_cons_of_mem _ (List.mem_filter.2 ⟨hu, by simp [hk, e]⟩), hk⟩

theorem firsts_ne_nil : ∀ {h : List (Visit α σ)} {v : Visit α σ}, v ∈ firsts h → v.steps ≠ []
  | w :: h, v, hv => by
    unfold firsts at hv
    split_ifs at hv with hw
    · exact firsts_ne_nil hv
    · rcases List.mem_cons.1 hv with rfl | hv
      · exact hw
      · exact firsts_ne_nil (List.mem_filter.1 hv).1

theorem firsts_nodup : ∀ h : List (Visit α σ), ((firsts h).map Visit.key).Nodup
  | [] => List.nodup_nil
  | v :: h => by
    unfold firsts
    split_ifs
    · exact firsts_nodup h
    · rw [List.map_cons, List.nodup_cons]
      constructor
      · intro hm
        obtain ⟨u, hu, e⟩ := List.mem_map.1 hm
        simpa [e] using (List.mem_filter.1 hu).2
      · exact (firsts_nodup h).sublist (List.filter_sublist.map _)

/-! ## C04 -/

/-- **C04, what is recorded.** After any history the steps recorded for a variable are those of the
first answering call of each (finder, variable) pair, in the order of the calls. -/
theorem C04_recorded (h : List (Visit α σ)) (rv : α) :
    ((run Tracker.empty h).samplers.get? rv).getD [] = (firsts h).flatMap (stepsFor rv) := by
  rw [run_samplers h Tracker.empty rv]
  have : (firsts h).filter (fun v => decide (v.key ∉ (Tracker.empty : Tracker α σ).seen)) =
      firsts h := by
    rw [List.filter_eq_self]
    intro v _
    simp [Tracker.empty]
  rw [this]
  rfl

/-- The second answer of finder 0 about variable 7 is not recorded. -/
example : ((run Tracker.empty [⟨0, 7, none⟩, ⟨0, 7, some [(5, "a"), (6, "b")]⟩, ⟨1, 8, some [(5, "c")]⟩,
    (⟨0, 7, some [(5, "d")]⟩ : Visit Nat String)]).samplers.get? 5).getD [] = [(0, "a"), (1, "c")] := by
  rw [C04_recorded]; decide

/-- **C04, once.** Each finder contributes at most one answer per variable; only calls of the history
contribute, in order and only with something to record; and every call with an answer is represented
by the first such call. -/
theorem C04_once (h : List (Visit α σ)) :
    ((firsts h).map Visit.key).Nodup ∧ (firsts h).Sublist h ∧ (∀ v ∈ firsts h, v.steps ≠ []) ∧
      ∀ v ∈ h, v.steps ≠ [] → ∃ u ∈ firsts h, u.key = v.key :=
  ⟨firsts_nodup h, firsts_sublist h, fun _ => firsts_ne_nil, fun _ => mem_firsts_key⟩

example (v : Visit Nat String) (h : List (Visit Nat String)) (hv : v.steps ≠ []) :
    ∃ u ∈ firsts (h ++ [v, v]), u.key = v.key :=
  (C04_once (h ++ [v, v])).2.2.2 v (by simp) hv

/-- **C04, which step is taken.** `construct_sampler` takes the last step recorded for the variable,
and takes one whenever one was recorded. -/
theorem C04_pick (h : List (Visit α σ)) (rv : α) :
    pick (run Tracker.empty h) rv = ((firsts h).flatMap (stepsFor rv)).getLast? := by
  rw [← C04_recorded h rv]
  unfold pick
  cases (run Tracker.empty h).samplers.get? rv with
  | none => rfl
  | some l => rfl

/-- The last answer for variable 5 is finder 1's. -/
example : pick (run Tracker.empty [⟨0, 7, some [(5, "a"), (6, "b")]⟩, ⟨1, 8, some [(5, "c")]⟩,
    (⟨0, 7, some [(5, "d")]⟩ : Visit Nat String)]) 5 = some (1, "c") := by
  rw [C04_pick]; decide

/-- Finder 0 answers at the second call on variable 7 and is not asked again; finder 1 answers once;
the last answer for variable 5 is finder 1's. -/
def exHistory : List (Visit Nat String) :=
  [⟨0, 7, none⟩, ⟨0, 7, some [(5, "a"), (6, "b")]⟩, ⟨1, 8, some [(5, "c")]⟩,
    ⟨0, 7, some [(5, "d")]⟩, ⟨1, 8, some []⟩]

example : pick (run Tracker.empty exHistory) 5 = some (1, "c") ∧
    ((run Tracker.empty exHistory).samplers.get? 5).getD [] = [(0, "a"), (1, "c")] ∧
    pick (run Tracker.empty exHistory) 9 = none := by decide

/-! ## The step reaches the result of `construct_sampler` -/

open Verif.Graph in
/-- The dictionary the loop of `construct_sampler` reads, made from the tracker. -/
def toDisc (d : Dict Var (List (Nat × Var × Option (List (Var × Var))))) :
    Dict Var (List StepDesc) :=
  d.map fun p => (p.1, p.2.map fun e => ⟨e.1, e.2.1, e.2.2⟩)

open Verif.Graph

theorem get?_toDisc (d : Dict Var (List (Nat × Var × Option (List (Var × Var))))) (rv : Var) :
    (toDisc d).get? rv = (d.get? rv).map fun l => l.map fun e => ⟨e.1, e.2.1, e.2.2⟩ := by
  induction d with
  | nil => rfl
  | cons p d ih =>
    obtain ⟨a, b⟩ := p
    unfold toDisc at ih ⊢
    rw [List.map_cons]
    unfold Dict.get?
    split_ifs
    · rfl
    · exact ih

theorem loop_pss_some {own : Owner} {obs : Dict Var Var} {disc : Dict Var (List StepDesc)}
    {D : Var → Prop} {ins₀ : Ins} : ∀ (l : List Var) (st : LoopState), l.Nodup → (∀ r ∈ l, D r) →
    (∀ x ∈ l, st.disc.get? x = disc.get? x) → Inv own D ins₀ st → ∀ r ∈ l, ∀ sd,
    chosen disc obs r = some sd → ¬ D sd.step → (loop own obs st l).pss.get? r = some sd.step
  | x :: l, st, hn, hD, hd, hi, r, hr, sd, hc, hnd => by
    rw [List.nodup_cons] at hn
    change (loop own obs (processRV own obs st x) l).pss.get? r = _
    have hd' : ∀ y ∈ l, (processRV own obs st x).disc.get? y = disc.get? y := fun y hy => by
      rw [processRV_disc (by rintro rfl; exact hn.1 hy), hd y (by simp [hy])]
    by_cases hx : r = x
    · subst hx
      have keep : ∀ (l : List Var) (st : LoopState), r ∉ l →
          (loop own obs st l).pss.get? r = st.pss.get? r := by
        intro l
        induction l with
        | nil => intro st _; rfl
        | cons y l ih =>
          intro st hy
          change (loop own obs (processRV own obs st y) l).pss.get? r = _
          rw [ih _ (fun h => hy (by simp [h]))]
          cases hcy : chosen st.disc obs y with
          | none =>
            rw [processRV_none hcy]
            split_ifs <;> rfl
          | some sd' =>
            rw [(processRV_some (own := own) hcy).2.1, Dict.get?_set, if_neg]
            rintro rfl
            exact hy (by simp)
      rw [keep l _ hn.1]
      have hcr : chosen st.disc obs r = some sd := (chosen_congr (hd r (by simp))).trans hc
      rw [(processRV_some (own := own) hcr).2.1, Dict.get?_set, if_pos rfl,
        outs_replaceAll (s := (st.ins, sd.outs)) hi.pairs]
      exact congrArg some (subAll_of_not_D (fun p hp => (hi.pairs p hp).1) hnd)
    · have hr' : r ∈ l := by
        rcases List.mem_cons.1 hr with h | h
        · exact absurd h hx
        · exact h
      exact loop_pss_some l _ hn.2 (fun y hy => hD y (by simp [hy])) hd'
        (hi.step (hD x (by simp))) r hr' sd hc hnd

/-- **C04, the step used.** For every history of the sampler search, `construct_sampler` returns for
an unobserved variable with recorded steps the last of them (its output is a new variable, not one of
the model's). -/
theorem C04_last_used {own : Owner} {ins : Ins} {outs : List Var} {obs newToOld : Dict Var Var}
    {base : Nat} {order : List Var → List Var} {nuts : Dict Var Var → Dict Var Var → NutsResult}
    {f : Var → Var} (h : List (Visit Var (Var × Option (List (Var × Var)))))
    (hs : Setup own ins outs obs base) (hold : ∀ r ∈ outs, newToOld.get? r = some (f r))
    (hinj : ∀ a ∈ outs, ∀ b ∈ outs, f a = f b → a = b) (horder : ∀ l, (order l).Perm l)
    (hnuts : ∀ a b, (nuts a b).steps.keys = a.keys) :
    ∃ out, constructSampler own ins outs obs newToOld (toDisc (run Tracker.empty h).samplers) base
        order nuts = some out ∧
      ∀ r ∈ outs, r ∉ obs.keys → ∀ name step ups,
        ((firsts h).flatMap (stepsFor r)).getLast? = some (name, step, ups) →
        ¬ ModelVar outs obs step → out.steps.get? (f r) = some step := by
  obtain ⟨pss, upd, out, ha, hpk, hout, hsteps, -, -, -⟩ :=
    constructSampler_eq (disc := toDisc (run Tracker.empty h).samplers) hs hold hinj horder hnuts
  refine ⟨out, hout, fun r hr hro name step ups hl hnm => ?_⟩
  have hch : chosen (toDisc (run Tracker.empty h).samplers) obs r = some ⟨name, step, ups⟩ := by
    rw [← C04_pick] at hl
    unfold pick at hl
    unfold chosen
    rw [if_neg hro, get?_toDisc]
    cases hg : (run Tracker.empty h).samplers.get? r with
    | none => rw [hg] at hl; cases hl
    | some l =>
      rw [hg, Option.bind_some] at hl
      rw [Option.map_some, Option.bind_some, List.getLast?_map, hl]
      rfl
  have hp := loop_pss_some (own := own) (disc := toDisc (run Tracker.empty h).samplers) outs
    (initState ins outs obs (toDisc (run Tracker.empty h).samplers) base) hs.outs_nodup
    (fun r hr => Or.inl hr) (fun _ _ => rfl) (inv_init _ hs) r hr _ hch hnm
  have hu : r ∈ unobs outs obs := mem_unobs.2 ⟨hr, hro⟩
  have hrest := loop_rest (own := own) (obs := obs) outs (initState ins outs obs
    (toDisc (run Tracker.empty h).samplers) base) _ hs.outs_nodup (fun _ _ => rfl)
    (by simp [initState])
  have hkeys := final_keys (toDisc (run Tracker.empty h).samplers) hs
  generalize loop own obs (initState ins outs obs (toDisc (run Tracker.empty h).samplers) base) outs
    = st at ha hp hrest hkeys
  have hpv : pss.get? r = some step := by
    unfold afterNuts at ha
    split_ifs at ha with he
    · cases ha
      exact hp
    · obtain ⟨a, ha1, ha2⟩ := Option.map_eq_some_iff.1 ha
      cases ha2
      rw [Dict.get?_update_of_not_mem, hp]
      have hrn : st.rest.Nodup := by
        rw [hrest]
        exact hs.outs_nodup.filter _
      have hmr : ∀ x, x ∈ st.rest ↔ x ∈ outs ∧ x ∉ obs.keys ∧
          chosen (toDisc (run Tracker.empty h).samplers) obs x = none := by
        intro x
        rw [hrest, List.mem_append, List.mem_filter, decide_eq_true_iff]
        exact ⟨fun hx => hx.resolve_left (by simp [initState]), Or.inr⟩
      obtain ⟨ts, re, he', htk, -, -⟩ := nutsArgs_eq (hkeys ▸ keys_nodup hs)
        ((horder st.rest).nodup_iff.2 hrn) (by
          intro x hx
          have := (hmr x).1 ((horder _).mem_iff.1 hx)
          rw [hkeys]
          exact List.mem_append_left _ (mem_unobs.2 ⟨this.1, this.2.1⟩))
      rw [he'] at ha1
      cases ha1
      have := hnuts ts re
      rw [Dict.keys] at this
      rw [this, htk, (horder _).mem_iff, hmr]
      rintro ⟨-, -, hcn⟩
      rw [hcn] at hch
      cases hch
  have hk : r ∈ Dict.keys (pss.filter fun p => !obs.has p.1) := by
    rw [Dict.keys, filter_keys hpk]
    exact hu
  rw [hsteps, get?_map_key _ hk, get?_filter (q := fun k => !obs.has k) (by simp [Dict.has, hro]),
    hpv]
  intro a ha b hb e
  rw [Dict.keys, filter_keys hpk] at ha hb
  exact hinj a (mem_unobs.1 ha).1 b (mem_unobs.1 hb).1 e

/-- On the model `ownA`, with two finders recording a step for variable 1: the later one is used. -/
example : ∃ out, constructSampler ownA insA [0, 1, 2] obsA n2oA
    (toDisc (run Tracker.empty [⟨0, 1, some [(0, 4, none), (1, 4, none)]⟩,
      ⟨1, 2, some [(1, 5, none)]⟩]).samplers) 7 id nutsT = some out ∧
    out.steps.get? 21 = some 5 := by
  obtain ⟨out, h1, h2⟩ := C04_last_used (order := id) (f := fun r => 20 + r)
    [⟨0, 1, some [(0, 4, none), (1, 4, none)]⟩, ⟨1, 2, some [(1, 5, none)]⟩] setupA oldA injA idOrder
    nutsT_keys
  exact ⟨out, h1, h2 1 (by decide) (by decide) 1 5 none (by decide) (not_modelVar3 5 (by decide))⟩

end Verif.Track
