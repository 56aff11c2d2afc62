import Verif.Graph.Eval

/-!
# Lemmas about the dictionaries `construct_sampler` returns
-/

namespace Verif.Graph

open Verif.Py

theorem mapM_eq_some {α β : Type} {f : α → Option β} {g : α → β} : ∀ {l : List α},
    (∀ x ∈ l, f x = some (g x)) → l.mapM f = some (l.map g)
  | [], _ => rfl
  | a :: l, h => by
    rw [List.mapM_cons, h a (by simp), mapM_eq_some fun x hx => h x (by simp [hx])]
    rfl

section
variable {own : Owner} {obs : Dict Var Var} {outs : List Var} {base : Nat} {ins₀ : Ins}

/-- The unobserved outputs, in order. -/
def unobs (outs : List Var) (obs : Dict Var Var) : List Var := outs.filter fun rv => !obs.has rv

theorem mem_unobs {r : Var} : r ∈ unobs outs obs ↔ r ∈ outs ∧ r ∉ obs.keys := by
  simp [unobs, Dict.has]

theorem initState_pss (disc : Dict Var (List StepDesc)) (hs : Setup own ins₀ outs obs base) :
    (initState ins₀ outs obs disc base).pss = initVals base (unobs outs obs) ++ obs := by
  change Dict.update (initVals base (unobs outs obs)) obs = _
  rw [Dict.update_nil_of_nodup]
  rw [List.map_append]
  change ((initVals base (unobs outs obs)).keys ++ obs.keys).Nodup
  rw [initVals_keys (rvs := unobs outs obs) (hs.outs_nodup.filter _), List.nodup_append]
  refine ⟨hs.outs_nodup.filter _, hs.obs_nodup, ?_⟩
  rintro a ha b hb rfl
  exact (mem_unobs.1 ha).2 hb

/-- The keys of the working dictionary: the unobserved outputs in order, then the observed ones. -/
theorem final_keys (disc : Dict Var (List StepDesc)) (hs : Setup own ins₀ outs obs base) :
    (loop own obs (initState ins₀ outs obs disc base) outs).pss.keys =
      unobs outs obs ++ obs.keys := by
  rw [loop_keys]
  · rw [initState_pss disc hs]
    simp only [Dict.keys, List.map_append]
    congr 1
    exact initVals_keys (hs.outs_nodup.filter _)
  · intro r hr
    exact (initState_keys disc hs r).2 (Or.inl hr)

theorem keys_nodup (hs : Setup own ins₀ outs obs base) : (unobs outs obs ++ obs.keys).Nodup := by
  rw [List.nodup_append]
  refine ⟨hs.outs_nodup.filter _, hs.obs_nodup, ?_⟩
  rintro a ha b hb rfl
  exact (mem_unobs.1 ha).2 hb

theorem keys_update_of_subset {α β : Type} [DecidableEq α] (d : Dict α β) : ∀ (e : List (α × β)),
    (∀ p ∈ e, p.1 ∈ d.keys) → (d.update e).keys = d.keys := by
  intro e
  induction e generalizing d with
  | nil => intro _; rfl
  | cons p e ih =>
    intro h
    obtain ⟨k, v⟩ := p
    unfold Dict.update
    have h1 := Dict.keys_set_of_mem d k v (h (k, v) (by simp))
    rw [ih, h1]
    intro q hq
    rw [h1]
    exact h q (by simp [hq])

/-- Filtering the observed keys out of a dictionary with the final keys. -/
theorem filter_keys {d : Dict Var Var} (h : d.keys = unobs outs obs ++ obs.keys) :
    (d.filter fun p => !obs.has p.1).map Prod.fst = unobs outs obs := by
  have : (d.filter fun p => !obs.has p.1).map Prod.fst =
      (d.keys).filter fun k => !obs.has k := by
    rw [Dict.keys, List.filter_map]
    rfl
  rw [this, h, List.filter_append]
  have h1 : (unobs outs obs).filter (fun k => !obs.has k) = unobs outs obs := by
    unfold unobs
    rw [List.filter_filter]
    simp
  have h2 : obs.keys.filter (fun k => !obs.has k) = [] := by
    rw [List.filter_eq_nil_iff]
    intro a ha
    simp [Dict.has, ha]
  rw [h1, h2, List.append_nil]

theorem get?_filter {d : Dict Var Var} {q : Var → Bool} {k : Var} (h : q k = true) :
    Dict.get? (d.filter fun p => q p.1) k = d.get? k := by
  induction d with
  | nil => rfl
  | cons p d ih =>
    obtain ⟨a, b⟩ := p
    rw [List.filter_cons]
    by_cases ha : q a = true
    · rw [if_pos ha]
      unfold Dict.get?
      rw [ih]
    · rw [if_neg ha, ih]
      conv_rhs => unfold Dict.get?
      rw [if_neg]
      rintro rfl
      exact ha h

theorem get?_map_key {d : Dict Var Var} {f : Var → Var} (hinj : ∀ a ∈ d.keys, ∀ b, b ∈ d.keys →
    f a = f b → a = b) {k : Var} (hk : k ∈ d.keys) :
    Dict.get? (d.map fun p => (f p.1, p.2)) (f k) = d.get? k := by
  induction d with
  | nil => simp at hk
  | cons p d ih =>
    obtain ⟨a, b⟩ := p
    rw [List.map_cons]
    unfold Dict.get?
    by_cases ha : a = k
    · subst ha
      simp
    · have : f a ≠ f k := fun e => ha (hinj a (by simp) k hk e)
      simp only [if_neg this, if_neg ha]
      apply ih
      · exact fun x hx y hy => hinj x (by simp at hx ⊢; exact Or.inr hx) y
          (by simp at hy ⊢; exact Or.inr hy)
      · simpa [Ne.symm ha] using hk

/-- What the calls to NUTS contribute. -/
theorem nutsArgs_eq {pss : Dict Var Var} (hk : pss.keys.Nodup) {l : List Var} (hl : l.Nodup)
    (hsub : ∀ r ∈ l, r ∈ pss.keys) :
    ∃ toSample realized, nutsArgs pss l = some (toSample, realized) ∧ toSample.keys = l ∧
      (∀ r ∈ l, toSample.get? r = pss.get? r) ∧
      realized = pss.filter fun p => decide (p.1 ∉ l) := by
  have hg : ∀ r ∈ l, (pss.get? r).map (fun v => (r, v)) = some (r, (pss.get? r).getD 0) := by
    intro r hr
    obtain ⟨v, hv⟩ := (Dict.get?_isSome_iff pss r).2 (hsub r hr)
    simp [hv]
  have hkeys : (l.map fun r => (r, (pss.get? r).getD 0)).map Prod.fst = l := by
    simp [List.map_map, Function.comp_def]
  have hts : Dict.update [] (l.map fun r => (r, (pss.get? r).getD 0)) =
      l.map fun r => (r, (pss.get? r).getD 0) := by
    rw [Dict.update_nil_of_nodup]
    · rfl
    · rw [List.nil_append, hkeys]
      exact hl
  refine ⟨l.map fun r => (r, (pss.get? r).getD 0), _, ?_, hkeys, ?_, rfl⟩
  · unfold nutsArgs
    rw [mapM_eq_some hg]
    simp only [Option.bind_eq_bind, Option.bind_some, hts]
    have hh : ∀ k, Dict.has (l.map fun r => (r, (pss.get? r).getD 0)) k = decide (k ∈ l) := by
      intro k
      unfold Dict.has Dict.keys
      rw [hkeys]
    have hf : (pss.filter fun p => !Dict.has (l.map fun r => (r, (pss.get? r).getD 0)) p.1) =
        pss.filter fun p => decide (p.1 ∉ l) := by
      congr 1
      funext p
      rw [hh]
      simp
    rw [hf, Dict.update_nil_of_nodup]
    · rfl
    · rw [List.nil_append]
      have : (pss.filter fun p => decide (p.1 ∉ l)).map Prod.fst =
          pss.keys.filter fun k => decide (k ∉ l) := by
        rw [Dict.keys, List.filter_map]
        rfl
      rw [this]
      exact hk.filter _
  · intro r hr
    obtain ⟨v, hv⟩ := (Dict.get?_isSome_iff pss r).2 (hsub r hr)
    rw [hv]
    apply Dict.get?_of_mem
    · rw [Dict.keys, hkeys]
      exact hl
    · exact List.mem_map.2 ⟨r, hr, by simp [hv]⟩

/-- `construct_sampler` returns, and its dictionaries are the working dictionaries with their keys
translated. -/
theorem constructSampler_eq {disc : Dict Var (List StepDesc)} {order : List Var → List Var}
    {nuts : Dict Var Var → Dict Var Var → NutsResult} {newToOld : Dict Var Var} {f : Var → Var}
    (hs : Setup own ins₀ outs obs base) (hold : ∀ r ∈ outs, newToOld.get? r = some (f r))
    (hinj : ∀ a ∈ outs, ∀ b ∈ outs, f a = f b → a = b)
    (horder : ∀ l, (order l).Perm l) (hnuts : ∀ a b, (nuts a b).steps.keys = a.keys) :
    ∃ pss upd out,
      afterNuts (loop own obs (initState ins₀ outs obs disc base) outs) order nuts =
        some (pss, upd) ∧
      pss.keys = unobs outs obs ++ obs.keys ∧
      constructSampler own ins₀ outs obs newToOld disc base order nuts = some out ∧
      out.steps = (pss.filter fun p => !obs.has p.1).map (fun p => (f p.1, p.2)) ∧
      out.inits = (initVals base (unobs outs obs)).map (fun p => (f p.1, p.2)) ∧
      out.updates = upd ∧
      out.ins = (loop own obs (initState ins₀ outs obs disc base) outs).ins := by
  generalize hst : loop own obs (initState ins₀ outs obs disc base) outs = st
  have hkeys : st.pss.keys = unobs outs obs ++ obs.keys := hst ▸ final_keys disc hs
  have hkn : st.pss.keys.Nodup := hkeys ▸ keys_nodup hs
  have hrest : st.rest = outs.filter fun r => decide (r ∉ obs.keys ∧ chosen disc obs r = none) := by
    rw [← hst, loop_rest outs _ disc hs.outs_nodup (fun _ _ => rfl) (by simp [initState])]
    rfl
  have hrn : st.rest.Nodup := hrest ▸ hs.outs_nodup.filter _
  have hrs : ∀ r ∈ st.rest, r ∈ st.pss.keys := by
    intro r hr
    rw [hrest, List.mem_filter] at hr
    rw [hkeys]
    simp only [decide_eq_true_eq] at hr
    exact List.mem_append_left _ (mem_unobs.2 ⟨hr.1, hr.2.1⟩)
  have hafter : ∃ pss upd, afterNuts st order nuts = some (pss, upd) ∧
      pss.keys = unobs outs obs ++ obs.keys := by
    unfold afterNuts
    split_ifs with hr
    · exact ⟨_, _, rfl, hkeys⟩
    · obtain ⟨ts, re, he, htk, -, -⟩ := nutsArgs_eq hkn ((horder _).nodup_iff.2 hrn)
        (fun r hr' => hrs r ((horder _).mem_iff.1 hr'))
      refine ⟨_, _, by rw [he]; rfl, ?_⟩
      rw [keys_update_of_subset, hkeys]
      intro p hp
      have : p.1 ∈ (nuts ts re).steps.keys := List.mem_map.2 ⟨p, hp, rfl⟩
      rw [hnuts, htk] at this
      exact hrs _ ((horder _).mem_iff.1 this)
  obtain ⟨pss, upd, ha, hpk⟩ := hafter
  have hsteps : ((pss.filter fun p => !obs.has p.1).mapM fun p =>
      (newToOld.get? p.1).map fun old => (old, p.2)) =
      some ((pss.filter fun p => !obs.has p.1).map fun p => (f p.1, p.2)) := by
    apply mapM_eq_some
    intro p hp
    have : p.1 ∈ unobs outs obs := by
      rw [← filter_keys hpk]
      exact List.mem_map.2 ⟨p, hp, rfl⟩
    rw [hold _ (mem_unobs.1 this).1]
    rfl
  have hinits : ((initVals base (unobs outs obs)).mapM fun p =>
      (newToOld.get? p.1).map fun old => (old, p.2)) =
      some ((initVals base (unobs outs obs)).map fun p => (f p.1, p.2)) := by
    apply mapM_eq_some
    intro p hp
    rw [hold _ (mem_unobs.1 (initVals_mem hp).1).1]
    rfl
  have hnd : ∀ d : Dict Var Var, d.keys = unobs outs obs →
      Dict.update [] (d.map fun p => (f p.1, p.2)) = d.map fun p => (f p.1, p.2) := by
    intro d hd
    rw [Dict.update_nil_of_nodup]
    · rfl
    · rw [List.nil_append, List.map_map]
      have : (d.map (Prod.fst ∘ fun p => (f p.1, p.2))) = d.keys.map f := by
        rw [Dict.keys, List.map_map]
        rfl
      rw [this, hd]
      refine List.Nodup.map_on ?_ (hs.outs_nodup.filter _)
      intro a ha b hb e
      exact hinj a (mem_unobs.1 ha).1 b (mem_unobs.1 hb).1 e
  refine ⟨pss, upd, ⟨(pss.filter fun p => !obs.has p.1).map fun p => (f p.1, p.2), upd,
    (initVals base (unobs outs obs)).map fun p => (f p.1, p.2), st.ins⟩, ha, hpk, ?_, rfl, rfl, rfl,
    rfl⟩
  unfold constructSampler
  simp only [hst, ha, Option.bind_eq_bind, Option.bind_some]
  have hinits' := hinits
  conv at hinits' => lhs; unfold unobs
  rw [hsteps, hinits']
  simp only [Option.bind_some]
  rw [hnd _ (filter_keys hpk), hnd _ (initVals_keys (hs.outs_nodup.filter _))]
  rfl

/-- The nodes changed by the loop. -/
theorem loop_changed {D : Var → Prop} {disc : Dict Var (List StepDesc)} :
    ∀ (l : List Var) (st : LoopState) (sds : List StepDesc), l.Nodup → (∀ r ∈ l, D r) →
    (∀ r ∈ l, st.disc.get? r = disc.get? r) → Inv own D ins₀ st → Changed own D ins₀ sds st.ins →
    Changed own D ins₀ (sds ++ l.filterMap (chosen disc obs)) (loop own obs st l).ins
  | [], st, sds, _, _, _, _, h => by simpa [loop] using h
  | r :: l, st, sds, hn, hD, hd, hi, h => by
    rw [List.nodup_cons] at hn
    change Changed _ _ _ _ (loop own obs (processRV own obs st r) l).ins
    have hd' : ∀ x ∈ l, (processRV own obs st r).disc.get? x = disc.get? x := fun x hx => by
      rw [processRV_disc (by rintro rfl; exact hn.1 hx), hd x (by simp [hx])]
    have hcr : chosen st.disc obs r = chosen disc obs r := chosen_congr (hd r (by simp))
    have hi' : Inv own D ins₀ (processRV own obs st r) := hi.step (hD r (by simp))
    cases hc : chosen disc obs r with
    | none =>
      have hsame : (processRV own obs st r).ins = st.ins := by
        rw [processRV_none (hcr.trans hc)]
        split_ifs <;> rfl
      rw [List.filterMap_cons_none hc]
      exact loop_changed l _ sds hn.2 (fun x hx => hD x (by simp [hx])) hd' hi' (hsame ▸ h)
    | some sd =>
      obtain ⟨h1, -, -, -⟩ := processRV_some (own := own) (hcr.trans hc)
      rw [List.filterMap_cons_some hc]
      have := loop_changed l _ (sds ++ [sd]) hn.2 (fun x hx => hD x (by simp [hx])) hd' hi'
        (h1 ▸ hi.changed_step h sd)
      simpa using this

theorem final_changed (disc : Dict Var (List StepDesc)) (hs : Setup own ins₀ outs obs base) :
    Changed own (ModelVar outs obs) ins₀ (outs.filterMap (chosen disc obs))
      (loop own obs (initState ins₀ outs obs disc base) outs).ins := by
  have := loop_changed (own := own) (obs := obs) (D := ModelVar outs obs) (disc := disc) outs
    (initState ins₀ outs obs disc base) [] hs.outs_nodup (fun r hr => Or.inl hr) (fun _ _ => rfl)
    (inv_init disc hs) (fun n hn => absurd rfl hn)
  simpa using this

/-- A node that reads no model variable any more keeps its inputs. -/
theorem loop_frame {D : Var → Prop} : ∀ (l : List Var) (st : LoopState), Inv own D ins₀ st →
    (∀ r ∈ l, D r) → ∀ n, (∀ w ∈ st.ins n, ¬ D w) → (loop own obs st l).ins n = st.ins n
  | [], _, _, _, _, _ => rfl
  | r :: l, st, hi, hD, n, hn => by
    change (loop own obs (processRV own obs st r) l).ins n = _
    have h1 : (processRV own obs st r).ins n = st.ins n := by
      cases hc : chosen st.disc obs r with
      | none =>
        rw [processRV_none hc]
        split_ifs <;> rfl
      | some sd =>
        rw [(processRV_some (own := own) hc).1]
        exact hi.replaceAll_frame _ n hn
    rw [loop_frame l _ (hi.step (hD r (by simp))) (fun x hx => hD x (by simp [hx])) n
      (by rw [h1]; exact hn), h1]

theorem replace_mem {s : Ins × List Var} {r v w : Var} {n : Node} (h : w ∈ s.1 n) (hw : w ≠ r) :
    w ∈ (replace own s r v).1 n := by
  unfold replace
  dsimp only
  split_ifs
  · exact List.mem_map.2 ⟨w, h, by simp [sub, hw]⟩
  · exact h

end

end Verif.Graph
