import Verif.Graph.Compute

/-!
# Properties of `construct_sampler` (C01, C02, C03, C06, C07, C08)

The examples and counterexamples run the model on small heaps with `Verif/Graph/Compute.lean`.
-/

namespace Verif.Graph

open Verif.Py

/-! ## C01 -/

theorem zip_facts {α β : Type} [DecidableEq α] {a : List α} {b : List β} {m : β → Option α}
    (h : a.map some = b.map m) (ha : a.Nodup) :
    (∀ x ∈ a, ∃ y ∈ b, m y = some x ∧ Dict.get? (Dict.update [] (a.zip b)) x = some y) ∧
    (∀ y ∈ b, ∃ x ∈ a, m y = some x) := by
  have hlen : a.length = b.length := by
    have := congrArg List.length h
    simpa using this
  have hi : ∀ i (h1 : i < a.length) (h2 : i < b.length), m b[i] = some a[i] := by
    intro i h1 h2
    have := congrArg (fun l => l[i]?) h
    simp only [List.getElem?_map, List.getElem?_eq_getElem h1, List.getElem?_eq_getElem h2,
      Option.map_some, Option.some.injEq] at this
    exact this.symm
  have hk : (a.zip b).map Prod.fst = a := by
    rw [List.map_fst_zip]
    omega
  constructor
  · intro x hx
    obtain ⟨i, h1, rfl⟩ := List.getElem_of_mem hx
    have h2 : i < b.length := by omega
    refine ⟨b[i], List.getElem_mem h2, hi i h1 h2, ?_⟩
    apply Dict.get?_update_of_mem
    · rw [hk]
      exact ha
    · rw [List.mem_iff_getElem]
      exact ⟨i, by rw [List.length_zip]; omega, by simp⟩
  · intro y hy
    obtain ⟨i, h2, rfl⟩ := List.getElem_of_mem hy
    have h1 : i < a.length := by omega
    exact ⟨a[i], List.getElem_mem h1, hi i h1 h2⟩

theorem initVals_values_nodup {base : Nat} {rvs : List Var} (h : rvs.Nodup) :
    ((initVals base rvs).map Prod.snd).Nodup := by
  rw [initVals_eq h, List.map_map]
  have : (rvs.zipIdx.map (Prod.snd ∘ fun p : Var × Nat => (p.1, base + p.2))) =
      (List.range rvs.length).map (base + ·) := by
    have h2 : rvs.zipIdx.map (Prod.snd ∘ fun p : Var × Nat => (p.1, base + p.2)) =
        (rvs.zipIdx.map Prod.snd).map (base + ·) := by
      rw [List.map_map]
      rfl
    rw [h2, List.zipIdx_map_snd, List.range_eq_range']
  rw [this]
  exact List.Nodup.map (fun a b e => by simpa using e) List.nodup_range

/-- **C01.** `construct_sampler` returns; its steps have exactly one entry for each random variable
the observed variables depend on that is not observed, and so have its initial values, which are
distinct new variables.

`topo` is what `io_toposort` returns (the nodes the observed variables depend on); `memo` maps user
variables to their clones; the rewrites leave the random variables' outputs in place (`houts`); the
set of remaining variables is iterated in any order; NUTS returns an entry per variable it is given
(see C50). -/
theorem C01_cover {ownU own : Owner} {insU ins : Ins} {topo : List Node}
    {rvOut : Node → Option Var} {memo : Var → Option Var} {outs : List Var} {obs : Dict Var Var}
    {disc : Dict Var (List StepDesc)} {base : Nat} {order : List Var → List Var}
    {nuts : Dict Var Var → Dict Var Var → NutsResult}
    (htopo : topo.Nodup) (htopo' : ∀ n, n ∈ topo ↔ NodeIn ownU insU obs.keys n)
    (hrv : ∀ n r, rvOut n = some r → ownU r = some (n, 1))
    (hmemo : ∀ a b c, memo a = some c → memo b = some c → a = b)
    (hmemo' : ∀ k ∈ obs.keys, memo k = none → ∀ b, memo b ≠ some k)
    (houts : outs.map some = (rvOutputs topo rvOut).map memo)
    (hown : ∀ i, own (base + i) = none)
    (hfresh : ∀ i, ¬ ModelVar outs (constructIr topo rvOut memo outs obs).1 (base + i))
    (hclosed : ∀ p ∈ (constructIr topo rvOut memo outs obs).1,
      Closed own (ModelVar outs (constructIr topo rvOut memo outs obs).1) ins p.2)
    (hbase : ∀ n, ∀ w ∈ ins n, w < base)
    (horder : ∀ l, (order l).Perm l) (hnuts : ∀ a b, (nuts a b).steps.keys = a.keys) :
    ∃ out, constructSampler own ins outs (constructIr topo rvOut memo outs obs).1
        (constructIr topo rvOut memo outs obs).2 disc base order nuts = some out ∧
      out.steps.keys.Nodup ∧
      (∀ r, r ∈ out.steps.keys ↔
        (∃ n, rvOut n = some r ∧ NodeIn ownU insU obs.keys n) ∧ r ∉ obs.keys) ∧
      out.inits.keys = out.steps.keys ∧ (out.inits.map Prod.snd).Nodup ∧
      ∀ p ∈ out.inits, own p.2 = none ∧ (∀ n, p.2 ∉ ins n) ∧
        ¬ ModelVar outs (constructIr topo rvOut memo outs obs).1 p.2 := by
  have hn2o : (constructIr topo rvOut memo outs obs).2 =
      Dict.update [] (outs.zip (rvOutputs topo rvOut)) := by
    unfold constructIr
    dsimp only
    congr 1
    exact List.map_id _
  have hrvn : (rvOutputs topo rvOut).Nodup := by
    refine List.Nodup.filterMap ?_ htopo
    intro a b c ha hb
    have h1 := hrv _ _ ha
    have h2 := hrv _ _ hb
    rw [h1] at h2
    simpa using h2
  have hon : outs.Nodup := by
    have h1 : ((rvOutputs topo rvOut).map memo).Nodup := by
      refine List.Nodup.map_on ?_ hrvn
      intro a ha b hb e
      have : memo a ∈ (rvOutputs topo rvOut).map memo := List.mem_map.2 ⟨a, ha, rfl⟩
      rw [← houts] at this
      obtain ⟨c, -, hc⟩ := List.mem_map.1 this
      exact hmemo a b c hc.symm (e ▸ hc.symm)
    rw [← houts] at h1
    exact List.Nodup.of_map _ h1
  have hs : Setup own ins outs (constructIr topo rvOut memo outs obs).1 base :=
    ⟨hon, Dict.nodup_update _ _ List.nodup_nil, hown, hfresh, hclosed⟩
  obtain ⟨hz1, hz2⟩ := zip_facts houts hs.outs_nodup
  let f : Var → Var := fun r => ((constructIr topo rvOut memo outs obs).2.get? r).getD 0
  have hf : ∀ x ∈ outs, ∃ y ∈ rvOutputs topo rvOut, memo y = some x ∧
      (constructIr topo rvOut memo outs obs).2.get? x = some y ∧ f x = y := by
    intro x hx
    obtain ⟨y, hy, hm, hg⟩ := hz1 x hx
    rw [← hn2o] at hg
    exact ⟨y, hy, hm, hg, by simp [f, hg]⟩
  have hold : ∀ r ∈ outs, (constructIr topo rvOut memo outs obs).2.get? r = some (f r) := by
    intro r hr
    obtain ⟨y, -, -, hg, e⟩ := hf r hr
    rw [e]
    exact hg
  have hinj : ∀ a ∈ outs, ∀ b ∈ outs, f a = f b → a = b := by
    intro a ha b hb e
    obtain ⟨y, -, hm, -, e1⟩ := hf a ha
    obtain ⟨y', -, hm', -, e2⟩ := hf b hb
    rw [e1, e2] at e
    subst e
    rw [hm] at hm'
    exact Option.some.inj hm'
  obtain ⟨pss, upd, out, -, hpk, hout, hsteps, hinits, -, -⟩ :=
    constructSampler_eq (disc := disc) hs hold hinj horder hnuts
  have hsk : out.steps.keys = (unobs outs (constructIr topo rvOut memo outs obs).1).map f := by
    rw [hsteps, Dict.keys, List.map_map, ← filter_keys hpk, List.map_map]
    rfl
  have hik : out.inits.keys = (unobs outs (constructIr topo rvOut memo outs obs).1).map f := by
    rw [hinits, Dict.keys, List.map_map]
    have := initVals_keys (base := base)
      (rvs := unobs outs (constructIr topo rvOut memo outs obs).1) (hs.outs_nodup.filter _)
    rw [Dict.keys] at this
    conv_rhs => rw [← this]
    rw [List.map_map]
    rfl
  have hobs' : ∀ x y, memo y = some x →
      (x ∈ (constructIr topo rvOut memo outs obs).1.keys ↔ y ∈ obs.keys) := by
    intro x y hm
    unfold constructIr
    dsimp only
    rw [Dict.mem_keys_update]
    simp only [Dict.keys, List.map_nil, List.not_mem_nil, false_or, List.map_map, List.mem_map,
      Function.comp_apply]
    constructor
    · rintro ⟨p, hp, e⟩
      have hpk : p.1 ∈ obs.keys := List.mem_map.2 ⟨p, hp, rfl⟩
      cases hc : memo p.1 with
      | none =>
        rw [hc, Option.getD_none] at e
        subst e
        exact absurd hm (hmemo' _ hpk hc y)
      | some c =>
        rw [hc, Option.getD_some] at e
        subst e
        exact ⟨p, hp, (hmemo _ _ _ hm hc).symm⟩
    · rintro ⟨p, hp, rfl⟩
      exact ⟨p, hp, by simp [hm]⟩
  refine ⟨out, hout, ?_, ?_, hik.trans hsk.symm, ?_, ?_⟩
  · rw [hsk]
    exact List.Nodup.map_on (fun a ha b hb e => hinj a (mem_unobs.1 ha).1 b (mem_unobs.1 hb).1 e)
      (hs.outs_nodup.filter _)
  · intro r
    rw [hsk, List.mem_map]
    constructor
    · rintro ⟨x, hx, rfl⟩
      obtain ⟨hx1, hx2⟩ := mem_unobs.1 hx
      obtain ⟨y, hy, hm, -, e⟩ := hf x hx1
      rw [e]
      obtain ⟨n, hn, hrn⟩ := List.mem_filterMap.1 hy
      exact ⟨⟨n, hrn, (htopo' n).1 hn⟩, fun hyo => hx2 ((hobs' x y hm).2 hyo)⟩
    · rintro ⟨⟨n, hrn, hn⟩, hro⟩
      have hy : r ∈ rvOutputs topo rvOut := List.mem_filterMap.2 ⟨n, (htopo' n).2 hn, hrn⟩
      obtain ⟨x, hx, hm⟩ := hz2 r hy
      obtain ⟨y', -, hm', -, e⟩ := hf x hx
      refine ⟨x, mem_unobs.2 ⟨hx, fun hxo => hro ((hobs' x r hm).1 hxo)⟩, ?_⟩
      rw [e]
      exact hmemo _ _ _ hm' hm
  · rw [hinits, List.map_map]
    exact initVals_values_nodup (hs.outs_nodup.filter _)
  · intro p hp
    rw [hinits, List.mem_map] at hp
    obtain ⟨q, hq, rfl⟩ := hp
    obtain ⟨-, i, e⟩ := initVals_mem hq
    dsimp only
    rw [e]
    refine ⟨hs.init_own i, fun n hm => ?_, hs.init_fresh i⟩
    exact absurd (hbase n _ hm) (Nat.not_lt.2 (Nat.le_add_right base i))

/-! ## C02 and C08 -/

/-- **C02.** Every returned step that does not come from NUTS is closed: no model variable is an
ancestor of it in the final heap.  Whatever the discovered steps are and however they share nodes. -/
theorem C02_steps_closed {own : Owner} {ins : Ins} {outs : List Var} {obs newToOld : Dict Var Var}
    {disc : Dict Var (List StepDesc)} {base : Nat} {order : List Var → List Var}
    {nuts : Dict Var Var → Dict Var Var → NutsResult} {f : Var → Var}
    (hs : Setup own ins outs obs base) (hold : ∀ r ∈ outs, newToOld.get? r = some (f r))
    (hinj : ∀ a ∈ outs, ∀ b ∈ outs, f a = f b → a = b) (horder : ∀ l, (order l).Perm l)
    (hnuts : ∀ a b, (nuts a b).steps.keys = a.keys) :
    ∃ out, constructSampler own ins outs obs newToOld disc base order nuts = some out ∧
      ∀ p ∈ out.steps, (∀ a b, p.2 ∉ (nuts a b).steps.map Prod.snd) →
        ∀ w, Reach own out.ins p.2 w → ¬ ModelVar outs obs w := by
  obtain ⟨pss, upd, out, ha, -, hout, hsteps, -, -, hins⟩ :=
    constructSampler_eq (disc := disc) hs hold hinj horder hnuts
  refine ⟨out, hout, fun p hp hno => ?_⟩
  have hinv := inv_final disc hs
  rw [hsteps, List.mem_map] at hp
  obtain ⟨q, hq, rfl⟩ := hp
  have hq' := (List.mem_filter.1 hq).1
  rw [hins]
  have key : q ∈ (loop own obs (initState ins outs obs disc base) outs).pss := by
    unfold afterNuts at ha
    split_ifs at ha with hr
    · cases ha
      exact hq'
    · obtain ⟨a, ha1, ha2⟩ := Option.map_eq_some_iff.1 ha
      cases ha2
      rcases Dict.mem_update _ _ _ hq' with h | h
      · exact h
      · exact absurd (List.mem_map.2 ⟨q, h, rfl⟩) (hno _ _)
  exact (hinv.closed q key).2

/-- **C08.** Nodes all of whose inputs are the user's variables, in particular every node of the
graph passed in, have the same inputs after `construct_sampler`, given that the model variables the
construction works on are clones (`hclone`). -/
theorem C08_user_graph_unchanged {own : Owner} {ins : Ins} {outs : List Var}
    {obs newToOld : Dict Var Var} {disc : Dict Var (List StepDesc)} {base : Nat}
    {order : List Var → List Var} {nuts : Dict Var Var → Dict Var Var → NutsResult} {f : Var → Var}
    {user : Var → Prop}
    (hs : Setup own ins outs obs base) (hold : ∀ r ∈ outs, newToOld.get? r = some (f r))
    (hinj : ∀ a ∈ outs, ∀ b ∈ outs, f a = f b → a = b) (horder : ∀ l, (order l).Perm l)
    (hnuts : ∀ a b, (nuts a b).steps.keys = a.keys) (hclone : ∀ r, ModelVar outs obs r → ¬ user r) :
    ∃ out, constructSampler own ins outs obs newToOld disc base order nuts = some out ∧
      ∀ n, (∀ w ∈ ins n, user w) → out.ins n = ins n := by
  obtain ⟨pss, upd, out, -, -, hout, -, -, -, hins⟩ :=
    constructSampler_eq (disc := disc) hs hold hinj horder hnuts
  refine ⟨out, hout, fun n hn => ?_⟩
  rw [hins]
  exact (inv_final disc hs).frame n fun w hw hD => hclone w hD (hn w hw)

/-! ## C06 -/

/-- Spec.  `rv` is unobserved and no sampler was recorded for it. -/
def NoSampler (disc : Dict Var (List StepDesc)) (outs : List Var) (obs : Dict Var Var) (rv : Var) :
    Prop :=
  rv ∈ outs ∧ rv ∉ obs.keys ∧ ∀ steps, disc.get? rv = some steps → steps = []

theorem noSampler_iff {disc : Dict Var (List StepDesc)} {outs : List Var} {obs : Dict Var Var}
    {rv : Var} : NoSampler disc outs obs rv ↔
      rv ∈ outs ∧ rv ∉ obs.keys ∧ chosen disc obs rv = none := by
  unfold NoSampler chosen
  constructor
  · rintro ⟨h1, h2, h3⟩
    refine ⟨h1, h2, ?_⟩
    rw [if_neg h2]
    cases hd : disc.get? rv with
    | none => rfl
    | some steps => rw [h3 steps hd]; rfl
  · rintro ⟨h1, h2, h3⟩
    refine ⟨h1, h2, fun steps hd => ?_⟩
    rw [if_neg h2, hd] at h3
    simpa using h3

/-- The variable keeps its initial value while it is not processed. -/
theorem loop_pss_none {own : Owner} {obs : Dict Var Var} {disc : Dict Var (List StepDesc)} :
    ∀ (l : List Var) (st : LoopState) (r : Var), l.Nodup → (∀ x ∈ l, st.disc.get? x = disc.get? x) →
    (r ∈ l → chosen disc obs r = none) → (loop own obs st l).pss.get? r = st.pss.get? r
  | [], _, _, _, _, _ => rfl
  | x :: l, st, r, hn, hd, hr => by
    rw [List.nodup_cons] at hn
    change (loop own obs (processRV own obs st x) l).pss.get? r = _
    rw [loop_pss_none l _ r hn.2 (fun y hy => by
      rw [processRV_disc (by rintro rfl; exact hn.1 hy), hd y (by simp [hy])])
      (fun h => hr (by simp [h]))]
    have hcx : chosen st.disc obs x = chosen disc obs x := chosen_congr (hd x (by simp))
    cases hc : chosen disc obs x with
    | none =>
      rw [processRV_none (hcx.trans hc)]
      split_ifs <;> rfl
    | some sd =>
      rw [(processRV_some (own := own) (hcx.trans hc)).2.1, Dict.get?_set, if_neg]
      rintro rfl
      rw [hr (by simp)] at hc
      cases hc

/-- **C06.** In whatever order the set of remaining variables is iterated: NUTS is called exactly when
some unobserved variable has no sampler; it is given exactly those variables, each with its own
initial value, and every other variable as realized with its current value; and in the result each
of them is mapped to the entry NUTS returned for it while the others keep their steps. -/
theorem C06_nuts {own : Owner} {ins : Ins} {outs : List Var} {obs newToOld : Dict Var Var}
    {disc : Dict Var (List StepDesc)} {base : Nat} {order : List Var → List Var}
    {nuts : Dict Var Var → Dict Var Var → NutsResult} {f : Var → Var}
    (hs : Setup own ins outs obs base) (hold : ∀ r ∈ outs, newToOld.get? r = some (f r))
    (hinj : ∀ a ∈ outs, ∀ b ∈ outs, f a = f b → a = b) (horder : ∀ l, (order l).Perm l)
    (hnuts : ∀ a b, (nuts a b).steps.keys = a.keys) (hex : ∃ rv, NoSampler disc outs obs rv) :
    ∃ out toSample realized,
      constructSampler own ins outs obs newToOld disc base order nuts = some out ∧
      toSample.keys.Nodup ∧ (∀ r, r ∈ toSample.keys ↔ NoSampler disc outs obs r) ∧
      (∀ r, NoSampler disc outs obs r → toSample.get? r = out.inits.get? (f r)) ∧
      (∀ r, r ∈ realized.keys ↔ ModelVar outs obs r ∧ ¬ NoSampler disc outs obs r) ∧
      (∀ r ∈ outs, r ∉ obs.keys → ¬ NoSampler disc outs obs r →
        realized.get? r = out.steps.get? (f r)) ∧
      (∀ r ∈ obs.keys, realized.get? r = obs.get? r) ∧
      (∀ r, NoSampler disc outs obs r →
        out.steps.get? (f r) = (nuts toSample realized).steps.get? r) := by
  obtain ⟨pss, upd, out, ha, hpk, hout, hsteps, hinits, -, -⟩ :=
    constructSampler_eq (disc := disc) hs hold hinj horder hnuts
  have hrest := loop_rest (own := own) (obs := obs) outs (initState ins outs obs disc base) disc
    hs.outs_nodup (fun _ _ => rfl) (by simp [initState])
  have hpres : ∀ r, chosen disc obs r = none →
      (loop own obs (initState ins outs obs disc base) outs).pss.get? r =
        (initState ins outs obs disc base).pss.get? r := fun r hr =>
    loop_pss_none outs _ r hs.outs_nodup (fun _ _ => rfl) (fun _ => hr)
  have hkeys := final_keys disc hs
  generalize loop own obs (initState ins outs obs disc base) outs = st at ha hrest hpres hkeys
  have hmr : ∀ r, r ∈ st.rest ↔ NoSampler disc outs obs r := by
    intro r
    rw [hrest, noSampler_iff]
    simp [initState]
  have hkn : st.pss.keys.Nodup := hkeys ▸ keys_nodup hs
  have hrn : st.rest.Nodup := by
    rw [hrest]
    exact hs.outs_nodup.filter _
  have hne : st.rest ≠ [] := by
    obtain ⟨rv, h⟩ := hex
    intro e
    have := (hmr rv).2 h
    simp [e] at this
  obtain ⟨ts, re, he, htk, htg, hre⟩ := nutsArgs_eq hkn ((horder st.rest).nodup_iff.2 hrn) (by
    intro r hr
    have := (hmr r).1 ((horder _).mem_iff.1 hr)
    rw [hkeys]
    exact List.mem_append_left _ (mem_unobs.2 ⟨this.1, this.2.1⟩))
  have hps : pss = st.pss.update (nuts ts re).steps := by
    unfold afterNuts at ha
    rw [if_neg hne, he] at ha
    simp only [Option.map_some, Option.some.injEq, Prod.mk.injEq] at ha
    exact ha.1.symm
  have hts : ∀ r, r ∈ ts.keys ↔ NoSampler disc outs obs r := fun r => by
    rw [htk, (horder _).mem_iff, hmr]
  have hstepget : ∀ r ∈ unobs outs obs, out.steps.get? (f r) = pss.get? r := by
    intro r hr
    have hk : r ∈ Dict.keys (pss.filter fun p => !obs.has p.1) := by
      rw [Dict.keys, filter_keys hpk]
      exact hr
    rw [hsteps, get?_map_key _ hk]
    · exact get?_filter (q := fun k => !obs.has k) (by simp [Dict.has, (mem_unobs.1 hr).2])
    · intro a ha b hb e
      rw [Dict.keys, filter_keys hpk] at ha hb
      exact hinj a (mem_unobs.1 ha).1 b (mem_unobs.1 hb).1 e
  have hrek : ∀ r, r ∈ re.keys ↔ ModelVar outs obs r ∧ ¬ NoSampler disc outs obs r := by
    intro r
    have : re.keys = st.pss.keys.filter fun k => decide (k ∉ order st.rest) := by
      rw [hre, Dict.keys, Dict.keys, List.filter_map]
      rfl
    rw [this, List.mem_filter, hkeys, List.mem_append, mem_unobs]
    simp only [decide_eq_true_eq, (horder _).mem_iff, hmr, ModelVar]
    tauto
  have hreg : ∀ r, ¬ NoSampler disc outs obs r → re.get? r = st.pss.get? r := by
    intro r hr
    rw [hre]
    exact get?_filter (q := fun k => decide (k ∉ order st.rest)) (by
      simp only [decide_eq_true_eq, (horder _).mem_iff, hmr]
      exact hr)
  have hivk : (initVals base (unobs outs obs)).keys = unobs outs obs :=
    initVals_keys (hs.outs_nodup.filter _)
  have hnsk : ∀ r, r ∈ (nuts ts re).steps.map Prod.fst ↔ NoSampler disc outs obs r := by
    intro r
    have := hnuts ts re
    rw [Dict.keys] at this
    rw [this]
    exact hts r
  refine ⟨out, ts, re, hout, ?_, hts, ?_, hrek, ?_, ?_, ?_⟩
  · rw [htk]
    exact (horder _).nodup_iff.2 hrn
  · intro r hr
    have hr' := noSampler_iff.1 hr
    have hu : r ∈ unobs outs obs := mem_unobs.2 ⟨hr'.1, hr'.2.1⟩
    rw [htg r (by rw [(horder _).mem_iff, hmr]; exact hr), hpres r hr'.2.2, initState_pss disc hs,
      hinits, get?_map_key]
    · have hk : r ∈ (initVals base (unobs outs obs)).keys := by
        rw [hivk]
        exact hu
      obtain ⟨v, hv⟩ := (Dict.get?_isSome_iff _ r).2 hk
      rw [hv]
      apply Dict.get?_of_mem
      · rw [Dict.keys, List.map_append]
        have := initVals_keys (base := base) (rvs := unobs outs obs) (hs.outs_nodup.filter _)
        rw [Dict.keys] at this
        rw [this]
        exact keys_nodup hs
      · exact List.mem_append_left _ (Dict.mem_of_get? _ _ _ hv)
    · intro a ha b hb e
      rw [hivk] at ha hb
      exact hinj a (mem_unobs.1 ha).1 b (mem_unobs.1 hb).1 e
    · rw [hivk]
      exact hu
  · intro r hr hro hrn'
    rw [hreg r hrn', hstepget r (mem_unobs.2 ⟨hr, hro⟩), hps]
    rw [Dict.get?_update_of_not_mem]
    rw [hnsk]
    exact hrn'
  · intro r hr
    have hrn' : ¬ NoSampler disc outs obs r := fun h => h.2.1 hr
    have hcn : chosen disc obs r = none := by
      unfold chosen
      rw [if_pos hr]
    rw [hreg r hrn', hpres r hcn, initState_pss disc hs]
    obtain ⟨v, hv⟩ := (Dict.get?_isSome_iff obs r).2 hr
    rw [hv]
    apply Dict.get?_of_mem
    · rw [Dict.keys, List.map_append]
      have := initVals_keys (base := base) (rvs := unobs outs obs) (hs.outs_nodup.filter _)
      rw [Dict.keys] at this
      rw [this]
      exact keys_nodup hs
    · exact List.mem_append_right _ (Dict.mem_of_get? _ _ _ hv)
  · intro r hr
    rw [hstepget r (mem_unobs.2 ⟨hr.1, hr.2.1⟩), hps]
    obtain ⟨v, hv⟩ := (Dict.get?_isSome_iff (nuts ts re).steps r).2 ((hnsk r).2 hr)
    rw [hv]
    apply Dict.get?_update_of_mem
    · have := hnuts ts re
      rw [Dict.keys] at this
      rw [this, htk]
      exact (horder _).nodup_iff.2 hrn
    · exact Dict.mem_of_get? _ _ _ hv

/-! ## C03 -/

/-- **C03, with a hypothesis on sharing.** Let `new r` be the values of a Gibbs scan: the step for
`r` evaluated, on the heap as the sampler search left it, with every variable before `r` in scan order
at its new value and every other variable at its current value.  Then evaluating the returned step
graphs on the initial values gives exactly `new`.

Missing from the full claim: `hshare`, that no node which reads a model variable belongs both to the
part of a step's graph in front of the model variables and to the graph of an earlier step.
Without it the claim is false, see `C03_violated`. -/
theorem C03_scan_partial {Val : Type} {own : Owner} {ins : Ins} {outs : List Var}
    {obs newToOld : Dict Var Var} {disc : Dict Var (List StepDesc)} {base : Nat}
    {order : List Var → List Var} {nuts : Dict Var Var → Dict Var Var → NutsResult} {f : Var → Var}
    {sem : Node → Nat → List Val → Val} {given : Var → Option Val} {new cur : Var → Val}
    (hs : Setup own ins outs obs base) (hold : ∀ r ∈ outs, newToOld.get? r = some (f r))
    (hinj : ∀ a ∈ outs, ∀ b ∈ outs, f a = f b → a = b) (horder : ∀ l, (order l).Perm l)
    (hnuts : ∀ a b, (nuts a b).steps.keys = a.keys)
    (hinit : ∀ p ∈ initVals base (unobs outs obs), given p.2 = some (cur p.1))
    (hobs : ∀ p ∈ obs, Ev own sem given ins p.2 (cur p.1))
    (hscan : ∀ a b r sd, outs = a ++ r :: b → chosen disc obs r = some sd →
      Ev own sem (over (ModelVar outs obs) (scanVal disc obs new cur a) given) ins sd.step (new r))
    (hshare : ∀ a b r sd r' sd' n, outs = a ++ r :: b → r' ∈ a → chosen disc obs r = some sd →
      chosen disc obs r' = some sd' → NodeCut own (ModelVar outs obs) ins sd.step n →
      NodeIn own ins sd'.outs n → ∀ w ∈ ins n, ¬ ModelVar outs obs w) :
    ∃ out, constructSampler own ins outs obs newToOld disc base order nuts = some out ∧
      ∀ r ∈ outs, (chosen disc obs r).isSome →
        ∃ v, out.steps.get? (f r) = some v ∧ Ev own sem given out.ins v (new r) := by
  obtain ⟨pss, upd, out, ha, hpk, hout, hsteps, hinits, -, hins⟩ :=
    constructSampler_eq (disc := disc) hs hold hinj horder hnuts
  have hscanL := scan_loop (own := own) (sem := sem) (obs := obs) (D := ModelVar outs obs)
    (ins₀ := ins) (disc := disc) (given := given) (new := new) (cur := cur) outs []
    (initState ins outs obs disc base) [] (by simpa using hs.outs_nodup) (fun r hr => Or.inl hr)
    (fun _ _ => rfl) (inv_init disc hs) (fun n hn => absurd rfl hn) (by simp)
    (by
      intro r v hg
      have hm := Dict.mem_of_get? _ _ _ hg
      rw [initState_pss disc hs] at hm
      have hsv : scanVal disc obs new cur [] r = cur r := by simp [scanVal]
      rw [hsv]
      rcases List.mem_append.1 hm with h | h
      · exact .given (hinit _ h)
      · exact hobs _ h)
    (by simpa using hscan) (by simpa using hshare)
  have hrest := loop_rest (own := own) (obs := obs) outs (initState ins outs obs disc base) disc
    hs.outs_nodup (fun _ _ => rfl) (by simp [initState])
  have hkeys := final_keys disc hs
  refine ⟨out, hout, fun r hr hc => ?_⟩
  rw [hins]
  have hro : r ∉ obs.keys := by
    intro h
    unfold chosen at hc
    rw [if_pos h] at hc
    cases hc
  have hu : r ∈ unobs outs obs := mem_unobs.2 ⟨hr, hro⟩
  generalize loop own obs (initState ins outs obs disc base) outs = st at ha hrest hkeys hscanL
  obtain ⟨v, hv⟩ := (Dict.get?_isSome_iff st.pss r).2 (by
    rw [hkeys]; exact List.mem_append_left _ hu)
  have hsv : scanVal disc obs new cur ([] ++ outs) r = new r := by
    unfold scanVal
    rw [if_pos ⟨by simpa using hr, hc⟩]
  refine ⟨v, ?_, hsv ▸ hscanL r v hv⟩
  have hpv : pss.get? r = some v := by
    unfold afterNuts at ha
    split_ifs at ha with he
    · cases ha
      exact hv
    · obtain ⟨a, ha1, ha2⟩ := Option.map_eq_some_iff.1 ha
      cases ha2
      rw [Dict.get?_update_of_not_mem, hv]
      have hrn : st.rest.Nodup := by
        rw [hrest]
        exact hs.outs_nodup.filter _
      have hmr : ∀ x, x ∈ st.rest ↔ x ∈ outs ∧ x ∉ obs.keys ∧ chosen disc obs x = none := by
        intro x
        rw [hrest]
        simp [initState]
      obtain ⟨ts, re, he', htk, -, -⟩ := nutsArgs_eq (hkeys ▸ keys_nodup hs)
        ((horder st.rest).nodup_iff.2 hrn) (by
          intro x hx
          have := (hmr x).1 ((horder _).mem_iff.1 hx)
          rw [hkeys]
          exact List.mem_append_left _ (mem_unobs.2 ⟨this.1, this.2.1⟩))
      rw [he'] at ha1
      cases ha1
      have := hnuts ts re
      rw [Dict.keys] at this
      rw [this, htk, (horder _).mem_iff, hmr]
      rintro ⟨-, -, hcn⟩
      rw [hcn] at hc
      cases hc
  have hk : r ∈ Dict.keys (pss.filter fun p => !obs.has p.1) := by
    rw [Dict.keys, filter_keys hpk]
    exact hu
  rw [hsteps, get?_map_key _ hk, get?_filter (q := fun k => !obs.has k) (by simp [Dict.has, hro]),
    hpv]
  intro a ha b hb e
  rw [Dict.keys, filter_keys hpk] at ha hb
  exact hinj a (mem_unobs.1 ha).1 b (mem_unobs.1 hb).1 e

/-! ## C07 -/

/-- Spec.  The term of `r` in a log-density built from the heap `ins` by giving values to the model
variables `D` depends on the value of `s`: `s` is met when following the arguments of `r`'s
distribution up to the first model variables. -/
def DepTerm (own : Owner) (D : Var → Prop) (ins : Ins) (r s : Var) : Prop :=
  ∃ n i, own r = some (n, i) ∧ ∃ w ∈ ins n, ReachCut own D ins w s

/-- **C07, with a hypothesis on the steps' graphs.** If no closed-form step's graph contains a node of
`r`'s distribution that reads a model variable, the heap handed to NUTS still has the dependence of
`r`'s term on `s`.

Missing: the hypothesis.  It fails as soon as a step mentions `r` itself, in which case the
dependence is lost (`C07_violated`). -/
theorem C07_nuts_term_partial {own : Owner} {ins : Ins} {outs : List Var}
    {obs newToOld : Dict Var Var} {disc : Dict Var (List StepDesc)} {base : Nat}
    {order : List Var → List Var} {nuts : Dict Var Var → Dict Var Var → NutsResult} {f : Var → Var}
    {r s : Var}
    (hs : Setup own ins outs obs base) (hold : ∀ r ∈ outs, newToOld.get? r = some (f r))
    (hinj : ∀ a ∈ outs, ∀ b ∈ outs, f a = f b → a = b) (horder : ∀ l, (order l).Perm l)
    (hnuts : ∀ a b, (nuts a b).steps.keys = a.keys)
    (hfree : ∀ rv ∈ outs, ∀ sd, chosen disc obs rv = some sd → ∀ n, NodeIn own ins sd.outs n →
      ((∃ i, own r = some (n, i)) ∨
        ∃ m i, own r = some (m, i) ∧ ∃ w ∈ ins m, NodeCut own (ModelVar outs obs) ins w n) →
      ∀ w ∈ ins n, ¬ ModelVar outs obs w)
    (hdep : DepTerm own (ModelVar outs obs) ins r s) :
    ∃ out, constructSampler own ins outs obs newToOld disc base order nuts = some out ∧
      DepTerm own (ModelVar outs obs) out.ins r s := by
  obtain ⟨pss, upd, out, -, -, hout, -, -, -, hins⟩ :=
    constructSampler_eq (disc := disc) hs hold hinj horder hnuts
  refine ⟨out, hout, ?_⟩
  rw [hins]
  have hch := final_changed (own := own) disc hs
  generalize (loop own obs (initState ins outs obs disc base) outs).ins = ins' at hch
  have hkeep : ∀ n, ((∃ i, own r = some (n, i)) ∨
      ∃ m i, own r = some (m, i) ∧ ∃ w ∈ ins m, NodeCut own (ModelVar outs obs) ins w n) →
      ins' n = ins n := by
    intro n hn
    by_contra hne
    obtain ⟨sd, hsd, hin, w, hw, hD⟩ := hch n hne
    obtain ⟨rv, hrv, hc⟩ := List.mem_filterMap.1 hsd
    exact hfree rv hrv sd hc n hin hn w hw hD
  obtain ⟨n, i, ho, w, hw, hr⟩ := hdep
  refine ⟨n, i, ho, w, by rw [hkeep n (Or.inl ⟨i, ho⟩)]; exact hw, ?_⟩
  exact reachCut_congr (fun m hm => hkeep m (Or.inr ⟨n, i, ho, w, hw, hm⟩)) hr

end Verif.Graph
