import Verif.Graph.Witness

/-!
# The order in which steps use each other, and `Sampler.stages`
-/

namespace Verif.Graph

open Verif.Py

/-! ## Model -/

/-- `Sampler.__post_init__` (`/repo/aemcmc/types.py:37-45`): group the variables by the operation of
their step's owner, in a dictionary ordered by first insertion.  `none` is the `AttributeError` for a
step without owner.  `opOf` is the operation of a node. -/
def stagesFrom {K : Type} [DecidableEq K] (own : Owner) (opOf : Node → K) :
    Dict K (List Var) → Dict Var Var → Option (Dict K (List Var))
  | st, [] => some st
  | st, (rv, v) :: ps =>
    match own v with
    | none => none
    | some (n, _) => stagesFrom own opOf (st.set (opOf n) ((st.get? (opOf n)).getD [] ++ [rv])) ps

/-- `Sampler.stages` (`/repo/aemcmc/types.py:37-45`). -/
def stages {K : Type} [DecidableEq K] (own : Owner) (opOf : Node → K) (steps : Dict Var Var) :
    Option (Dict K (List Var)) := stagesFrom own opOf [] steps

/-! ## Spec -/

/-- The kernel that produces `v`. -/
def kernelOf {K : Type} (own : Owner) (opOf : Node → K) (v : Var) : Option K :=
  (own v).map fun p => opOf p.1

/-! ## C09 -/

section
variable {K : Type} [DecidableEq K] {own : Owner} {opOf : Node → K}

theorem stagesFrom_spec : ∀ (ps : Dict Var Var) (st : Dict K (List Var)),
    (∀ p ∈ ps, (own p.2).isSome) → st.keys.Nodup → (∀ p ∈ st, p.2 ≠ []) →
    ∃ st', stagesFrom own opOf st ps = some st' ∧ st'.keys.Nodup ∧ (∀ p ∈ st', p.2 ≠ []) ∧
      (∀ k, (st'.get? k).getD [] = (st.get? k).getD [] ++
        (ps.filter fun p => decide (kernelOf own opOf p.2 = some k)).map Prod.fst) ∧
      (∃ t, st'.keys = st.keys ++ t) ∧
      (∀ k, k ∈ st'.keys ↔ k ∈ st.keys ∨ ∃ p ∈ ps, kernelOf own opOf p.2 = some k)
  | [], st, _, hn, hne => ⟨st, rfl, hn, hne, fun k => by simp, ⟨[], by simp⟩, fun k => by simp⟩
  | (rv, v) :: ps, st, ho, hn, hne => by
    obtain ⟨⟨n, i⟩, hv⟩ := Option.isSome_iff_exists.1 (ho (rv, v) (by simp))
    have hkv : kernelOf own opOf v = some (opOf n) := by simp [kernelOf, hv]
    obtain ⟨st', h1, h2, h3, h4, ⟨t, h5⟩, h6⟩ := stagesFrom_spec ps
      (st.set (opOf n) ((st.get? (opOf n)).getD [] ++ [rv]))
      (fun p hp => ho p (by simp [hp])) (Dict.nodup_set _ _ _ hn) (by
        intro p hp
        rcases Dict.mem_set _ _ _ _ hp with h | rfl
        · exact hne p h
        · simp)
    have hk : ∃ t', (st.set (opOf n) ((st.get? (opOf n)).getD [] ++ [rv])).keys = st.keys ++ t' := by
      by_cases hm : opOf n ∈ st.keys
      · exact ⟨[], by rw [Dict.keys_set_of_mem _ _ _ hm, List.append_nil]⟩
      · exact ⟨[opOf n], by rw [Dict.keys_set_of_not_mem _ _ _ hm]; simp [Dict.keys]⟩
    obtain ⟨t', ht'⟩ := hk
    refine ⟨st', ?_, h2, h3, ?_, ⟨t' ++ t, ?_⟩, ?_⟩
    · unfold stagesFrom
      rw [hv]
      exact h1
    · intro k
      rw [h4, Dict.get?_set, List.filter_cons, hkv]
      by_cases e : opOf n = k
      · subst e
        simp
      · simp [e]
    · rw [h5, ht', List.append_assoc]
    · intro k
      rw [h6, Dict.mem_keys_set]
      constructor
      · rintro ((rfl | h) | ⟨p, hp, h⟩)
        · exact Or.inr ⟨(rv, v), by simp, hkv⟩
        · exact Or.inl h
        · exact Or.inr ⟨p, by simp [hp], h⟩
      · rintro (h | ⟨p, hp, h⟩)
        · exact Or.inl (Or.inr h)
        · rcases List.mem_cons.1 hp with rfl | hp
          · rw [hkv] at h
            exact Or.inl (Or.inl (Option.some.inj h).symm)
          · exact Or.inr ⟨p, hp, h⟩

/-- **C09.** When every step has an owner: the stages have pairwise different kernels, and `k` is
listed with `l` exactly when `l` is not empty and consists of the variables whose step is produced by
`k`, in the order of `sample_steps`. -/
theorem C09_stages (steps : Dict Var Var) (ho : ∀ p ∈ steps, (own p.2).isSome) :
    ∃ st, stages own opOf steps = some st ∧ st.keys.Nodup ∧
      ∀ k l, (k, l) ∈ st ↔
        l ≠ [] ∧ l = (steps.filter fun p => decide (kernelOf own opOf p.2 = some k)).map Prod.fst := by
  obtain ⟨st, h1, h2, h3, h4, -, h6⟩ := stagesFrom_spec (own := own) (opOf := opOf) steps [] ho
    List.nodup_nil (by simp)
  refine ⟨st, h1, h2, fun k l => ?_⟩
  have h4' := h4 k
  simp only [Dict.get?, Option.getD_none, List.nil_append] at h4'
  constructor
  · intro hm
    refine ⟨h3 _ hm, ?_⟩
    rw [Dict.get?_of_mem _ h2 _ _ hm] at h4'
    exact h4'
  · rintro ⟨hne, rfl⟩
    obtain ⟨x, hx⟩ := List.exists_mem_of_ne_nil _ hne
    obtain ⟨p, hp, -⟩ := List.mem_map.1 hx
    obtain ⟨hp1, hp2⟩ := List.mem_filter.1 hp
    obtain ⟨l, hl⟩ := (Dict.get?_isSome_iff st k).2 ((h6 k).2 (Or.inr ⟨p, hp1, by simpa using hp2⟩))
    rw [hl, Option.getD_some] at h4'
    rw [← h4']
    exact Dict.mem_of_get? _ _ _ hl

example : ∃ st, stages (ownT [(4, (3, 0)), (5, (5, 0)), (6, (4, 1))]) (fun n => if n = 5 then 1 else 0)
    [(20, 4), (21, 5), (22, 6)] = some st ∧ (0, [20, 22]) ∈ st := by
  obtain ⟨st, h, -, h'⟩ := C09_stages (own := ownT [(4, (3, 0)), (5, (5, 0)), (6, (4, 1))])
    (opOf := fun n => if n = 5 then 1 else 0) [(20, 4), (21, 5), (22, 6)] (by decide)
  exact ⟨st, h, (h' 0 _).2 ⟨by decide, by decide⟩⟩

/-- **C09, partition.** Each sampled variable is in exactly one stage. -/
theorem C09_unique (steps : Dict Var Var) (hk : steps.keys.Nodup)
    (ho : ∀ p ∈ steps, (own p.2).isSome) :
    ∃ st, stages own opOf steps = some st ∧ (∀ p ∈ st, p.2.Nodup) ∧
      ∀ rv, rv ∈ steps.keys ↔ ∃! p, p ∈ st ∧ rv ∈ p.2 := by
  obtain ⟨st, h1, h2, h3⟩ := C09_stages (own := own) (opOf := opOf) steps ho
  refine ⟨st, h1, ?_, ?_⟩
  · rintro ⟨k, l⟩ hp
    rw [((h3 k l).1 hp).2]
    exact (List.Nodup.sublist (List.Sublist.map _ List.filter_sublist) hk)
  · intro rv
    constructor
    · intro hrv
      obtain ⟨⟨a, v⟩, hp, rfl⟩ := List.mem_map.1 hrv
      obtain ⟨⟨n, i⟩, hv⟩ := Option.isSome_iff_exists.1 (ho _ hp)
      have hkv : kernelOf own opOf v = some (opOf n) := by
        change (own v).map _ = _
        rw [show own v = some (n, i) from hv]
        rfl
      have hmem : a ∈ (steps.filter fun p => decide (kernelOf own opOf p.2 = some (opOf n))).map
          Prod.fst := List.mem_map.2 ⟨(a, v), List.mem_filter.2 ⟨hp, by simpa using hkv⟩, rfl⟩
      refine ⟨(opOf n, _), ⟨(h3 _ _).2 ⟨List.ne_nil_of_mem hmem, rfl⟩, hmem⟩, ?_⟩
      rintro ⟨k, l⟩ ⟨hkl, hal⟩
      obtain ⟨-, rfl⟩ := (h3 k l).1 hkl
      obtain ⟨⟨a', v'⟩, hq, e⟩ := List.mem_map.1 hal
      obtain ⟨hq1, hq2⟩ := List.mem_filter.1 hq
      dsimp only at e
      subst e
      have hvv : v' = v := by
        have e1 := Dict.get?_of_mem _ hk _ _ hq1
        have e2 := Dict.get?_of_mem _ hk _ _ hp
        rw [e1] at e2
        exact Option.some.inj e2
      subst hvv
      have : kernelOf own opOf v' = some k := by simpa using hq2
      rw [hkv] at this
      cases this
      rfl
    · rintro ⟨⟨k, l⟩, ⟨hkl, hal⟩, -⟩
      rw [((h3 k l).1 hkl).2] at hal
      obtain ⟨p, hp, rfl⟩ := List.mem_map.1 hal
      exact List.mem_map.2 ⟨p, (List.mem_filter.1 hp).1, rfl⟩

/-- Three variables, two kernels: every variable is in exactly one list. -/
example : ∃ st, stages (ownT [(4, (3, 0)), (5, (5, 0)), (6, (4, 1))]) (fun n => if n = 5 then 1 else 0)
    [(20, 4), (21, 5), (22, 6)] = some st ∧ ∃! p, p ∈ st ∧ 22 ∈ p.2 := by
  obtain ⟨st, h, -, h'⟩ := C09_unique (own := ownT [(4, (3, 0)), (5, (5, 0)), (6, (4, 1))])
    (opOf := fun n => if n = 5 then 1 else 0) [(20, 4), (21, 5), (22, 6)] (by decide) (by decide)
  exact ⟨st, h, (h' 22).1 (by decide)⟩

/-- **C09, failure.** `Sampler` raises exactly when some step has no owner. -/
theorem C09_raises (steps : Dict Var Var) :
    stages own opOf steps = none ↔ ∃ p ∈ steps, own p.2 = none := by
  have gen : ∀ (ps : Dict Var Var) (st : Dict K (List Var)),
      stagesFrom own opOf st ps = none ↔ ∃ p ∈ ps, own p.2 = none := by
    intro ps
    induction ps with
    | nil => intro st; simp [stagesFrom]
    | cons p ps ih =>
      intro st
      obtain ⟨rv, v⟩ := p
      unfold stagesFrom
      cases hv : own v with
      | none => simp [hv]
      | some q => simp [hv, ih]
  exact gen steps []

/-- Three variables, two kernels: nodes 3 and 4 run kernel `0`, node 5 runs kernel `1`. -/
example : stages (ownT [(4, (3, 0)), (5, (5, 0)), (6, (4, 1))]) (fun n => if n = 5 then 1 else 0)
    [(20, 4), (21, 5), (22, 6)] = some [(0, [20, 22]), (1, [21])] := by decide

end

/-! ## C10 -/

/-- What is assumed about the steps as the finders built them: a step is the output of some node, is
not itself a model variable, and its graph does not contain another variable's step; neither does the
graph of an observed value. -/
structure Separate (own : Owner) (ins : Ins) (outs : List Var) (obs : Dict Var Var)
    (disc : Dict Var (List StepDesc)) : Prop where
  owned : ∀ r ∈ outs, ∀ sd, chosen disc obs r = some sd → (own sd.step).isSome
  notModel : ∀ r ∈ outs, ∀ sd, chosen disc obs r = some sd → ¬ ModelVar outs obs sd.step
  sep : ∀ r ∈ outs, ∀ r' ∈ outs, ∀ sd sd', r ≠ r' → chosen disc obs r = some sd →
    chosen disc obs r' = some sd' → ¬ Reach own ins sd.step sd'.step
  obsSep : ∀ p ∈ obs, ∀ r ∈ outs, ∀ sd, chosen disc obs r = some sd → ¬ Reach own ins p.2 sd.step

section
variable {own : Owner} {obs : Dict Var Var} {outs : List Var} {ins₀ : Ins}
  {disc : Dict Var (List StepDesc)}

/-- Where a value that replaces a model variable comes from. -/
def FromStep (own : Owner) (obs : Dict Var Var) (disc : Dict Var (List StepDesc)) (pre : List Var)
    (w : Var) : Prop :=
  own w = none ∨ (∃ p ∈ obs, w = p.2) ∨ ∃ r ∈ pre, ∃ sd, chosen disc obs r = some sd ∧ w = sd.step

/-- The invariant for the order of steps after the variables `pre`. -/
structure OrdInv (own : Owner) (ins₀ : Ins) (outs : List Var) (obs : Dict Var Var)
    (disc : Dict Var (List StepDesc)) (pre : List Var) (st : LoopState) : Prop where
  reads : ∀ n, ∀ w ∈ st.ins n, w ∈ ins₀ n ∨ FromStep own obs disc pre w
  vals : ∀ p ∈ st.pss, FromStep own obs disc pre p.2
  done : ∀ r ∈ pre, ∀ sd, chosen disc obs r = some sd → st.pss.get? r = some sd.step
  order : ∀ a c r sd r' sd', pre = a ++ r :: c → chosen disc obs r = some sd → r' ∈ outs →
    r' ∉ a ++ [r] → chosen disc obs r' = some sd' → ¬ Reach own st.ins sd.step sd'.step

theorem FromStep.mono {pre pre' : List Var} {w : Var} (h : FromStep own obs disc pre w)
    (hp : ∀ r ∈ pre, r ∈ pre') : FromStep own obs disc pre' w := by
  rcases h with h | h | ⟨r, hr, h⟩
  · exact Or.inl h
  · exact Or.inr (Or.inl h)
  · exact Or.inr (Or.inr ⟨r, hp r hr, h⟩)

theorem no_reach_later (hsep : Separate own ins₀ outs obs disc) {pre : List Var}
    (hpre : ∀ r ∈ pre, r ∈ outs) {ins : Ins}
    (hreads : ∀ n, ∀ w ∈ ins n, w ∈ ins₀ n ∨ FromStep own obs disc pre w)
    {r r' : Var} {sd sd' : StepDesc} (hr : r ∈ outs) (hr' : r' ∈ outs) (hn : r' ∉ pre)
    (hne : r ≠ r') (hc : chosen disc obs r = some sd) (hc' : chosen disc obs r' = some sd') :
    ¬ Reach own ins sd.step sd'.step := by
  intro hreach
  have key : ∀ w, Reach own ins sd.step w → Reach own ins₀ sd.step w ∨ own w = none ∨
      (∃ p ∈ obs, Reach own ins₀ p.2 w) ∨
      ∃ q ∈ pre, ∃ sd'', chosen disc obs q = some sd'' ∧ Reach own ins₀ sd''.step w := by
    intro w hw
    induction hw with
    | refl => exact Or.inl .refl
    | tail _ e ih =>
      obtain ⟨n, i, ho, hu⟩ := e
      rcases hreads n _ hu with h0 | h0
      · have e0 : Edge own ins₀ _ _ := ⟨n, i, ho, h0⟩
        rcases ih with h | h | ⟨p, hp, h⟩ | ⟨q, hq, sd'', hcq, h⟩
        · exact Or.inl (h.tail e0)
        · rw [h] at ho
          cases ho
        · exact Or.inr (Or.inr (Or.inl ⟨p, hp, h.tail e0⟩))
        · exact Or.inr (Or.inr (Or.inr ⟨q, hq, sd'', hcq, h.tail e0⟩))
      · rcases h0 with h0 | ⟨p, hp, rfl⟩ | ⟨q, hq, sd'', hcq, rfl⟩
        · exact Or.inr (Or.inl h0)
        · exact Or.inr (Or.inr (Or.inl ⟨p, hp, .refl⟩))
        · exact Or.inr (Or.inr (Or.inr ⟨q, hq, sd'', hcq, .refl⟩))
  rcases key _ hreach with h | h | ⟨p, hp, h⟩ | ⟨q, hq, sd'', hcq, h⟩
  · exact hsep.sep r hr r' hr' sd sd' hne hc hc' h
  · have := hsep.owned r' hr' sd' hc'
    rw [h] at this
    cases this
  · exact hsep.obsSep p hp r' hr' sd' hc' h
  · refine hsep.sep q (hpre q hq) r' hr' sd'' sd' ?_ hcq hc' h
    rintro rfl
    exact hn hq

theorem ordInv_loop (hsep : Separate own ins₀ outs obs disc) :
    ∀ (l pre : List Var) (st : LoopState), pre ++ l = outs → outs.Nodup →
    (∀ r ∈ l, st.disc.get? r = disc.get? r) → Inv own (ModelVar outs obs) ins₀ st →
    OrdInv own ins₀ outs obs disc pre st → OrdInv own ins₀ outs obs disc outs (loop own obs st l)
  | [], pre, st, he, _, _, _, h => by
    rw [List.append_nil] at he
    subst he
    exact h
  | rv :: l, pre, st, he, hnd, hd, hi, h => by
    change OrdInv own ins₀ outs obs disc outs (loop own obs (processRV own obs st rv) l)
    have hD : ∀ r ∈ outs, ModelVar outs obs r := fun r hr => Or.inl hr
    have hrvo : rv ∈ outs := by rw [← he]; simp
    have hpre : ∀ r ∈ pre, r ∈ outs := fun r hr => by rw [← he]; simp [hr]
    have hnd' := hnd
    rw [← he, List.nodup_append, List.nodup_cons] at hnd'
    have hrvpre : rv ∉ pre := fun hm => hnd'.2.2 rv hm rv (by simp) rfl
    have hd' : ∀ r ∈ l, (processRV own obs st rv).disc.get? r = disc.get? r := fun r hr => by
      rw [processRV_disc (by rintro rfl; exact hnd'.2.1.1 hr), hd r (by simp [hr])]
    have hcr : chosen st.disc obs rv = chosen disc obs rv := chosen_congr (hd rv (by simp))
    refine ordInv_loop hsep l (pre ++ [rv]) _ (by rw [List.append_assoc]; exact he) hnd hd'
      (hi.step (hD rv hrvo)) ?_
    have hsplit : ∀ a c r, pre ++ [rv] = a ++ r :: c →
        (∃ c', pre = a ++ r :: c') ∨ (a = pre ∧ r = rv) := by
      intro a c r e
      rcases List.eq_nil_or_concat c with rfl | ⟨c', x, rfl⟩
      · have := List.append_inj' e rfl
        exact Or.inr ⟨this.1.symm, by simpa using this.2.symm⟩
      · have e' : pre ++ [rv] = (a ++ r :: c') ++ [x] := by rw [e]; simp
        exact Or.inl ⟨c', (List.append_inj' e' rfl).1⟩
    cases hc : chosen disc obs rv with
    | none =>
      have hsame : (processRV own obs st rv).ins = st.ins ∧
          (processRV own obs st rv).pss = st.pss := by
        rw [processRV_none (hcr.trans hc)]
        split_ifs <;> exact ⟨rfl, rfl⟩
      refine ⟨?_, ?_, ?_, ?_⟩
      · rw [hsame.1]
        intro n w hw
        rcases h.reads n w hw with h1 | h1
        · exact Or.inl h1
        · exact Or.inr (h1.mono fun r hr => by simp [hr])
      · rw [hsame.2]
        exact fun p hp => (h.vals p hp).mono fun r hr => by simp [hr]
      · rw [hsame.2]
        intro r hr sd hcr'
        rcases List.mem_append.1 hr with hr | hr
        · exact h.done r hr sd hcr'
        · rw [List.mem_singleton] at hr
          subst hr
          rw [hc] at hcr'
          cases hcr'
      · rw [hsame.1]
        intro a c r sd r' sd' e hcr1 hr' hna hcr2
        rcases hsplit a c r e with ⟨c', e'⟩ | ⟨rfl, rfl⟩
        · exact h.order a c' r sd r' sd' e' hcr1 hr' hna hcr2
        · rw [hc] at hcr1
          cases hcr1
    | some sd =>
      obtain ⟨h1, h2, -, -⟩ := processRV_some (own := own) (hcr.trans hc)
      have hhead : (replaceAll own (st.ins, sd.outs) st.pss).2.headD sd.step = sd.step := by
        rw [outs_replaceAll (s := (st.ins, sd.outs)) hi.pairs]
        exact subAll_of_not_D (fun p hp => (hi.pairs p hp).1) (hsep.notModel rv hrvo sd hc)
      rw [hhead] at h2
      have hreads : ∀ n, ∀ w ∈ (processRV own obs st rv).ins n,
          w ∈ ins₀ n ∨ FromStep own obs disc pre w := by
        intro n w hw
        rw [h1] at hw
        have hr := replaceAll_reads (own := own) (s := (st.ins, sd.outs)) hi.pairs n
        obtain ⟨i, hi', rfl⟩ := List.getElem_of_mem hw
        have hl : (st.ins n).length = _ := hr.length_eq
        have hi2 : i < (st.ins n).length := by rw [hl]; exact hi'
        rcases (List.forall₂_iff_get.1 hr).2 i hi2 hi' with e | e
        · have e' : (st.ins n)[i] = ((replaceAll own (st.ins, sd.outs) st.pss).1 n)[i] := e
          rw [← e']
          exact h.reads n _ (List.getElem_mem hi2)
        · exact Or.inr (h.vals _ e)
      refine ⟨?_, ?_, ?_, ?_⟩
      · intro n w hw
        rcases hreads n w hw with h1 | h1
        · exact Or.inl h1
        · exact Or.inr (h1.mono fun r hr => by simp [hr])
      · rw [h2]
        intro p hp
        rcases Dict.mem_set _ _ _ _ hp with hp | rfl
        · exact (h.vals p hp).mono fun r hr => by simp [hr]
        · exact Or.inr (Or.inr ⟨rv, by simp, sd, hc, rfl⟩)
      · rw [h2]
        intro r hr sd' hcr'
        rw [Dict.get?_set]
        rcases List.mem_append.1 hr with hr | hr
        · rw [if_neg (by rintro rfl; exact hrvpre hr)]
          exact h.done r hr sd' hcr'
        · rw [List.mem_singleton] at hr
          subst hr
          rw [hc] at hcr'
          cases hcr'
          rw [if_pos rfl]
      · intro a c r sd₁ r' sd' e hcr1 hr' hna hcr2
        rcases hsplit a c r e with ⟨c', e'⟩ | ⟨rfl, rfl⟩
        · have hrp : r ∈ pre := by rw [e']; simp
          have hcl : Closed own (ModelVar outs obs) st.ins sd₁.step :=
            (hi.closed _ (Dict.mem_of_get? _ _ _ (h.done r hrp sd₁ hcr1))).2
          rw [h1, reach_congr_of_closed (hi.replaceAll_frame sd.outs) hcl]
          exact h.order a c' r sd₁ r' sd' e' hcr1 hr' hna hcr2
        · rw [hc] at hcr1
          cases hcr1
          refine no_reach_later hsep hpre hreads hrvo hr' (fun hm => hna (by simp [hm])) ?_ hc hcr2
          rintro rfl
          exact hna (by simp)

theorem ordInv_final {base : Nat} (hs : Setup own ins₀ outs obs base)
    (hsep : Separate own ins₀ outs obs disc) :
    OrdInv own ins₀ outs obs disc outs (loop own obs (initState ins₀ outs obs disc base) outs) := by
  refine ordInv_loop hsep outs [] _ rfl hs.outs_nodup (fun _ _ => rfl) (inv_init disc hs) ?_
  refine ⟨fun n w hw => Or.inl hw, ?_, by simp, ?_⟩
  · intro p hp
    rw [initState_pss disc hs] at hp
    rcases List.mem_append.1 hp with h | h
    · obtain ⟨-, i, e⟩ := initVals_mem h
      rw [e]
      exact Or.inl (hs.init_own i)
    · exact Or.inr (Or.inl ⟨p, h, rfl⟩)
  · intro a c r sd r' sd' e
    simp at e

end

/-- A kernel seen first comes first. -/
theorem keys_order {K : Type} [DecidableEq K] {own : Owner} {opOf : Node → K} {a b : Dict Var Var}
    {rv v : Var} {k₁ k₂ : K} (ho : ∀ p ∈ a ++ (rv, v) :: b, (own p.2).isSome)
    (hk1 : kernelOf own opOf v = some k₁) (hn : ∀ p ∈ a, kernelOf own opOf p.2 ≠ some k₁)
    (hk2 : ∃ p ∈ a, kernelOf own opOf p.2 = some k₂) {st : Dict K (List Var)}
    (hst : stages own opOf (a ++ (rv, v) :: b) = some st) : [k₂, k₁].Sublist st.keys := by
  have hsplit : ∀ (x y : Dict Var Var) (s : Dict K (List Var)), stagesFrom own opOf s (x ++ y) =
      (stagesFrom own opOf s x).bind fun s' => stagesFrom own opOf s' y := by
    intro x
    induction x with
    | nil => intro y s; rfl
    | cons p x ih =>
      intro y s
      obtain ⟨q, w⟩ := p
      simp only [List.cons_append, stagesFrom]
      cases own w with
      | none => rfl
      | some m => exact ih y _
  obtain ⟨sa, h1, hnd, hne, -, -, h6⟩ := stagesFrom_spec (own := own) (opOf := opOf) a []
    (fun p hp => ho p (by simp [hp])) List.nodup_nil (by simp)
  obtain ⟨sb, h1', hnd', hne', -, -, h6'⟩ := stagesFrom_spec (own := own) (opOf := opOf) [(rv, v)] sa
    (fun p hp => ho p (by rw [List.mem_singleton] at hp; simp [hp])) hnd hne
  obtain ⟨sc, h1'', -, -, -, ⟨t, ht⟩, -⟩ := stagesFrom_spec (own := own) (opOf := opOf) b sb
    (fun p hp => ho p (by simp [hp])) hnd' hne'
  have e : st = sc := by
    unfold stages at hst
    rw [show a ++ (rv, v) :: b = a ++ ([(rv, v)] ++ b) by simp, hsplit, h1, Option.bind_some, hsplit,
      h1', Option.bind_some, h1''] at hst
    exact (Option.some.inj hst).symm
  subst e
  obtain ⟨⟨n, i⟩, hv⟩ := Option.isSome_iff_exists.1 (ho (rv, v) (by simp))
  have hkn : opOf n = k₁ := by
    unfold kernelOf at hk1
    rw [show own v = some (n, i) from hv] at hk1
    exact Option.some.inj hk1
  have hm1 : k₁ ∉ sa.keys := by
    rw [h6]
    rintro (h | ⟨p, hp, h⟩)
    · simp [Dict.keys] at h
    · exact hn p hp h
  have hm2 : k₂ ∈ sa.keys := (h6 k₂).2 (Or.inr hk2)
  have hsb : sb.keys = sa.keys ++ [k₁] := by
    unfold stagesFrom at h1'
    rw [show own v = some (n, i) from hv] at h1'
    unfold stagesFrom at h1'
    rw [← Option.some.inj h1', hkn, Dict.keys_set_of_not_mem _ _ _ hm1]
    simp [Dict.keys]
  rw [ht, hsb]
  refine List.Sublist.trans ?_ (List.sublist_append_left _ _)
  exact List.Sublist.append (List.singleton_sublist.2 hm2) (List.Sublist.refl [k₁])

theorem dict_eq_map {d : Dict Var Var} (hn : d.keys.Nodup) {g : Var → Var}
    (h : ∀ k ∈ d.keys, d.get? k = some (g k)) : d = d.keys.map fun k => (k, g k) := by
  rw [Dict.keys, List.map_map]
  conv_lhs => rw [← List.map_id d]
  apply List.map_congr_left
  rintro ⟨k, v⟩ hp
  have h1 := Dict.get?_of_mem _ hn _ _ hp
  rw [h k (List.mem_map.2 ⟨_, hp, rfl⟩)] at h1
  simp [Option.some.inj h1]

theorem exists_first {α : Type} (P : α → Prop) : ∀ {l : List α}, (∃ x ∈ l, P x) →
    ∃ a x b, l = a ++ x :: b ∧ P x ∧ ∀ y ∈ a, ¬ P y
  | [], h => by simp at h
  | z :: l, h => by
    by_cases hz : P z
    · exact ⟨[], z, l, rfl, hz, by simp⟩
    · obtain ⟨x, hx, hP⟩ := h
      rcases List.mem_cons.1 hx with rfl | hx
      · exact absurd hP hz
      · obtain ⟨a, y, b, e, h1, h2⟩ := exists_first P ⟨x, hx, hP⟩
        refine ⟨z :: a, y, b, by rw [e]; rfl, h1, ?_⟩
        intro w hw
        rcases List.mem_cons.1 hw with rfl | hw
        · exact hz
        · exact h2 w hw

theorem pair_sublist_of_not_mem {x y q : Var} {a b : List Var} (h : [x, y].Sublist (a ++ q :: b))
    (hx : x ∉ a) (hq : x ≠ q) : [x, y].Sublist b := by
  obtain ⟨l₁, l₂, e, h1, h2⟩ := List.sublist_append_iff.1 h
  cases l₁ with
  | cons z l₁ =>
    rw [List.cons_append, List.cons.injEq] at e
    exact absurd (h1.subset (by simp [e.1])) hx
  | nil =>
    rw [List.nil_append] at e
    subst e
    cases h2 with
    | cons _ h => exact h
    | cons_cons _ h => exact absurd rfl hq

/-- Spec.  The kernel of the step chosen for `r`. -/
def stepKernel {K : Type} (own : Owner) (opOf : Node → K) (disc : Dict Var (List StepDesc))
    (obs : Dict Var Var) (r : Var) : Option K :=
  (chosen disc obs r).bind fun sd => kernelOf own opOf sd.step

/-- **C10, under hypotheses.** If every unobserved variable has a step (so NUTS is not used), the
steps as found do not contain one another (`Separate`), and variables with the same kernel are next
to each other in the model's order, then a stage that uses the new value of a variable of another
stage comes after it in `stages`.

Missing: each of the three hypotheses; without `Separate` or with NUTS the claim is false
(`C10_violated`, `C10_nuts_violated`). -/
theorem C10_scan_order_partial {K : Type} [DecidableEq K] {own : Owner} {ins : Ins}
    {outs : List Var} {obs newToOld : Dict Var Var} {disc : Dict Var (List StepDesc)} {base : Nat}
    {order : List Var → List Var} {nuts : Dict Var Var → Dict Var Var → NutsResult} {f : Var → Var}
    {opOf : Node → K}
    (hs : Setup own ins outs obs base) (hold : ∀ r ∈ outs, newToOld.get? r = some (f r))
    (hinj : ∀ a ∈ outs, ∀ b ∈ outs, f a = f b → a = b) (horder : ∀ l, (order l).Perm l)
    (hnuts : ∀ a b, (nuts a b).steps.keys = a.keys)
    (hsep : Separate own ins outs obs disc)
    (hall : ∀ r ∈ outs, r ∉ obs.keys → (chosen disc obs r).isSome)
    (hcontig : ∀ x y z, [x, y, z].Sublist (unobs outs obs) →
      stepKernel own opOf disc obs x = stepKernel own opOf disc obs z →
      stepKernel own opOf disc obs y = stepKernel own opOf disc obs x) :
    ∃ out st, constructSampler own ins outs obs newToOld disc base order nuts = some out ∧
      stages own opOf out.steps = some st ∧
      ∀ k₁ l₁ k₂ l₂ rv₁ rv₂ v₁ v₂, (k₁, l₁) ∈ st → (k₂, l₂) ∈ st → k₁ ≠ k₂ → rv₁ ∈ l₁ → rv₂ ∈ l₂ →
        out.steps.get? rv₁ = some v₁ → out.steps.get? rv₂ = some v₂ → Reach own out.ins v₁ v₂ →
        [k₂, k₁].Sublist st.keys := by
  obtain ⟨pss, upd, out, ha, hpk, hout, hsteps, -, -, hins⟩ :=
    constructSampler_eq (disc := disc) hs hold hinj horder hnuts
  have hord := ordInv_final hs hsep
  have hrest := loop_rest (own := own) (obs := obs) outs (initState ins outs obs disc base) disc
    hs.outs_nodup (fun _ _ => rfl) (by simp [initState])
  have hunn : (unobs outs obs).Nodup := hs.outs_nodup.filter _
  -- the step of each unobserved variable
  obtain ⟨g, hg⟩ : ∃ g : Var → Var, ∀ r ∈ unobs outs obs, ∃ sd, chosen disc obs r = some sd ∧
      g r = sd.step := by
    refine ⟨fun r => ((chosen disc obs r).map StepDesc.step).getD 0, fun r hr => ?_⟩
    obtain ⟨sd, hsd⟩ := Option.isSome_iff_exists.1
      (hall r (mem_unobs.1 hr).1 (mem_unobs.1 hr).2)
    exact ⟨sd, hsd, by simp [hsd]⟩
  have hnorest : (loop own obs (initState ins outs obs disc base) outs).rest = [] := by
    rw [hrest]
    change [] ++ _ = []
    rw [List.nil_append, List.filter_eq_nil_iff]
    intro r hr
    simp only [decide_eq_true_eq, not_and]
    intro h1 h2
    have := hall r hr h1
    rw [h2] at this
    cases this
  have hpss : pss = (loop own obs (initState ins outs obs disc base) outs).pss := by
    unfold afterNuts at ha
    rw [if_pos hnorest] at ha
    cases ha
    rfl
  have hlist : out.steps = (unobs outs obs).map fun r => (f r, g r) := by
    have hfk : Dict.keys (pss.filter fun p => !obs.has p.1) = unobs outs obs := filter_keys hpk
    have hd := dict_eq_map (d := pss.filter fun p => !obs.has p.1) (g := g) (by
      rw [hfk]; exact hunn) (by
      intro k hk
      rw [hfk] at hk
      obtain ⟨sd, hsd, e⟩ := hg k hk
      rw [get?_filter (q := fun k => !obs.has k) (by simp [Dict.has, (mem_unobs.1 hk).2]), hpss, e]
      exact hord.done k (mem_unobs.1 hk).1 sd hsd)
    rw [hsteps, hd, hfk, List.map_map]
    rfl
  have hown : ∀ r ∈ unobs outs obs, (own (g r)).isSome := by
    intro r hr
    obtain ⟨sd, hsd, e⟩ := hg r hr
    rw [e]
    exact hsep.owned r (mem_unobs.1 hr).1 sd hsd
  have hkern : ∀ r ∈ unobs outs obs,
      stepKernel own opOf disc obs r = kernelOf own opOf (g r) := by
    intro r hr
    obtain ⟨sd, hsd, e⟩ := hg r hr
    simp [stepKernel, hsd, e]
  have howned : ∀ p ∈ out.steps, (own p.2).isSome := by
    rw [hlist]
    intro p hp
    obtain ⟨r, hr, rfl⟩ := List.mem_map.1 hp
    exact hown r hr
  obtain ⟨st, hst, -, hmem⟩ := C09_stages (own := own) (opOf := opOf) out.steps howned
  refine ⟨out, st, hout, hst, ?_⟩
  intro k₁ l₁ k₂ l₂ rv₁ rv₂ v₁ v₂ hl₁ hl₂ hne hrv₁ hrv₂ hv₁ hv₂ hreach
  have hget : ∀ r ∈ unobs outs obs, out.steps.get? (f r) = some (g r) := by
    intro r hr
    apply Dict.get?_of_mem
    · rw [hlist, Dict.keys, List.map_map]
      exact List.Nodup.map_on
        (fun a ha b hb e => hinj a (mem_unobs.1 ha).1 b (mem_unobs.1 hb).1 e) hunn
    · rw [hlist]
      exact List.mem_map.2 ⟨r, hr, rfl⟩
  have horig : ∀ k l rv v, (k, l) ∈ st → rv ∈ l → out.steps.get? rv = some v →
      ∃ r ∈ unobs outs obs, rv = f r ∧ v = g r ∧ kernelOf own opOf (g r) = some k := by
    intro k l rv v hl hrv hv
    rw [((hmem k l).1 hl).2] at hrv
    obtain ⟨p, hp, rfl⟩ := List.mem_map.1 hrv
    obtain ⟨hp1, hp2⟩ := List.mem_filter.1 hp
    rw [hlist] at hp1
    obtain ⟨r, hr, rfl⟩ := List.mem_map.1 hp1
    have := hget r hr
    dsimp only at hv
    rw [this] at hv
    exact ⟨r, hr, rfl, (Option.some.inj hv).symm, by simpa using hp2⟩
  obtain ⟨r₁, hr₁, rfl, rfl, hk₁⟩ := horig k₁ l₁ rv₁ v₁ hl₁ hrv₁ hv₁
  obtain ⟨r₂, hr₂, rfl, rfl, hk₂⟩ := horig k₂ l₂ rv₂ v₂ hl₂ hrv₂ hv₂
  have hne' : r₂ ≠ r₁ := by
    rintro rfl
    rw [hk₁] at hk₂
    exact hne (Option.some.inj hk₂)
  -- `r₂` comes before `r₁` in the model's order
  have hbefore : [r₂, r₁].Sublist (unobs outs obs) := by
    obtain ⟨a, c, e⟩ := List.append_of_mem (mem_unobs.1 hr₁).1
    obtain ⟨sd₁, hc₁, e₁⟩ := hg r₁ hr₁
    obtain ⟨sd₂, hc₂, e₂⟩ := hg r₂ hr₂
    have hin : r₂ ∈ a ++ [r₁] := by
      by_contra hno
      rw [hins, e₁, e₂] at hreach
      exact hord.order a c r₁ sd₁ r₂ sd₂ e hc₁ (mem_unobs.1 hr₂).1 hno hc₂ hreach
    have hin' : r₂ ∈ a := by
      rcases List.mem_append.1 hin with h | h
      · exact h
      · exact absurd (List.mem_singleton.1 h) hne'
    have h3 : [r₂, r₁].Sublist outs := by
      rw [e]
      exact List.Sublist.append (List.singleton_sublist.2 hin')
        (List.Sublist.cons_cons _ (List.nil_sublist _))
    have h4 := h3.filter fun rv => !obs.has rv
    have h5 : [r₂, r₁].filter (fun rv => !obs.has rv) = [r₂, r₁] := by
      have a1 : (!obs.has r₁) = true := by simp [Dict.has, (mem_unobs.1 hr₁).2]
      have a2 : (!obs.has r₂) = true := by simp [Dict.has, (mem_unobs.1 hr₂).2]
      simp [a1, a2]
    rw [h5] at h4
    exact h4
  obtain ⟨a, q, b, e, hq, hfirst⟩ := exists_first (fun r => kernelOf own opOf (g r) = some k₁)
    ⟨r₁, hr₁, hk₁⟩
  have hr₂a : r₂ ∈ a := by
    by_contra hno
    have hr₂q : r₂ ≠ q := by
      rintro rfl
      rw [hq] at hk₂
      exact hne (Option.some.inj hk₂)
    have hsub := pair_sublist_of_not_mem (e ▸ hbefore) hno hr₂q
    have h3 : [q, r₂, r₁].Sublist (unobs outs obs) := by
      rw [e]
      exact (List.Sublist.cons_cons q hsub).trans (List.sublist_append_right _ _)
    have hqm : q ∈ unobs outs obs := by rw [e]; simp
    have := hcontig q r₂ r₁ h3 (by rw [hkern q hqm, hkern r₁ hr₁, hq, hk₁])
    rw [hkern q hqm, hkern r₂ hr₂, hq, hk₂] at this
    exact hne (Option.some.inj this).symm
  have hst' := hst
  rw [hlist, e, List.map_append, List.map_cons] at hst'
  refine keys_order (a := a.map fun r => (f r, g r)) (b := b.map fun r => (f r, g r)) ?_ hq ?_ ?_ hst'
  · rw [← List.map_cons (f := fun r => (f r, g r)), ← List.map_append, ← e, ← hlist]
    exact howned
  · intro p hp
    obtain ⟨r, hr, rfl⟩ := List.mem_map.1 hp
    exact hfirst r hr
  · exact ⟨(f r₂, g r₂), List.mem_map.2 ⟨r₂, hr₂a, rfl⟩, hk₂⟩

/-- `C10_scan_order_partial` on the model of `Verif/Graph/Witness.lean`, whose step for `beta` uses
the new value of `lam`; every node is its own kernel. -/
example : ∃ out st, constructSampler ownA insA [0, 1, 2] obsA n2oA discA 7 id nutsT = some out ∧
    stages ownA (fun n => n) out.steps = some st ∧
    ∀ k₁ l₁ k₂ l₂ rv₁ rv₂ v₁ v₂, (k₁, l₁) ∈ st → (k₂, l₂) ∈ st → k₁ ≠ k₂ → rv₁ ∈ l₁ → rv₂ ∈ l₂ →
      out.steps.get? rv₁ = some v₁ → out.steps.get? rv₂ = some v₂ → Reach ownA out.ins v₁ v₂ →
      [k₂, k₁].Sublist st.keys := by
  have c0 : chosen discA obsA 0 = some ⟨0, 4, none⟩ := rfl
  have c1 : chosen discA obsA 1 = some ⟨1, 5, none⟩ := rfl
  have hk4 : closedL ownA insA (reachL ownA insA 3 [4]) = true := by decide
  have hk5 : closedL ownA insA (reachL ownA insA 3 [5]) = true := by decide
  refine C10_scan_order_partial setupA oldA injA idOrder nutsT_keys ⟨?_, ?_, ?_, ?_⟩ ?_ ?_
  · intro r hr sd hc
    have hr' : r = 0 ∨ r = 1 ∨ r = 2 := by simpa using hr
    rcases hr' with rfl | rfl | rfl <;> cases hc <;> rfl
  · intro r hr sd hc
    have hr' : r = 0 ∨ r = 1 ∨ r = 2 := by simpa using hr
    rcases hr' with rfl | rfl | rfl <;> cases hc
    · exact not_modelVar3 4 (by decide)
    · exact not_modelVar3 5 (by decide)
  · intro r hr r' hr' sd sd' hne hc hc' hreach
    have h1 : r = 0 ∨ r = 1 ∨ r = 2 := by simpa using hr
    have h2 : r' = 0 ∨ r' = 1 ∨ r' = 2 := by simpa using hr'
    rcases h1 with rfl | rfl | rfl <;> rcases h2 with rfl | rfl | rfl <;> cases hc <;> cases hc'
    · exact hne rfl
    · exact absurd ((reach_iff_reachL hk4 5).1 ⟨4, by simp, hreach⟩) (by decide)
    · exact absurd ((reach_iff_reachL hk5 4).1 ⟨5, by simp, hreach⟩) (by decide)
    · exact hne rfl
  · intro p hp r hr sd hc hreach
    rw [obsA, List.mem_singleton] at hp
    subst hp
    have hk6 : closedL ownA insA (reachL ownA insA 3 [6]) = true := by decide
    have h1 : r = 0 ∨ r = 1 ∨ r = 2 := by simpa using hr
    rcases h1 with rfl | rfl | rfl <;> cases hc
    · exact absurd ((reach_iff_reachL hk6 4).1 ⟨6, by simp, hreach⟩) (by decide)
    · exact absurd ((reach_iff_reachL hk6 5).1 ⟨6, by simp, hreach⟩) (by decide)
  · decide
  · intro x y z h
    have := h.length_le
    rw [show unobs [0, 1, 2] obsA = [0, 1] by decide] at this
    simp at this

/-- The model behind `nbinom_logistic_finder` (`/repo/aemcmc/gibbs.py:569-650`): `h = 0`, `beta = 1`,
`y = 2` observed; the step for `h` (4, node 4) reads the step for `beta` (3, node 3). -/
def ownD : Owner := ownT [(0, (5, 1)), (1, (6, 1)), (2, (2, 1)), (3, (3, 0)), (4, (4, 0))]
/-- Witness heap. -/
def insD : Ins := insT [(2, [0, 1]), (3, [1, 2, 0]), (4, [0, 3, 2])]
/-- Discovered steps of the witness. -/
def discD : Dict Var (List StepDesc) := [(1, [⟨0, 3, none⟩]), (0, [⟨0, 4, none⟩])]

/-- **C10 is false in general.** `h` comes first in the model's order; its step uses the new value of
`beta` (3), yet its stage (kernel 4) is listed before the stage of `beta` (kernel 3). -/
theorem C10_violated :
    Setup ownD insD [0, 1, 2] obsA 7 ∧
    ∃ out, constructSampler ownD insD [0, 1, 2] obsA n2oA discD 7 id nutsT = some out ∧
      stages ownD (fun n => n) out.steps = some [(4, [20]), (3, [21])] ∧
      out.steps.get? 20 = some 4 ∧ out.steps.get? 21 = some 3 ∧ Reach ownD out.ins 4 3 := by
  refine ⟨setup3 (by decide) (fun i => ownT_none (by decide) i) (by decide) (by decide), ?_⟩
  have h : (constructSamplerC ownD 5 insD [0, 1, 2] obsA n2oA discD 7 id nutsT).map
      (fun o => (o.steps, o.ins 4)) = some ([(20, 4), (21, 3)], [7, 3, 6]) := by decide
  obtain ⟨out, ho, e⟩ := Option.map_eq_some_iff.1 h
  simp only [Prod.mk.injEq] at e
  refine ⟨out, constructSamplerC_eq ho, ?_, ?_, ?_, ?_⟩
  · rw [e.1]
    decide
  · rw [e.1]
    rfl
  · rw [e.1]
    rfl
  · exact .single ⟨4, 0, rfl, by rw [e.2]; decide⟩

/-- The mixed model of `Verif/Graph/Witness.lean` with the NUTS output as 100 (node 50), which reads
the realized new value of `beta`. -/
def ownE : Owner := ownT [(0, (5, 1)), (1, (1, 1)), (2, (2, 1)), (3, (3, 0)), (100, (50, 0))]
/-- Witness heap. -/
def insE : Ins := insT [(1, [0]), (2, [1, 0]), (3, [1, 2]), (50, [3])]

/-- **C10 is false with NUTS.** The NUTS variable `s` is listed first although its step is computed
last, from the new value of `beta`. -/
theorem C10_nuts_violated :
    Setup ownE insE [0, 1, 2] obsC 200 ∧
    ∃ out, constructSampler ownE insE [0, 1, 2] obsC n2oA discC 200 id nutsT = some out ∧
      stages ownE (fun n => n) out.steps = some [(50, [20]), (3, [21])] ∧
      out.steps.get? 20 = some 100 ∧ out.steps.get? 21 = some 3 ∧ Reach ownE out.ins 100 3 := by
  refine ⟨setup3 (by decide) (fun i => ownT_none (by decide) i) (by decide) (by decide), ?_⟩
  have h : (constructSamplerC ownE 5 insE [0, 1, 2] obsC n2oA discC 200 id nutsT).map
      (fun o => (o.steps, o.ins 50)) = some ([(20, 100), (21, 3)], [3]) := by decide
  obtain ⟨out, ho, e⟩ := Option.map_eq_some_iff.1 h
  simp only [Prod.mk.injEq] at e
  refine ⟨out, constructSamplerC_eq ho, ?_, ?_, ?_, ?_⟩
  · rw [e.1]
    decide
  · rw [e.1]
    rfl
  · rw [e.1]
    rfl
  · exact .single ⟨50, 0, rfl, by rw [e.2]; decide⟩

end Verif.Graph
