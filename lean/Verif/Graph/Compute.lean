import Verif.Graph.Result

/-!
# Executing `construct_sampler` on concrete heaps

`replace` asks which nodes belong to a `FunctionGraph`.  On a concrete heap this is computed by
expanding the outputs until the list of variables is closed under taking inputs.  The `C`-versions
below run the model of `Verif/Graph/Model.lean` with that computation and fail (`none`) when the
fuel is too small; `constructSamplerC_eq` says that they agree with the model.
-/

namespace Verif.Graph

open Verif.Py

/-- The inputs of the owner of `v`. -/
def inputsOf (own : Owner) (ins : Ins) (v : Var) : List Var :=
  match own v with
  | none => []
  | some (n, _) => ins n

/-- Variables found from a list in `k` rounds of expanding inputs (test tool, not part of the code). -/
def reachL (own : Owner) (ins : Ins) : Nat → List Var → List Var
  | 0, l => l
  | k + 1, l => reachL own ins k
      (l ++ ((l.flatMap (inputsOf own ins)).filter fun w => !(l.contains w)).eraseDups)

/-- The list contains the inputs of all its members. -/
def closedL (own : Owner) (ins : Ins) (l : List Var) : Bool :=
  l.all fun v => (inputsOf own ins v).all fun w => l.contains w

/-- The owners of the listed variables. -/
def nodesL (own : Owner) (l : List Var) : List Node := l.filterMap fun v => (own v).map Prod.fst

theorem edge_iff {own : Owner} {ins : Ins} {v w : Var} :
    Edge own ins v w ↔ w ∈ inputsOf own ins v := by
  unfold Edge inputsOf
  cases h : own v with
  | none => simp
  | some p => obtain ⟨n, i⟩ := p; simp

theorem reachL_sound {own : Owner} {ins : Ins} : ∀ (k : Nat) (l : List Var) {P : Var → Prop},
    (∀ v ∈ l, P v) → (∀ v w, P v → Edge own ins v w → P w) → ∀ v ∈ reachL own ins k l, P v
  | 0, _, _, h, _, v, hv => h v hv
  | k + 1, l, P, h, he, v, hv => by
    refine reachL_sound k _ (P := P) ?_ he v hv
    intro w hw
    rcases List.mem_append.1 hw with hw | hw
    · exact h w hw
    · rw [List.mem_eraseDups] at hw
      obtain ⟨u, hu, hw⟩ := List.mem_flatMap.1 (List.mem_filter.1 hw).1
      exact he u w (h u hu) (edge_iff.2 hw)

theorem subset_reachL {own : Owner} {ins : Ins} : ∀ (k : Nat) (l : List Var) {v : Var}, v ∈ l →
    v ∈ reachL own ins k l
  | 0, _, _, h => h
  | k + 1, _, _, h => subset_reachL k _ (List.mem_append_left _ h)

theorem reach_iff_reachL {own : Owner} {ins : Ins} {k : Nat} {outs : List Var}
    (h : closedL own ins (reachL own ins k outs) = true) (w : Var) :
    (∃ o ∈ outs, Reach own ins o w) ↔ w ∈ reachL own ins k outs := by
  constructor
  · rintro ⟨o, ho, hr⟩
    induction hr with
    | refl => exact subset_reachL k outs ho
    | tail _ e ih =>
      unfold closedL at h
      rw [List.all_eq_true] at h
      have := h _ ih
      rw [List.all_eq_true] at this
      simpa using this _ (edge_iff.1 e)
  · intro hw
    refine reachL_sound (own := own) (ins := ins) k outs
      (P := fun w => ∃ o ∈ outs, Reach own ins o w) ?_ ?_ w hw
    · intro v hv
      exact ⟨v, hv, .refl⟩
    · rintro v w ⟨o, ho, hr⟩ e
      exact ⟨o, ho, hr.tail e⟩

theorem nodeIn_iff {own : Owner} {ins : Ins} {k : Nat} {outs : List Var}
    (h : closedL own ins (reachL own ins k outs) = true) (n : Node) :
    NodeIn own ins outs n ↔ n ∈ nodesL own (reachL own ins k outs) := by
  unfold NodeIn nodesL
  rw [List.mem_filterMap]
  constructor
  · rintro ⟨o, ho, v, i, hr, hv⟩
    exact ⟨v, (reach_iff_reachL h v).1 ⟨o, ho, hr⟩, by simp [hv]⟩
  · rintro ⟨v, hv, e⟩
    obtain ⟨o, ho, hr⟩ := (reach_iff_reachL h v).2 hv
    obtain ⟨⟨m, i⟩, hm, rfl⟩ := Option.map_eq_some_iff.1 e
    exact ⟨o, ho, v, i, hr, hm⟩

/-- Computable version of `replace` (`FunctionGraph.replace`); `none` when the search bound `k` is too small. -/
def replaceC (own : Owner) (k : Nat) (s : Ins × List Var) (r v : Var) : Option (Ins × List Var) :=
  if closedL own s.1 (reachL own s.1 k s.2) then
    some (fun n => if n ∈ nodesL own (reachL own s.1 k s.2) then (s.1 n).map (sub r v) else s.1 n,
      s.2.map (sub r v))
  else none

theorem replaceC_eq {own : Owner} {k : Nat} {s s' : Ins × List Var} {r v : Var}
    (h : replaceC own k s r v = some s') : replace own s r v = s' := by
  unfold replaceC at h
  split_ifs at h with hc
  cases h
  unfold replace
  congr 1
  funext n
  by_cases hn : NodeIn own s.1 s.2 n
  · rw [if_pos hn, if_pos ((nodeIn_iff hc n).1 hn)]
  · rw [if_neg hn, if_neg fun h => hn ((nodeIn_iff hc n).2 h)]

/-- Computable version of `replaceAll` (`/repo/aemcmc/basic.py:86`). -/
def replaceAllC (own : Owner) (k : Nat) (s : Ins × List Var) :
    List (Var × Var) → Option (Ins × List Var)
  | [] => some s
  | (r, v) :: ps => (replaceC own k s r v).bind fun s' => replaceAllC own k s' ps

theorem replaceAllC_eq {own : Owner} {k : Nat} : ∀ {ps : List (Var × Var)} {s s' : Ins × List Var},
    replaceAllC own k s ps = some s' → replaceAll own s ps = s'
  | [], _, _, h => by cases h; rfl
  | (r, v) :: ps, s, s', h => by
    obtain ⟨s₁, h1, h2⟩ := Option.bind_eq_some_iff.1 h
    unfold replaceAll
    rw [replaceC_eq h1]
    exact replaceAllC_eq h2

/-- Computable version of `processRV` (`/repo/aemcmc/basic.py:59-102`). -/
def processRVC (own : Owner) (k : Nat) (obs : Dict Var Var) (st : LoopState) (rv : Var) :
    Option LoopState :=
  if obs.has rv then some st else
  match st.disc.get? rv with
  | none => some { st with rest := setAdd st.rest rv }
  | some steps =>
    match steps.getLast? with
    | none => some { st with rest := setAdd st.rest rv }
    | some sd =>
      let ups := sd.updates.getD []
      (replaceAllC own k (st.ins, sd.step :: (ups.map Prod.fst ++ ups.map Prod.snd)) st.pss).map
        fun s' =>
        { ins := s'.1
          disc := st.disc.set rv steps.dropLast
          pss := st.pss.set rv (s'.2.headD sd.step)
          upd := st.upd.update ((s'.2.drop 1).take ups.length |>.zip (s'.2.drop (1 + ups.length)))
          rest := st.rest }

theorem processRVC_eq {own : Owner} {k : Nat} {obs : Dict Var Var} {st st' : LoopState} {rv : Var}
    (h : processRVC own k obs st rv = some st') : processRV own obs st rv = st' := by
  unfold processRVC at h
  unfold processRV
  split_ifs at h ⊢ with ho
  · exact Option.some.inj h
  · split at h
    · rename_i hd
      rw [hd]
      exact Option.some.inj h
    · rename_i steps hd
      rw [hd]
      dsimp only
      split at h
      · rename_i hl
        rw [hl]
        exact Option.some.inj h
      · rename_i sd hl
        rw [hl]
        dsimp only at h ⊢
        obtain ⟨s', h1, h2⟩ := Option.map_eq_some_iff.1 h
        rw [replaceAllC_eq h1]
        exact h2

/-- Computable version of `loop` (`/repo/aemcmc/basic.py:59-102`). -/
def loopC (own : Owner) (k : Nat) (obs : Dict Var Var) (st : LoopState) :
    List Var → Option LoopState
  | [] => some st
  | r :: l => (processRVC own k obs st r).bind fun st' => loopC own k obs st' l

theorem loopC_eq {own : Owner} {k : Nat} {obs : Dict Var Var} : ∀ {l : List Var}
    {st st' : LoopState}, loopC own k obs st l = some st' → loop own obs st l = st'
  | [], _, _, h => by cases h; rfl
  | r :: l, st, st', h => by
    obtain ⟨s₁, h1, h2⟩ := Option.bind_eq_some_iff.1 h
    change loop own obs (processRV own obs st r) l = st'
    rw [processRVC_eq h1]
    exact loopC_eq h2

/-- Computable version of `afterNuts` (`/repo/aemcmc/basic.py:104-120`). -/
def afterNutsC (st : LoopState) (order : List Var → List Var)
    (nuts : Dict Var Var → Dict Var Var → NutsResult) : Option (Dict Var Var × Dict Var Var) :=
  match st.rest with
  | [] => some (st.pss, st.upd)
  | _ :: _ =>
    (nutsArgs st.pss (order st.rest)).map fun a =>
      (st.pss.update (nuts a.1 a.2).steps, st.upd.update (nuts a.1 a.2).updates)

theorem afterNutsC_eq (st : LoopState) (order : List Var → List Var)
    (nuts : Dict Var Var → Dict Var Var → NutsResult) :
    afterNuts st order nuts = afterNutsC st order nuts := by
  unfold afterNuts afterNutsC
  cases h : st.rest with
  | nil => rfl
  | cons a l => rw [if_neg (by simp)]

/-- Computable version of `constructSampler` (`/repo/aemcmc/basic.py:44-130`). -/
def constructSamplerC (own : Owner) (k : Nat) (ins : Ins) (outs : List Var) (obs : Dict Var Var)
    (newToOld : Dict Var Var) (disc : Dict Var (List StepDesc)) (base : Nat)
    (order : List Var → List Var) (nuts : Dict Var Var → Dict Var Var → NutsResult) :
    Option SamplerOut :=
  (loopC own k obs (initState ins outs obs disc base) outs).bind fun st =>
  (afterNutsC st order nuts).bind fun pu =>
  ((pu.1.filter fun p => !obs.has p.1).mapM fun p =>
    (newToOld.get? p.1).map fun old => (old, p.2)).bind fun steps =>
  ((initVals base (outs.filter fun rv => !obs.has rv)).mapM fun p =>
    (newToOld.get? p.1).map fun old => (old, p.2)).bind fun inits' =>
  some { steps := Dict.update [] steps, updates := pu.2, inits := Dict.update [] inits'
         ins := st.ins }

theorem constructSamplerC_eq {own : Owner} {k : Nat} {ins : Ins} {outs : List Var}
    {obs newToOld : Dict Var Var} {disc : Dict Var (List StepDesc)} {base : Nat}
    {order : List Var → List Var} {nuts : Dict Var Var → Dict Var Var → NutsResult}
    {out : SamplerOut}
    (h : constructSamplerC own k ins outs obs newToOld disc base order nuts = some out) :
    constructSampler own ins outs obs newToOld disc base order nuts = some out := by
  unfold constructSamplerC at h
  obtain ⟨st, h1, h2⟩ := Option.bind_eq_some_iff.1 h
  unfold constructSampler
  dsimp only
  rw [loopC_eq h1, afterNutsC_eq]
  exact h2

end Verif.Graph
