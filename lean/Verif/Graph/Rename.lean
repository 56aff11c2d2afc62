import Verif.Graph.Model

/-!
# Lemmas for C92: the model under a renaming of its objects

`σ` and `τ` say which variable and which node of a second heap plays the part of a given one.
-/

namespace Verif.Graph

open Verif.Py

/-! ## Dictionaries -/

section

variable {α α' β β' : Type} [DecidableEq α] [DecidableEq α'] {f : α → α'} {g : β → β'}

theorem ren_get? (hf : Function.Injective f) (d : Dict α β) (k : α) :
    Dict.get? (d.map (Prod.map f g)) (f k) = (Dict.get? d k).map g := by
  induction d with
  | nil => rfl
  | cons p d ih =>
    obtain ⟨a, b⟩ := p
    simp only [List.map_cons, Prod.map_apply, Dict.get?, hf.eq_iff, ih]
    split_ifs <;> rfl

theorem ren_has (hf : Function.Injective f) (d : Dict α β) (k : α) :
    Dict.has (d.map (Prod.map f g)) (f k) = Dict.has d k := by
  unfold Dict.has Dict.keys
  congr 1
  rw [List.map_map, show Prod.fst ∘ Prod.map f g = f ∘ Prod.fst from rfl, ← List.map_map,
    List.mem_map_of_injective hf]

theorem ren_set (hf : Function.Injective f) (d : Dict α β) (k : α) (v : β) :
    Dict.set (d.map (Prod.map f g)) (f k) (g v) = (Dict.set d k v).map (Prod.map f g) := by
  induction d with
  | nil => rfl
  | cons p d ih =>
    obtain ⟨a, b⟩ := p
    simp only [List.map_cons, Prod.map_apply, Dict.set, hf.eq_iff, ih]
    split_ifs <;> rfl

theorem ren_update (hf : Function.Injective f) (e : List (α × β)) : ∀ d : Dict α β,
    Dict.update (d.map (Prod.map f g)) (e.map (Prod.map f g)) = (Dict.update d e).map (Prod.map f g) := by
  induction e with
  | nil => exact fun _ => rfl
  | cons p e ih =>
    obtain ⟨k, v⟩ := p
    intro d
    simp only [List.map_cons, Prod.map_apply, Dict.update, ren_set hf, ih]

theorem ren_update_nil (hf : Function.Injective f) (e : List (α × β)) :
    Dict.update [] (e.map (Prod.map f g)) = (Dict.update [] e).map (Prod.map f g) :=
  ren_update hf e []

end

/-! ## Spec -/

/-- The description of a step in the second heap. -/
def StepDesc.ren (σ : Var → Var) (sd : StepDesc) : StepDesc :=
  { name := sd.name, step := σ sd.step, updates := sd.updates.map (List.map (Prod.map σ σ)) }

/-- Spec.  The second heap has a copy of the first: `σ` and `τ` send different objects to different ones, the
owner of a copy is the copy of the owner, and the inputs of a copy are the copies of the inputs.  There may
be further objects in the second heap. -/
structure CopyOf (σ : Var → Var) (τ : Node → Node) (own own' : Owner) : Prop where
  inj : Function.Injective σ
  injN : Function.Injective τ
  own : ∀ v, own' (σ v) = (own v).map (Prod.map τ id)

/-- Spec.  The nodes of the copy have the copied inputs. -/
def CopyIns (σ : Var → Var) (τ : Node → Node) (ins ins' : Ins) : Prop :=
  ∀ n, ins' (τ n) = (ins n).map σ

/-! ## Reachability and replacement -/

section

variable {σ : Var → Var} {τ : Node → Node} {own own' : Owner}

theorem ren_edge (h : CopyOf σ τ own own') {ins ins' : Ins} (hi : CopyIns σ τ ins ins') {v w' : Var} :
    Edge own' ins' (σ v) w' ↔ ∃ w, w' = σ w ∧ Edge own ins v w := by
  unfold Edge
  rw [h.own]
  constructor
  · rintro ⟨n', i, ho, hw⟩
    obtain ⟨⟨n, j⟩, hn, he⟩ := Option.map_eq_some_iff.1 ho
    simp only [Prod.map_apply, id_eq, Prod.mk.injEq] at he
    obtain ⟨rfl, rfl⟩ := he
    rw [hi n] at hw
    obtain ⟨w, hw1, rfl⟩ := List.mem_map.1 hw
    exact ⟨w, rfl, n, j, hn, hw1⟩
  · rintro ⟨w, rfl, n, i, hn, hw⟩
    refine ⟨τ n, i, by rw [hn]; rfl, ?_⟩
    rw [hi n]
    exact List.mem_map_of_mem hw

theorem ren_reach (h : CopyOf σ τ own own') {ins ins' : Ins} (hi : CopyIns σ τ ins ins') {v w' : Var} :
    Reach own' ins' (σ v) w' ↔ ∃ w, w' = σ w ∧ Reach own ins v w := by
  constructor
  · intro hr
    induction hr with
    | refl => exact ⟨v, rfl, .refl⟩
    | tail _ e ih =>
      obtain ⟨u, rfl, hu⟩ := ih
      obtain ⟨w, rfl, hw⟩ := (ren_edge h hi).1 e
      exact ⟨w, rfl, hu.tail hw⟩
  · rintro ⟨w, rfl, hr⟩
    induction hr with
    | refl => exact .refl
    | tail _ e ih => exact ih.tail ((ren_edge h hi).2 ⟨_, rfl, e⟩)

theorem ren_nodeIn (h : CopyOf σ τ own own') {ins ins' : Ins} (hi : CopyIns σ τ ins ins')
    (outs : List Var) (n : Node) : NodeIn own' ins' (outs.map σ) (τ n) ↔ NodeIn own ins outs n := by
  unfold NodeIn
  constructor
  · rintro ⟨o', ho, v', i, hr, hv⟩
    obtain ⟨o, ho1, rfl⟩ := List.mem_map.1 ho
    obtain ⟨v, rfl, hr1⟩ := (ren_reach h hi).1 hr
    rw [h.own] at hv
    obtain ⟨⟨m, j⟩, hm, he⟩ := Option.map_eq_some_iff.1 hv
    simp only [Prod.map_apply, id_eq, Prod.mk.injEq] at he
    obtain ⟨he, rfl⟩ := he
    obtain rfl := h.injN he
    exact ⟨o, ho1, v, j, hr1, hm⟩
  · rintro ⟨o, ho, v, i, hr, hv⟩
    exact ⟨σ o, List.mem_map_of_mem ho, σ v, i, (ren_reach h hi).2 ⟨v, rfl, hr⟩, by rw [h.own, hv]; rfl⟩

theorem ren_sub (hσ : Function.Injective σ) (r v x : Var) : sub (σ r) (σ v) (σ x) = σ (sub r v x) := by
  unfold sub
  simp only [hσ.eq_iff]
  split_ifs <;> rfl

theorem ren_map_sub (hσ : Function.Injective σ) (r v : Var) (l : List Var) :
    (l.map σ).map (sub (σ r) (σ v)) = (l.map (sub r v)).map σ := by
  rw [List.map_map, List.map_map]
  exact List.map_congr_left fun x _ => ren_sub hσ r v x

theorem ren_replace (h : CopyOf σ τ own own') {ins ins' : Ins} (hi : CopyIns σ τ ins ins')
    (outs : List Var) (r v : Var) :
    CopyIns σ τ (replace own (ins, outs) r v).1 (replace own' (ins', outs.map σ) (σ r) (σ v)).1 ∧
      (replace own' (ins', outs.map σ) (σ r) (σ v)).2 = (replace own (ins, outs) r v).2.map σ := by
  refine ⟨fun n => ?_, ren_map_sub h.inj r v outs⟩
  simp only [replace]
  by_cases hn : NodeIn own ins outs n
  · rw [if_pos hn, if_pos ((ren_nodeIn h hi outs n).2 hn), hi n, ren_map_sub h.inj]
  · rw [if_neg hn, if_neg fun hn' => hn ((ren_nodeIn h hi outs n).1 hn'), hi n]

theorem ren_replaceAll (h : CopyOf σ τ own own') (ps : List (Var × Var)) : ∀ {ins ins' : Ins}
    (_ : CopyIns σ τ ins ins') (outs : List Var),
    CopyIns σ τ (replaceAll own (ins, outs) ps).1
        (replaceAll own' (ins', outs.map σ) (ps.map (Prod.map σ σ))).1 ∧
      (replaceAll own' (ins', outs.map σ) (ps.map (Prod.map σ σ))).2 =
        (replaceAll own (ins, outs) ps).2.map σ := by
  induction ps with
  | nil => exact fun hi outs => ⟨hi, rfl⟩
  | cons p ps ih =>
    obtain ⟨r, v⟩ := p
    intro ins ins' hi outs
    obtain ⟨h1, h2⟩ := ren_replace h hi outs r v
    have h3 := ih h1 (replace own (ins, outs) r v).2
    simp only [List.map_cons, Prod.map_apply, replaceAll]
    rw [← h2] at h3
    exact h3

/-! ## The loop -/

/-- The states of two runs correspond. -/
structure CopyState (σ : Var → Var) (τ : Node → Node) (st st' : LoopState) : Prop where
  ins : CopyIns σ τ st.ins st'.ins
  disc : st'.disc = st.disc.map (Prod.map σ (List.map (StepDesc.ren σ)))
  pss : st'.pss = st.pss.map (Prod.map σ σ)
  upd : st'.upd = st.upd.map (Prod.map σ σ)
  rest : st'.rest = st.rest.map σ

theorem ren_setAdd (hσ : Function.Injective σ) (s : List Var) (x : Var) :
    setAdd (s.map σ) (σ x) = (setAdd s x).map σ := by
  unfold setAdd
  simp only [List.mem_map_of_injective hσ]
  split_ifs
  · rfl
  · rw [List.map_append]
    rfl

theorem ren_map_ups (ups : List (Var × Var)) :
    (ups.map (Prod.map σ σ)).map Prod.fst ++ (ups.map (Prod.map σ σ)).map Prod.snd =
      (ups.map Prod.fst ++ ups.map Prod.snd).map σ := by
  simp [List.map_map, Function.comp_def]

theorem ren_processRV (h : CopyOf σ τ own own') {obs : Dict Var Var} {st st' : LoopState}
    (hs : CopyState σ τ st st') (rv : Var) :
    CopyState σ τ (processRV own obs st rv) (processRV own' (obs.map (Prod.map σ σ)) st' (σ rv)) := by
  obtain ⟨ins', disc', pss', upd', rest'⟩ := st'
  obtain ⟨hins, rfl, rfl, rfl, rfl⟩ : CopyIns σ τ st.ins ins' ∧ _ ∧ _ ∧ _ ∧ _ :=
    ⟨hs.ins, hs.disc, hs.pss, hs.upd, hs.rest⟩
  unfold processRV
  simp only
  rw [ren_has h.inj, ren_get? h.inj]
  by_cases ho : obs.has rv
  · simp only [ho, if_true]
    exact hs
  simp only [ho, Bool.false_eq_true, if_false]
  cases hd : Dict.get? st.disc rv with
  | none => exact ⟨hins, rfl, rfl, rfl, ren_setAdd h.inj _ _⟩
  | some steps =>
    simp only [Option.map_some, List.getLast?_map]
    cases hl : steps.getLast? with
    | none => exact ⟨hins, rfl, rfl, rfl, ren_setAdd h.inj _ _⟩
    | some sd =>
      simp only [Option.map_some]
      have hup : (StepDesc.ren σ sd).updates.getD [] = (sd.updates.getD []).map (Prod.map σ σ) := by
        unfold StepDesc.ren
        cases sd.updates <;> rfl
      have hstep : (StepDesc.ren σ sd).step = σ sd.step := rfl
      rw [hup, hstep, ren_map_ups, ← List.map_cons]
      obtain ⟨h1, h2⟩ := ren_replaceAll h st.pss hins
        (sd.step :: ((sd.updates.getD []).map Prod.fst ++ (sd.updates.getD []).map Prod.snd))
      refine ⟨h1, ?_, ?_, ?_, rfl⟩
      · simp only
        rw [← List.map_dropLast, ren_set h.inj]
      · simp only
        rw [h2, ← ren_set h.inj]
        congr 1
        cases (replaceAll own (st.ins, sd.step :: ((sd.updates.getD []).map Prod.fst ++
          (sd.updates.getD []).map Prod.snd)) st.pss).2 <;> rfl
      · simp only
        rw [h2, List.length_map, ← List.map_drop, ← List.map_take, ← List.map_drop, List.zip_map,
          ren_update h.inj]

theorem ren_loop (h : CopyOf σ τ own own') {obs : Dict Var Var} (outs : List Var) :
    ∀ {st st' : LoopState}, CopyState σ τ st st' →
      CopyState σ τ (loop own obs st outs) (loop own' (obs.map (Prod.map σ σ)) st' (outs.map σ)) := by
  induction outs with
  | nil => exact fun hs => hs
  | cons rv outs ih => exact fun hs => ih (ren_processRV h hs rv)

/-! ## The rest -/

theorem ren_filter_has (hσ : Function.Injective σ) (obs : Dict Var Var) (outs : List Var) :
    (outs.map σ).filter (fun rv => !Dict.has (obs.map (Prod.map σ σ)) rv) =
      (outs.filter fun rv => !Dict.has obs rv).map σ := by
  rw [List.filter_map]
  congr 1
  refine List.filter_congr fun x _ => ?_
  simp only [Function.comp_apply, ren_has hσ]

theorem ren_filter_has_fst (hσ : Function.Injective σ) (obs d : Dict Var Var) :
    (d.map (Prod.map σ σ)).filter (fun p => !Dict.has (obs.map (Prod.map σ σ)) p.1) =
      (d.filter fun p => !Dict.has obs p.1).map (Prod.map σ σ) := by
  rw [List.filter_map]
  congr 1
  refine List.filter_congr fun x _ => ?_
  simp only [Function.comp_apply, Prod.map_fst, ren_has hσ]

theorem ren_initVals (hσ : Function.Injective σ) {base base' : Nat} (rvs : List Var)
    (hb : ∀ k < rvs.length, σ (base + k) = base' + k) :
    initVals base' (rvs.map σ) = (initVals base rvs).map (Prod.map σ σ) := by
  unfold initVals
  rw [← ren_update_nil hσ]
  congr 1
  rw [List.zipIdx_map, List.map_map, List.map_map]
  refine List.map_congr_left fun p hp => ?_
  have hk : p.2 < rvs.length := by
    have := List.snd_lt_of_mem_zipIdx hp
    omega
  simp only [Function.comp_apply, Prod.map_apply, Prod.map_fst, Prod.map_snd, id_eq]
  rw [hb p.2 hk]

theorem ren_mapM {A B C : Type} (f : A → Option B) (f' : C → Option B) (g : A → C) (k : B → B)
    (hf : ∀ a, f' (g a) = (f a).map k) (l : List A) : (l.map g).mapM f' = (l.mapM f).map (List.map k) := by
  induction l with
  | nil => rfl
  | cons a l ih =>
    simp only [List.map_cons, List.mapM_cons, hf, ih]
    cases f a with
    | none => rfl
    | some b =>
      cases l.mapM f <;> rfl

theorem ren_nutsArgs (hσ : Function.Injective σ) (pss : Dict Var Var) (order : List Var) :
    nutsArgs (pss.map (Prod.map σ σ)) (order.map σ) =
      (nutsArgs pss order).map fun a => (a.1.map (Prod.map σ σ), a.2.map (Prod.map σ σ)) := by
  unfold nutsArgs
  rw [ren_mapM (fun rv => (Dict.get? pss rv).map fun v => (rv, v)) _ σ (Prod.map σ σ) fun rv => by
    rw [ren_get? hσ]
    cases Dict.get? pss rv <;> rfl]
  cases order.mapM fun rv => (Dict.get? pss rv).map fun v => (rv, v) with
  | none => rfl
  | some pairs =>
    simp only [Option.map_some, Option.bind_eq_bind, Option.bind_some, Option.pure_def]
    rw [ren_update_nil hσ, ren_filter_has_fst hσ, ren_update_nil hσ]

end

end Verif.Graph
