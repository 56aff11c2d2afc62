import Verif.Graph.Rename
import Verif.Graph.Witness

/-!
# C92: the same model gives the same sampler
-/

namespace Verif.Graph

open Verif.Py

section

variable {σ : Var → Var} {τ : Node → Node} {own own' : Owner}

/-- Spec.  The second sampler is the copy of the first. -/
structure CopyOut (σ : Var → Var) (τ : Node → Node) (out out' : SamplerOut) : Prop where
  steps : out'.steps = out.steps.map (Prod.map σ σ)
  updates : out'.updates = out.updates.map (Prod.map σ σ)
  inits : out'.inits = out.inits.map (Prod.map σ σ)
  ins : ∀ n, out'.ins (τ n) = (out.ins n).map σ

theorem ren_initState (h : CopyOf σ τ own own') {ins ins' : Ins} (hi : CopyIns σ τ ins ins')
    (outs : List Var) (obs : Dict Var Var) (disc : Dict Var (List StepDesc)) {base base' : Nat}
    (hb : ∀ k < outs.length, σ (base + k) = base' + k) :
    CopyState σ τ (initState ins outs obs disc base)
      (initState ins' (outs.map σ) (obs.map (Prod.map σ σ))
        (disc.map (Prod.map σ (List.map (StepDesc.ren σ)))) base') := by
  refine ⟨hi, rfl, ?_, rfl, rfl⟩
  simp only [initState]
  rw [ren_filter_has h.inj, ren_initVals h.inj _ fun k hk => hb k (Nat.lt_of_lt_of_le hk (List.length_filter_le _ _)),
    ren_update h.inj]

/-- The end of `construct_sampler`, after NUTS (`/repo/aemcmc/basic.py:121-130`). -/
theorem ren_finish (h : CopyOf σ τ own own') {obs newToOld pss upd inits : Dict Var Var} {ins ins' : Ins}
    (hi : CopyIns σ τ ins ins') :
    Option.Rel (CopyOut σ τ)
      (do
        let steps ← (pss.filter fun p => !obs.has p.1).mapM fun p =>
          (newToOld.get? p.1).map fun old => (old, p.2)
        let inits' ← inits.mapM fun p => (newToOld.get? p.1).map fun old => (old, p.2)
        return { steps := Dict.update [] steps, updates := upd, inits := Dict.update [] inits', ins := ins })
      (do
        let steps ← ((pss.map (Prod.map σ σ)).filter fun p => !Dict.has (obs.map (Prod.map σ σ)) p.1).mapM
          fun p => (Dict.get? (newToOld.map (Prod.map σ σ)) p.1).map fun old => (old, p.2)
        let inits' ← (inits.map (Prod.map σ σ)).mapM fun p =>
          (Dict.get? (newToOld.map (Prod.map σ σ)) p.1).map fun old => (old, p.2)
        return { steps := Dict.update [] steps, updates := upd.map (Prod.map σ σ)
                 inits := Dict.update [] inits', ins := ins' }) := by
  have hm : ∀ p : Var × Var,
      ((Dict.get? (newToOld.map (Prod.map σ σ)) (Prod.map σ σ p).1).map fun old => (old, (Prod.map σ σ p).2)) =
        ((Dict.get? newToOld p.1).map fun old => (old, p.2)).map (Prod.map σ σ) := fun p => by
    rw [Prod.map_fst, ren_get? h.inj]
    cases Dict.get? newToOld p.1 <;> rfl
  rw [ren_filter_has_fst h.inj,
    ren_mapM (fun p => (Dict.get? newToOld p.1).map fun old => (old, p.2)) _ (Prod.map σ σ) (Prod.map σ σ) hm,
    ren_mapM (fun p => (Dict.get? newToOld p.1).map fun old => (old, p.2)) _ (Prod.map σ σ) (Prod.map σ σ) hm]
  cases (pss.filter fun p => !obs.has p.1).mapM fun p => (newToOld.get? p.1).map fun old => (old, p.2) with
  | none => exact .none
  | some steps =>
    cases inits.mapM fun p => (newToOld.get? p.1).map fun old => (old, p.2) with
    | none => exact .none
    | some inits' => exact .some ⟨ren_update_nil h.inj _, rfl, ren_update_nil h.inj _, hi⟩

/-- **C92.** Two copies of a model, which may lie in memory beside other objects, get samplers that are copies of
each other: the same steps, updates and initial values, for the corresponding variables and in the same
order; or `construct_sampler` raises for both.  The set of the variables left to NUTS has to be iterated over
in the same order in both runs, and NUTS has to treat copies as copies. -/
theorem C92_same_sampler (h : CopyOf σ τ own own') {ins ins' : Ins} (hi : CopyIns σ τ ins ins')
    (outs : List Var) (obs newToOld : Dict Var Var) (disc : Dict Var (List StepDesc)) {base base' : Nat}
    (hb : ∀ k < outs.length, σ (base + k) = base' + k) {order order' : List Var → List Var}
    (ho : ∀ l, order' (l.map σ) = (order l).map σ)
    {nuts nuts' : Dict Var Var → Dict Var Var → NutsResult}
    (hns : ∀ a b, (nuts' (a.map (Prod.map σ σ)) (b.map (Prod.map σ σ))).steps =
      (nuts a b).steps.map (Prod.map σ σ))
    (hnu : ∀ a b, (nuts' (a.map (Prod.map σ σ)) (b.map (Prod.map σ σ))).updates =
      (nuts a b).updates.map (Prod.map σ σ)) :
    Option.Rel (CopyOut σ τ) (constructSampler own ins outs obs newToOld disc base order nuts)
      (constructSampler own' ins' (outs.map σ) (obs.map (Prod.map σ σ)) (newToOld.map (Prod.map σ σ))
        (disc.map (Prod.map σ (List.map (StepDesc.ren σ)))) base' order' nuts') := by
  have hst := ren_loop h (obs := obs) outs (ren_initState h hi outs obs disc hb)
  have hinit : initVals base' ((outs.map σ).filter fun rv => !Dict.has (obs.map (Prod.map σ σ)) rv) =
      (initVals base (outs.filter fun rv => !Dict.has obs rv)).map (Prod.map σ σ) := by
    rw [ren_filter_has h.inj, ren_initVals h.inj _ fun k hk => hb k (Nat.lt_of_lt_of_le hk (List.length_filter_le _ _))]
  unfold constructSampler afterNuts
  simp only [hinit]
  rw [hst.pss, hst.upd, hst.rest, ho]
  by_cases hr : (loop own obs (initState ins outs obs disc base) outs).rest = []
  · rw [if_pos hr, if_pos (by rw [hr]; rfl)]
    exact ren_finish h hst.ins
  · rw [if_neg hr, if_neg (by rwa [List.map_eq_nil_iff]), ren_nutsArgs h.inj]
    cases nutsArgs (loop own obs (initState ins outs obs disc base) outs).pss
        (order (loop own obs (initState ins outs obs disc base) outs).rest) with
    | none => exact .none
    | some a =>
      simp only [Option.map_some, Option.bind_eq_bind, Option.bind_some]
      rw [hns, hnu, ren_update h.inj, ren_update h.inj]
      exact ren_finish h hst.ins

/-- **C92, closed-form samplers.** When every unobserved variable has a closed-form step, nothing else has to be
assumed of the two runs. -/
theorem C92_closed_form (h : CopyOf σ τ own own') {ins ins' : Ins} (hi : CopyIns σ τ ins ins')
    {outs : List Var} (hn : outs.Nodup) (obs newToOld : Dict Var Var) {disc : Dict Var (List StepDesc)}
    (hd : ∀ r ∈ outs, r ∈ obs.keys ∨ ∃ steps, disc.get? r = some steps ∧ steps ≠ []) {base base' : Nat}
    (hb : ∀ k < outs.length, σ (base + k) = base' + k) (order order' : List Var → List Var)
    (nuts nuts' : Dict Var Var → Dict Var Var → NutsResult) :
    Option.Rel (CopyOut σ τ) (constructSampler own ins outs obs newToOld disc base order nuts)
      (constructSampler own' ins' (outs.map σ) (obs.map (Prod.map σ σ)) (newToOld.map (Prod.map σ σ))
        (disc.map (Prod.map σ (List.map (StepDesc.ren σ)))) base' order' nuts') := by
  have hst := ren_loop h (obs := obs) outs (ren_initState h hi outs obs disc hb)
  have hinit : initVals base' ((outs.map σ).filter fun rv => !Dict.has (obs.map (Prod.map σ σ)) rv) =
      (initVals base (outs.filter fun rv => !Dict.has obs rv)).map (Prod.map σ σ) := by
    rw [ren_filter_has h.inj, ren_initVals h.inj _ fun k hk => hb k (Nat.lt_of_lt_of_le hk (List.length_filter_le _ _))]
  have hr : (loop own obs (initState ins outs obs disc base) outs).rest = [] := by
    rw [loop_rest outs _ disc hn (fun _ _ => rfl) (by simp [initState])]
    simp only [initState, List.nil_append, List.filter_eq_nil_iff, decide_eq_true_eq]
    rintro r hr ⟨h1, h2⟩
    rcases hd r hr with h3 | ⟨steps, h3, h4⟩
    · exact h1 h3
    · unfold chosen at h2
      rw [if_neg h1, h3, Option.bind_some, List.getLast?_eq_none_iff] at h2
      exact h4 h2
  unfold constructSampler afterNuts
  simp only [hinit]
  rw [hst.pss, hst.upd, hst.rest, if_pos hr, if_pos (by rw [hr]; rfl)]
  exact ren_finish h hst.ins

/-- **C92, the preparation.** The same for the observations and the table of user variables that
`construct_sampler` works with: they are those of the copy. -/
theorem C92_preparation (hσ : Function.Injective σ) (topo : List Node) {rvOut rvOut' : Node → Option Var}
    (hr : ∀ n, rvOut' (τ n) = (rvOut n).map σ) {memo memo' : Var → Option Var}
    (hm : ∀ v, memo' (σ v) = (memo v).map σ) (outs : List Var) (obs : Dict Var Var) :
    constructIr (topo.map τ) rvOut' memo' (outs.map σ) (obs.map (Prod.map σ σ)) =
      ((constructIr topo rvOut memo outs obs).1.map (Prod.map σ σ),
        (constructIr topo rvOut memo outs obs).2.map (Prod.map σ σ)) := by
  have h1 : rvOutputs (topo.map τ) rvOut' = (rvOutputs topo rvOut).map σ := by
    unfold rvOutputs
    rw [List.filterMap_map, ← List.filterMap_eq_map, List.filterMap_filterMap]
    refine List.filterMap_congr fun n _ => ?_
    rw [Function.comp_apply, hr]
    cases rvOut n <;> rfl
  unfold constructIr
  rw [h1, List.zip_map, ← ren_update_nil hσ, ← ren_update_nil hσ, List.map_map, List.map_map, List.map_map,
    List.map_map]
  congr 2
  refine List.map_congr_left fun p _ => ?_
  simp only [Function.comp_apply, Prod.map_apply, Prod.map_fst, Prod.map_snd, hm]
  cases memo p.1 <;> rfl

end

/-! ## Model A and a copy of it in the same memory -/

theorem shift_lt (v : ℕ) : ¬ 1000 + v < 1000 := by omega
theorem shift_base (k : ℕ) : 1000 + (7 + k) = 1007 + k := by omega
theorem shift_le (v : ℕ) : 1020 ≤ 1000 + v ↔ 20 ≤ v := by omega
theorem shift_sub {v : ℕ} (h : 20 ≤ v) : 1000 + v - 20 = 1000 + (v - 20) := by omega
theorem shift_inj : Function.Injective fun v : ℕ => 1000 + v := fun _ _ h => Nat.add_left_cancel h

/-- Model A at `0`, `1`, … and its copy at `1000`, `1001`, …. -/
def ownA2 : Owner := fun v => if v < 1000 then ownA v else (ownA (v - 1000)).map (Prod.map (1000 + ·) id)
/-- The heap with both models. -/
def insA2 : Ins := fun n => if n < 1000 then insA n else (insA (n - 1000)).map (1000 + ·)

theorem copyA : CopyOf (1000 + ·) (1000 + ·) ownA ownA2 :=
  ⟨shift_inj, shift_inj, fun v => by
    unfold ownA2
    rw [if_neg (shift_lt v), Nat.add_sub_cancel_left]⟩

theorem copyInsA : CopyIns (1000 + ·) (1000 + ·) insA insA2 := fun n => by
  unfold insA2
  rw [if_neg (shift_lt n), Nat.add_sub_cancel_left]

/-- The copy gets the copied sampler. -/
example : Option.Rel (CopyOut (1000 + ·) (1000 + ·))
    (constructSampler ownA insA [0, 1, 2] obsA n2oA discA 7 id nutsT)
    (constructSampler ownA2 insA2 [1000, 1001, 1002] [(1002, 1006)] [(1000, 1020), (1001, 1021), (1002, 1022)]
      [(1000, [⟨0, 1004, none⟩]), (1001, [⟨0, 1004, none⟩, ⟨1, 1005, none⟩])] 1007 List.reverse nutsT) :=
  C92_closed_form copyA copyInsA (outs := [0, 1, 2]) (by decide) obsA n2oA (disc := discA)
    (fun r hr => by
      simp only [List.mem_cons, List.not_mem_nil, or_false] at hr
      rcases hr with rfl | rfl | rfl
      · exact Or.inr ⟨_, rfl, by simp⟩
      · exact Or.inr ⟨_, rfl, by simp⟩
      · exact Or.inl (by simp [obsA, Dict.keys]))
    (fun k _ => shift_base k) id List.reverse nutsT nutsT

/-- A stand-in for NUTS that makes the new value of `v` from `v`. -/
def nutsPlus : Dict Var Var → Dict Var Var → NutsResult := fun a _ => ⟨a.map fun p => (p.1, p.1 + 30), []⟩

/-- With the second variable left to NUTS. -/
example : Option.Rel (CopyOut (1000 + ·) (1000 + ·))
    (constructSampler ownA insA [0, 1, 2] obsA n2oA [(0, [⟨0, 4, none⟩])] 7 id nutsPlus)
    (constructSampler ownA2 insA2 [1000, 1001, 1002] [(1002, 1006)] [(1000, 1020), (1001, 1021), (1002, 1022)]
      [(1000, [⟨0, 1004, none⟩])] 1007 id nutsPlus) :=
  C92_same_sampler copyA copyInsA [0, 1, 2] obsA n2oA [(0, [⟨0, 4, none⟩])] (fun k _ => shift_base k)
    (order := id) (order' := id) (nuts := nutsPlus)
    (nuts' := nutsPlus) (fun _ => rfl) (fun a b => by
      refine (List.map_map ..).trans ((List.map_congr_left fun p _ => ?_).trans (List.map_map ..).symm)
      exact Prod.ext rfl (Nat.add_assoc 1000 p.1 30)) fun _ _ => rfl

/-- Two user variables of a copied model, one of them observed. -/
example : constructIr [1000, 1001] (fun n => if 1000 ≤ n then some (n + 20) else none)
      (fun v => if 1020 ≤ v then some (v - 20) else none) [1000, 1001] [(1021, 1006)] =
    (((constructIr [0, 1] (fun n => some (n + 20)) (fun v => if 20 ≤ v then some (v - 20) else none) [0, 1]
        [(21, 6)]).1.map (Prod.map (1000 + ·) (1000 + ·))),
      (constructIr [0, 1] (fun n => some (n + 20)) (fun v => if 20 ≤ v then some (v - 20) else none) [0, 1]
        [(21, 6)]).2.map (Prod.map (1000 + ·) (1000 + ·))) :=
  C92_preparation (σ := (1000 + ·)) (τ := (1000 + ·)) shift_inj [0, 1]
    (fun n => by simp [Nat.add_assoc]) (fun v => by
      by_cases hv : 20 ≤ v
      · rw [if_pos hv, if_pos ((shift_le v).2 hv), Option.map_some, shift_sub hv]
      · rw [if_neg hv, if_neg fun h => hv ((shift_le v).1 h), Option.map_none]) [0, 1] [(21, 6)]

end Verif.Graph
