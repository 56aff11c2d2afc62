import Verif.Graph.RenameProps
import Verif.Graph.Eval

/-!
# C92 and C93: the values computed by two copies of a sampler, and data given late
-/

namespace Verif.Graph

open Verif.Py

variable {σ : Var → Var} {τ : Node → Node} {own own' : Owner} {Val : Type}
  {sem sem' : Node → Nat → List Val → Val} {given given' : Var → Option Val} {ins ins' : Ins}

mutual
theorem Ev.ren (h : CopyOf σ τ own own') (hi : CopyIns σ τ ins ins') (hs : ∀ n, sem' (τ n) = sem n)
    (hg : ∀ v, given' (σ v) = given v) : ∀ {v : Var} {x : Val}, Ev own sem given ins v x →
      Ev own' sem' given' ins' (σ v) x
  | v, x, .given e => .given ((hg v).trans e)
  | v, _, @Ev.node _ _ _ _ _ _ n i xs e1 e2 e3 => by
    rw [← hs n]
    refine .node ((hg v).trans e1) (by rw [h.own, e2]; rfl) ?_
    rw [hi n]
    exact EvL.ren h hi hs hg e3
theorem EvL.ren (h : CopyOf σ τ own own') (hi : CopyIns σ τ ins ins') (hs : ∀ n, sem' (τ n) = sem n)
    (hg : ∀ v, given' (σ v) = given v) : ∀ {vs : List Var} {xs : List Val}, EvL own sem given ins vs xs →
      EvL own' sem' given' ins' (vs.map σ) xs
  | _, _, .nil => .nil
  | _, _, .cons e1 e2 => .cons (Ev.ren h hi hs hg e1) (EvL.ren h hi hs hg e2)
end

mutual
theorem Ev.of_ren (h : CopyOf σ τ own own') (hi : CopyIns σ τ ins ins') (hs : ∀ n, sem' (τ n) = sem n)
    (hg : ∀ v, given' (σ v) = given v) : ∀ {w : Var} {x : Val}, Ev own' sem' given' ins' w x →
      ∀ v, w = σ v → Ev own sem given ins v x
  | _, _, .given e, v, hv => .given (by rw [← hg v, ← hv, e])
  | _, _, @Ev.node _ _ _ _ _ w n' i xs e1 e2 e3, v, hv => by
    have e2' := e2
    rw [hv, h.own] at e2'
    obtain ⟨⟨n, j⟩, hn, he⟩ := Option.map_eq_some_iff.1 e2'
    have hn' : τ n = n' := congrArg Prod.fst he
    have hj : j = i := congrArg Prod.snd he
    have e4 := EvL.of_ren h hi hs hg e3 (ins n) (by rw [← hn', hi n])
    rw [← hn', hs n]
    exact .node ((hg v).symm.trans (by rw [← hv]; exact e1)) (by rw [hn, hj]) e4
theorem EvL.of_ren (h : CopyOf σ τ own own') (hi : CopyIns σ τ ins ins') (hs : ∀ n, sem' (τ n) = sem n)
    (hg : ∀ v, given' (σ v) = given v) : ∀ {ws : List Var} {xs : List Val}, EvL own' sem' given' ins' ws xs →
      ∀ vs, ws = vs.map σ → EvL own sem given ins vs xs
  | _, _, .nil, vs, hv => by
    rw [List.map_eq_nil_iff.1 hv.symm]
    exact .nil
  | _, _, .cons e1 e2, [], hv => by cases hv
  | _, _, .cons e1 e2, v :: vs, hv => by
    obtain ⟨h1, h2⟩ := List.cons.inj hv
    exact .cons (Ev.of_ren h hi hs hg e1 v h1) (EvL.of_ren h hi hs hg e2 vs h2)
end

/-- A variable and its copy have the same values. -/
theorem ev_ren_iff (h : CopyOf σ τ own own') (hi : CopyIns σ τ ins ins') (hs : ∀ n, sem' (τ n) = sem n)
    (hg : ∀ v, given' (σ v) = given v) (v : Var) (x : Val) :
    Ev own' sem' given' ins' (σ v) x ↔ Ev own sem given ins v x :=
  ⟨fun e => Ev.of_ren h hi hs hg e v rfl, Ev.ren h hi hs hg⟩

/-- Spec.  `x` is the new value that the sampler computes for the user's variable `v`. -/
def NewValue (own : Owner) (sem : Node → Nat → List Val → Val) (given : Var → Option Val) (out : SamplerOut)
    (v : Var) (x : Val) : Prop := ∃ s, out.steps.get? v = some s ∧ Ev own sem given out.ins s x

/-- Spec.  `x` is the new state of the random number generator `g`. -/
def NewState (own : Owner) (sem : Node → Nat → List Val → Val) (given : Var → Option Val) (out : SamplerOut)
    (g : Var) (x : Val) : Prop := ∃ s, out.updates.get? g = some s ∧ Ev own sem given out.ins s x

/-- **C92, values.** Two samplers that are copies of each other compute the same values for corresponding variables,
and the same new states for corresponding random number generators, when run from the same values. -/
theorem C92_same_values (h : CopyOf σ τ own own') {out out' : SamplerOut} (ho : CopyOut σ τ out out')
    (hs : ∀ n, sem' (τ n) = sem n) (hg : ∀ v, given' (σ v) = given v) (v : Var) (x : Val) :
    (NewValue own' sem' given' out' (σ v) x ↔ NewValue own sem given out v x) ∧
    (NewState own' sem' given' out' (σ v) x ↔ NewState own sem given out v x) := by
  unfold NewValue NewState
  rw [ho.steps, ho.updates, ren_get? h.inj, ren_get? h.inj]
  constructor
  all_goals
    constructor
    · rintro ⟨s', h1, h2⟩
      obtain ⟨s, h3, rfl⟩ := Option.map_eq_some_iff.1 h1
      exact ⟨s, h3, (ev_ren_iff h ho.ins hs hg s x).1 h2⟩
    · rintro ⟨s, h1, h2⟩
      exact ⟨σ s, by rw [h1]; rfl, (ev_ren_iff h ho.ins hs hg s x).2 h2⟩

/-- Spec.  The variable occurs in the model, in the steps found for it, or is made by `construct_sampler`. -/
def Occurs (own : Owner) (ins : Ins) (outs : List Var) (keys : List Var) (newToOld : Dict Var Var)
    (disc : Dict Var (List StepDesc)) (base : Nat) (v : Var) : Prop :=
  own v ≠ none ∨ (∃ n, v ∈ ins n) ∨ v ∈ outs ∨ v ∈ keys ∨ (∃ p ∈ newToOld, v = p.1 ∨ v = p.2) ∨
    (∃ p ∈ disc, v = p.1 ∨ ∃ sd ∈ p.2, v = sd.step ∨ ∃ us, sd.updates = some us ∧ ∃ u ∈ us, v = u.1 ∨ v = u.2) ∨
    ∃ k < outs.length, v = base + k

section

variable {outs : List Var} {obs newToOld : Dict Var Var} {disc : Dict Var (List StepDesc)} {base : Nat}

theorem map_fix {α : Type} {f : α → α} {l : List α} (h : ∀ a ∈ l, f a = a) : l.map f = l := by
  conv_rhs => rw [← List.map_id l]
  exact List.map_congr_left h

theorem occurs_fixed (hm : ∀ v, Occurs own ins outs obs.keys newToOld disc base v → σ v = v) :
    (∀ n, (ins n).map σ = ins n) ∧ outs.map σ = outs ∧ obs.map (Prod.map σ σ) = obs.map (Prod.map id σ) ∧
      newToOld.map (Prod.map σ σ) = newToOld ∧
      disc.map (Prod.map σ (List.map (StepDesc.ren σ))) = disc ∧ ∀ k < outs.length, σ (base + k) = base + k := by
  refine ⟨fun n => map_fix fun v hv => hm v (Or.inr (Or.inl ⟨n, hv⟩)),
    map_fix fun v hv => hm v (Or.inr (Or.inr (Or.inl hv))), ?_, ?_, ?_,
    fun k hk => hm _ (Or.inr (Or.inr (Or.inr (Or.inr (Or.inr (Or.inr ⟨k, hk, rfl⟩))))))⟩
  · refine List.map_congr_left fun p hp => Prod.ext ?_ rfl
    exact hm p.1 (Or.inr (Or.inr (Or.inr (Or.inl (List.mem_map_of_mem hp)))))
  · refine map_fix fun p hp => Prod.ext ?_ ?_
    · exact hm p.1 (Or.inr (Or.inr (Or.inr (Or.inr (Or.inl ⟨p, hp, Or.inl rfl⟩)))))
    · exact hm p.2 (Or.inr (Or.inr (Or.inr (Or.inr (Or.inl ⟨p, hp, Or.inr rfl⟩)))))
  · have hd : ∀ {v}, (∃ p ∈ disc, v = p.1 ∨ ∃ sd ∈ p.2, v = sd.step ∨ ∃ us, sd.updates = some us ∧
        ∃ u ∈ us, v = u.1 ∨ v = u.2) → σ v = v := fun h =>
      hm _ (Or.inr (Or.inr (Or.inr (Or.inr (Or.inr (Or.inl h))))))
    refine map_fix fun p hp => Prod.ext (hd ⟨p, hp, Or.inl rfl⟩) (map_fix fun sd hsd => ?_)
    obtain ⟨name, step, ups⟩ := sd
    unfold StepDesc.ren
    rw [StepDesc.mk.injEq]
    refine ⟨rfl, hd ⟨p, hp, Or.inr ⟨_, hsd, Or.inl rfl⟩⟩, ?_⟩
    cases ups with
    | none => rfl
    | some us =>
      refine congrArg some (map_fix fun u hu => Prod.ext ?_ ?_)
      · exact hd ⟨p, hp, Or.inr ⟨_, hsd, Or.inr ⟨us, rfl, u, hu, Or.inl rfl⟩⟩⟩
      · exact hd ⟨p, hp, Or.inr ⟨_, hsd, Or.inr ⟨us, rfl, u, hu, Or.inr rfl⟩⟩⟩

theorem copyOf_occurs (hσ : Function.Injective σ)
    (hm : ∀ v, Occurs own ins outs obs.keys newToOld disc base v → σ v = v) : CopyOf σ id own own := by
  refine ⟨hσ, fun _ _ h => h, fun v => ?_⟩
  have e : Option.map (Prod.map (id : Node → Node) (id : Nat → Nat)) (own v) = own v := by
    cases own v <;> rfl
  rw [e]
  by_cases hv : own v = none
  · rw [hv]
    by_contra hn
    have := hm _ (Or.inl hn : Occurs own ins outs obs.keys newToOld disc base (σ v))
    rw [hσ this] at hn
    exact hn hv
  · rw [hm v (Or.inl hv)]

theorem rel_mono {α : Type} {R S : α → α → Prop} (h : ∀ a b, R a b → S a b) {x y : Option α} :
    Option.Rel R x y → Option.Rel S x y
  | .none => .none
  | .some r => .some (h _ _ r)

theorem data_out (hc : CopyOf σ id own own) {out out' : SamplerOut} (ho : CopyOut σ id out out') {Val : Type}
    (sem : Node → Nat → List Val → Val) (given given' : Var → Option Val) (hg : ∀ v, given' (σ v) = given v)
    (v : Var) (x : Val) (hv : σ v = v) :
    (NewValue own sem given' out' v x ↔ NewValue own sem given out v x) ∧
    (NewState own sem given' out' v x ↔ NewState own sem given out v x) := by
  have := C92_same_values (sem := sem) (sem' := sem) hc ho (fun _ => rfl) hg v x
  rwa [hv] at this

/-- **C93.** A sampler of closed-form steps built with some variables in the place of the data, and one built with
others (`σ` of the first: other placeholders, constants, shared variables), where neither occur in the model.
Either both calls of `construct_sampler` raise, or both return, and whenever the two kinds of variables are given
the same values, the samplers compute the same new values of all variables and the same new states of all
random number generators. -/
theorem C93_data (hσ : Function.Injective σ)
    (hm : ∀ v, Occurs own ins outs obs.keys newToOld disc base v → σ v = v) (hn : outs.Nodup)
    (hd : ∀ r ∈ outs, r ∈ obs.keys ∨ ∃ steps, disc.get? r = some steps ∧ steps ≠ [])
    (order order' : List Var → List Var) (nuts nuts' : Dict Var Var → Dict Var Var → NutsResult) :
    Option.Rel (fun out out' => ∀ {Val : Type} (sem : Node → Nat → List Val → Val) (given given' : Var → Option Val),
        (∀ v, given' (σ v) = given v) → ∀ v x, σ v = v →
          (NewValue own sem given' out' v x ↔ NewValue own sem given out v x) ∧
          (NewState own sem given' out' v x ↔ NewState own sem given out v x))
      (constructSampler own ins outs obs newToOld disc base order nuts)
      (constructSampler own ins outs (obs.map (Prod.map id σ)) newToOld disc base order' nuts') := by
  have hc := copyOf_occurs hσ hm
  obtain ⟨h1, h2, h3, h4, h5, h6⟩ := occurs_fixed hm
  have := C92_closed_form hc (ins := ins) (ins' := ins) (fun n => (h1 n).symm) hn obs newToOld hd h6
    order order' nuts nuts'
  rw [h2, h3, h4, h5] at this
  refine rel_mono (R := CopyOut σ id) ?_ this
  intro out out' ho Val sem given given' hg v x hv
  exact data_out hc ho sem given given' hg v x hv

/-- **C93, with NUTS.** The same when some variables are left to NUTS, provided that the topological order and the
NUTS step do not look at which variables hold the data. -/
theorem C93_data_nuts (hσ : Function.Injective σ)
    (hm : ∀ v, Occurs own ins outs obs.keys newToOld disc base v → σ v = v)
    {order : List Var → List Var} {nuts : Dict Var Var → Dict Var Var → NutsResult}
    (ho : ∀ l, order (l.map σ) = (order l).map σ)
    (hns : ∀ a b, (nuts (a.map (Prod.map σ σ)) (b.map (Prod.map σ σ))).steps = (nuts a b).steps.map (Prod.map σ σ))
    (hnu : ∀ a b, (nuts (a.map (Prod.map σ σ)) (b.map (Prod.map σ σ))).updates =
      (nuts a b).updates.map (Prod.map σ σ)) :
    Option.Rel (fun out out' => ∀ {Val : Type} (sem : Node → Nat → List Val → Val) (given given' : Var → Option Val),
        (∀ v, given' (σ v) = given v) → ∀ v x, σ v = v →
          (NewValue own sem given' out' v x ↔ NewValue own sem given out v x) ∧
          (NewState own sem given' out' v x ↔ NewState own sem given out v x))
      (constructSampler own ins outs obs newToOld disc base order nuts)
      (constructSampler own ins outs (obs.map (Prod.map id σ)) newToOld disc base order nuts) := by
  have hc := copyOf_occurs hσ hm
  obtain ⟨h1, h2, h3, h4, h5, h6⟩ := occurs_fixed hm
  have := C92_same_sampler hc (ins := ins) (ins' := ins) (fun n => (h1 n).symm) outs obs newToOld disc h6
    ho hns hnu
  rw [h2, h3, h4, h5] at this
  refine rel_mono (R := CopyOut σ id) ?_ this
  intro out out' ho Val sem given given' hg v x hv
  exact data_out hc ho sem given given' hg v x hv

end

/-! ### Model A of `Verif/Graph/Witness.lean`, with its data in variable 6 or in variable 30 -/

/-- Exchanges the placeholder 6 and the constant 30. -/
def swapA : Var → Var := fun v => if v = 6 then 30 else if v = 30 then 6 else v

theorem swapA_fix {v : ℕ} (h1 : v ≠ 6) (h2 : v ≠ 30) : swapA v = v := by
  unfold swapA
  rw [if_neg h1, if_neg h2]

theorem swapA_swapA (v : ℕ) : swapA (swapA v) = v := by
  by_cases h1 : v = 6
  · subst h1; rfl
  by_cases h2 : v = 30
  · subst h2; rfl
  rw [swapA_fix h1 h2, swapA_fix h1 h2]

theorem swapA_inj : Function.Injective swapA := Function.LeftInverse.injective (g := swapA) swapA_swapA

theorem mem_insA {v : ℕ} {n : Node} (h : v ∈ insA n) : v ≤ 2 := by
  have : ∀ l : List (Node × List Var), (∀ p ∈ l, ∀ w ∈ p.2, (w : ℕ) ≤ 2) → ∀ w ∈ insT l n, (w : ℕ) ≤ 2 := by
    intro l hl w hw
    unfold insT at hw
    cases hg : Dict.get? l n with
    | none => rw [hg] at hw; simp at hw
    | some x =>
      rw [hg] at hw
      exact hl (n, x) (Dict.mem_of_get? _ _ _ hg) w hw
  exact this _ (by decide) v h

theorem ownA_le {v : ℕ} (h : ownA v ≠ none) : v ≤ 5 := by
  have h1 : v ∈ ([0, 1, 2, 4, 5] : List ℕ) := by
    by_contra hv
    exact h ((Dict.get?_eq_none_iff _ _).2 hv)
  have : ∀ w ∈ ([0, 1, 2, 4, 5] : List ℕ), w ≤ 5 := by decide
  exact this v h1

theorem le5 {w : ℕ} (h : w ≤ 5) : w ≠ 6 ∧ w ≠ 30 := by omega

theorem occursA {disc : Dict Var (List StepDesc)} (hd : ∀ p ∈ disc, (p.1 : ℕ) ≤ 5 ∧
    ∀ sd ∈ p.2, (sd.step : ℕ) ≤ 5 ∧ sd.updates = none) {v : ℕ}
    (h : Occurs ownA insA [0, 1, 2] obsA.keys n2oA disc 7 v) : swapA v = v := by
  have : v ≠ 6 ∧ v ≠ 30 := by
    rcases h with h | ⟨n, h⟩ | h | h | ⟨p, hp, h⟩ | ⟨p, hp, h⟩ | ⟨k, hk, h⟩
    · have := ownA_le h
      omega
    · have := mem_insA h
      omega
    · have : ∀ w ∈ ([0, 1, 2] : List ℕ), w ≠ 6 ∧ w ≠ 30 := by decide
      exact this v h
    · have : ∀ w ∈ ([2] : List ℕ), w ≠ 6 ∧ w ≠ 30 := by decide
      exact this v h
    · have : ∀ q ∈ ([(0, 20), (1, 21), (2, 22)] : List (ℕ × ℕ)), (q.1 ≠ 6 ∧ q.1 ≠ 30) ∧ q.2 ≠ 6 ∧ q.2 ≠ 30 := by
        decide
      rcases h with h | h
      · rw [h]; exact (this p hp).1
      · rw [h]; exact (this p hp).2
    · obtain ⟨h1, h2⟩ := hd p hp
      rcases h with h | ⟨sd, hsd, h | ⟨us, h, -⟩⟩
      · rw [h]; exact le5 h1
      · rw [h]; exact le5 (h2 sd hsd).1
      · rw [(h2 sd hsd).2] at h; cases h
    · have h' : v = 7 + k := h
      have hk' : k < 3 := hk
      omega
  exact swapA_fix this.1 this.2

/-- The data of model A in variable 6 or in variable 30: the same new values from the same data. -/
example : Option.Rel (fun out out' => ∀ {Val : Type} (sem : Node → Nat → List Val → Val)
      (given given' : Var → Option Val), (∀ v, given' (swapA v) = given v) → ∀ v x, swapA v = v →
        (NewValue ownA sem given' out' v x ↔ NewValue ownA sem given out v x) ∧
        (NewState ownA sem given' out' v x ↔ NewState ownA sem given out v x))
    (constructSampler ownA insA [0, 1, 2] [(2, 6)] n2oA discA 7 id nutsT)
    (constructSampler ownA insA [0, 1, 2] [(2, 30)] n2oA discA 7 id nutsT) :=
  C93_data (σ := swapA) (obs := obsA) swapA_inj (fun v => occursA (by decide)) (by decide)
    (fun r hr => by
      simp only [List.mem_cons, List.not_mem_nil, or_false] at hr
      rcases hr with rfl | rfl | rfl
      · exact Or.inr ⟨_, rfl, by simp⟩
      · exact Or.inr ⟨_, rfl, by simp⟩
      · exact Or.inl (by simp [obsA, Dict.keys])) id id nutsT nutsT

/-- With the second variable left to a NUTS step that stays where it is. -/
example : Option.Rel (fun out out' => ∀ {Val : Type} (sem : Node → Nat → List Val → Val)
      (given given' : Var → Option Val), (∀ v, given' (swapA v) = given v) → ∀ v x, swapA v = v →
        (NewValue ownA sem given' out' v x ↔ NewValue ownA sem given out v x) ∧
        (NewState ownA sem given' out' v x ↔ NewState ownA sem given out v x))
    (constructSampler ownA insA [0, 1, 2] [(2, 6)] n2oA [(0, [⟨0, 4, none⟩])] 7 id fun a _ => ⟨a, []⟩)
    (constructSampler ownA insA [0, 1, 2] [(2, 30)] n2oA [(0, [⟨0, 4, none⟩])] 7 id fun a _ => ⟨a, []⟩) :=
  C93_data_nuts (σ := swapA) (obs := obsA) (nuts := fun a _ => ⟨a, []⟩) swapA_inj (fun v => occursA (by decide))
    (fun _ => rfl) (fun _ _ => rfl) fun _ _ => rfl

/-- Both samplers of model A exist and have a step for variable 20. -/
example : ∃ out out', constructSampler ownA insA [0, 1, 2] [(2, 6)] n2oA discA 7 id nutsT = some out ∧
    constructSampler ownA insA [0, 1, 2] [(2, 30)] n2oA discA 7 id nutsT = some out' ∧
    out.steps.get? 20 = out'.steps.get? 20 ∧ out.steps.get? 20 ≠ none :=
  ⟨_, _, rfl, rfl, rfl, by decide⟩

/-- The copy of model A computes what model A computes. -/
example : ∃ out out', constructSampler ownA insA [0, 1, 2] obsA n2oA discA 7 id nutsT = some out ∧
    constructSampler ownA2 insA2 [1000, 1001, 1002] [(1002, 1006)] [(1000, 1020), (1001, 1021), (1002, 1022)]
      [(1000, [⟨0, 1004, none⟩]), (1001, [⟨0, 1004, none⟩, ⟨1, 1005, none⟩])] 1007 List.reverse nutsT = some out' ∧
    ∀ (sem : Node → Nat → List ℕ → ℕ) (given : Var → Option ℕ) (v : Var) (x : ℕ),
      NewValue ownA2 (fun n => sem (n - 1000)) (fun v => given (v - 1000)) out' (1000 + v) x ↔
        NewValue ownA sem given out v x := by
  have hr := C92_closed_form copyA copyInsA (outs := [0, 1, 2]) (by decide) obsA n2oA (disc := discA)
    (fun r hr => by
      simp only [List.mem_cons, List.not_mem_nil, or_false] at hr
      rcases hr with rfl | rfl | rfl
      · exact Or.inr ⟨_, rfl, by simp⟩
      · exact Or.inr ⟨_, rfl, by simp⟩
      · exact Or.inl (by simp [obsA, Dict.keys]))
    (fun k _ => shift_base k) id List.reverse nutsT nutsT
  refine ⟨_, _, rfl, rfl, fun sem given v x => (C92_same_values copyA ?_ ?_ ?_ v x).1⟩
  · exact Option.rel_some_some.1 hr
  · exact fun n => congrArg sem (Nat.add_sub_cancel_left ..)
  · exact fun n => congrArg given (Nat.add_sub_cancel_left ..)

end Verif.Graph
