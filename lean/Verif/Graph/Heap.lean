import Verif.Graph.Model

/-!
# Lemmas about in-place replacement
-/

namespace Verif.Graph

open Verif.Py

/-- Spec.  Nothing in `D` is an ancestor of `v`. -/
def Closed (own : Owner) (D : Var → Prop) (ins : Ins) (v : Var) : Prop :=
  ∀ w, Reach own ins v w → ¬ D w

variable {own : Owner} {D : Var → Prop}

theorem Closed.edge {ins : Ins} {v w : Var} (h : Closed own D ins v) (e : Edge own ins v w) :
    Closed own D ins w :=
  fun u hu => h u (Relation.ReflTransGen.head e hu)

theorem Closed.reach {ins : Ins} {v w : Var} (h : Closed own D ins v) (e : Reach own ins v w) :
    Closed own D ins w :=
  fun u hu => h u (e.trans hu)

theorem closed_of_input {ins : Ins} {v : Var} (h : own v = none) (hD : ¬ D v) :
    Closed own D ins v := by
  intro w hw
  cases hw.cases_head with
  | inl e => exact e ▸ hD
  | inr e =>
    obtain ⟨c, ⟨n, i, hn, -⟩, -⟩ := e
    rw [h] at hn
    cases hn

theorem map_sub_eq {r v : Var} {l : List Var} (h : r ∉ l) : l.map (sub r v) = l := by
  induction l with
  | nil => rfl
  | cons a l ih =>
    simp only [List.mem_cons, not_or] at h
    simp only [List.map_cons, ih h.2, sub, if_neg (Ne.symm h.1)]

/-- A node none of whose inputs is replaced keeps its inputs. -/
theorem replace_frame {s : Ins × List Var} {r v : Var} {n : Node} (h : r ∉ s.1 n) :
    (replace own s r v).1 n = s.1 n := by
  unfold replace
  dsimp only
  split_ifs
  · exact map_sub_eq h
  · rfl

theorem replaceAll_frame {ps : List (Var × Var)} : ∀ {s : Ins × List Var} {n : Node},
    (∀ p ∈ ps, p.1 ∉ s.1 n) → (replaceAll own s ps).1 n = s.1 n := by
  induction ps with
  | nil => intro s n _; rfl
  | cons p ps ih =>
    intro s n h
    obtain ⟨r, v⟩ := p
    unfold replaceAll
    have h1 : (replace own s r v).1 n = s.1 n := replace_frame (h (r, v) (by simp))
    rw [ih, h1]
    intro q hq
    rw [h1]
    exact h q (by simp [hq])

/-- The graph of a closed variable is not touched. -/
theorem reach_congr_of_closed {ins ins' : Ins}
    (hf : ∀ n, (∀ w ∈ ins n, ¬ D w) → ins' n = ins n) {v : Var} (h : Closed own D ins v) (w : Var) :
    Reach own ins' v w ↔ Reach own ins v w := by
  have key : ∀ u, Closed own D ins u → ∀ x, Edge own ins' u x ↔ Edge own ins u x := by
    intro u hu x
    constructor
    · rintro ⟨n, i, hn, hx⟩
      have : ∀ w ∈ ins n, ¬ D w := fun w hw => hu w (Relation.ReflTransGen.single ⟨n, i, hn, hw⟩)
      rw [hf n this] at hx
      exact ⟨n, i, hn, hx⟩
    · rintro ⟨n, i, hn, hx⟩
      have : ∀ w ∈ ins n, ¬ D w := fun w hw => hu w (Relation.ReflTransGen.single ⟨n, i, hn, hw⟩)
      rw [← hf n this] at hx
      exact ⟨n, i, hn, hx⟩
  constructor
  · intro hr
    induction hr with
    | refl => exact .refl
    | tail _ e ih => exact ih.tail ((key _ (h.reach ih) _).1 e)
  · intro hr
    induction hr with
    | refl => exact .refl
    | tail hr' e ih => exact ih.tail ((key _ (h.reach hr') _).2 e)

theorem closed_of_frame {ins ins' : Ins} (hf : ∀ n, (∀ w ∈ ins n, ¬ D w) → ins' n = ins n) {v : Var}
    (h : Closed own D ins v) : Closed own D ins' v :=
  fun w hw => h w ((reach_congr_of_closed hf h w).1 hw)

theorem replace_frame_D {s : Ins × List Var} {r v : Var} (hr : D r) (n : Node)
    (h : ∀ w ∈ s.1 n, ¬ D w) : (replace own s r v).1 n = s.1 n :=
  replace_frame fun hm => h r hm hr

theorem replaceAll_frame_D {ps : List (Var × Var)} (hps : ∀ p ∈ ps, D p.1) {s : Ins × List Var}
    (n : Node) (h : ∀ w ∈ s.1 n, ¬ D w) : (replaceAll own s ps).1 n = s.1 n :=
  replaceAll_frame fun p hp hm => h p.1 hm (hps p hp)

/-- After replacing `r` by a closed value, whatever is still in the graph is closed, or was there
before and is not `r`. -/
theorem reach_replace {s : Ins × List Var} {r v : Var} (hr : D r) (hv : Closed own D s.1 v)
    {o w : Var} (ho : o ∈ (replace own s r v).2) (h : Reach own (replace own s r v).1 o w) :
    Closed own D (replace own s r v).1 w ∨ ((∃ o' ∈ s.2, Reach own s.1 o' w) ∧ w ≠ r) := by
  have hv' : Closed own D (replace own s r v).1 v :=
    closed_of_frame (replace_frame_D hr) hv
  induction h with
  | refl =>
    obtain ⟨o', ho', rfl⟩ := List.mem_map.1 ho
    unfold sub
    split_ifs with e
    · exact Or.inl hv'
    · exact Or.inr ⟨⟨o', ho', .refl⟩, e⟩
  | tail _ e ih =>
    rename_i u x _
    rcases ih with hc | ⟨⟨o', ho', hu⟩, hur⟩
    · exact Or.inl (hc.edge e)
    · obtain ⟨n, i, hn, hx⟩ := e
      have hin : NodeIn own s.1 s.2 n := ⟨o', ho', u, i, hu, hn⟩
      have hx' : x ∈ (s.1 n).map (sub r v) := by
        have : (replace own s r v).1 n = (s.1 n).map (sub r v) := by
          unfold replace
          dsimp only
          rw [if_pos hin]
        rwa [this] at hx
      obtain ⟨y, hy, rfl⟩ := List.mem_map.1 hx'
      unfold sub
      split_ifs with ey
      · exact Or.inl hv'
      · exact Or.inr ⟨⟨o', ho', hu.tail ⟨n, i, hn, hy⟩⟩, ey⟩

/-- The same for a list of replacements. -/
theorem reach_replaceAll {ps : List (Var × Var)} : ∀ {s : Ins × List Var}
    (_ : ∀ p ∈ ps, D p.1 ∧ Closed own D s.1 p.2) {o w : Var}
    (_ : o ∈ (replaceAll own s ps).2) (_ : Reach own (replaceAll own s ps).1 o w),
    Closed own D (replaceAll own s ps).1 w ∨
      ((∃ o' ∈ s.2, Reach own s.1 o' w) ∧ ∀ p ∈ ps, w ≠ p.1) := by
  induction ps with
  | nil =>
    intro s _ o w ho h
    exact Or.inr ⟨⟨o, ho, h⟩, by simp⟩
  | cons p ps ih =>
    intro s hps o w ho h
    obtain ⟨r, v⟩ := p
    unfold replaceAll at ho h ⊢
    have hr := (hps (r, v) (by simp)).1
    have hv := (hps (r, v) (by simp)).2
    have hps' : ∀ p ∈ ps, D p.1 ∧ Closed own D (replace own s r v).1 p.2 := fun q hq =>
      ⟨(hps q (by simp [hq])).1, closed_of_frame (replace_frame_D hr) (hps q (by simp [hq])).2⟩
    rcases ih hps' ho h with hc | ⟨⟨o', ho', h'⟩, hne⟩
    · exact Or.inl hc
    · rcases reach_replace hr hv ho' h' with hc | ⟨ho2, hwr⟩
      · exact Or.inl (closed_of_frame (replaceAll_frame_D fun q hq => (hps' q hq).1) hc)
      · refine Or.inr ⟨ho2, fun q hq => ?_⟩
        rcases List.mem_cons.1 hq with rfl | hq
        · exact hwr
        · exact hne q hq

/-- If every variable of `D` is replaced by a closed value, the outputs become closed. -/
theorem closed_replaceAll {ps : List (Var × Var)} {s : Ins × List Var}
    (hps : ∀ p ∈ ps, D p.1 ∧ Closed own D s.1 p.2) (hall : ∀ r, D r → ∃ p ∈ ps, p.1 = r)
    {o : Var} (ho : o ∈ (replaceAll own s ps).2) : Closed own D (replaceAll own s ps).1 o := by
  intro w hw hD
  rcases reach_replaceAll hps ho hw with hc | ⟨-, hne⟩
  · exact hc w .refl hD
  · obtain ⟨p, hp, rfl⟩ := hall w hD
    exact hne p hp rfl

/-! ## What the nodes look like afterwards -/

/-- Reachable without passing through a variable of `D`. -/
inductive ReachCut (own : Owner) (D : Var → Prop) (ins : Ins) : Var → Var → Prop
  | refl {v} : ReachCut own D ins v v
  | tail {v w u n i} : ReachCut own D ins v w → ¬ D w → own w = some (n, i) → u ∈ ins n →
      ReachCut own D ins v u

/-- `n` belongs to the part of the graph of `v` before the variables of `D`. -/
def NodeCut (own : Owner) (D : Var → Prop) (ins : Ins) (v : Var) (n : Node) : Prop :=
  ∃ w i, ReachCut own D ins v w ∧ ¬ D w ∧ own w = some (n, i)

theorem ReachCut.reach {ins : Ins} {v w : Var} (h : ReachCut own D ins v w) : Reach own ins v w := by
  induction h with
  | refl => exact .refl
  | tail _ _ hn hu ih => exact ih.tail ⟨_, _, hn, hu⟩

theorem sub_of_not_D {r v w : Var} (hr : D r) (hw : ¬ D w) : sub r v w = w := by
  unfold sub
  split_ifs with e
  · exact absurd hr (e ▸ hw)
  · rfl

/-- Variables before the cut stay in the graph. -/
theorem reachCut_replace {s : Ins × List Var} {r v : Var} (hr : D r) {o w : Var} (ho : o ∈ s.2)
    (hw : ¬ D w) (h : ReachCut own D s.1 o w) :
    o ∈ (replace own s r v).2 ∧ ReachCut own D (replace own s r v).1 o w := by
  have aux : ∀ w, ReachCut own D s.1 o w → ¬ D w → ¬ D o ∧
      ReachCut own D (replace own s r v).1 o w := by
    intro w h
    induction h with
    | refl => exact fun hw => ⟨hw, .refl⟩
    | tail hc hDw hn hu ih =>
      intro hDu
      obtain ⟨hDo, hc'⟩ := ih hDw
      refine ⟨hDo, .tail hc' hDw hn ?_⟩
      rename_i w' u n i
      have hin : NodeIn own s.1 s.2 n := ⟨o, ho, w', i, hc.reach, hn⟩
      unfold replace
      dsimp only
      rw [if_pos hin]
      exact List.mem_map.2 ⟨u, hu, sub_of_not_D hr hDu⟩
  obtain ⟨hDo, hc⟩ := aux w h hw
  exact ⟨List.mem_map.2 ⟨o, ho, sub_of_not_D hr hDo⟩, hc⟩

/-- The value by which a list of pairs replaces `x`: the first pair for `x`. -/
def subAll : List (Var × Var) → Var → Var
  | [], x => x
  | (r, v) :: ps, x => if x = r then v else subAll ps x

theorem subAll_of_not_D {ps : List (Var × Var)} (hps : ∀ p ∈ ps, D p.1) {x : Var} (hx : ¬ D x) :
    subAll ps x = x := by
  induction ps with
  | nil => rfl
  | cons p ps ih =>
    obtain ⟨r, v⟩ := p
    unfold subAll
    rw [if_neg, ih fun q hq => hps q (by simp [hq])]
    rintro rfl
    exact hx (hps _ List.mem_cons_self)

theorem subAll_sub {ps : List (Var × Var)} (hps : ∀ p ∈ ps, D p.1) {r v x : Var} (hv : ¬ D v) :
    subAll ps (sub r v x) = subAll ((r, v) :: ps) x := by
  unfold sub
  conv_rhs => unfold subAll
  split_ifs
  · exact subAll_of_not_D hps hv
  · rfl

/-- Nodes before the cut have every `D` input replaced. -/
theorem replaceAll_nodeCut {ps : List (Var × Var)} : ∀ {s : Ins × List Var}
    (_ : ∀ p ∈ ps, D p.1 ∧ ¬ D p.2) {o : Var} {n : Node} (_ : o ∈ s.2)
    (_ : NodeCut own D s.1 o n), (replaceAll own s ps).1 n = (s.1 n).map (subAll ps) := by
  induction ps with
  | nil =>
    intro s _ o n _ _
    change s.1 n = _
    conv_lhs => rw [← List.map_id (s.1 n)]
    rfl
  | cons p ps ih =>
    intro s hps o n ho hn
    obtain ⟨r, v⟩ := p
    unfold replaceAll
    obtain ⟨w, i, hc, hDw, hown⟩ := hn
    have hr := (hps (r, v) (by simp)).1
    obtain ⟨ho', hc'⟩ := reachCut_replace (v := v) hr ho hDw hc
    rw [ih (fun q hq => hps q (by simp [hq])) ho' ⟨w, i, hc', hDw, hown⟩]
    have : (replace own s r v).1 n = (s.1 n).map (sub r v) := by
      unfold replace
      dsimp only
      rw [if_pos ⟨o, ho, w, i, hc.reach, hown⟩]
    rw [this, List.map_map]
    congr 1
    funext x
    exact subAll_sub (fun q hq => (hps q (by simp [hq])).1) (hps (r, v) (by simp)).2

theorem outs_replaceAll {ps : List (Var × Var)} : ∀ {s : Ins × List Var}
    (_ : ∀ p ∈ ps, D p.1 ∧ ¬ D p.2), (replaceAll own s ps).2 = s.2.map (subAll ps) := by
  induction ps with
  | nil =>
    intro s _
    change s.2 = _
    conv_lhs => rw [← List.map_id s.2]
    rfl
  | cons p ps ih =>
    intro s hps
    obtain ⟨r, v⟩ := p
    unfold replaceAll
    rw [ih fun q hq => hps q (by simp [hq])]
    change (s.2.map (sub r v)).map _ = _
    rw [List.map_map]
    congr 1
    funext x
    exact subAll_sub (fun q hq => (hps q (by simp [hq])).1) (hps (r, v) (by simp)).2

/-- Only nodes of the graph that read a variable of `D` change. -/
theorem replaceAll_changed {ps : List (Var × Var)} : ∀ {s : Ins × List Var}
    (_ : ∀ p ∈ ps, D p.1 ∧ Closed own D s.1 p.2) {n : Node}
    (_ : (replaceAll own s ps).1 n ≠ s.1 n), NodeIn own s.1 s.2 n ∧ ∃ r ∈ s.1 n, D r := by
  induction ps with
  | nil => intro s _ n h; exact absurd rfl h
  | cons p ps ih =>
    intro s hps n h
    obtain ⟨r, v⟩ := p
    have hr := (hps (r, v) (by simp)).1
    have hv := (hps (r, v) (by simp)).2
    have hD : ∃ x ∈ s.1 n, D x := by
      by_contra hno
      push Not at hno
      exact h (replaceAll_frame_D (D := D) (fun q hq => (hps q hq).1) n hno)
    refine ⟨?_, hD⟩
    by_cases h1 : (replace own s r v).1 n = s.1 n
    · have hps' : ∀ p ∈ ps, D p.1 ∧ Closed own D (replace own s r v).1 p.2 := fun q hq =>
        ⟨(hps q (by simp [hq])).1, closed_of_frame (replace_frame_D hr) (hps q (by simp [hq])).2⟩
      unfold replaceAll at h
      rw [← h1] at h
      obtain ⟨⟨o, ho, u, i, hu, hown⟩, x, hx, hDx⟩ := ih hps' h
      rcases reach_replace hr hv ho hu with hc | ⟨⟨o', ho', hu'⟩, -⟩
      · exact absurd hDx (hc x (.single ⟨n, i, hown, hx⟩))
      · exact ⟨o', ho', u, i, hu', hown⟩
    · by_contra hno
      apply h1
      unfold replace
      dsimp only
      rw [if_neg hno]

theorem forall₂_comp {α : Type} {R S : α → α → Prop} : ∀ {l₁ l₂ l₃ : List α}, List.Forall₂ R l₁ l₂ →
    List.Forall₂ S l₂ l₃ → List.Forall₂ (fun a c => ∃ b, R a b ∧ S b c) l₁ l₃
  | _, _, _, .nil, .nil => .nil
  | _, _, _, .cons h t, .cons h' t' => .cons ⟨_, h, h'⟩ (forall₂_comp t t')

/-- Position by position, an input afterwards is the old one or one of the given replacements of
it. -/
theorem replaceAll_reads {ps : List (Var × Var)} : ∀ {s : Ins × List Var}
    (_ : ∀ p ∈ ps, D p.1 ∧ ¬ D p.2) (n : Node),
    List.Forall₂ (fun a b => a = b ∨ (a, b) ∈ ps) (s.1 n) ((replaceAll own s ps).1 n) := by
  induction ps with
  | nil =>
    intro s _ n
    change List.Forall₂ _ (s.1 n) (s.1 n)
    exact List.forall₂_same.2 fun x _ => Or.inl rfl
  | cons p ps ih =>
    intro s hps n
    obtain ⟨r, v⟩ := p
    have hr := (hps (r, v) (by simp)).1
    have hv := (hps (r, v) (by simp)).2
    have ih' := ih (s := replace own s r v) (fun q hq => hps q (by simp [hq])) n
    unfold replaceAll
    have h1 : List.Forall₂ (fun a b => a = b ∨ (a = r ∧ b = v)) (s.1 n)
        ((replace own s r v).1 n) := by
      unfold replace
      dsimp only
      split_ifs
      · rw [List.forall₂_map_right_iff]
        refine List.forall₂_same.2 fun x _ => ?_
        unfold sub
        split_ifs with e
        · exact Or.inr ⟨e, rfl⟩
        · exact Or.inl rfl
      · exact List.forall₂_same.2 fun x _ => Or.inl rfl
    refine (List.Forall₂.imp ?_ (forall₂_comp h1 ih'))
    rintro a c ⟨b, hab | ⟨rfl, rfl⟩, hbc⟩
    · subst hab
      rcases hbc with h | h
      · exact Or.inl h
      · exact Or.inr (by simp [h])
    · rcases hbc with h | h
      · subst h
        exact Or.inr (by simp)
      · exact absurd (hps (b, c) (by simp [h])).1 hv

end Verif.Graph
