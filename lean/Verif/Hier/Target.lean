import Verif.Hier.Lost
import Verif.Hier.Spec
import Mathlib.Algebra.BigOperators.Ring.List
import Mathlib.Data.ENNReal.Operations

/-!
# The density NUTS is given as a function of one variable: lemmas
-/

open scoped ENNReal

namespace Verif.Graph

open Verif.Py

variable {own : Owner} {D : Var → Prop} {Val : Type} {sem : Node → Nat → List Val → Val}
  {given : Var → Option Val} {ins : Ins}

/-- What is not reached does not matter. -/
theorem EvL.congr_given {given' : Var → Option Val} {vs : List Var} {xs : List Val}
    (h : EvL own sem given ins vs xs)
    (hg : ∀ v ∈ vs, ∀ w, Reach own ins v w → given' w = given w) : EvL own sem given' ins vs xs := by
  refine EvL.rec
    (motive_1 := fun v x _ => (∀ w, Reach own ins v w → given' w = given w) →
      Ev own sem given' ins v x)
    (motive_2 := fun vs xs _ => (∀ v ∈ vs, ∀ w, Reach own ins v w → given' w = given w) →
      EvL own sem given' ins vs xs) ?_ ?_ ?_ ?_ h hg
  · intro v x e hg
    exact .given (by rw [hg v .refl]; exact e)
  · intro v n i xs e ho _ ih hg
    exact .node (by rw [hg v .refl]; exact e) ho
      (ih fun u hu w hw => hg w (.head ⟨n, i, ho, hu⟩ hw))
  · intro _
    exact .nil
  · intro v x vs xs _ _ ih1 ih2 hg
    exact .cons (ih1 fun w hw => hg v (by simp) w hw) (ih2 fun u hu => hg u (by simp [hu]))

/-- Only the nodes before the fixed variables matter. -/
theorem EvL.congr_cut {ρ : Var → Val} {ins' : Ins} {vs : List Var} {xs : List Val}
    (h : EvL own sem (over D ρ given) ins vs xs)
    (hn : ∀ v ∈ vs, ∀ n, NodeCut own D ins v n → ins' n = ins n) :
    EvL own sem (over D ρ given) ins' vs xs := by
  have key : ∀ v x, Ev own sem (over D ρ given) ins v x → (∀ n, NodeCut own D ins v n → ins' n = ins n) →
      Ev own sem (over D ρ given) ins' v x := by
    intro v x h hn
    have := Ev.subst (σ := id) (ρ := ρ) (given := over D ρ given) (ins' := ins') (D := D) (S := v)
      (fun _ _ => rfl) (fun r hr => .given (by unfold over; exact if_pos hr))
      (fun n h => by rw [hn n h]; simp) .refl
      (show Ev own sem (over D ρ (over D ρ given)) ins v x by
        have e : over D ρ (over D ρ given) = over D ρ given := by
          funext w
          unfold over
          split_ifs <;> rfl
        rw [e]
        exact h)
    exact this
  induction vs generalizing xs with
  | nil => cases h; exact .nil
  | cons v vs ih =>
    cases h with
    | cons h1 h2 =>
      exact .cons (key v _ h1 (hn v (by simp))) (ih h2 fun u hu => hn u (by simp [hu]))

theorem EvL.det {vs : List Var} {xs ys : List Val} (h : EvL own sem given ins vs xs)
    (h' : EvL own sem given ins vs ys) : xs = ys := by
  induction vs generalizing xs ys with
  | nil => cases h; cases h'; rfl
  | cons v vs ih =>
    cases h with
    | cons h1 h2 =>
      cases h' with
      | cons h1' h2' => rw [h1.det h1', ih h2 h2']

theorem ArgsOf.det {ρ : Var → Val} {r : Var} {xs ys : List Val}
    (h : ArgsOf own sem D given ins ρ r xs) (h' : ArgsOf own sem D given ins ρ r ys) : xs = ys := by
  obtain ⟨n, i, ho, h⟩ := h
  obtain ⟨m, j, ho', h'⟩ := h'
  rw [ho] at ho'
  cases ho'
  exact h.det h'

theorem over_update {ρ : Var → Val} {s w : Var} {t : Val} (h : w ≠ s) :
    over D (Function.update ρ s t) given w = over D ρ given w := by
  unfold over
  rw [Function.update_of_ne h]

/-- The value of a variable that the graph of `r` does not read is irrelevant to its arguments. -/
theorem ArgsOf.update {ρ : Var → Val} {r s : Var} {xs : List Val} {t : Val}
    (hc : Clean own ins r s) (h : ArgsOf own sem D given ins ρ r xs) :
    ArgsOf own sem D given ins (Function.update ρ s t) r xs := by
  obtain ⟨n, i, ho, h⟩ := h
  refine ⟨n, i, ho, h.congr_given fun v hv w hw => over_update ?_⟩
  rintro rfl
  rcases hw.cases_tail with e | ⟨c, hc', e⟩
  · exact hc r .refl ⟨n, i, ho, e ▸ hv⟩
  · exact hc c (.head ⟨n, i, ho, hv⟩ hc') e

/-- As a function of such a variable the joint density is its own density times a constant. -/
theorem JointDens.update {ρ : Var → Val} {dens : Var → List Val → Val → ℝ≥0∞} {outs : List Var}
    {s : Var} {xs : List Val} (hn : outs.Nodup) (hs : s ∈ outs)
    (hclean : ∀ r ∈ outs, r ≠ s → Clean own ins r s)
    (hself : ∀ t, ArgsOf own sem D given ins (Function.update ρ s t) s xs)
    (hargs : ∀ r ∈ outs, ∃ xs, ArgsOf own sem D given ins ρ r xs)
    (hpos : ∀ r ∈ outs, r ≠ s → ∀ xs, ArgsOf own sem D given ins ρ r xs →
      dens r xs (ρ r) ≠ 0 ∧ dens r xs (ρ r) ≠ ∞) :
    ∃ c : ℝ≥0∞, c ≠ 0 ∧ c ≠ ∞ ∧ ∀ t,
      JointDens own sem D given dens ins outs (Function.update ρ s t) (c * dens s xs t) := by
  classical
  choose! ys hys using hargs
  refine ⟨((outs.erase s).map fun r => dens r (ys r) (ρ r)).prod, ?_, ?_, fun t => ?_⟩
  · refine List.prod_ne_zero fun h => ?_
    obtain ⟨r, hr, e⟩ := List.mem_map.1 h
    rw [hn.mem_erase_iff] at hr
    exact (hpos r hr.2 hr.1 _ (hys r hr.2)).1 e
  · have : ∀ l : List ℝ≥0∞, (∀ x ∈ l, x ≠ ∞) → l.prod ≠ ∞ := by
      intro l
      induction l with
      | nil => intro _; simp
      | cons x l ih =>
        intro h
        rw [List.prod_cons]
        exact ENNReal.mul_ne_top (h x (by simp)) (ih fun y hy => h y (by simp [hy]))
    refine this _ fun x hx => ?_
    obtain ⟨r, hr, rfl⟩ := List.mem_map.1 hx
    rw [hn.mem_erase_iff] at hr
    exact (hpos r hr.2 hr.1 _ (hys r hr.2)).2
  · refine ⟨fun r => if r = s then xs else ys r, fun r hr => ?_, ?_⟩
    · by_cases e : r = s
      · subst e
        simpa using hself t
      · simp only [if_neg e]
        exact (hys r hr).update (hclean r hr e)
    · have hp := (List.perm_cons_erase hs).map fun r =>
        dens r (if r = s then xs else ys r) (Function.update ρ s t r)
      rw [hp.prod_eq, List.map_cons, List.prod_cons, mul_comm]
      congr 1
      · simp
      · congr 1
        refine List.map_congr_left fun r hr => ?_
        rw [hn.mem_erase_iff] at hr
        rw [if_neg hr.1, Function.update_of_ne hr.1]

theorem JointDens.det {ρ : Var → Val} {dens : Var → List Val → Val → ℝ≥0∞} {outs : List Var}
    {a b : ℝ≥0∞} (h : JointDens own sem D given dens ins outs ρ a)
    (h' : JointDens own sem D given dens ins outs ρ b) : a = b := by
  obtain ⟨xs, hx, rfl⟩ := h
  obtain ⟨ys, hy, rfl⟩ := h'
  congr 1
  refine List.map_congr_left fun r hr => ?_
  rw [(hx r hr).det (hy r hr)]

end Verif.Graph
