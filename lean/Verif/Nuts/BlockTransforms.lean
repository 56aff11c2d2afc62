import Verif.Nuts.BlockInst

/-!
# C54: the default transforms are covered
-/

open MeasureTheory Real

namespace Verif.Nuts

variable {V : Type}

/-- Spec.  The transform of the variable is the change of variables `b`. -/
def Changes (M : Model V ℝ) (env : V → Arr ℝ) (rv : V) (b : Block) : Prop :=
  b.Lawful ∧
  Acts (fun x => transformForward M env rv x (M.transform rv)) b.shape b.tshape b.f ∧
  Acts (fun x => transformBackward M env rv x (M.transform rv)) b.tshape b.shape b.g

theorem changes_coord {M : Model V ℝ} {env : V → Arr ℝ} {rv : V} {s : List Nat} {coord : ℕ → Coord}
    (hc : ∀ j < s.prod, ChangeVar (coord j).f (coord j).g (coord j).dg (coord j).S)
    (h : Entrywise (fun x => transformForward M env rv x (M.transform rv)) s (fun j => (coord j).f) ∧
      Entrywise (fun x => transformBackward M env rv x (M.transform rv)) s fun j => (coord j).g) :
    Changes M env rv (coordBlock s coord) :=
  ⟨coordBlock_lawful hc, acts_of_entrywise h.1, acts_of_entrywise h.2⟩

/-- C54, the hypotheses on the transforms.  Whatever the shape of the variable, every default transform is a
change of variables as `C54_blocks_partial` needs it: none, for all the reals; the logarithm, for positive
values; the log odds, for the unit interval; an interval and a lower bound, with any bounds; angles, where
values that differ by a multiple of `2π` are the same; probability vectors, which have one entry more than
their transformed value. -/
theorem C54_transforms (M : Model V ℝ) (env : V → Arr ℝ) (rv : V) (s : List Nat) :
    (M.transform rv = none → Changes M env rv (coordBlock s fun _ => ⟨id, id, fun _ => 1, Set.univ⟩)) ∧
    (M.transform rv = some logTransform →
      Changes M env rv (coordBlock s fun _ => ⟨log, exp, exp, Set.Ioi 0⟩)) ∧
    (M.transform rv = some logOddsTransform → Changes M env rv (coordBlock s fun _ =>
      ⟨fun x => log (x / (1 - x)), sigmoid, fun y => sigmoid y * (1 - sigmoid y), Set.Ioo 0 1⟩)) ∧
    (M.transform rv = some intervalTransform → ∀ (a b : Fin s.prod → ℝ) (sa sb : List Nat) (r : List (Arr ℝ)),
      (∀ j, a j < b j) → M.inputs rv env = ⟨sa, List.ofFn a⟩ :: ⟨sb, List.ofFn b⟩ :: r →
      Changes M env rv (coordBlock s fun j => intervalCoord ((List.ofFn a).getD j 0) ((List.ofFn b).getD j 0))) ∧
    (M.transform rv = some lowerTransform → ∀ (a : Fin s.prod → ℝ) (sa : List Nat) (r : List (Arr ℝ)),
      M.inputs rv env = ⟨sa, List.ofFn a⟩ :: r →
      Changes M env rv (coordBlock s fun j => lowerCoord ((List.ofFn a).getD j 0))) ∧
    (M.transform rv = some circularTransform → Changes M env rv (circleBlock s)) ∧
    (M.transform rv = some simplexTransform → ∀ m, Changes M env rv (simplexBlock m)) := by
  refine ⟨fun h => ?_, fun h => ?_, fun h => ?_, fun h a b sa sb r hab hin => ?_, fun h a sa r hin => ?_,
    fun h => ?_, fun h m => ?_⟩
  · exact changes_coord (coord := fun _ => idCoord) (fun _ _ => idCoord_changeVar) (entrywise_none h)
  · exact changes_coord (coord := fun _ => logCoord) (fun _ _ => logCoord_changeVar) (entrywise_log h)
  · exact changes_coord (coord := fun _ => logOddsCoord) (fun _ _ => logOddsCoord_changeVar)
      (entrywise_logOdds h)
  · have hz : ∀ j < s.prod, ((List.ofFn a).zip (List.ofFn b)).getD j (0, 0) =
        ((List.ofFn a).getD j 0, (List.ofFn b).getD j 0) := by
      intro j hj
      simp [List.getD_eq_getElem?_getD, List.zip, hj]
    refine changes_coord (fun j hj => intervalCoord_changeVar ?_) ?_
    · simpa [List.getD_eq_getElem?_getD, hj] using hab ⟨j, hj⟩
    · have := entrywise_interval (s := s) h hin (by simp) (by simp)
      constructor
      · intro x hx hs
        rw [this.1 x hx hs]
        congr 1
        apply List.ext_getElem?
        intro i
        rw [List.getElem?_mapIdx, List.getElem?_mapIdx]
        by_cases hi : i < s.prod
        · rw [hz i hi]
        · rw [List.getElem?_eq_none (by rw [hx, hs]; omega)]
          rfl
      · intro x hx hs
        rw [this.2 x hx hs]
        congr 1
        apply List.ext_getElem?
        intro i
        rw [List.getElem?_mapIdx, List.getElem?_mapIdx]
        by_cases hi : i < s.prod
        · rw [hz i hi]
        · rw [List.getElem?_eq_none (by rw [hx, hs]; omega)]
          rfl
  · exact changes_coord (fun j hj => lowerCoord_changeVar _) (entrywise_lower h hin (by simp))
  · refine ⟨circleBlock_lawful s, ?_, ?_⟩
    · rw [h]
      exact (circle_acts _ s).1
    · rw [h]
      exact (circle_acts _ s).2
  · refine ⟨simplexBlock_lawful m, ?_, ?_⟩
    · rw [h]
      exact (simplex_acts _ m).1
    · rw [h]
      exact (simplex_acts _ m).2

/-- A matrix of values between 2 and 5, and a vector of positive values. -/
example (L : (Bool → Arr ℝ) → ℝ) (env : Bool → Arr ℝ) :
    let M : Model Bool ℝ := ⟨fun v => if v then some intervalTransform else some logTransform,
      fun _ _ => [⟨[2, 2], [2, 2, 2, 2]⟩, ⟨[2, 2], [5, 5, 5, 5]⟩], L⟩
    Changes M env true (coordBlock [2, 2] fun j => intervalCoord ([2, 2, 2, 2].getD j 0) ([5, 5, 5, 5].getD j 0)) ∧
      Changes M env false (coordBlock [3] fun _ => ⟨log, exp, exp, Set.Ioi 0⟩) := by
  intro M
  refine ⟨?_, (C54_transforms M env false [3]).2.1 rfl⟩
  have h := (C54_transforms M env true [2, 2]).2.2.2.1 rfl (fun _ => 2) (fun _ => 5) [2, 2] [2, 2] []
    (fun _ => by norm_num) (by simp [M])
  simpa using h

end Verif.Nuts
