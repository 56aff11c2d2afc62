import Verif.Nuts.BlockLemmas
import Verif.Nuts.LawCoords
import Verif.Prob.Simplex
import Mathlib.MeasureTheory.Function.SpecialFunctions.Arctan
import Mathlib.MeasureTheory.Group.Arithmetic
import Mathlib.Algebra.Order.ToIntervalMod

/-!
# C54: the default transforms as changes of variables
-/

open MeasureTheory Real
open scoped ENNReal

namespace Verif.Nuts

/-- Spec.  A variable whose entries are transformed one by one. -/
noncomputable def coordBlock (s : List Nat) (coord : ℕ → Coord) : Block where
  shape := s
  tshape := s
  k := s.prod
  m := s.prod
  f x j := (coord j).f (x j)
  g q j := (coord j).g (q j)
  J q := ∏ j : Fin s.prod, (coord j).dg (q j)
  S := Set.univ.pi fun j : Fin s.prod => (coord j).S
  ref := volume.restrict (Set.univ.pi fun j : Fin s.prod => (coord j).S)
  shifts := ⊥
  D := Set.univ

/-- Spec.  A probability vector with `m + 1` entries.  Densities refer to Lebesgue measure on the first `m`
entries. -/
noncomputable def simplexBlock (m : ℕ) : Block where
  shape := [m + 1]
  tshape := [m]
  k := m + 1
  m := m
  f := Simplex.back
  g := Simplex.prob
  J q := (m + 1) * ∏ i, Simplex.prob q i
  S := {x | (∀ i, 0 < x i) ∧ ∑ i, x i = 1}
  ref := (volume.restrict {x : Fin m → ℝ | (∀ j, 0 < x j) ∧ ∑ j, x j < 1}).map
    fun x => Fin.snoc (α := fun _ => ℝ) x (1 - ∑ j, x j)
  shifts := ⊥
  D := Set.univ

/-- Spec.  Angles. -/
noncomputable def circleBlock (s : List Nat) : Block where
  shape := s
  tshape := s
  k := s.prod
  m := s.prod
  f := id
  g q j := toIocMod two_pi_pos (-π) (q j)
  J _ := 1
  S := Set.univ.pi fun _ => Set.Ioc (-π) π
  ref := volume.restrict (Set.univ.pi fun _ => Set.Ioc (-π) π)
  shifts := AddSubgroup.pi Set.univ fun _ => AddSubgroup.zmultiples (2 * π)
  D := Set.univ.pi fun _ => Set.Ioc (-π) π

theorem tile_bot {m : ℕ} (q : Fin m → ℝ) :
    ∃! l : (⊥ : AddSubgroup (Fin m → ℝ)), (l : Fin m → ℝ) + q ∈ (Set.univ : Set (Fin m → ℝ)) :=
  ⟨0, trivial, fun _ _ => Subsingleton.elim _ _⟩

theorem countable_bot {m : ℕ} : Countable (⊥ : AddSubgroup (Fin m → ℝ)) := inferInstance

theorem bot_add {m : ℕ} {l : Fin m → ℝ} (hl : l ∈ (⊥ : AddSubgroup (Fin m → ℝ))) (q : Fin m → ℝ) :
    l + q = q := by
  rw [AddSubgroup.mem_bot.1 hl, zero_add]

theorem sigmaFinite_restrict {m : ℕ} (A : Set (Fin m → ℝ)) : SigmaFinite (volume.restrict A) := inferInstance

theorem coordBlock_lawful {s : List Nat} {coord : ℕ → Coord}
    (hc : ∀ j < s.prod, ChangeVar (coord j).f (coord j).g (coord j).dg (coord j).S) :
    (coordBlock s coord).Lawful where
  shape_prod := rfl
  tshape_prod := rfl
  meas_f := measurable_pi_lambda _ fun j : Fin s.prod => (hc j j.2).meas.comp (measurable_pi_apply j)
  meas_g := measurable_pi_lambda _ fun j : Fin s.prod => (hc j j.2).measurable.comp (measurable_pi_apply j)
  meas_J := Finset.measurable_prod Finset.univ fun (j : Fin s.prod) _ =>
    (hc j j.2).meas_d.comp (measurable_pi_apply j)
  pos q := Finset.prod_pos (s := Finset.univ) (f := fun j : Fin s.prod => (coord j).dg (q j))
    fun j _ => (hc j j.2).pos _
  mem q j _ := by
    show (coord j).g (q j) ∈ (coord j).S
    rw [← (hc j j.2).range]
    exact ⟨_, rfl⟩
  countable := by
    exact countable_bot
  meas_D := MeasurableSet.univ
  tile := tile_bot
  left_inv q _ := funext fun j => (hc j j.2).left_inv _
  g_shift l hl q := congrArg _ (bot_add hl q)
  J_shift l hl q := congrArg _ (bot_add hl q)
  sigma := by
    exact sigmaFinite_restrict _
  map_eq := by
    have h := map_pi_eq (f := fun j : Fin s.prod => (coord j).f) (g := fun j => (coord j).g)
      (dg := fun j => (coord j).dg) (S := fun j => (coord j).S) fun j => hc j j.2
    rw [coordBlock, ← h, Measure.restrict_univ]
    congr 2
    funext q
    exact ENNReal.ofReal_prod_of_nonneg (s := Finset.univ) (f := fun j : Fin s.prod => (coord j).dg (q j))
      fun j _ => ((hc j j.2).pos _).le

theorem inner_finite (m : ℕ) : IsFiniteMeasure ((volume : Measure (Fin m → ℝ)).restrict (Simplex.inner m)) := by
  refine ⟨?_⟩
  rw [Measure.restrict_apply_univ]
  refine (measure_mono (t := Set.Icc 0 1) fun x hx => ⟨fun j => (hx.1 j).le, fun j => ?_⟩).trans_lt
    measure_Icc_lt_top
  refine le_trans ?_ hx.2.le
  exact Finset.single_le_sum (fun i _ => (hx.1 i).le) (Finset.mem_univ j)

theorem simplexBlock_lawful (m : ℕ) : (simplexBlock m).Lawful where
  shape_prod := by simp [simplexBlock]
  tshape_prod := by simp [simplexBlock]
  meas_f := Simplex.measurable_back
  meas_g := Simplex.measurable_prob
  meas_J := measurable_const.mul (Finset.measurable_prod _ fun i _ =>
    (measurable_pi_apply i).comp Simplex.measurable_prob)
  pos q := by
    show 0 < ((m : ℝ) + 1) * _
    exact mul_pos (by positivity) (Finset.prod_pos fun i _ => Simplex.prob_pos q i)
  mem q := ⟨Simplex.prob_pos q, Simplex.sum_prob q⟩
  countable := by
    exact countable_bot
  meas_D := MeasurableSet.univ
  tile := tile_bot
  left_inv q _ := Simplex.back_prob q
  g_shift l hl q := congrArg _ (bot_add hl q)
  J_shift l hl q := congrArg _ (bot_add hl q)
  sigma := by
    have := inner_finite m
    show SigmaFinite ((volume.restrict (Simplex.inner m)).map Simplex.one)
    infer_instance
  map_eq := by
    show ((volume.restrict Set.univ).withDensity _).map Simplex.prob =
      (volume.restrict (Simplex.inner m)).map Simplex.one
    rw [Measure.restrict_univ]
    exact Simplex.map_prob

theorem circle_g_mem (q : ℝ) : toIocMod two_pi_pos (-π) q ∈ Set.Ioc (-π) π := by
  have := toIocMod_mem_Ioc two_pi_pos (-π) q
  rwa [show -π + 2 * π = π by ring] at this

theorem circle_g_eq {q : ℝ} (hq : q ∈ Set.Ioc (-π) π) : toIocMod two_pi_pos (-π) q = q := by
  rw [toIocMod_eq_self, show -π + 2 * π = π by ring]
  exact hq

theorem circle_arg (q : ℝ) : Complex.arg ⟨cos q, sin q⟩ = toIocMod two_pi_pos (-π) q := by
  rw [← Complex.arg_cos_add_sin_mul_I_eq_toIocMod]
  congr 1
  rw [Complex.ext_iff]
  simp [Complex.cos_ofReal_re, Complex.sin_ofReal_re]

theorem circle_measurable : Measurable fun q : ℝ => toIocMod two_pi_pos (-π) q := by
  simp only [← circle_arg]
  refine Complex.measurable_arg.comp ?_
  have : (fun q : ℝ => (⟨cos q, sin q⟩ : ℂ)) = fun q : ℝ => (cos q : ℂ) + (sin q : ℂ) * Complex.I := by
    funext q
    rw [Complex.ext_iff]
    simp [-Complex.ofReal_cos, -Complex.ofReal_sin]
  rw [this]
  fun_prop

theorem mem_circle_shifts {m : ℕ} {l : Fin m → ℝ} :
    l ∈ (AddSubgroup.pi Set.univ fun _ : Fin m => AddSubgroup.zmultiples (2 * π)) ↔
      ∀ j, ∃ z : ℤ, z • (2 * π) = l j := by
  simp [AddSubgroup.mem_pi, AddSubgroup.mem_zmultiples_iff]

theorem circleBlock_lawful (s : List Nat) : (circleBlock s).Lawful where
  shape_prod := rfl
  tshape_prod := rfl
  meas_f := measurable_id
  meas_g := measurable_pi_lambda _ fun j => circle_measurable.comp (measurable_pi_apply j)
  meas_J := measurable_const
  pos _ := one_pos
  mem q j _ := circle_g_mem (q j)
  countable := by
    refine Function.Injective.countable (β := ∀ _ : Fin s.prod, AddSubgroup.zmultiples (2 * π))
      (f := fun l j => ⟨l.1 j, (AddSubgroup.mem_pi _).1 l.2 j (Set.mem_univ j)⟩) fun l l' h => Subtype.ext ?_
    funext j
    exact congrArg Subtype.val (congrFun h j)
  meas_D := MeasurableSet.univ_pi fun _ => measurableSet_Ioc
  tile q := by
    choose z hz hu using fun j => existsUnique_add_zsmul_mem_Ioc two_pi_pos (q j) (-π)
    refine ⟨⟨fun j => z j • (2 * π), mem_circle_shifts.2 fun j => ⟨z j, rfl⟩⟩, ?_, ?_⟩
    · intro j _
      have := hz j
      rwa [show -π + 2 * π = π by ring, add_comm] at this
    · rintro ⟨l, hl⟩ h
      refine Subtype.ext (funext fun j => ?_)
      obtain ⟨z', hz'⟩ := mem_circle_shifts.1 hl j
      have hj : q j + z' • (2 * π) ∈ Set.Ioc (-π) (-π + 2 * π) := by
        rw [hz', show -π + 2 * π = π by ring, add_comm]
        exact h j (Set.mem_univ j)
      exact hz'.symm.trans (congrArg (· • (2 * π)) (hu j z' hj))
  left_inv q hq := funext fun j => circle_g_eq (hq j (Set.mem_univ j))
  g_shift l hl q := by
    funext j
    obtain ⟨z, hz⟩ := mem_circle_shifts.1 hl j
    show toIocMod two_pi_pos (-π) (l j + q j) = toIocMod two_pi_pos (-π) (q j)
    rw [← hz, toIocMod_zsmul_add]
  J_shift _ _ _ := rfl
  sigma := by
    exact sigmaFinite_restrict _
  map_eq := by
    have hD : MeasurableSet (circleBlock s).D := MeasurableSet.univ_pi fun _ => measurableSet_Ioc
    show ((volume.restrict (circleBlock s).D).withDensity fun _ => ENNReal.ofReal 1).map (circleBlock s).g =
      volume.restrict (circleBlock s).D
    have : (fun _ : Fin (circleBlock s).m → ℝ => ENNReal.ofReal 1) = 1 := by
      funext q
      simp
    rw [this, withDensity_one]
    conv_rhs => rw [← Measure.map_id (μ := volume.restrict (circleBlock s).D)]
    refine Measure.map_congr (ae_restrict_of_forall_mem hD fun q hq => ?_)
    exact funext fun j => circle_g_eq (hq j (Set.mem_univ j))

/-! ## The transforms act as described -/

theorem acts_of_entrywise {T : Arr ℝ → Arr ℝ} {s : List Nat} {φ : ℕ → ℝ → ℝ} (h : Entrywise T s φ) :
    Acts T s s fun (x : Fin s.prod → ℝ) j => φ j (x j) := by
  intro x hx hs
  rw [h x hx hs]
  congr 1
  have hl : x.data.length = s.prod := by rw [hx, hs]
  apply List.ext_getElem?
  intro i
  by_cases hi : i < x.data.length
  · simp [vec, List.getD_eq_getElem?_getD, hi, ← hl]
  · rw [List.getElem?_eq_none (by simpa using hi), List.getElem?_eq_none (by simpa [← hl] using hi)]

theorem sum_list_ofFn {m : ℕ} (v : Fin m → ℝ) : (List.ofFn v).sum = ∑ j, v j := List.sum_ofFn

theorem ofFn_snoc {m : ℕ} (v : Fin m → ℝ) (c : ℝ) :
    List.ofFn (Fin.snoc (α := fun _ => ℝ) v c) = List.ofFn v ++ [c] := by
  rw [List.ofFn_succ']
  simp [List.concat_eq_append]

theorem softmax_ofFn {n : ℕ} (z : Fin n → ℝ) :
    softmax (List.ofFn z) = List.ofFn fun i => exp (z i) / ∑ i, exp (z i) := by
  unfold softmax
  generalize (List.ofFn z).foldl max ((List.ofFn z).headD 0) = M
  simp only [List.map_ofFn, sum_list_ofFn]
  congr 1
  funext i
  simp only [Function.comp, exp_sub]
  rw [← Finset.sum_div]
  exact div_div_div_cancel_right₀ (exp_pos M).ne' _ _

theorem simplex_acts (inputs : List (Arr ℝ)) (m : ℕ) :
    Acts (simplexTransform.forward inputs) [m + 1] [m] (simplexBlock m).f ∧
    Acts (simplexTransform.backward inputs) [m] [m + 1] (simplexBlock m).g := by
  constructor
  · intro x hx hs
    have hl : x.data.length = m + 1 := by
      rw [hx, hs]
      simp
    obtain ⟨v, hv⟩ : ∃ v : Fin (m + 1) → ℝ, x.data = List.ofFn v := ⟨vec _ x.data, (ofFn_vec hl).symm⟩
    simp only [simplexTransform, logShift, hv, List.length_ofFn, Nat.add_sub_cancel, List.map_ofFn]
    congr 1
    rw [sum_list_ofFn, List.ofFn_succ', List.concat_eq_append, List.dropLast_concat, List.map_ofFn]
    congr 1
    funext j
    show _ = Simplex.back (vec (m + 1) (List.ofFn v)) j
    rw [vec_ofFn]
    simp only [Function.comp, Simplex.back]
    push_cast
    rfl
  · intro y hy hs
    have hl : y.data.length = m := by
      rw [hy, hs]
      simp
    obtain ⟨v, hv⟩ : ∃ v : Fin m → ℝ, y.data = List.ofFn v := ⟨vec _ y.data, (ofFn_vec hl).symm⟩
    simp only [simplexTransform, hv, List.length_ofFn]
    congr 1
    rw [sum_list_ofFn, ← ofFn_snoc, softmax_ofFn]
    congr 1
    funext i
    show _ = Simplex.prob (vec m (List.ofFn v)) i
    rw [vec_ofFn, Simplex.prob_eq]
    rfl

theorem circle_acts (inputs : List (Arr ℝ)) (s : List Nat) :
    Acts (circularTransform.forward inputs) s s (circleBlock s).f ∧
    Acts (circularTransform.backward inputs) s s (circleBlock s).g := by
  constructor
  · exact acts_of_entrywise (entrywise_map (f := id) fun x => rfl)
  · refine acts_of_entrywise (φ := fun _ q => toIocMod two_pi_pos (-π) q)
      (entrywise_map (f := fun q => toIocMod two_pi_pos (-π) q) fun x => ?_)
    simp only [circularTransform, mapTransform, circle_arg]

end Verif.Nuts
