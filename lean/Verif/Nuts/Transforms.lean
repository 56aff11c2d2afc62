import Verif.Nuts.Spec
import Mathlib.Analysis.SpecialFunctions.Log.Basic
import Mathlib.Analysis.SpecialFunctions.Complex.Arg
import Mathlib.Analysis.SpecialFunctions.Exp

/-!
# The default transforms

AePPL's transforms (library, not part of `/repo`), on real arrays, as far as `get_transform`
(`/repo/aemcmc/nuts.py:177-183`) can return them.  Parameters are taken as already broadcast to the shape
of the value; the simplex transform is written for one vector.
-/

namespace Verif.Nuts

open Real

/-- An elementwise transform without parameters. -/
noncomputable def mapTransform (f g : ℝ → ℝ) : Transform ℝ where
  forward _ x := ⟨x.shape, x.data.map f⟩
  backward _ y := ⟨y.shape, y.data.map g⟩

/-- `LogTransform`. -/
noncomputable def logTransform : Transform ℝ := mapTransform log exp

/-- `at.sigmoid` -/
noncomputable def sigmoid (y : ℝ) : ℝ := 1 / (1 + exp (-y))

/-- `LogOddsTransform`. -/
noncomputable def logOddsTransform : Transform ℝ := mapTransform (fun x => log (x / (1 - x))) sigmoid

/-- `CircularTransform`: nothing on the way in, `arctan2(sin, cos)` on the way out. -/
noncomputable def circularTransform : Transform ℝ :=
  mapTransform id fun y => Complex.arg ⟨cos y, sin y⟩

/-- `IntervalTransform` with two bounds, the first two inputs. -/
noncomputable def intervalTransform : Transform ℝ where
  forward
    | a :: b :: _, x => ⟨x.shape, List.zipWith (fun ab x => log (x - ab.1) - log (ab.2 - x))
        (a.data.zip b.data) x.data⟩
    | _, x => x
  backward
    | a :: b :: _, y => ⟨y.shape, List.zipWith (fun ab y => sigmoid y * ab.2 + (1 - sigmoid y) * ab.1)
        (a.data.zip b.data) y.data⟩
    | _, y => y

/-- `IntervalTransform` with a lower bound, the first input. -/
noncomputable def lowerTransform : Transform ℝ where
  forward
    | a :: _, x => ⟨x.shape, List.zipWith (fun a x => log (x - a)) a.data x.data⟩
    | _, x => x
  backward
    | a :: _, y => ⟨y.shape, List.zipWith (fun a y => exp y + a) a.data y.data⟩
    | _, y => y

/-- The mean of the logarithms. -/
noncomputable def logShift (x : List ℝ) : ℝ := (x.map log).sum / x.length

/-- Subtract the largest entry, take exponentials, normalise. -/
noncomputable def softmax (z : List ℝ) : List ℝ :=
  let e := z.map fun v => exp (v - z.foldl max (z.headD 0))
  e.map (· / e.sum)

/-- `SimplexTransform`, on a vector. -/
noncomputable def simplexTransform : Transform ℝ where
  forward _ x := ⟨[x.data.length - 1], (x.data.map log).dropLast.map (· - logShift x.data)⟩
  backward _ y := ⟨[y.data.length + 1], softmax (y.data ++ [-y.data.sum])⟩

/-! ## Supports -/

/-- Spec.  Arrays whose entries all satisfy `P`. -/
def allEntries (P : ℝ → Prop) (_ : List (Arr ℝ)) (x : Arr ℝ) : Prop := x.WF ∧ ∀ v ∈ x.data, P v

/-- Spec.  Entries strictly between the bounds. -/
def between (inputs : List (Arr ℝ)) (x : Arr ℝ) : Prop :=
  x.WF ∧ ∃ a b r, inputs = a :: b :: r ∧ a.data.length = x.data.length ∧
    b.data.length = x.data.length ∧
    ∀ (i : Nat) (u v w : ℝ), a.data[i]? = some u → b.data[i]? = some v → x.data[i]? = some w → u < w ∧ w < v

/-- Spec.  Entries above the bound. -/
def above (inputs : List (Arr ℝ)) (x : Arr ℝ) : Prop :=
  x.WF ∧ ∃ a r, inputs = a :: r ∧ a.data.length = x.data.length ∧
    ∀ (i : Nat) (u w : ℝ), a.data[i]? = some u → x.data[i]? = some w → u < w

/-- Spec.  Probability vectors with positive entries. -/
def onSimplex (_ : List (Arr ℝ)) (x : Arr ℝ) : Prop :=
  x.shape = [x.data.length] ∧ (∀ v ∈ x.data, 0 < v) ∧ x.data.sum = 1

/-! ## Lawfulness -/

theorem mapTransform_lawful {f g : ℝ → ℝ} {P : ℝ → Prop} (hfg : ∀ x, P x → g (f x) = x)
    (hg : ∀ y, P (g y)) : Lawful (mapTransform f g) (allEntries P) where
  backward_forward inputs x hx := by
    simp only [mapTransform, List.map_map]
    have : x.data.map (g ∘ f) = x.data := by
      conv_rhs => rw [← List.map_id x.data]
      exact List.map_congr_left fun v hv => hfg v (hx.2 v hv)
    rw [this]
  wf inputs x hx := by
    have := hx.1
    simpa [Arr.WF, mapTransform] using this
  backward_mem inputs x y hx hy hs := by
    refine ⟨by simpa [Arr.WF, mapTransform] using hy, fun v hv => ?_⟩
    simp only [mapTransform, List.mem_map] at hv
    obtain ⟨w, _, rfl⟩ := hv
    exact hg w

theorem sigmoid_pos (y : ℝ) : 0 < sigmoid y := by
  have := exp_pos (-y)
  unfold sigmoid
  positivity

theorem sigmoid_lt_one (y : ℝ) : sigmoid y < 1 := by
  have := exp_pos (-y)
  rw [sigmoid, div_lt_one (by linarith)]
  linarith

theorem sigmoid_log {p q : ℝ} (hp : 0 < p) (hq : 0 < q) : sigmoid (log p - log q) = p / (p + q) := by
  rw [sigmoid, neg_sub, exp_sub, exp_log hp, exp_log hq]
  field_simp

/-- The logarithm is a change of variables for the positive arrays. -/
theorem logTransform_lawful : Lawful logTransform (allEntries fun x => 0 < x) :=
  mapTransform_lawful (fun _ h => exp_log h) exp_pos

/-- The log odds are a change of variables for arrays in the open unit interval. -/
theorem logOddsTransform_lawful : Lawful logOddsTransform (allEntries fun x => 0 < x ∧ x < 1) := by
  refine mapTransform_lawful (fun x h => ?_) fun y => ⟨sigmoid_pos y, sigmoid_lt_one y⟩
  have h1 : 0 < 1 - x := by linarith [h.2]
  rw [log_div h.1.ne' h1.ne', sigmoid_log h.1 h1]
  field_simp
  ring

/-- Wrapping around the circle is a change of variables for angles. -/
theorem circularTransform_lawful : Lawful circularTransform (allEntries fun x => -π < x ∧ x ≤ π) := by
  refine mapTransform_lawful (fun x h => ?_) fun y => Complex.arg_mem_Ioc _
  have : (⟨cos x, sin x⟩ : ℂ) = Complex.cos x + Complex.sin x * Complex.I := by
    rw [Complex.ext_iff]
    simp [Complex.cos_ofReal_re, Complex.sin_ofReal_re]
  rw [id, this]
  exact Complex.arg_cos_add_sin_mul_I h

theorem zipWith_zipWith {α : Type} {F G : α → ℝ → ℝ} : ∀ {P : List α} {X : List ℝ}, P.length = X.length →
    (∀ (i : Nat) (p : α) (x : ℝ), P[i]? = some p → X[i]? = some x → G p (F p x) = x) →
    List.zipWith G P (List.zipWith F P X) = X
  | [], [], _, _ => rfl
  | [], _ :: _, h, _ => by simp at h
  | _ :: _, [], h, _ => by simp at h
  | p :: P, x :: X, h, hi => by
    rw [List.zipWith_cons_cons, List.zipWith_cons_cons, hi 0 p x (by simp) (by simp),
      zipWith_zipWith (by simpa using h) fun i p' x' hp hx => hi (i + 1) p' x' (by simpa using hp)
        (by simpa using hx)]

/-- The interval transform is a change of variables for arrays between the bounds. -/
theorem intervalTransform_lawful : Lawful intervalTransform between where
  backward_forward inputs x hx := by
    obtain ⟨_, a, b, r, rfl, ha, hb, hi⟩ := hx
    simp only [intervalTransform]
    rw [zipWith_zipWith (by simp [ha, hb]) fun i p w hp hw => ?_]
    rw [List.getElem?_zip_eq_some] at hp
    obtain ⟨h1, h2⟩ := hi i p.1 p.2 w hp.1 hp.2 hw
    rw [sigmoid_log (by linarith) (by linarith)]
    have h3 : w - p.1 + (p.2 - w) = p.2 - p.1 := by ring
    have h4 : p.2 - p.1 ≠ 0 := by linarith
    rw [h3]
    field_simp
    ring
  wf inputs x hx := by
    obtain ⟨h, a, b, r, rfl, ha, hb, _⟩ := hx
    simpa [Arr.WF, intervalTransform, ha, hb] using h
  backward_mem inputs x y hx hy hs := by
    obtain ⟨h, a, b, r, rfl, ha, hb, hi⟩ := hx
    have hs' : y.shape = x.shape := hs
    have hl : y.data.length = x.data.length := by rw [hy, hs', h]
    refine ⟨by simpa [Arr.WF, intervalTransform, ha, hb, hl] using hy, a, b, r, rfl,
      by simp [intervalTransform, ha, hb, hl], by simp [intervalTransform, ha, hb, hl],
      fun i u v w hu hv hw => ?_⟩
    have hix : i < x.data.length := by
      rw [← ha]
      exact (List.getElem?_eq_some_iff.1 hu).1
    obtain ⟨h1, h2⟩ := hi i u v _ hu hv (List.getElem?_eq_getElem hix)
    simp only [intervalTransform, List.getElem?_zipWith,
      List.getElem?_zip_eq_some.2 (⟨hu, hv⟩ : a.data[i]? = some (u, v).1 ∧ b.data[i]? = some (u, v).2),
      List.getElem?_eq_getElem (l := y.data) (by omega : i < y.data.length), Option.some.injEq] at hw
    have hs0 := sigmoid_pos y.data[i]
    have hs1 := sigmoid_lt_one y.data[i]
    rw [← hw]
    constructor <;> nlinarith

/-- The transform with a lower bound is a change of variables for arrays above the bound. -/
theorem lowerTransform_lawful : Lawful lowerTransform above where
  backward_forward inputs x hx := by
    obtain ⟨_, a, r, rfl, ha, hi⟩ := hx
    simp only [lowerTransform]
    rw [zipWith_zipWith ha fun i p w hp hw => ?_]
    have h1 := hi i p w hp hw
    rw [exp_log (by linarith)]
    ring
  wf inputs x hx := by
    obtain ⟨h, a, r, rfl, ha, _⟩ := hx
    simpa [Arr.WF, lowerTransform, ha] using h
  backward_mem inputs x y hx hy hs := by
    obtain ⟨h, a, r, rfl, ha, hi⟩ := hx
    have hs' : y.shape = x.shape := hs
    have hl : y.data.length = x.data.length := by rw [hy, hs', h]
    refine ⟨by simpa [Arr.WF, lowerTransform, ha, hl] using hy, a, r, rfl,
      by simp [lowerTransform, ha, hl], fun i u w hu hw => ?_⟩
    have hix : i < x.data.length := by
      rw [← ha]
      exact (List.getElem?_eq_some_iff.1 hu).1
    simp only [lowerTransform, List.getElem?_zipWith, hu,
      List.getElem?_eq_getElem (l := y.data) (by omega : i < y.data.length), Option.some.injEq] at hw
    rw [← hw]
    linarith [exp_pos y.data[i]]

theorem sum_map_sub (l : List ℝ) (c : ℝ) : (l.map (· - c)).sum = l.sum - l.length * c := by
  induction l with
  | nil => simp
  | cons a l ih =>
    simp only [List.map_cons, List.sum_cons, ih, List.length_cons]
    push_cast
    ring

theorem sum_map_div (l : List ℝ) (c : ℝ) : (l.map (· / c)).sum = l.sum / c := by
  induction l with
  | nil => simp
  | cons a l ih =>
    simp only [List.map_cons, List.sum_cons, ih]
    ring

/-- `softmax` of shifted logarithms normalises. -/
theorem softmax_log {x : List ℝ} (hx : ∀ v ∈ x, 0 < v) (c : ℝ) :
    softmax (x.map fun v => log v - c) = x.map (· / x.sum) := by
  unfold softmax
  generalize (x.map fun v => log v - c).foldl max ((x.map fun v => log v - c).headD 0) = m
  have h1 : (x.map fun v => log v - c).map (fun v => exp (v - m)) = x.map (· * exp (-c - m)) := by
    rw [List.map_map]
    refine List.map_congr_left fun v hv => ?_
    simp only [Function.comp]
    rw [show log v - c - m = log v + (-c - m) by ring, exp_add, exp_log (hx v hv)]
  have h2 : (x.map (· * exp (-c - m))).sum = x.sum * exp (-c - m) := by
    have := List.sum_map_mul_right x id (exp (-c - m))
    rwa [List.map_id] at this
  simp only [h1, h2, List.map_map]
  refine List.map_congr_left fun v _ => ?_
  simp only [Function.comp]
  exact mul_div_mul_right _ _ (exp_pos _).ne'

theorem sum_pos_of_pos : ∀ {l : List ℝ}, l ≠ [] → (∀ v ∈ l, 0 < v) → 0 < l.sum
  | [], h, _ => absurd rfl h
  | [a], _, h => by simpa using h a (by simp)
  | a :: b :: l, _, h => by
    have h1 := h a (by simp)
    have h2 := sum_pos_of_pos (l := b :: l) (by simp) fun v hv => h v (by simp [hv])
    rw [List.sum_cons]
    linarith

/-- The simplex transform is a change of variables for probability vectors. -/
theorem simplexTransform_lawful : Lawful simplexTransform onSimplex where
  backward_forward inputs x hx := by
    obtain ⟨hs, hp, h1⟩ := hx
    have hne : x.data ≠ [] := by
      intro h
      rw [h] at h1
      simp at h1
    have hlen : 0 < x.data.length := List.length_pos_iff.2 hne
    have hz : (x.data.map log).dropLast.map (· - logShift x.data) ++
        [-((x.data.map log).dropLast.map (· - logShift x.data)).sum] =
        x.data.map fun v => log v - logShift x.data := by
      have hall : ((x.data.map log).map (· - logShift x.data)).sum = 0 := by
        rw [sum_map_sub, logShift, List.length_map]
        field_simp
        ring
      have hne' : (x.data.map log) ≠ [] := by simpa using hne
      have hsplit := List.dropLast_append_getLast hne'
      rw [← hsplit, List.map_append, List.sum_append] at hall
      simp only [List.map_cons, List.map_nil, List.sum_cons, List.sum_nil, add_zero] at hall
      have : x.data.map (fun v => log v - logShift x.data) =
          (x.data.map log).map (· - logShift x.data) := by
        rw [List.map_map]
        rfl
      rw [this]
      conv_rhs => rw [← hsplit, List.map_append]
      congr 1
      simp only [List.map_cons, List.map_nil, List.cons.injEq, and_true]
      linarith
    simp only [simplexTransform]
    rw [hz, softmax_log hp, h1]
    simp only [div_one, List.map_id', List.length_map, List.length_dropLast]
    rw [Nat.sub_add_cancel hlen, ← hs]
  wf inputs x hx := by
    simp [Arr.WF, simplexTransform]
  backward_mem inputs x y _ _ _ := by
    have hne : ∀ m : ℝ, (y.data ++ [-y.data.sum]).map (fun v => exp (v - m)) ≠ [] := by simp
    have hpos : ∀ m : ℝ, ∀ v ∈ (y.data ++ [-y.data.sum]).map (fun v => exp (v - m)), 0 < v := by
      intro m v hv
      obtain ⟨w, _, rfl⟩ := List.mem_map.1 hv
      exact exp_pos _
    have hsum := fun m => sum_pos_of_pos (hne m) (hpos m)
    refine ⟨?_, ?_, ?_⟩
    · simp [simplexTransform, softmax]
    · intro v hv
      simp only [simplexTransform, softmax] at hv
      obtain ⟨w, hw, rfl⟩ := List.mem_map.1 hv
      exact div_pos (hpos _ w hw) (hsum _)
    · simp only [simplexTransform, softmax]
      rw [sum_map_div]
      exact div_self (hsum _).ne'

end Verif.Nuts
