import Verif.Nuts.LawSpec
import Mathlib.Analysis.SpecialFunctions.Log.Deriv
import Mathlib.Analysis.SpecialFunctions.ExpDeriv
import Mathlib.MeasureTheory.Function.SpecialFunctions.Basic

/-!
# The default transforms that C54 covers

Each works entry by entry and is a smooth change of variables from the line onto the support.
-/

open MeasureTheory Real

namespace Verif.Nuts

/-- No transform. -/
def idCoord : Coord := ⟨id, id, fun _ => 1, Set.univ⟩

/-- Logarithm. -/
noncomputable def logCoord : Coord := ⟨log, exp, exp, Set.Ioi 0⟩

/-- Log odds. -/
noncomputable def logOddsCoord : Coord :=
  ⟨fun x => log (x / (1 - x)), sigmoid, fun y => sigmoid y * (1 - sigmoid y), Set.Ioo 0 1⟩

/-- Interval. -/
noncomputable def intervalCoord (a b : ℝ) : Coord :=
  ⟨fun x => log (x - a) - log (b - x), fun y => sigmoid y * b + (1 - sigmoid y) * a,
    fun y => sigmoid y * (1 - sigmoid y) * (b - a), Set.Ioo a b⟩

/-- Lower bound. -/
noncomputable def lowerCoord (a : ℝ) : Coord := ⟨fun x => log (x - a), fun y => exp y + a, exp, Set.Ioi a⟩

theorem idCoord_changeVar : ChangeVar idCoord.f idCoord.g idCoord.dg idCoord.S where
  left_inv _ := rfl
  range := Set.range_id
  deriv y := hasDerivAt_id y
  pos _ := one_pos
  meas := measurable_id
  meas_d := measurable_const

theorem lowerCoord_changeVar (a : ℝ) :
    ChangeVar (lowerCoord a).f (lowerCoord a).g (lowerCoord a).dg (lowerCoord a).S where
  left_inv y := by simp [lowerCoord]
  range := by
    ext x
    simp only [lowerCoord, Set.mem_range, Set.mem_Ioi]
    constructor
    · rintro ⟨y, rfl⟩
      linarith [exp_pos y]
    · intro h
      exact ⟨log (x - a), by rw [exp_log (by linarith)]; ring⟩
  deriv y := (hasDerivAt_exp y).add_const a
  pos y := exp_pos y
  meas := measurable_log.comp (measurable_id.sub_const a)
  meas_d := measurable_exp

theorem logCoord_changeVar : ChangeVar logCoord.f logCoord.g logCoord.dg logCoord.S where
  left_inv y := log_exp y
  range := range_exp
  deriv y := hasDerivAt_exp y
  pos y := exp_pos y
  meas := measurable_log
  meas_d := measurable_exp

theorem hasDerivAt_sigmoid (y : ℝ) : HasDerivAt sigmoid (sigmoid y * (1 - sigmoid y)) y := by
  have h1 : HasDerivAt (fun y : ℝ => 1 + exp (-y)) (-exp (-y)) y := by
    have := ((hasDerivAt_neg y).exp).const_add 1
    simpa using this
  have hpos : (0 : ℝ) < 1 + exp (-y) := by positivity
  have h2 := (hasDerivAt_const y (1 : ℝ)).div h1 hpos.ne'
  have e : (0 * (1 + exp (-y)) - 1 * -exp (-y)) / (1 + exp (-y)) ^ 2 = sigmoid y * (1 - sigmoid y) := by
    rw [sigmoid]
    field_simp
    ring
  rw [e] at h2
  exact h2

theorem log_sigmoid (y : ℝ) : log (sigmoid y) - log (1 - sigmoid y) = y := by
  have h : 1 - sigmoid y = sigmoid y * exp (-y) := by
    have hpos : (0 : ℝ) < 1 + exp (-y) := by positivity
    rw [sigmoid]
    field_simp
    ring
  rw [h, log_mul (sigmoid_pos y).ne' (exp_pos _).ne', log_exp]
  ring

theorem measurable_sigmoid : Measurable sigmoid :=
  measurable_const.div (measurable_const.add (measurable_exp.comp measurable_neg))

theorem intervalCoord_changeVar {a b : ℝ} (hab : a < b) :
    ChangeVar (intervalCoord a b).f (intervalCoord a b).g (intervalCoord a b).dg (intervalCoord a b).S where
  left_inv y := by
    have h1 : sigmoid y * b + (1 - sigmoid y) * a - a = sigmoid y * (b - a) := by ring
    have h2 : b - (sigmoid y * b + (1 - sigmoid y) * a) = (1 - sigmoid y) * (b - a) := by ring
    have h3 : (b - a) ≠ 0 := by linarith
    have h4 : 1 - sigmoid y ≠ 0 := by linarith [sigmoid_lt_one y]
    simp only [intervalCoord, h1, h2, log_mul (sigmoid_pos y).ne' h3, log_mul h4 h3]
    linarith [log_sigmoid y]
  range := by
    ext x
    simp only [intervalCoord, Set.mem_range, Set.mem_Ioo]
    constructor
    · rintro ⟨y, rfl⟩
      have h1 := mul_pos (sigmoid_pos y) (sub_pos.2 hab)
      have h2 := mul_pos (sub_pos.2 (sigmoid_lt_one y)) (sub_pos.2 hab)
      constructor <;> nlinarith
    · rintro ⟨h1, h2⟩
      refine ⟨log (x - a) - log (b - x), ?_⟩
      rw [sigmoid_log (by linarith) (by linarith)]
      have h3 : x - a + (b - x) = b - a := by ring
      have h4 : b - a ≠ 0 := by linarith
      rw [h3]
      field_simp
      ring
  deriv y := by
    have h := ((hasDerivAt_sigmoid y).mul_const b).add
      (((hasDerivAt_const y (1 : ℝ)).sub (hasDerivAt_sigmoid y)).mul_const a)
    have e : sigmoid y * (1 - sigmoid y) * b + (0 - sigmoid y * (1 - sigmoid y)) * a =
        sigmoid y * (1 - sigmoid y) * (b - a) := by ring
    rw [e] at h
    exact h
  pos y := mul_pos (mul_pos (sigmoid_pos y) (sub_pos.2 (sigmoid_lt_one y))) (sub_pos.2 hab)
  meas := (measurable_log.comp (measurable_id.sub_const a)).sub
    (measurable_log.comp (measurable_const.sub measurable_id))
  meas_d := (measurable_sigmoid.mul (measurable_const.sub measurable_sigmoid)).mul_const _

theorem logOddsCoord_changeVar :
    ChangeVar logOddsCoord.f logOddsCoord.g logOddsCoord.dg logOddsCoord.S where
  left_inv y := by
    have h4 : 1 - sigmoid y ≠ 0 := by linarith [sigmoid_lt_one y]
    simp only [logOddsCoord]
    rw [log_div (sigmoid_pos y).ne' h4, log_sigmoid]
  range := by
    have := (intervalCoord_changeVar (a := 0) (b := 1) one_pos).range
    simpa [intervalCoord, logOddsCoord] using this
  deriv y := hasDerivAt_sigmoid y
  pos y := mul_pos (sigmoid_pos y) (sub_pos.2 (sigmoid_lt_one y))
  meas := measurable_log.comp (measurable_id.div (measurable_const.sub measurable_id))
  meas_d := measurable_sigmoid.mul (measurable_const.sub measurable_sigmoid)

/-! ## Entry by entry -/

variable {V : Type} {M : Model V ℝ} {env : V → Arr ℝ} {rv : V} {s : List Nat}

theorem entrywise_map {T : Arr ℝ → Arr ℝ} {f : ℝ → ℝ} (hT : ∀ x : Arr ℝ, T x = ⟨x.shape, x.data.map f⟩) :
    Entrywise T s fun _ => f := by
  intro x _ hs
  rw [hT, hs]
  congr 1
  apply List.ext_getElem?
  intro i
  rw [List.getElem?_mapIdx, List.getElem?_map]

theorem entrywise_zipWith {α : Type} {T : Arr ℝ → Arr ℝ} {f : α → ℝ → ℝ} {l : List α}
    (hl : l.length = s.prod) {d : α} (hT : ∀ x : Arr ℝ, T x = ⟨x.shape, List.zipWith f l x.data⟩) :
    Entrywise T s fun j => f (l.getD j d) := by
  intro x hx hs
  rw [hT, hs]
  congr 1
  apply List.ext_getElem?
  intro i
  rw [List.getElem?_zipWith, List.getElem?_mapIdx]
  by_cases hi : i < x.data.length
  · have hi' : i < l.length := by
      rw [hl, ← hs, ← hx]
      exact hi
    simp [List.getD_eq_getElem?_getD, hi, hi']
  · rw [List.getElem?_eq_none (l := x.data) (by simpa using hi)]
    rcases l[i]? <;> rfl

/-- A variable without transform. -/
theorem entrywise_none (h : M.transform rv = none) :
    Entrywise (fun x => transformForward M env rv x (M.transform rv)) s (fun _ => idCoord.f) ∧
    Entrywise (fun x => transformBackward M env rv x (M.transform rv)) s fun _ => idCoord.g := by
  rw [h]
  constructor <;> exact entrywise_map fun x => by simp [transformForward, transformBackward, idCoord]

/-- A positive variable. -/
theorem entrywise_log (h : M.transform rv = some logTransform) :
    Entrywise (fun x => transformForward M env rv x (M.transform rv)) s (fun _ => logCoord.f) ∧
    Entrywise (fun x => transformBackward M env rv x (M.transform rv)) s fun _ => logCoord.g := by
  rw [h]
  constructor <;> exact entrywise_map fun x => rfl

/-- A variable in the unit interval. -/
theorem entrywise_logOdds (h : M.transform rv = some logOddsTransform) :
    Entrywise (fun x => transformForward M env rv x (M.transform rv)) s (fun _ => logOddsCoord.f) ∧
    Entrywise (fun x => transformBackward M env rv x (M.transform rv)) s fun _ => logOddsCoord.g := by
  rw [h]
  constructor <;> exact entrywise_map fun x => rfl

/-- A variable between bounds `a` and `b`, its first two inputs. -/
theorem entrywise_interval (h : M.transform rv = some intervalTransform) {a b : Arr ℝ} {r : List (Arr ℝ)}
    (hin : M.inputs rv env = a :: b :: r) (ha : a.data.length = s.prod) (hb : b.data.length = s.prod) :
    Entrywise (fun x => transformForward M env rv x (M.transform rv)) s
      (fun j => (intervalCoord ((a.data.zip b.data).getD j (0, 0)).1 ((a.data.zip b.data).getD j (0, 0)).2).f) ∧
    Entrywise (fun x => transformBackward M env rv x (M.transform rv)) s
      fun j => (intervalCoord ((a.data.zip b.data).getD j (0, 0)).1 ((a.data.zip b.data).getD j (0, 0)).2).g := by
  rw [h]
  have hl : (a.data.zip b.data).length = s.prod := by simp [ha, hb]
  constructor
  · exact entrywise_zipWith (f := fun (ab : ℝ × ℝ) => (intervalCoord ab.1 ab.2).f) hl fun x => by
      simp only [transformForward, hin]
      rfl
  · exact entrywise_zipWith (f := fun (ab : ℝ × ℝ) => (intervalCoord ab.1 ab.2).g) hl fun x => by
      simp only [transformBackward, hin]
      rfl

/-- A variable above a bound, its first input. -/
theorem entrywise_lower (h : M.transform rv = some lowerTransform) {a : Arr ℝ} {r : List (Arr ℝ)}
    (hin : M.inputs rv env = a :: r) (ha : a.data.length = s.prod) :
    Entrywise (fun x => transformForward M env rv x (M.transform rv)) s
      (fun j => (lowerCoord (a.data.getD j 0)).f) ∧
    Entrywise (fun x => transformBackward M env rv x (M.transform rv)) s
      fun j => (lowerCoord (a.data.getD j 0)).g := by
  rw [h]
  constructor
  · exact entrywise_zipWith (f := fun a => (lowerCoord a).f) ha fun x => by
      simp only [transformForward, hin]
      rfl
  · exact entrywise_zipWith (f := fun a => (lowerCoord a).g) ha fun x => by
      simp only [transformBackward, hin]
      rfl

end Verif.Nuts
