import Verif.Shapes.Model
import Mathlib.Tactic.Common

/-!
# Helper lemmas on broadcasting
-/

namespace Verif.Shapes

open Verif.Conj

theorem bcast_nil_left (a : Shape) : bcast [] a = some a := by simp [bcast, bcRev]

theorem bcast_nil_right (a : Shape) : bcast a [] = some a := by rw [bcast_comm, bcast_nil_left]

theorem bc_nil_left (a : Shape) : bc [] a = .ok a := by simp [bc, bcast_nil_left]

theorem bc_nil_right (a : Shape) : bc a [] = .ok a := by simp [bc, bcast_nil_right]

theorem bc_self (a : Shape) : bc a a = .ok a := by simp [bc, bcast_self]

theorem bc_ok {a b c : Shape} : bc a b = .ok c ↔ bcast a b = some c := by
  unfold bc
  cases bcast a b <;> simp

theorem bcast_one (a b : Nat) : bcast [a] [b] =
    if a = b then some [a] else if a = 1 then some [b] else if b = 1 then some [a] else none := by
  simp only [bcast, List.reverse_singleton, bcRev]
  split_ifs <;> rfl

theorem bcRev_trans : ∀ {a M L : List Nat}, bcRev a M = some M → bcRev M L = some L →
    bcRev a L = some L
  | [], _, _, _, _ => rfl
  | a :: as, [], L, h, _ => by simp [bcRev] at h
  | a :: as, m :: ms, [], _, h => by simp [bcRev] at h
  | a :: as, m :: ms, l :: ls, h1, h2 => by
    obtain ⟨h1a, h1b⟩ := (bcRev_fits_cons _ _ _ _).1 h1
    obtain ⟨h2a, h2b⟩ := (bcRev_fits_cons _ _ _ _).1 h2
    refine (bcRev_fits_cons _ _ _ _).2 ⟨?_, bcRev_trans h1b h2b⟩
    omega

theorem fitsIn_rev {a L : Shape} : FitsIn a L ↔ bcRev a.reverse L.reverse = some L.reverse := by
  unfold FitsIn bcast
  constructor
  · intro h
    obtain ⟨M, hM, rfl⟩ := Option.map_eq_some_iff.1 h
    simpa using hM
  · intro h
    simp [h]

theorem fitsIn_trans {a M L : Shape} (h1 : FitsIn a M) (h2 : FitsIn M L) : FitsIn a L :=
  fitsIn_rev.2 (bcRev_trans (fitsIn_rev.1 h1) (fitsIn_rev.1 h2))

/-- A broadcast fits in `L` exactly when both parts do. -/
theorem bcast_fitsIn {a b M L : Shape} (h : bcast a b = some M) :
    FitsIn M L ↔ FitsIn a L ∧ FitsIn b L := by
  constructor
  · intro hM
    exact ⟨fitsIn_trans (bcast_absorb_left h) hM, fitsIn_trans (bcast_absorb_right h) hM⟩
  · rintro ⟨ha, hb⟩
    obtain ⟨M', hM', hL⟩ := bcast_fits ha hb
    rw [h] at hM'
    cases hM'
    exact hL

theorem length_bcRev : ∀ {a b L : List Nat}, bcRev a b = some L → L.length = max a.length b.length
  | [], b, L, h => by simp [bcRev] at h; simp [h]
  | a :: as, [], L, h => by simp [bcRev] at h; simp [← h]
  | a :: as, b :: bs, L, h => by
    unfold bcRev at h
    have key : ∀ {c : Nat}, (bcRev as bs).map (c :: ·) = some L →
        L.length = max (a :: as).length (b :: bs).length := by
      intro c hc
      obtain ⟨M, hM, rfl⟩ := Option.map_eq_some_iff.1 hc
      have := length_bcRev hM
      simp [this]
    split_ifs at h
    · exact key h
    · exact key h
    · exact key h

theorem length_bcast {a b L : Shape} (h : bcast a b = some L) :
    L.length = max a.length b.length := by
  obtain ⟨M, hM, rfl⟩ := Option.map_eq_some_iff.1 h
  simpa using length_bcRev hM

/-- What fits in a vector is a scalar, a vector of length one or a vector of the same length. -/
theorem fitsIn_vec {s : Shape} {p : Nat} : FitsIn s [p] ↔ s = [] ∨ s = [1] ∨ s = [p] := by
  constructor
  · intro h
    match s, h with
    | [], _ => exact .inl rfl
    | [q], h =>
      unfold FitsIn at h
      rw [bcast_one] at h
      by_cases hqp : q = p
      · exact .inr (.inr (by rw [hqp]))
      · by_cases hq : q = 1
        · exact .inr (.inl (by rw [hq]))
        · by_cases hp : p = 1 <;> simp_all
    | _ :: _ :: _, h =>
      have := length_bcast h
      simp at this
  · rintro (rfl | rfl | rfl)
    · exact bcast_nil_left _
    · show bcast [1] [p] = some [p]
      rw [bcast_one]
      split_ifs <;> simp_all
    · exact bcast_self _

end Verif.Shapes
