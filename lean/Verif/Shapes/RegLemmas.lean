import Verif.Shapes.Lemmas

/-!
# Shapes of the regression samplers
-/

namespace Verif.Shapes

open Verif.Conj

theorem bind_ok {α β : Type} {x : Except Err α} {f : α → Except Err β} {r : β}
    (h : x.bind f = .ok r) : ∃ a, x = .ok a ∧ f a = .ok r := by
  cases x with
  | error e => simp [Except.bind] at h
  | ok a => exact ⟨a, rfl, h⟩

/-- Broadcasting of two dimensions (proof device; one step of `Verif.Conj.bcRev`). -/
def bcDim (a b : Nat) : Option Nat :=
  if a = b then some a else if a = 1 then some b else if b = 1 then some a else none

theorem bcast_two (a b c d : Nat) : bcast [a, b] [c, d] =
    (bcDim a c).bind fun x => (bcDim b d).map fun y => [x, y] := by
  simp only [bcast, List.reverse_cons, List.reverse_nil, List.nil_append, List.singleton_append,
    bcRev, bcDim]
  by_cases h1 : b = d
  · subst h1
    split_ifs <;> simp
  · by_cases h2 : b = 1
    · subst h2
      split_ifs <;> simp_all
    · split_ifs <;> simp_all

theorem bcDim_self (a : Nat) : bcDim a a = some a := by simp [bcDim]

theorem bcDim_one (a : Nat) : bcDim 1 a = some a := by
  unfold bcDim
  split_ifs <;> simp_all

theorem bcast_col (a n p : Nat) (h : a = p ∨ a = 1) : bcast [a, 1] [p, n] = some [p, n] := by
  rw [bcast_two, bcDim_one]
  rcases h with rfl | rfl
  · simp [bcDim_self]
  · simp [bcDim_one]

theorem bcast_row (n p : Nat) : bcast [n, 1] [n, p] = some [n, p] := bcast_col n p n (.inl rfl)

theorem matmul22 (a b c d : Nat) :
    matmul [a, b] [c, d] = if b = c then .ok [a, d] else .error .run := by
  simp only [matmul, List.reverse_cons, List.reverse_nil, List.nil_append, List.singleton_append]
  split_ifs <;> simp [bc_nil_left, Except.map]

theorem matmul21 (a b c : Nat) :
    matmul [a, b] [c] = if b = c then .ok [a] else .error .run := by
  simp only [matmul, List.reverse_cons, List.reverse_nil, List.nil_append, List.singleton_append]

theorem rue2005_vec (p : Nat) : rue2005 [p] [p, p] = .ok [p] := by
  simp [rue2005, cholesky, solve, idx0, bind, Except.bind, bc_self]

theorem matmul_length {a b : Nat} {s r : Shape} (hs : 3 ≤ s.length) (h : matmul [a, b] s = .ok r) :
    3 ≤ r.length := by
  have hr : 3 ≤ s.reverse.length := by simpa using hs
  unfold matmul at h
  match hs' : s.reverse, hr with
  | x :: y :: z :: l, _ =>
    rw [hs'] at h
    simp only [List.reverse_cons, List.reverse_nil, List.nil_append, List.singleton_append,
      bc_nil_left, Except.map] at h
    split_ifs at h
    cases h
    simp

/-- The overdetermined branch, for any shape of the prior scale. -/
theorem over_vec (n p : Nat) (s : Shape) (r : Shape) :
    over [n] s [n, p] [n] = .ok r ↔ r = [p] ∧ FitsIn s [p] := by
  classical
  have h1 : over [n] s [n, p] [n] = (setDiag [p, p] p s).bind fun Q => rue2005 [p] Q := by
    simp [over, newAxis1, bind, Except.bind, bc, bcast_row, matmul22, matmul21, idx1, bcast_self]
  rw [h1]
  have h2 : setDiag [p, p] p s = if FitsIn s [p] then .ok [p, p] else .error .run := by
    simp only [setDiag, min_self]
    cases hb : bcast [p] s with
    | none =>
      have : ¬ FitsIn s [p] := fun h => by
        rw [bcast_of_fits h] at hb
        cases hb
      simp [bc, hb, this]
    | some e =>
      have := bcast_fitsIn (L := [p]) hb
      have hp : FitsIn [p] [p] := bcast_self _
      simp only [bc, hb, le_refl, true_and]
      refine if_congr ?_ rfl rfl
      rw [show (bcast e [p] = some [p]) = FitsIn e [p] from rfl, this]
      simp [hp]
  rw [h2]
  by_cases hf : FitsIn s [p]
  · simp [hf, Except.bind, rue2005_vec, eq_comm]
  · simp [hf, Except.bind]

theorem over_no_build (n p : Nat) (s : Shape) : over [n] s [n, p] [n] ≠ .error .build := by
  have h1 : over [n] s [n, p] [n] = (setDiag [p, p] p s).bind fun Q => rue2005 [p] Q := by
    simp [over, newAxis1, bind, Except.bind, bc, bcast_row, matmul22, matmul21, idx1, bcast_self]
  rw [h1]
  simp only [setDiag, min_self, bc]
  cases bcast [p] s with
  | none => simp [Except.bind]
  | some e =>
    simp only
    split_ifs <;> simp [Except.bind, rue2005_vec]

/-- The underdetermined branch, for any shape of the prior scale. -/
theorem cong2017_vec (n p : Nat) (s : Shape) (r : Shape) :
    cong2017 s [n] [n, p] [n] = .ok r ↔ r = [p] ∧ s = [p] := by
  match s with
  | [] => simp [cong2017, idx0, bind, Except.bind]
  | [q] =>
    have e1 : bc [q] [min q (q + n)] = .ok [q] := by simp [bc_self]
    have e2 : bc [n] [q + n - q] = .ok [n] := by simp [bc_self]
    by_cases hq : q = p
    · subst hq
      simp [cong2017, idx0, newAxis1, bind, Except.bind, bc, bcast_col q n q (.inl rfl), matmul22,
        matmul21, setDiag, solve, bcast_self, eq_comm]
    · have hne : cong2017 [q] [n] [n, p] [n] ≠ .ok r := by
        intro h
        simp only [cong2017, idx0, newAxis1, bind] at h
        obtain ⟨_, ha, h⟩ := bind_ok h
        cases ha
        obtain ⟨_, ha, h⟩ := bind_ok h
        cases ha
        obtain ⟨y1, hy1, h⟩ := bind_ok h
        cases e1.symm.trans hy1
        obtain ⟨y2, -, h⟩ := bind_ok h
        obtain ⟨A1, -, h⟩ := bind_ok h
        obtain ⟨AP, -, h⟩ := bind_ok h
        obtain ⟨B, -, h⟩ := bind_ok h
        obtain ⟨b0, -, h⟩ := bind_ok h
        obtain ⟨B', -, h⟩ := bind_ok h
        obtain ⟨m, hm, h⟩ := bind_ok h
        rw [matmul21, if_neg (fun h => hq h.symm)] at hm
        cases hm
      simp [hne, hq]
  | a :: b :: l =>
    have hne : cong2017 (a :: b :: l) [n] [n, p] [n] ≠ .ok r := by
      intro h
      simp only [cong2017, idx0, newAxis1, bind] at h
      obtain ⟨_, -, h⟩ := bind_ok h
      obtain ⟨_, -, h⟩ := bind_ok h
      obtain ⟨y1, -, h⟩ := bind_ok h
      obtain ⟨y2, -, h⟩ := bind_ok h
      obtain ⟨A1, hA1, h⟩ := bind_ok h
      cases hA1
      obtain ⟨AP, hAP, h⟩ := bind_ok h
      have hl := length_bcast (bc_ok.1 hAP)
      obtain ⟨B, hB, h⟩ := bind_ok h
      have hBl := matmul_length (by rw [hl]; simp) hB
      obtain ⟨b0, -, h⟩ := bind_ok h
      obtain ⟨B', hB', h⟩ := bind_ok h
      unfold setDiag at hB'
      split at hB'
      · simp at hBl
      · cases hB'
    simp [hne]

/-- A scalar prior scale: the underdetermined branch cannot be built. -/
theorem cong2017_scalar (omega phi t : Shape) : cong2017 [] omega phi t = .error .build := by
  simp [cong2017, idx0, bind, Except.bind]

theorem cong2017_no_build (n p q : Nat) : cong2017 [q] [n] [n, p] [n] ≠ .error .build := by
  have e1 : bc [q] [min q (q + n)] = .ok [q] := by simp [bc_self]
  have e2 : bc [n] [q + n - q] = .ok [n] := by simp [bc_self]
  by_cases hq : q = p
  · have := (cong2017_vec n p [q] [p]).2 ⟨rfl, by rw [hq]⟩
    rw [this]
    simp
  · by_cases h1 : q = 1
    · subst h1
      simp [cong2017, idx0, newAxis1, bind, Except.bind, bc, bcast_col 1 n p (.inr rfl), matmul22,
        matmul21, setDiag, bcast_self, Ne.symm hq]
    · by_cases hp : p = 1
      · subst hp
        have e3 : bcast [q, 1] [1, n] = some [q, n] := by
          rw [bcast_two, bcDim_one]
          simp [bcDim, hq]
        simp [cong2017, idx0, newAxis1, bind, Except.bind, bc, e3, matmul22, Ne.symm hq, bcast_self]
      · have e3 : bcast [q, 1] [p, n] = none := by
          rw [bcast_two]
          simp [bcDim, hq, h1, hp]
        simp [cong2017, idx0, newAxis1, bind, Except.bind, bc, e3, bcast_self]

/-- The regression sampler: it returns, with the shape of the coefficients, exactly for one scale per
coefficient, or for a scale of length one when there are at least as many rows as columns. -/
theorem regression_vec (n p : Nat) (s r : Shape) :
    regression [n] s [n, p] [n] = .ok r ↔ r = [p] ∧ (s = [p] ∨ s = [1] ∧ p ≤ n) := by
  have hc := cong2017_vec n p s r
  have ho := over_vec n p s r
  have hob := over_no_build n p s
  rw [fitsIn_vec] at ho
  by_cases hs : s = []
  · subst hs
    simp [regression, idx0, idx1, bind, Except.bind, cong2017_scalar]
  · have key : regression [n] s [n, p] [n] = .ok r ↔ cong2017 s [n] [n, p] [n] ≠ .error .build ∧
        (if p > n then cong2017 s [n] [n, p] [n] else over [n] s [n, p] [n]) = .ok r := by
      simp only [regression, idx0, idx1, bind, Except.bind]
      split
      · rename_i h
        simp [h]
      · exact absurd ‹over [n] s [n, p] [n] = .error .build› hob
      · rename_i h _
        exact ⟨fun hr => ⟨h, hr⟩, fun hr => hr.2⟩
    rw [key]
    by_cases hpn : p > n
    · rw [if_pos hpn, hc]
      constructor
      · rintro ⟨-, rfl, rfl⟩
        exact ⟨rfl, .inl rfl⟩
      · rintro ⟨rfl, rfl | ⟨-, h⟩⟩
        · exact ⟨cong2017_no_build n p p, rfl, rfl⟩
        · omega
    · rw [if_neg hpn, ho]
      constructor
      · rintro ⟨-, rfl, rfl | rfl | rfl⟩
        · exact absurd rfl hs
        · exact ⟨rfl, .inr ⟨rfl, by omega⟩⟩
        · exact ⟨rfl, .inl rfl⟩
      · rintro ⟨rfl, rfl | ⟨rfl, -⟩⟩
        · exact ⟨cong2017_no_build n p p, rfl, .inr (.inr rfl)⟩
        · exact ⟨cong2017_no_build n p 1, rfl, .inr (.inl rfl)⟩

/-! ## Replicated observations -/

theorem matmul_length_two {a b r : Shape} (ha : 2 ≤ a.length) (hb : 2 ≤ b.length)
    (h : matmul a b = .ok r) : 2 ≤ r.length := by
  have ha' : 2 ≤ a.reverse.length := by simpa using ha
  have hb' : 2 ≤ b.reverse.length := by simpa using hb
  unfold matmul at h
  match h1 : a.reverse, ha', h2 : b.reverse, hb' with
  | k :: m :: l, _, n :: k' :: l', _ =>
    rw [h1, h2] at h
    simp only [Except.map] at h
    split_ifs at h
    split at h
    · cases h
    · cases h
      simp

theorem solve_length {A b r : Shape} (h : solve A b = .ok r) : r.length = b.length := by
  unfold solve at h
  split at h
  · split_ifs at h
    cases h
    rfl
  · split_ifs at h
    cases h
    rfl
  · cases h

theorem bc_length {a b r : Shape} (h : bc a b = .ok r) : r.length = max a.length b.length :=
  length_bcast (bc_ok.1 h)

theorem rue2005_length {b Q r : Shape} (hb : 2 ≤ b.length) (h : rue2005 b Q = .ok r) :
    2 ≤ r.length := by
  simp only [rue2005, bind] at h
  obtain ⟨L, -, h⟩ := bind_ok h
  obtain ⟨w, hw, h⟩ := bind_ok h
  obtain ⟨u, hu, h⟩ := bind_ok h
  obtain ⟨_, -, h⟩ := bind_ok h
  obtain ⟨v, -, h⟩ := bind_ok h
  have := bc_length h
  have := solve_length hw
  have := solve_length hu
  omega

/-- With a two-dimensional response neither sampler can return a vector. -/
theorem regression_length {omega lam z r : Shape} {n p : Nat} (hz : 2 ≤ z.length)
    (h : regression omega lam [n, p] z = .ok r) : 2 ≤ r.length := by
  have key : cong2017 lam omega [n, p] z = .ok r ∨ over omega lam [n, p] z = .ok r := by
    simp only [regression, idx0, idx1, bind, Except.bind] at h
    split at h
    · cases h
    · cases h
    · split_ifs at h
      · exact .inl h
      · exact .inr h
  rcases key with h | h
  · simp only [cong2017, bind] at h
    obtain ⟨_, hl, h⟩ := bind_ok h
    obtain ⟨_, -, h⟩ := bind_ok h
    obtain ⟨y1, -, h⟩ := bind_ok h
    obtain ⟨y2, -, h⟩ := bind_ok h
    obtain ⟨A1, -, h⟩ := bind_ok h
    obtain ⟨AP, hAP, h⟩ := bind_ok h
    obtain ⟨B, -, h⟩ := bind_ok h
    obtain ⟨b0, -, h⟩ := bind_ok h
    obtain ⟨B', -, h⟩ := bind_ok h
    obtain ⟨m, -, h⟩ := bind_ok h
    obtain ⟨r1, hr1, h⟩ := bind_ok h
    obtain ⟨r2, hr2, h⟩ := bind_ok h
    obtain ⟨al, hal, h⟩ := bind_ok h
    obtain ⟨w, hw, h⟩ := bind_ok h
    have e1 := bc_length hr1
    have e2 := bc_length hr2
    have e3 := solve_length hal
    have e4 := bc_length hAP
    simp only [List.length_reverse, List.length_cons, List.length_nil] at e4
    have e5 := matmul_length_two (by omega) (by omega) hw
    have e6 := bc_length h
    omega
  · simp only [over, bind] at h
    obtain ⟨_, -, h⟩ := bind_ok h
    obtain ⟨_, -, h⟩ := bind_ok h
    obtain ⟨_, -, h⟩ := bind_ok h
    obtain ⟨_, -, h⟩ := bind_ok h
    obtain ⟨_, -, h⟩ := bind_ok h
    obtain ⟨oz, hoz, h⟩ := bind_ok h
    obtain ⟨b, hb, h⟩ := bind_ok h
    have e1 := bc_length hoz
    exact rue2005_length (matmul_length_two (by simp) (by omega) hb) h

end Verif.Shapes
