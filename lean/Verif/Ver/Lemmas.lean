import Verif.Ver.Spec
import Mathlib.Data.List.Infix
import Mathlib.Data.List.Basic
import Mathlib.Data.Nat.Basic
import Mathlib.Tactic.NormNum

/-!
# Helper lemmas for the version strings
-/

namespace Verif.Ver

theorem decimal_eq (n : Nat) : decimal n = Nat.toDigits 10 n := by
  induction n using Nat.strong_induction_on with
  | _ n ih =>
    have hd : ∀ k, k < 10 → Char.ofNat (48 + k) = Nat.digitChar k := by decide
    rw [decimal]
    split
    · rename_i h
      rw [Nat.toDigits_of_lt_base h, hd n h]
    · rename_i h
      rw [Nat.toDigits_of_base_le (by decide) (by omega), ih (n / 10) (by omega),
        hd _ (Nat.mod_lt _ (by decide))]

theorem decimal_digits (n : Nat) : decimal n ≠ [] ∧ ∀ c ∈ decimal n, isDigit c = true := by
  induction n using Nat.strong_induction_on with
  | _ n ih =>
    have hd : ∀ k, k < 10 → isDigit (Char.ofNat (48 + k)) = true := by decide
    rw [decimal]
    split
    · rename_i h
      refine ⟨by simp, fun c hc => ?_⟩
      simp only [List.mem_singleton] at hc
      rw [hc]
      exact hd n h
    · refine ⟨by simp, fun c hc => ?_⟩
      simp only [List.mem_append, List.mem_singleton] at hc
      rcases hc with hc | hc
      · exact (ih (n / 10) (by omega)).2 c hc
      · rw [hc]
        exact hd _ (Nat.mod_lt _ (by decide))

theorem intDigits_append (s : Str) (hs : ∀ c ∈ s, isDigit c = true) (t : Str) (acc : Nat) (b : Bool) :
    intDigits acc b (s ++ t) =
      intDigits (s.foldl (fun a c => 10 * a + digitVal c) acc) (b || !s.isEmpty) t := by
  induction s generalizing acc b with
  | nil => simp
  | cons c s ih =>
    rw [List.cons_append, intDigits, if_pos (hs c (by simp)),
      ih (fun d hd => hs d (by simp [hd]))]
    simp

theorem foldl_decimal (n : Nat) : (decimal n).foldl (fun a c => 10 * a + digitVal c) 0 = n := by
  induction n using Nat.strong_induction_on with
  | _ n ih =>
    have hd : ∀ k, k < 10 → digitVal (Char.ofNat (48 + k)) = k := by decide
    rw [decimal]
    split
    · rename_i h
      simp [hd n h]
    · rw [List.foldl_append, ih (n / 10) (by omega)]
      simp only [List.foldl_cons, List.foldl_nil]
      rw [hd _ (Nat.mod_lt _ (by decide))]
      omega

theorem isDigit_ne {c : Char} (h : isDigit c = true) : c ≠ '-' ∧ c ≠ '+' ∧ c ≠ '.' ∧ c ≠ 'g' := by
  refine ⟨?_, ?_, ?_, ?_⟩ <;> rintro rfl <;> exact absurd h (by decide)

theorem isHex_ne {c : Char} (h : isHex c = true) : c ≠ '-' ∧ c ≠ '+' ∧ c ≠ '.' ∧ c ≠ 'g' ∧ c ≠ 'y' := by
  refine ⟨?_, ?_, ?_, ?_, ?_⟩ <;> rintro rfl <;> exact absurd h (by decide)

theorem isHash_isHex {h : Str} (hh : IsHash h) : ∀ c ∈ h, isHex c = true := by
  have : ∀ c ∈ "0123456789abcdef".toList, isHex c = true := by decide
  exact fun c hc => this c (hh.2 c hc)

theorem pyInt_digits {s : Str} (hne : s ≠ []) (hd : ∀ c ∈ s, isDigit c = true) :
    pyInt s = some ((s.foldl (fun a c => 10 * a + digitVal c) 0 : Nat) : Int) := by
  have hi : intDigits 0 false s = some (s.foldl (fun a c => 10 * a + digitVal c) 0) := by
    have := intDigits_append s hd [] 0 false
    rw [List.append_nil] at this
    rw [this]
    have : s.isEmpty = false := by
      cases s with
      | nil => exact absurd rfl hne
      | cons _ _ => rfl
    simp [this, intDigits]
  rcases s with _ | ⟨c, s⟩
  · exact absurd rfl hne
  · have hc := isDigit_ne (hd c (by simp))
    rw [pyInt]
    · rw [hi]
      rfl
    · rintro s' h'
      injection h' with h1
      exact hc.1 h1
    · rintro s' h'
      injection h' with h1
      exact hc.2.1 h1

theorem pyInt_decimal (n : Nat) : pyInt (decimal n) = some (n : Int) := by
  have h := decimal_digits n
  rw [pyInt_digits h.1 h.2, foldl_decimal]

/-! ## The regular expression -/

theorem takeWhile_digits {ds : Str} (hd : ∀ c ∈ ds, isDigit c = true) {c : Char} (hc : isDigit c = false)
    (r : Str) : (ds ++ c :: r).takeWhile isDigit = ds ∧ (ds ++ c :: r).dropWhile isDigit = c :: r := by
  induction ds with
  | nil => simp [hc]
  | cons d ds ih =>
    have h1 := hd d (by simp)
    obtain ⟨h2, h3⟩ := ih fun x hx => hd x (by simp [hx])
    simp [h1, h2, h3]

theorem matchTail_text {ds h : Str} (hd : ds ≠ [] ∧ ∀ c ∈ ds, isDigit c = true) (hne : h ≠ [])
    (hh : ∀ c ∈ h, isHex c = true) : matchTail ('-' :: (ds ++ '-' :: 'g' :: h)) = some (ds, h) := by
  obtain ⟨h1, h2⟩ := takeWhile_digits hd.2 (c := '-') (by decide) ('g' :: h)
  rw [matchTail]
  simp only [h1, h2]
  have h3 : ds.isEmpty = false := by cases ds <;> simp_all
  have h4 : h.isEmpty = false := by cases h <;> simp_all
  have h5 : h.all isHex = true := List.all_eq_true.2 hh
  simp [h3, h4, h5]

/-- A text without `-` does not match the tail, nor do one with a single group. -/
theorem matchTail_none {s : Str} (h : s.count '-' < 2) : matchTail s = none := by
  rcases s with _ | ⟨c, s⟩
  · rfl
  · by_cases hc : c = '-'
    · subst hc
      rw [matchTail]
      have hs : s.count '-' = 0 := by
        rw [List.count_cons_self] at h
        omega
      have hnot : '-' ∉ s := List.count_eq_zero.1 hs
      split
      · rename_i h' heq
        exfalso
        apply hnot
        have := List.dropWhile_sublist (p := isDigit) (l := s)
        rw [heq] at this
        exact this.subset (by simp)
      · rfl
    · rw [matchTail]
      rintro s' h'
      injection h' with h1
      exact hc h1

theorem matchDescribe_none {pre s : Str} (h : s.count '-' < 2) : matchDescribe pre s = none := by
  induction s generalizing pre with
  | nil => rfl
  | cons c s ih =>
    have hs : s.count '-' < 2 := by
      have := List.count_le_count_cons (a := '-') (b := c) (l := s)
      omega
    rw [matchDescribe, ih hs, matchTail_none h]
    simp

theorem matchDescribe_text {tag ds h pre : Str} (hp : pre ++ tag ≠ []) (htag : '\n' ∉ tag)
    (hd : ds ≠ [] ∧ ∀ c ∈ ds, isDigit c = true) (hne : h ≠ []) (hh : ∀ c ∈ h, isHex c = true) :
    matchDescribe pre (tag ++ '-' :: (ds ++ '-' :: 'g' :: h)) = some (pre.reverse ++ tag, ds, h) := by
  have hds : '-' ∉ ds := fun hm => (isDigit_ne (hd.2 _ hm)).1 rfl
  have hhh : '-' ∉ h := fun hm => (isHex_ne (hh _ hm)).1 rfl
  induction tag generalizing pre with
  | nil =>
    have hc : (ds ++ '-' :: 'g' :: h).count '-' < 2 := by
      rw [List.count_append, List.count_eq_zero_of_not_mem hds, List.count_cons_self,
        List.count_cons_of_ne (by decide), List.count_eq_zero_of_not_mem hhh]
      omega
    rw [List.nil_append, matchDescribe, matchDescribe_none hc, matchTail_text hd hne hh]
    have : pre.isEmpty = false := by
      cases pre with
      | nil => simp at hp
      | cons _ _ => rfl
    simp [this]
  | cons c tag ih =>
    have hcn : c ≠ '\n' := fun h => htag (by simp [h])
    rw [List.cons_append, matchDescribe, if_neg hcn,
      ih (pre := c :: pre) (by simp) (fun h => htag (by simp [h]))]
    simp

/-! ## Suffixes -/

theorem endsWith_append (s t : Str) : endsWith (s ++ t) t = true := by
  simp [endsWith]

theorem endsWith_last {s t : Str} {c d : Char} (hs : s.getLast? = some c) (ht : t.getLast? = some d)
    (hcd : c ≠ d) : endsWith s t = false := by
  rw [endsWith, Bool.and_eq_false_iff]
  by_cases hl : t.length ≤ s.length
  · right
    rw [beq_eq_false_iff_ne]
    intro h
    have h1 : s.getLast? = t.getLast? := by
      conv_lhs => rw [← List.take_append_drop (s.length - t.length) s, h]
      rw [List.getLast?_append, ht]
      rfl
    rw [hs, ht] at h1
    exact hcd (Option.some.inj h1)
  · left
    simpa using hl

/-! ## The post-release mark -/

theorem splitPost_first {a : Str} (ha : ¬ postMark <:+: a) (acc r : Str) :
    splitPost acc (a ++ (postMark ++ r)) = (acc.reverse ++ a) :: splitPost [] r := by
  induction a generalizing acc with
  | nil => simp [postMark, splitPost]
  | cons c a ih =>
    have ha' : ¬ postMark <:+: a := fun h => ha (h.trans (List.suffix_cons c a).isInfix)
    rw [List.cons_append, splitPost]
    · rw [ih ha']
      simp
    · rintro s rfl he
      rcases a with _ | ⟨a1, _ | ⟨a2, _ | ⟨a3, _ | ⟨a4, a⟩⟩⟩⟩ <;>
        simp only [postMark, List.nil_append, List.cons_append, List.cons.injEq] at he
      · exact absurd he.1 (by decide)
      · exact absurd he.2.1 (by decide)
      · exact absurd he.2.2.1 (by decide)
      · exact absurd he.2.2.2.1 (by decide)
      · obtain ⟨rfl, rfl, rfl, rfl, -⟩ := he
        exact ha ⟨[], a, rfl⟩

theorem splitPost_none {a : Str} (ha : ¬ postMark <:+: a) (acc : Str) :
    splitPost acc a = [acc.reverse ++ a] := by
  induction a generalizing acc with
  | nil => simp [splitPost]
  | cons c a ih =>
    have ha' : ¬ postMark <:+: a := fun h => ha (h.trans (List.suffix_cons c a).isInfix)
    rw [splitPost]
    · rw [ih ha']
      simp
    · rintro s rfl rfl
      exact ha ⟨[], s, rfl⟩

theorem not_postMark_of_dot {a : Str} (h : '.' ∉ a) : ¬ postMark <:+: a := fun hi =>
  h (hi.subset (by simp [postMark]))

theorem splitPostVersion_none {a : Str} (ha : ¬ postMark <:+: a) :
    splitPostVersion a = some (a, none) := by
  rw [splitPostVersion, splitPost_none ha]
  simp

theorem splitPostVersion_empty {a : Str} (ha : ¬ postMark <:+: a) :
    splitPostVersion (a ++ postMark) = some (a, some 0) := by
  have := splitPost_first ha [] []
  rw [List.append_nil] at this
  rw [splitPostVersion, this]
  simp [splitPost]

theorem splitPostVersion_one {a b : Str} (ha : ¬ postMark <:+: a) (hb : ¬ postMark <:+: b) (hne : b ≠ []) :
    splitPostVersion (a ++ (postMark ++ b)) = (pyInt b).map fun k => (a, some k) := by
  rw [splitPostVersion, splitPost_first ha, splitPost_none hb]
  rcases b with _ | ⟨c, b⟩
  · exact absurd rfl hne
  · simp

end Verif.Ver
