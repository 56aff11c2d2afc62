import Verif.Ver.LookupSpec
import Verif.Ver.Lemmas
import Mathlib.Data.List.Basic

/-!
# Lemmas about the version lookup
-/

namespace Verif.Ver

theorem isSpace_iff (c : Char) : isSpace c = true ↔ White c := by
  simp only [isSpace, White, List.contains_iff_mem, List.mem_cons, List.not_mem_nil, or_false]
  omega

theorem isDigit_iff (c : Char) : isDigit c = true ↔ c ∈ "0123456789".toList := by
  constructor
  · intro h
    simp only [isDigit, Bool.and_eq_true, decide_eq_true_eq] at h
    have hc : c = Char.ofNat c.toNat := (Char.ofNat_toNat c).symm
    obtain ⟨h1, h2⟩ := h
    rw [hc]
    generalize c.toNat = n at h1 h2
    have : n = 48 ∨ n = 49 ∨ n = 50 ∨ n = 51 ∨ n = 52 ∨ n = 53 ∨ n = 54 ∨ n = 55 ∨ n = 56 ∨ n = 57 := by
      omega
    rcases this with rfl | rfl | rfl | rfl | rfl | rfl | rfl | rfl | rfl | rfl <;> decide
  · intro h
    have h' : c ∈ ['0', '1', '2', '3', '4', '5', '6', '7', '8', '9'] := h
    simp only [List.mem_cons, List.not_mem_nil, or_false] at h'
    rcases h' with rfl | rfl | rfl | rfl | rfl | rfl | rfl | rfl | rfl | rfl <;> decide

/-! ## Stripping -/

theorem stripBy_self {p : Char → Bool} {s : Str} {c d : Char} {r t : Str} (h1 : s = c :: r) (hc : p c = false)
    (h2 : s = t ++ [d]) (hd : p d = false) : stripBy p s = s := by
  have e1 : s.dropWhile p = s := by rw [h1, List.dropWhile_cons, hc]; rfl
  have e2 : s.reverse.dropWhile p = s.reverse := by
    rw [h2, List.reverse_append, List.reverse_singleton, List.singleton_append, List.dropWhile_cons, hd]; rfl
  rw [stripBy, e1, e2, List.reverse_reverse]

theorem stripBy_cons {p : Char → Bool} {c : Char} (hc : p c = true) (s : Str) :
    stripBy p (c :: s) = stripBy p s := by
  rw [stripBy, List.dropWhile_cons, hc]; rfl

theorem stripBy_concat {p : Char → Bool} {s : Str} {a : Char} {r : Str} (h1 : s = a :: r) (ha : p a = false)
    {c : Char} (hc : p c = true) : stripBy p (s ++ [c]) = stripBy p s := by
  have e1 : (s ++ [c]).dropWhile p = s ++ [c] := by rw [h1, List.cons_append, List.dropWhile_cons, ha]; rfl
  have e2 : s.dropWhile p = s := by rw [h1, List.dropWhile_cons, ha]; rfl
  rw [stripBy, stripBy, e1, e2, List.reverse_append, List.reverse_singleton, List.singleton_append,
    List.dropWhile_cons, hc]
  rfl

theorem not_isSpace {c : Char} (h : ¬ White c) : isSpace c = false := by
  rw [← Bool.not_eq_true, isSpace_iff]; exact h

theorem strip_trim {s : Str} (h : Trim s) : strip s = s := by
  obtain ⟨c, r, h1, hc⟩ := h.first
  obtain ⟨t, d, h2, hd⟩ := h.last
  exact stripBy_self h1 (not_isSpace hc) h2 (not_isSpace hd)

theorem strip_space {s : Str} (h : Trim s) : strip (' ' :: s) = s := by
  rw [strip, stripBy_cons (by decide)]
  exact strip_trim h

theorem Trim.ne_nil {s : Str} (h : Trim s) : s ≠ [] := by
  obtain ⟨c, r, h1, -⟩ := h.first
  rw [h1]; exact List.cons_ne_nil _ _

theorem dropWhile_eq_nil' {p : Char → Bool} {s : Str} : s.dropWhile p = [] ↔ ∀ c ∈ s, p c = true := by
  induction s with
  | nil => simp
  | cons a s ih =>
    rw [List.dropWhile_cons]
    by_cases h : p a = true <;> simp [h, ih]

theorem strip_eq_nil {s : Str} : strip s = [] ↔ Blank s := by
  have key : strip s = [] ↔ s.dropWhile isSpace = [] := by
    rw [strip, stripBy, List.reverse_eq_nil_iff, dropWhile_eq_nil']
    constructor
    · intro h
      by_contra hne
      have hh := List.head_dropWhile_not isSpace hne
      have := h _ (List.mem_reverse.2 (List.head_mem hne))
      rw [hh] at this
      exact absurd this (by decide)
    · intro h
      rw [h]; intro c hc; simp at hc
  rw [key, dropWhile_eq_nil']
  exact forall₂_congr fun c _ => isSpace_iff c

/-! ## Splitting -/

theorem splitChar_skip {sep : Char} {s : Str} (h : sep ∉ s) (acc t : Str) :
    splitChar sep acc (s ++ t) = splitChar sep (s.reverse ++ acc) t := by
  induction s generalizing acc with
  | nil => rfl
  | cons c s ih =>
    have hc : c ≠ sep := fun e => h (e ▸ List.mem_cons_self)
    rw [List.cons_append, splitChar, if_neg hc, ih (fun hm => h (List.mem_cons_of_mem _ hm))]
    simp

theorem splitChar_decs {d : Str} {ds : List Str} (hd : ',' ∉ d) (hds : ∀ e ∈ ds, ',' ∉ e) :
    splitChar ',' [] (d ++ ds.flatMap ([',', ' '] ++ ·)) = d :: ds.map (' ' :: ·) := by
  rw [splitChar_skip hd]
  have : ∀ acc : Str, splitChar ',' acc (ds.flatMap ([',', ' '] ++ ·)) = acc.reverse :: ds.map (' ' :: ·) := by
    induction ds with
    | nil => intro acc; rfl
    | cons e ds ih =>
      intro acc
      rw [List.flatMap_cons]
      have h' : ',' ∉ ' ' :: e := by
        simp only [List.mem_cons, not_or]
        exact ⟨by decide, hds e List.mem_cons_self⟩
      show splitChar ',' acc (',' :: ((' ' :: e) ++ _)) = _
      rw [splitChar, if_pos rfl, splitChar_skip h', ih (fun x hx => hds x (List.mem_cons_of_mem _ hx))]
      simp
  rw [this]; simp

theorem refs_eq {decs : List Str} (h : Separable decs) :
    (splitChar ',' [] (stripParens (strip (archiveText decs)))).map strip =
      if decs = [] then [[]] else decs := by
  cases decs with
  | nil => rfl
  | cons d ds =>
    rw [if_neg (List.cons_ne_nil _ _)]
    have hd := h.trim d List.mem_cons_self
    obtain ⟨c, r, h1, hc⟩ := hd.first
    have hop := h.opening d ds rfl c r h1
    -- the last character of the whole list
    obtain ⟨t, z, h2, hz⟩ : ∃ t z, d ++ ds.flatMap ([',', ' '] ++ ·) = t ++ [z] ∧ z ≠ '(' ∧ z ≠ ')' := by
      rcases List.eq_nil_or_concat ds with rfl | ⟨init, e, he⟩
      · obtain ⟨t, z, h2, -⟩ := hd.last
        exact ⟨t, z, by simpa using h2, h.closing [] d rfl t z h2⟩
      · have he : ds = init ++ [e] := by simpa using he
        obtain ⟨t, z, h2, -⟩ := (h.trim e (by rw [he]; simp)).last
        refine ⟨d ++ init.flatMap ([',', ' '] ++ ·) ++ [',', ' '] ++ t, z, ?_,
          h.closing (d :: init) e (by rw [he]; rfl) t z h2⟩
        rw [he, List.flatMap_append, h2]
        simp
    set body := d ++ ds.flatMap ([',', ' '] ++ ·) with hbody
    have hb1 : body = c :: (r ++ ds.flatMap ([',', ' '] ++ ·)) := by rw [hbody, h1]; rfl
    have ha : archiveText (d :: ds) = ' ' :: ('(' :: (body ++ [')'])) := by
      rw [archiveText, hbody]; simp
    have hs : strip (archiveText (d :: ds)) = '(' :: (body ++ [')']) := by
      rw [ha, strip, stripBy_cons (by decide)]
      exact stripBy_self rfl (by decide) (t := '(' :: body) rfl (by decide)
    have hp : stripParens ('(' :: (body ++ [')'])) = body := by
      rw [stripParens, stripBy_cons (by decide), stripBy_concat hb1 (by simp [hop.1, hop.2]) (by decide)]
      exact stripBy_self hb1 (by simp [hop.1, hop.2]) h2 (by simp [hz.1, hz.2])
    rw [hs, hp, hbody, splitChar_decs (h.comma d List.mem_cons_self)
      (fun e he => h.comma e (List.mem_cons_of_mem _ he)), List.map_cons, strip_trim hd, List.map_map]
    congr 1
    conv_rhs => rw [← List.map_id ds]
    exact List.map_congr_left fun e he => strip_space (h.trim e (List.mem_cons_of_mem _ he))

/-! ## The order of strings -/

theorem strLe_iff (s t : Str) : strLe s t = true ↔ CodeLe s t := by
  induction s generalizing t with
  | nil =>
    cases t with
    | nil => simp [strLe, CodeLe]
    | cons b t => simp [strLe, CodeLe]
  | cons a s ih =>
    cases t with
    | nil =>
      simp only [strLe, CodeLe, Bool.false_eq_true, false_iff, not_or]
      exact ⟨List.cons_ne_nil _ _, fun h => nomatch h⟩
    | cons b t =>
      rw [strLe]
      by_cases h1 : a.toNat < b.toNat
      · rw [if_pos h1]
        exact ⟨fun _ => Or.inr (List.Lex.rel h1), fun _ => rfl⟩
      · rw [if_neg h1]
        by_cases h2 : b.toNat < a.toNat
        · rw [if_pos h2]
          refine ⟨fun h => absurd h (by decide), fun h => ?_⟩
          rcases h with h | h
          · injection h with h _
            rw [h] at h2; omega
          · cases h with
            | rel h => omega
            | cons h => omega
        · rw [if_neg h2, ih]
          have hab : a = b := Char.toNat_inj.1 (by omega)
          subst hab
          constructor
          · rintro (h | h)
            · exact Or.inl (by rw [h])
            · exact Or.inr (List.Lex.cons h)
          · rintro (h | h)
            · injection h with _ h
              exact Or.inl h
            · cases h with
              | rel h => omega
              | cons h => exact Or.inr h

theorem strLe_total (s t : Str) : (strLe s t || strLe t s) = true := by
  induction s generalizing t with
  | nil => simp [strLe]
  | cons a s ih =>
    cases t with
    | nil => simp [strLe]
    | cons b t =>
      rw [strLe, strLe]
      by_cases h1 : a.toNat < b.toNat
      · simp [h1]
      · by_cases h2 : b.toNat < a.toNat
        · simp [h2]
        · simpa [h1, h2] using ih t

theorem strLe_trans (s t u : Str) : strLe s t = true → strLe t u = true → strLe s u = true := by
  induction s generalizing t u with
  | nil => intros; rfl
  | cons a s ih =>
    intro h1 h2
    cases t with
    | nil => exact absurd h1 (by simp [strLe])
    | cons b t =>
      cases u with
      | nil => exact absurd h2 (by simp [strLe])
      | cons c u =>
        rw [strLe] at h1 h2 ⊢
        by_cases hab : a.toNat < b.toNat
        · by_cases hcb : c.toNat < b.toNat
          · rw [if_neg (by omega), if_pos hcb] at h2
            exact absurd h2 (by decide)
          · rw [if_pos (by omega)]
        · by_cases hba : b.toNat < a.toNat
          · rw [if_neg hab, if_pos hba] at h1
            exact absurd h1 (by decide)
          · rw [if_neg hab, if_neg hba] at h1
            by_cases hbc : b.toNat < c.toNat
            · rw [if_pos (by omega)]
            · by_cases hcb : c.toNat < b.toNat
              · rw [if_neg hbc, if_pos hcb] at h2
                exact absurd h2 (by decide)
              · rw [if_neg hbc, if_neg hcb] at h2
                rw [if_neg (by omega), if_neg (by omega)]
                exact ih t u h1 h2

theorem strLe_append (p s t : Str) : strLe (p ++ s) (p ++ t) = strLe s t := by
  induction p with
  | nil => rfl
  | cons a p ih =>
    rw [List.cons_append, List.cons_append, strLe, if_neg (lt_irrefl _), if_neg (lt_irrefl _), ih]

theorem strLe_antisymm {s t : Str} (h1 : strLe s t = true) (h2 : strLe t s = true) : s = t := by
  induction s generalizing t with
  | nil =>
    cases t with
    | nil => rfl
    | cons b t => exact absurd h2 (by simp [strLe])
  | cons a s ih =>
    cases t with
    | nil => exact absurd h1 (by simp [strLe])
    | cons b t =>
      rw [strLe] at h1 h2
      by_cases hab : a.toNat < b.toNat
      · rw [if_neg (by omega), if_pos hab] at h2
        exact absurd h2 (by decide)
      · by_cases hba : b.toNat < a.toNat
        · rw [if_neg hab, if_pos hba] at h1
          exact absurd h1 (by decide)
        · rw [if_neg hab, if_neg hba] at h1
          rw [if_neg hba, if_neg hab] at h2
          rw [Char.toNat_inj.1 (by omega : a.toNat = b.toNat), ih h1 h2]

/-! ## The choice of the tag -/

/-- What the loop does with one name. -/
def pick (pre ref : Str) : Option Str :=
  if pre.isPrefixOf ref then
    match ref.drop pre.length with
    | c :: r => if isDigit c then some (c :: r) else none
    | [] => none
  else none

theorem pick_iff (pre ref v : Str) : pick pre ref = some v ↔ ref = pre ++ v ∧ Numbered v := by
  unfold pick Numbered
  by_cases hp : pre.isPrefixOf ref = true
  · rw [if_pos hp]
    obtain ⟨t, rfl⟩ := List.isPrefixOf_iff_prefix.1 hp
    rw [List.drop_left, List.append_right_inj]
    cases t with
    | nil =>
      simp only [reduceCtorEq, false_iff, not_and]
      rintro rfl ⟨c, r, h, -⟩
      exact List.cons_ne_nil _ _ h.symm
    | cons c r =>
      by_cases hc : isDigit c = true
      · simp only [hc, if_true, Option.some.injEq]
        exact ⟨fun h => ⟨h, c, r, h.symm, (isDigit_iff c).1 hc⟩, fun h => h.1⟩
      · simp only [hc, Bool.false_eq_true, if_false, reduceCtorEq, false_iff, not_and]
        rintro rfl ⟨c', r', h, hd⟩
        injection h with h _
        exact hc ((isDigit_iff c).2 (h ▸ hd))
  · rw [if_neg hp]
    simp only [reduceCtorEq, false_iff, not_and]
    intro h
    exact absurd (List.isPrefixOf_iff_prefix.2 ⟨v, h.symm⟩) hp

theorem chooseTag_eq (pre : Str) (tags : List Str) :
    chooseTag pre tags = (tags.mergeSort strLe).findSome? (pick pre) := rfl

theorem findSome_least {pre : Str} {l : List Str} (hl : l.Pairwise fun a b => strLe a b = true) {v : Str}
    (h : l.findSome? (pick pre) = some v) :
    pre ++ v ∈ l ∧ Numbered v ∧ ∀ u, pre ++ u ∈ l → Numbered u → strLe v u = true := by
  induction l with
  | nil => simp at h
  | cons a l ih =>
    rw [List.findSome?_cons] at h
    rw [List.pairwise_cons] at hl
    cases hp : pick pre a with
    | some w =>
      rw [hp] at h
      injection h with h
      subst h
      obtain ⟨ha, hn⟩ := (pick_iff pre a w).1 hp
      refine ⟨ha ▸ List.mem_cons_self, hn, fun u hu _ => ?_⟩
      rcases List.mem_cons.1 hu with h | h
      · rw [ha, List.append_right_inj] at h
        subst h
        simpa using strLe_total u u
      · have := hl.1 _ h
        rwa [ha, strLe_append] at this
    | none =>
      rw [hp] at h
      obtain ⟨h1, h2, h3⟩ := ih hl.2 h
      refine ⟨List.mem_cons_of_mem _ h1, h2, fun u hu hn => ?_⟩
      rcases List.mem_cons.1 hu with h | h
      · have := (pick_iff pre a u).2 ⟨h.symm, hn⟩
        rw [hp] at this
        exact nomatch this
      · exact h3 u h hn

theorem chooseTag_some {pre : Str} {tags : List Str} {v : Str} (h : chooseTag pre tags = some v) :
    pre ++ v ∈ tags ∧ Numbered v ∧ ∀ u, pre ++ u ∈ tags → Numbered u → CodeLe v u := by
  rw [chooseTag_eq] at h
  obtain ⟨h1, h2, h3⟩ := findSome_least (List.pairwise_mergeSort strLe_trans strLe_total tags) h
  exact ⟨List.mem_mergeSort.1 h1, h2, fun u hu hn =>
    (strLe_iff v u).1 (h3 u (List.mem_mergeSort.2 hu) hn)⟩

theorem chooseTag_none {pre : Str} {tags : List Str} (h : chooseTag pre tags = none) (u : Str)
    (hu : pre ++ u ∈ tags) : ¬ Numbered u := by
  rw [chooseTag_eq, List.findSome?_eq_none_iff] at h
  intro hn
  have := h _ (List.mem_mergeSort.2 hu)
  rw [(pick_iff pre _ u).2 ⟨rfl, hn⟩] at this
  exact nomatch this

theorem mem_marked {refs : List Str} {t : Str} :
    t ∈ (refs.filter fun r => tagMark.isPrefixOf r).map (fun r => r.drop tagMark.length) ↔
      tagDec t ∈ refs := by
  rw [List.mem_map]
  constructor
  · rintro ⟨r, hr, rfl⟩
    rw [List.mem_filter] at hr
    obtain ⟨s, hs⟩ := List.isPrefixOf_iff_prefix.1 hr.2
    rw [← hs, List.drop_left]
    have h1 := hr.1
    rw [← hs] at h1
    exact h1
  · intro h
    exact ⟨tagDec t, List.mem_filter.2 ⟨h, List.isPrefixOf_iff_prefix.2 ⟨t, rfl⟩⟩, List.drop_left (l₁ := tagMark)⟩

theorem mem_likelyTags {refs : List Str} {t : Str} : t ∈ likelyTags refs ↔ Candidate refs t := by
  unfold likelyTags Candidate
  simp only
  by_cases h : ((refs.filter fun r => tagMark.isPrefixOf r).map fun r => r.drop tagMark.length) = []
  · rw [h, List.isEmpty_nil, if_pos rfl, List.mem_filter, List.any_eq_true]
    have hno : ∀ u, tagDec u ∉ refs := fun u hu => by
      have := mem_marked.2 hu
      rw [h] at this
      exact List.not_mem_nil this
    constructor
    · rintro ⟨h1, c, h2, h3⟩
      exact Or.inr ⟨hno, h1, c, h2, (isDigit_iff c).1 h3⟩
    · rintro (h1 | ⟨-, h1, c, h2, h3⟩)
      · exact absurd h1 (hno t)
      · exact ⟨h1, c, h2, (isDigit_iff c).2 h3⟩
  · rw [if_neg (by rw [List.isEmpty_iff]; exact h), mem_marked]
    refine ⟨Or.inl, ?_⟩
    rintro (h1 | ⟨h1, -⟩)
    · exact h1
    · obtain ⟨u, hu⟩ := List.exists_mem_of_ne_nil _ h
      exact absurd (mem_marked.1 hu) (h1 u)

theorem candidate_nil {t : Str} : ¬ Candidate [[]] t := by
  rintro (h | ⟨-, h, c, hc, -⟩)
  · rw [List.mem_singleton] at h
    exact List.cons_ne_nil _ _ h
  · rw [List.mem_singleton] at h
    rw [h] at hc
    exact List.not_mem_nil hc

theorem candidate_nil' {t : Str} : ¬ Candidate [] t := by
  rintro (h | ⟨-, h, -⟩) <;> exact List.not_mem_nil h

/-! ## Dates -/

theorem splitlines_eq_nil (s acc : Str) : splitlines acc s = [] ↔ acc = [] ∧ s = [] := by
  induction s generalizing acc with
  | nil =>
    rw [splitlines]
    cases acc <;> simp
  | cons c s ih =>
    rw [splitlines]
    by_cases h : c = '\r' ∧ s.head? = some '\n'
    · rw [if_pos h, ih]
      have : s ≠ [] := fun e => by rw [e] at h; exact nomatch h.2
      simp [this]
    · rw [if_neg h]
      by_cases hb : isBreak c = true
      · simp [hb]
      · rw [if_neg hb, ih]
        simp

theorem isoDate_eq_none (s : Str) : isoDate s = none ↔ s = [] := by
  rw [isoDate, Option.map_eq_none_iff, List.getLast?_eq_none_iff, splitlines_eq_nil]
  simp

theorem getLast_splitlines (s t acc : Str) (ht : t ≠ []) :
    (splitlines acc (s ++ '\n' :: t)).getLast? = (splitlines [] t).getLast? := by
  have hne : ∀ a, splitlines a t ≠ [] := fun a h => ht ((splitlines_eq_nil t a).1 h).2
  have hne' : ∀ a s', splitlines a (s' ++ '\n' :: t) ≠ [] := fun a s' h => by
    have := ((splitlines_eq_nil _ a).1 h).2
    simp at this
  have hcons : ∀ (x : Str) (l : List Str), l ≠ [] → (x :: l).getLast? = l.getLast? := by
    intro x l hl
    cases l with
    | nil => exact absurd rfl hl
    | cons y l => rfl
  induction s generalizing acc with
  | nil =>
    rw [List.nil_append, splitlines, if_neg (fun h => absurd h.1 (by decide)), if_pos (by decide)]
    exact hcons _ _ (hne _)
  | cons c s ih =>
    rw [List.cons_append, splitlines]
    split
    · exact ih _
    · split
      · rw [hcons _ _ (hne' _ _)]
        exact ih _
      · exact ih _

theorem isBreak_white {c : Char} (h : isBreak c = true) : White c ∧ c ≠ ' ' := by
  simp only [isBreak, List.contains_iff_mem, List.mem_cons, List.not_mem_nil, or_false] at h
  constructor
  · unfold White; omega
  · rintro rfl
    revert h; decide

theorem splitlines_line (s acc : Str) (hs : ∀ c ∈ s, isBreak c = false) (hne : acc ≠ [] ∨ s ≠ []) :
    splitlines acc s = [acc.reverse ++ s] := by
  induction s generalizing acc with
  | nil =>
    rw [splitlines, if_neg (by rw [List.isEmpty_iff]; simpa using hne)]
    simp
  | cons c s ih =>
    have hc := hs c List.mem_cons_self
    have hr : c ≠ '\r' := fun e => by rw [e] at hc; exact absurd hc (by decide)
    rw [splitlines, if_neg (fun h => hr h.1), if_neg (by rw [hc]; decide),
      ih _ (fun d hd => hs d (List.mem_cons_of_mem _ hd)) (Or.inl (List.cons_ne_nil _ _))]
    simp

theorem replaceSpace_word {s : Str} (h : ∀ c ∈ s, ¬ White c) (t r : Str) :
    replaceSpace t (s ++ ' ' :: r) = s ++ t ++ r := by
  induction s with
  | nil => rfl
  | cons c s ih =>
    have hc : c ≠ ' ' := fun e => h c List.mem_cons_self (by rw [e]; unfold White; decide)
    rw [List.cons_append, replaceSpace, if_neg hc, ih (fun d hd => h d (List.mem_cons_of_mem _ hd))]
    rfl

theorem word_first {s : Str} (h : Word s) : ∃ c r, s = c :: r ∧ ¬ White c := by
  cases s with
  | nil => exact absurd rfl h.1
  | cons c r => exact ⟨c, r, rfl, h.2 c List.mem_cons_self⟩

theorem word_last {s : Str} (h : Word s) : ∃ r c, s = r ++ [c] ∧ ¬ White c := by
  rcases List.eq_nil_or_concat s with e | ⟨r, c, e⟩
  · exact absurd e h.1
  · have e : s = r ++ [c] := by simpa using e
    exact ⟨r, c, e, h.2 c (by rw [e]; simp)⟩

theorem Word.trim {s : Str} (h : Word s) : Trim s := ⟨word_first h, word_last h⟩

theorem isoDate_line {s : Str} (hs : s = [] ∨ ∃ t, s = t ++ ['\n']) {day time zone : Str} (hd : Word day)
    (ht : Word time) (hz : Word zone) :
    Trim (day ++ ' ' :: (time ++ ' ' :: zone)) ∧
    isoDate (s ++ (day ++ ' ' :: (time ++ ' ' :: zone))) = some (isoText day time zone) := by
  generalize hline : day ++ ' ' :: (time ++ ' ' :: zone) = line
  have hlne : line ≠ [] := by
    obtain ⟨c, r, h, -⟩ := word_first hd
    rw [← hline, h]; simp
  have hbreak : ∀ c ∈ line, isBreak c = false := by
    intro c hc
    rw [← Bool.not_eq_true]
    intro hb
    obtain ⟨hw, hsp⟩ := isBreak_white hb
    rw [← hline] at hc
    simp only [List.mem_append, List.mem_cons] at hc
    rcases hc with h | h | h | h | h
    · exact hd.2 c h hw
    · exact hsp h
    · exact ht.2 c h hw
    · exact hsp h
    · exact hz.2 c h hw
  have hlast : (splitlines [] (s ++ line)).getLast? = some line := by
    have h0 : (splitlines [] line).getLast? = some line := by
      rw [splitlines_line line [] hbreak (Or.inr hlne)]; rfl
    rcases hs with rfl | ⟨t, rfl⟩
    · exact h0
    · have e2 : t ++ ['\n'] ++ line = t ++ '\n' :: line := by simp
      rw [e2, getLast_splitlines _ _ _ hlne, h0]
  have htrim : Trim line := by
    obtain ⟨c, r, h, hc⟩ := word_first hd
    obtain ⟨r', z, h', hz'⟩ := word_last hz
    exact ⟨⟨c, _, by rw [← hline, h]; rfl, hc⟩, ⟨day ++ ' ' :: (time ++ ' ' :: r'), z,
      by rw [← hline, h']; simp, hz'⟩⟩
  refine ⟨htrim, ?_⟩
  rw [isoDate, hlast, Option.map_some, strip_trim htrim, ← hline, replaceSpace_word hd.2]
  have h3 : day ++ ['T'] ++ (time ++ ' ' :: zone) = (day ++ ['T'] ++ time) ++ ' ' :: zone := by simp
  rw [h3, replaceSpace_word]
  · simp [isoText]
  · intro c hc
    simp only [List.mem_append, List.mem_cons, List.not_mem_nil, or_false] at hc
    rcases hc with (h | h) | h
    · exact hd.2 c h
    · rw [h]; unfold White; decide
    · exact ht.2 c h

theorem signature_end (signature : List Str) :
    signature.flatMap (· ++ ['\n']) = [] ∨ ∃ t, signature.flatMap (· ++ ['\n']) = t ++ ['\n'] := by
  rcases List.eq_nil_or_concat signature with e | ⟨init, x, e⟩
  · exact Or.inl (by rw [e]; rfl)
  · have e : signature = init ++ [x] := by simpa using e
    exact Or.inr ⟨init.flatMap (· ++ ['\n']) ++ x, by rw [e, List.flatMap_append]; simp⟩

theorem ciText_eq (signature : List Str) (day time zone : Str) : ciText signature day time zone =
    signature.flatMap (· ++ ['\n']) ++ (day ++ ' ' :: (time ++ ' ' :: zone)) := by
  simp [ciText]

theorem isoDate_ci (signature : List Str) {day time zone : Str} (hd : Word day) (ht : Word time)
    (hz : Word zone) : isoDate (ciText signature day time zone) = some (isoText day time zone) := by
  rw [ciText_eq]
  exact (isoDate_line (signature_end signature) hd ht hz).2

theorem dropWhile_trim {w : Str} (hw : Trim w) (s : Str) :
    (s ++ w).dropWhile isSpace = s.dropWhile isSpace ++ w := by
  obtain ⟨c, r, h, hc⟩ := hw.first
  induction s with
  | nil => rw [h, List.nil_append, List.dropWhile_cons, not_isSpace hc]; rfl
  | cons a s ih =>
    rw [List.cons_append, List.dropWhile_cons, List.dropWhile_cons]
    by_cases ha : isSpace a = true
    · rw [if_pos ha, if_pos ha, ih]
    · rw [if_neg ha, if_neg ha, List.cons_append]

theorem strip_append_trim {w : Str} (hw : Trim w) (s : Str) :
    strip (s ++ w) = s.dropWhile isSpace ++ w := by
  obtain ⟨r, c, h, hc⟩ := hw.last
  rw [strip, stripBy, dropWhile_trim hw, h]
  simp [not_isSpace hc]

theorem dropWhile_end (p : Char → Bool) {s : Str} (hs : s = [] ∨ ∃ t, s = t ++ ['\n']) :
    s.dropWhile p = [] ∨ ∃ t, s.dropWhile p = t ++ ['\n'] := by
  rcases hs with rfl | ⟨t, rfl⟩
  · exact Or.inl rfl
  · induction t with
    | nil =>
      rw [List.nil_append, List.dropWhile_cons]
      split
      · exact Or.inl rfl
      · exact Or.inr ⟨[], rfl⟩
    | cons a t ih =>
      rw [List.cons_append, List.dropWhile_cons]
      split
      · exact ih
      · exact Or.inr ⟨a :: t, rfl⟩

theorem isoDate_strip_ci (signature : List Str) {day time zone : Str} (hd : Word day) (ht : Word time)
    (hz : Word zone) : isoDate (strip (ciText signature day time zone)) = some (isoText day time zone) := by
  rw [ciText_eq, strip_append_trim (isoDate_line (s := []) (Or.inl rfl) hd ht hz).1]
  exact (isoDate_line (dropWhile_end isSpace (signature_end signature)) hd ht hz).2

/-! ## The keywords -/

theorem strip_archive_format (decs : List Str) :
    "$Format".toList.isPrefixOf (strip (archiveText decs)) = false := by
  cases decs with
  | nil => decide
  | cons d ds =>
    have : strip (archiveText (d :: ds)) = '(' :: (d ++ ds.flatMap ([',', ' '] ++ ·) ++ [')']) := by
      have ha : archiveText (d :: ds) = ' ' :: ('(' :: (d ++ ds.flatMap ([',', ' '] ++ ·) ++ [')'])) := by
        rw [archiveText]; simp
      rw [ha, strip, stripBy_cons (by decide)]
      exact stripBy_self rfl (by decide) (t := '(' :: (d ++ ds.flatMap ([',', ' '] ++ ·))) rfl (by decide)
    rw [this]
    rfl

theorem versionsFromKeywords_archive {decs : List Str} (h : Separable decs) (pre : Str) {full date : Str}
    (hf : Trim full) {iso : Str} (hd : isoDate date = some iso) :
    versionsFromKeywords ⟨some (archiveText decs), some full, some date⟩ pre =
      match chooseTag pre (likelyTags (if decs = [] then [[]] else decs)) with
      | some r => .ok { version := r, fullRevisionid := some full, dirty := some false, error := false,
                        date := some iso }
      | none => .ok { version := "0+unknown".toList, fullRevisionid := some full, dirty := some false,
                      error := true, date := none } := by
  unfold versionsFromKeywords
  simp only [keywordDate, hd, strip_archive_format, refs_eq h, Bool.false_eq_true, if_false]
  cases chooseTag pre (likelyTags (if decs = [] then [[]] else decs)) <;> simp only [strip_trim hf]

theorem candidate_refs {decs : List Str} {t : Str} :
    Candidate (if decs = [] then [[]] else decs) t ↔ Candidate decs t := by
  by_cases h : decs = []
  · rw [if_pos h, h]
    exact ⟨fun h => absurd h candidate_nil, fun h => absurd h candidate_nil'⟩
  · rw [if_neg h]

end Verif.Ver
