import Verif.Ver.Lemmas
import Mathlib.Tactic.IntervalCases

/-!
# C51–C52: version strings
-/

namespace Verif.Ver

theorem plus_notMem_segment {p : Pieces} (h : '+' ∉ p.short) :
    '+' ∉ localSegment p.distance p.short p.dirty := by
  have hd : '+' ∉ Nat.toDigits 10 p.distance := by
    rw [← decimal_eq]
    exact fun hm => (isDigit_ne ((decimal_digits _).2 _ hm)).2.1 rfl
  simp only [localSegment, List.mem_append, not_or]
  refine ⟨⟨⟨hd, by decide⟩, h⟩, ?_⟩
  cases p.dirty <;> decide

theorem renderPep440_eq (p : Pieces) :
    renderPep440 p = match p.tag? with
      | some tag => if p.distance = 0 ∧ p.dirty = false then tag else
          tag ++ (if '+' ∈ tag then '.' else '+') :: localSegment p.distance p.short p.dirty
      | none => "0+untagged.".toList ++ localSegment p.distance p.short p.dirty := by
  have hseg : decimal p.distance ++ ".g".toList ++ p.short ++ dirtyMark p =
      localSegment p.distance p.short p.dirty := by
    rw [localSegment, decimal_eq, dirtyMark]
    rfl
  have hseg' : ∀ x : Str, x ++ (decimal p.distance ++ ".g".toList ++ p.short) ++ dirtyMark p =
      x ++ localSegment p.distance p.short p.dirty := by
    intro x
    rw [← hseg]
    simp only [List.append_assoc]
  unfold renderPep440
  cases p.tag? with
  | none => exact hseg' _
  | some tag =>
    by_cases h : p.distance = 0 ∧ p.dirty = false
    · simp [h]
    · have h1 : (p.distance != 0 || p.dirty) = true := by
        rw [← Bool.not_eq_false, Bool.or_eq_false_iff]
        simpa using h
      simp only [h1, if_true, if_neg h]
      rw [hseg', plusOrDot]
      by_cases hp : '+' ∈ tag
      · rw [if_pos (by simpa using hp), if_pos hp]
        simp
      · rw [if_neg (by simpa using hp), if_neg hp]
        simp

/-! ## C51 -/

/-- C51, pep440 style, for every non-empty tag: the version is the tag itself iff there is no distance and
the tree is clean; otherwise it is the tag, a separator, and one local segment without `+`; it then has
exactly one `+`, unless the tag already has one, when none is added. -/
theorem C51_pep440_tagged {p : Pieces} {tag : Str} (ht : p.closestTag = some tag) (hne : tag ≠ [])
    (hs : '+' ∉ p.short) :
    (renderPep440 p = tag ↔ p.distance = 0 ∧ p.dirty = false) ∧
    (¬ (p.distance = 0 ∧ p.dirty = false) →
      renderPep440 p = tag ++ (if '+' ∈ tag then '.' else '+') :: localSegment p.distance p.short p.dirty ∧
      '+' ∉ localSegment p.distance p.short p.dirty ∧
      (renderPep440 p).count '+' = if '+' ∈ tag then tag.count '+' else 1) := by
  have htag : p.tag? = some tag := by
    rw [Pieces.tag?, ht]
    cases tag with
    | nil => exact absurd rfl hne
    | cons _ _ => rfl
  have h := renderPep440_eq p
  simp only [htag] at h
  have hseg := plus_notMem_segment hs
  by_cases hc : p.distance = 0 ∧ p.dirty = false
  · rw [if_pos hc] at h
    exact ⟨⟨fun _ => hc, fun _ => h⟩, fun h' => absurd hc h'⟩
  · rw [if_neg hc] at h
    refine ⟨⟨fun h' => ?_, fun h' => absurd h' hc⟩, fun _ => ⟨h, hseg, ?_⟩⟩
    · rw [h] at h'
      have := congrArg List.length h'
      simp at this
    · rw [h, List.count_append, List.count_cons, List.count_eq_zero_of_not_mem hseg]
      by_cases hp : '+' ∈ tag
      · simp [hp]
      · simp [hp, List.count_eq_zero_of_not_mem hp]

/-- C51, pep440 style, without a tag (or with a tag that is only the prefix): version zero with one local
segment. -/
theorem C51_pep440_untagged {p : Pieces} (ht : p.closestTag = none ∨ p.closestTag = some [])
    (hs : '+' ∉ p.short) :
    renderPep440 p = "0+untagged.".toList ++ localSegment p.distance p.short p.dirty ∧
    (renderPep440 p).count '+' = 1 := by
  have htag : p.tag? = none := by
    rw [Pieces.tag?]
    rcases ht with h | h <;> rw [h]
  have h := renderPep440_eq p
  simp only [htag] at h
  refine ⟨h, ?_⟩
  rw [h, List.count_append, List.count_eq_zero_of_not_mem (plus_notMem_segment hs)]
  decide

example : (renderPep440 ⟨none, 3, "abc1234".toList, "abc1234def".toList, true, none⟩).count '+' = 1 :=
  (C51_pep440_untagged (p := ⟨none, 3, "abc1234".toList, "abc1234def".toList, true, none⟩) (Or.inl rfl)
    (by decide)).2

/-- C51: every style but `pep440-pre` renders everything; the default style is pep440.  An unknown style
is an error. -/
theorem C51_total_partial (p : Pieces) (style : Option String) :
    (KnownStyle style → ∃ v, renderStyle p style = some v) ∧
    (renderStyle p none = some (renderPep440 p) ∧ renderStyle p (some "default") = some (renderPep440 p) ∧
      renderStyle p (some "pep440") = some (renderPep440 p)) ∧
    (¬ KnownStyle style → style ≠ some "pep440-pre" → renderStyle p style = none) := by
  refine ⟨?_, ⟨rfl, by simp [renderStyle], by simp [renderStyle]⟩, ?_⟩
  · rintro (rfl | ⟨t, rfl, h⟩)
    · exact ⟨_, rfl⟩
    · rcases h with rfl | rfl | rfl | rfl | rfl | rfl | rfl | rfl | rfl <;> exact ⟨_, rfl⟩
  · intro hk hpre
    cases style with
    | none => exact absurd (Or.inl rfl) hk
    | some t =>
      have hk' : ¬ (t = "" ∨ t = "default" ∨ t = "pep440" ∨ t = "pep440-branch" ∨ t = "pep440-post" ∨
          t = "pep440-post-branch" ∨ t = "pep440-old" ∨ t = "git-describe" ∨ t = "git-describe-long") :=
        fun h => hk (Or.inr ⟨t, rfl, h⟩)
      simp only [not_or] at hk'
      obtain ⟨h1, h2, h3, h4, h5, h6, h7, h8, h9⟩ := hk'
      have h10 : t ≠ "pep440-pre" := fun h => hpre (by rw [h])
      simp [renderStyle, h1, h2, h3, h4, h5, h6, h7, h8, h9, h10]

example (p : Pieces) : ∃ v, renderStyle p (some "git-describe") = some v :=
  (C51_total_partial p (some "git-describe")).1 (by simp [KnownStyle])

/-- C51, style `pep440-pre`: rendered unless the tag has exactly one post-release mark that is followed by
something that is not an integer; a tag with a post-release number gets the next one, other tags get number
zero. -/
theorem C51_pre_partial (p : Pieces) :
    (p.closestTag = none ∨ p.closestTag = some [] →
      renderStyle p (some "pep440-pre") = some ("0.post0.dev".toList ++ Nat.toDigits 10 p.distance)) ∧
    ∀ tag, p.closestTag = some tag → tag ≠ [] →
      (p.distance = 0 → renderStyle p (some "pep440-pre") = some tag) ∧
      (p.distance ≠ 0 → ¬ postMark <:+: tag → renderStyle p (some "pep440-pre") =
        some (tag ++ ".post0.dev".toList ++ Nat.toDigits 10 p.distance)) ∧
      ∀ base, ¬ postMark <:+: base → p.distance ≠ 0 →
        (tag = base ++ postMark → renderStyle p (some "pep440-pre") =
          some (base ++ postMark ++ "1.dev".toList ++ Nat.toDigits 10 p.distance)) ∧
        (∀ n, tag = base ++ (postMark ++ Nat.toDigits 10 n) → renderStyle p (some "pep440-pre") =
          some (base ++ postMark ++ Nat.toDigits 10 (n + 1) ++ ".dev".toList ++
            Nat.toDigits 10 p.distance)) ∧
        (∀ rest, tag = base ++ (postMark ++ rest) → ¬ postMark <:+: rest → rest ≠ [] → pyInt rest = none →
          renderStyle p (some "pep440-pre") = none) := by
  have hr : renderStyle p (some "pep440-pre") = renderPep440Pre p := by
    simp [renderStyle]
  rw [hr]
  constructor
  · intro ht
    have htag : p.tag? = none := by
      rw [Pieces.tag?]
      rcases ht with h | h <;> rw [h]
    simp only [renderPep440Pre, htag, decimal_eq]
  · intro tag ht hne
    have htag : p.tag? = some tag := by
      rw [Pieces.tag?, ht]
      cases tag with
      | nil => exact absurd rfl hne
      | cons _ _ => rfl
    simp only [renderPep440Pre, htag]
    refine ⟨fun h => by simp [h], fun h hp => ?_, fun base hb h => ⟨fun hn => ?_, fun n hn => ?_, fun rest hn hr hre hi => ?_⟩⟩
    · rw [splitPostVersion_none hp]
      simp [h, decimal_eq]
    · rw [hn, splitPostVersion_empty hb]
      have : decimalInt 1 = "1".toList := by
        show decimal 1 = _
        rw [decimal_eq]
        decide
      simp [h, this, decimal_eq, postMark]
    · have hdig := decimal_digits n
      have hdot : '.' ∉ decimal n := fun hm => (isDigit_ne (hdig.2 _ hm)).2.2.1 rfl
      rw [hn, ← decimal_eq, splitPostVersion_one hb (not_postMark_of_dot hdot) hdig.1, pyInt_decimal]
      have : decimalInt ((n : Int) + 1) = decimal (n + 1) := rfl
      simp [h, this, decimal_eq, postMark]
    · rw [hn, splitPostVersion_one hb hr hre, hi]
      simp [h]

/-- Pieces of the examples. -/
def exPieces (tag : String) : Pieces :=
  ⟨some tag.toList, 3, "abc1234".toList, "abc1234def".toList, true, some "main".toList⟩

example : renderPep440 (exPieces "0.1.0") = "0.1.0+3.gabc1234.dirty".toList := by
  simp only [renderPep440, decimal_eq]
  decide
example : renderPep440 (exPieces "0.1+x") = "0.1+x.3.gabc1234.dirty".toList := by
  simp only [renderPep440, decimal_eq]
  decide
example : (renderPep440 (exPieces "0.1.0")).count '+' = 1 :=
  ((C51_pep440_tagged (p := exPieces "0.1.0") rfl (by decide) (by decide)).2 (by decide)).2.2
example : renderPep440Branch (exPieces "0.1.0") = "0.1.0.dev0+3.gabc1234.dirty".toList := by
  simp only [renderPep440Branch, decimal_eq]
  decide
example : renderStyle (exPieces "0.1.0.post4") (some "pep440-pre") = some "0.1.0.post5.dev3".toList :=
  ((((C51_pre_partial (exPieces "0.1.0.post4")).2 "0.1.0.post4".toList rfl (by decide)).2.2
    "0.1.0".toList (by decide) (by decide)).2.1 4 (by decide)).trans (by decide)
example : renderPep440Post (exPieces "0.1.0") = "0.1.0.post3.dev0+gabc1234".toList := by
  simp only [renderPep440Post, decimal_eq]
  decide
example : renderPep440PostBranch (exPieces "0.1.0") = "0.1.0.post3.dev0+gabc1234.dirty".toList := by
  simp only [renderPep440PostBranch, decimal_eq]
  decide
example : renderPep440Old (exPieces "0.1.0") = "0.1.0.post3.dev0".toList := by
  simp only [renderPep440Old, decimal_eq]
  decide
example : renderGitDescribe (exPieces "0.1.0") = "0.1.0-3-gabc1234-dirty".toList := by
  simp only [renderGitDescribe, decimal_eq]
  decide

/-- C51 fails for `pep440-pre`: with a tag like `1.0.post1rc` and a distance it raises `ValueError`. -/
theorem C51_pre_violated : renderStyle (exPieces "1.0.post1rc") (some "pep440-pre") = none :=
  (((C51_pre_partial (exPieces "1.0.post1rc")).2 "1.0.post1rc".toList rfl (by decide)).2.2
    "1.0".toList (by decide) (by decide)).2.2 "1rc".toList (by decide) (by decide) (by decide) (by decide)

/-! ## C52 -/

theorem piecesOf_text (tagPrefix full : Str) (hne : full ≠ []) (hnl : '\n' ∉ full)
    (distance : Nat) {hash : Str} (hh : IsHash hash) (dirty : Bool) (long : Str) (branch : Option Str)
    (count : Str) :
    piecesOf tagPrefix (describeText full distance hash dirty) long branch count =
      if tagPrefix.isPrefixOf full then
        .ok ⟨some (full.drop tagPrefix.length), distance, hash, long, dirty, branch⟩
      else .badPrefix := by
  have hd := decimal_digits distance
  have hhex := isHash_isHex hh
  have htext : describeText full distance hash false =
      full ++ '-' :: (decimal distance ++ '-' :: 'g' :: hash) := by
    simp [describeText, decimal_eq]
  have hm := matchDescribe_text (pre := []) (by simpa using hne) hnl hd hh.1 hhex
  have key : ∀ s : Str, s = describeText full distance hash dirty →
      endsWith s "-dirty".toList = dirty ∧
      (if dirty then s.take (s.length - 6) else s) = describeText full distance hash false := by
    rintro s rfl
    cases dirty with
    | true =>
      have : describeText full distance hash true =
          describeText full distance hash false ++ "-dirty".toList := by
        simp [describeText]
      rw [this]
      refine ⟨endsWith_append _ _, ?_⟩
      have h6 : "-dirty".toList.length = 6 := by decide
      rw [if_pos rfl, List.length_append, h6, Nat.add_sub_cancel, List.take_left' rfl]
    | false =>
      refine ⟨?_, rfl⟩
      obtain ⟨h', c, rfl⟩ := List.eq_nil_or_concat hash |>.resolve_left hh.1
      have hc := (isHex_ne (hhex c (by simp))).2.2.2.2
      refine endsWith_last (c := c) (d := 'y') ?_ (by decide) hc
      rw [htext]
      simp [List.getLast?_append, List.getLast?_cons]
  obtain ⟨k1, k2⟩ := key _ rfl
  unfold piecesOf
  simp only [k1, k2, htext, hm]
  have hc : (full ++ '-' :: (decimal distance ++ '-' :: 'g' :: hash)).contains '-' = true := by
    simp
  rw [if_pos hc, pyInt_decimal]
  cases h : tagPrefix.isPrefixOf full <;> simp [h]

/-- C52.  The output of `git describe` is parsed to the tag without the prefix, the distance, the hash and
the dirty flag git printed, for every tag (git allows no line breaks in tags). -/
theorem C52_parse_tagged (tagPrefix tag : Str) (hne : tagPrefix ++ tag ≠ []) (hnl : '\n' ∉ tagPrefix ++ tag)
    (distance : Nat) {hash : Str} (hh : IsHash hash) (dirty : Bool) (full : Str) (branch : Option Str)
    (count : Str) :
    piecesOf tagPrefix (describeText (tagPrefix ++ tag) distance hash dirty) full branch count =
      .ok ⟨some tag, distance, hash, full, dirty, branch⟩ := by
  rw [piecesOf_text _ _ hne hnl _ hh, if_pos (by simp)]
  simp

/-- C52.  A tag without the prefix is an error, rendered as an unknown version in every style. -/
theorem C52_bad_prefix (tagPrefix tag : Str) (hp : ¬ tagPrefix <+: tag) (hne : tag ≠ []) (hnl : '\n' ∉ tag)
    (distance : Nat) {hash : Str} (hh : IsHash hash) (dirty : Bool) (full : Str) (branch : Option Str)
    (count : Str) (style : Option String) :
    render (piecesOf tagPrefix (describeText tag distance hash dirty) full branch count) style =
      some "unknown".toList := by
  rw [piecesOf_text _ _ hne hnl _ hh, if_neg (by simpa using hp)]
  rfl

theorem piecesOf_untagged (tagPrefix : Str) {hash : Str} (hh : IsHash hash) (dirty : Bool) (full : Str)
    (branch : Option Str) (count : Str) :
    piecesOf tagPrefix (describeUntagged hash dirty) full branch count =
      match pyInt count with
      | none => .valueError
      | some k => .ok ⟨none, k.toNat, full.take 7, full, dirty, branch⟩ := by
  have hhex := isHash_isHex hh
  have hno : '-' ∉ hash := fun hm => (isHex_ne (hhex _ hm)).1 rfl
  have key : endsWith (describeUntagged hash dirty) "-dirty".toList = dirty ∧
      (if dirty then (describeUntagged hash dirty).take ((describeUntagged hash dirty).length - 6)
        else describeUntagged hash dirty) = hash := by
    cases dirty with
    | true =>
      have : describeUntagged hash true = hash ++ "-dirty".toList := by
        simp [describeUntagged]
      rw [this]
      refine ⟨endsWith_append _ _, ?_⟩
      have h6 : "-dirty".toList.length = 6 := by decide
      rw [if_pos rfl, List.length_append, h6, Nat.add_sub_cancel, List.take_left' rfl]
    | false =>
      obtain ⟨h', c, rfl⟩ := List.eq_nil_or_concat hash |>.resolve_left hh.1
      refine ⟨?_, by simp [describeUntagged]⟩
      have hc := (isHex_ne (hhex c (by simp))).2.2.2.2
      refine endsWith_last (c := c) (d := 'y') ?_ (by decide) hc
      simp [describeUntagged]
  unfold piecesOf
  simp only [key.1, key.2]
  rw [if_neg (by simpa using hno)]
  cases pyInt count <;> rfl

/-- C52.  Without a tag git prints the hash alone; then the pieces have no tag, the number of commits as the
distance and the first seven characters of the full hash. -/
theorem C52_parse_untagged (tagPrefix : Str) {hash : Str} (hh : IsHash hash) (dirty : Bool) (full : Str)
    (branch : Option Str) (commits : Nat) :
    piecesOf tagPrefix (describeUntagged hash dirty) full branch (Nat.toDigits 10 commits) =
      .ok ⟨none, commits, full.take 7, full, dirty, branch⟩ := by
  rw [piecesOf_untagged tagPrefix hh, ← decimal_eq, pyInt_decimal]
  simp

example : piecesOf "v".toList (describeUntagged "abc1234".toList true) "abc1234def".toList none
    (Nat.toDigits 10 15) = .ok ⟨none, 15, "abc1234".toList, "abc1234def".toList, true, none⟩ :=
  C52_parse_untagged _ ⟨by decide, by decide⟩ true _ none 15

/-- C52.  The git-describe-long style renders what was parsed back to git's text without the tag prefix,
for tags that are more than the prefix.  Missing for the full property: the prefix
(`C52_prefix_violated`), bare-prefix tags and abbreviations of other lengths (`C52_hash_violated`). -/
theorem C52_render_back_partial {p : Pieces} {tag : Str} (ht : p.closestTag = some tag) (hne : tag ≠ []) :
    renderGitDescribeLong p = describeText tag p.distance p.short p.dirty := by
  have htag : p.tag? = some tag := by
    rw [Pieces.tag?, ht]
    cases tag with
    | nil => exact absurd rfl hne
    | cons _ _ => rfl
  simp only [renderGitDescribeLong, htag, describeText, dirtySuffix, decimal_eq]
  cases p.dirty <;> simp

example : renderGitDescribeLong ⟨some "0.1".toList, 3, "abc1234".toList, [], false, none⟩ =
    describeText "0.1".toList 3 "abc1234".toList false :=
  C52_render_back_partial (p := ⟨some "0.1".toList, 3, "abc1234".toList, [], false, none⟩) rfl (by decide)

theorem matchTail_sound {s ds h : Str} (hm : matchTail s = some (ds, h)) :
    s = '-' :: (ds ++ '-' :: 'g' :: h) ∧ ds ≠ [] ∧ (∀ c ∈ ds, isDigit c = true) ∧ h ≠ [] ∧
      ∀ c ∈ h, isHex c = true := by
  rcases s with _ | ⟨c, s⟩
  · simp [matchTail] at hm
  · by_cases hc : c = '-'
    · subst hc
      rw [matchTail] at hm
      split at hm
      · rename_i h' hd
        split at hm
        · rename_i hcond
          simp only [Option.some.injEq, Prod.mk.injEq] at hm
          obtain ⟨rfl, rfl⟩ := hm
          simp only [Bool.and_eq_true, Bool.not_eq_true', List.isEmpty_eq_false_iff, List.all_eq_true] at hcond
          refine ⟨?_, hcond.1.1, fun c hc => List.all_eq_true.1 List.all_takeWhile c hc, hcond.1.2, hcond.2⟩
          rw [← hd, List.takeWhile_append_dropWhile]
        · exact absurd hm (by simp)
      · exact absurd hm (by simp)
    · unfold matchTail at hm
      split at hm
      · rename_i heq
        exact absurd (List.cons.inj heq).1 hc
      · exact absurd hm (by simp)

theorem matchDescribe_sound {pre s tag ds h : Str} (hm : matchDescribe pre s = some (tag, ds, h)) :
    pre.reverse ++ s = tag ++ '-' :: (ds ++ '-' :: 'g' :: h) ∧ tag ≠ [] ∧ ds ≠ [] ∧
      (∀ c ∈ ds, isDigit c = true) ∧ h ≠ [] ∧ ∀ c ∈ h, isHex c = true := by
  induction s generalizing pre with
  | nil => simp [matchDescribe] at hm
  | cons c s ih =>
    rw [matchDescribe] at hm
    split at hm
    · rename_i r hr
      split at hr
      · simp at hr
      · rw [hm] at hr
        have := ih hr
        simpa using this
    · split at hm
      · simp at hm
      · rename_i hpre
        rcases ht : matchTail (c :: s) with _ | ⟨a, b⟩
        · rw [ht] at hm
          simp at hm
        · rw [ht] at hm
          simp only [Option.map_some, Option.some.injEq, Prod.mk.injEq] at hm
          obtain ⟨rfl, rfl, rfl⟩ := hm
          obtain ⟨h1, h2⟩ := matchTail_sound ht
          refine ⟨by rw [h1], ?_, h2⟩
          simpa using hpre

theorem isHash_of_isHex {h : Str} (hne : h ≠ []) (hh : ∀ c ∈ h, isHex c = true) : IsHash h := by
  refine ⟨hne, fun c hc => ?_⟩
  have := hh c hc
  simp only [isHex, isDigit, Bool.or_eq_true, Bool.and_eq_true, decide_eq_true_eq] at this
  rw [← Char.ofNat_toNat c]
  rcases this with ⟨h1, h2⟩ | ⟨h1, h2⟩ <;>
  · interval_cases c.toNat <;> decide

/-- C52, converse.  Whatever is parsed to a tag has the form git prints: the prefix, the tag (not both
empty), a number, a hash, and the dirty mark exactly when the tree is said to be dirty. -/
theorem C52_sound {tagPrefix describe full : Str} {branch : Option Str} {count tag : Str} {p : Pieces}
    (hok : piecesOf tagPrefix describe full branch count = .ok p) (ht : p.closestTag = some tag) :
    tagPrefix ++ tag ≠ [] ∧ IsHash p.short ∧ ∃ num : Str, num ≠ [] ∧ (∀ c ∈ num, c.isDigit = true) ∧
      p.distance = num.foldl (fun a c => 10 * a + (c.toNat - '0'.toNat)) 0 ∧
      describe = tagPrefix ++ tag ++ ['-'] ++ num ++ ['-', 'g'] ++ p.short ++
        (if p.dirty then ['-', 'd', 'i', 'r', 't', 'y'] else []) := by
  unfold piecesOf at hok
  have hdir : ∀ d, (if endsWith describe "-dirty".toList then describe.take (describe.length - 6)
      else describe) = d →
      describe = d ++ if endsWith describe "-dirty".toList then ['-', 'd', 'i', 'r', 't', 'y'] else [] := by
    rintro d rfl
    cases he : endsWith describe "-dirty".toList with
    | false => simp
    | true =>
      simp only [endsWith, Bool.and_eq_true, beq_iff_eq, decide_eq_true_eq] at he
      have h6 : "-dirty".toList.length = 6 := by decide
      rw [h6] at he
      conv_lhs => rw [← List.take_append_drop (describe.length - 6) describe, he.2]
      rfl
  have hd := hdir _ rfl
  simp only at hok
  generalize (if endsWith describe "-dirty".toList then describe.take (describe.length - 6)
      else describe) = d at hok hd
  split at hok
  · split at hok
    · exact absurd hok (by simp)
    · rename_i fullTag num hash hm
      obtain ⟨h1, h2, h3, h4, h5, h6⟩ := matchDescribe_sound hm
      split at hok
      · exact absurd hok (by simp)
      · rename_i hpre
        have hpre' : tagPrefix <+: fullTag := by simpa using hpre
        obtain ⟨rest, rfl⟩ := hpre'
        split at hok
        · exact absurd hok (by simp)
        · rename_i k hk
          simp only [PiecesResult.ok.injEq] at hok
          subst hok
          simp only [List.drop_left, Option.some.injEq] at ht
          subst ht
          refine ⟨h2, isHash_of_isHex h5 h6, num, h3, fun c hc => ?_, ?_, ?_⟩
          · have := h4 c hc
            simp only [isDigit, Bool.and_eq_true, decide_eq_true_eq] at this
            rw [← Char.ofNat_toNat c]
            obtain ⟨h1, h2⟩ := this
            interval_cases c.toNat <;> decide
          · rw [pyInt_digits h3 h4] at hk
            rw [← Option.some.inj hk]
            rfl
          · conv_lhs => rw [hd]
            simp only [List.reverse_nil, List.nil_append] at h1
            conv_lhs => rw [h1]
            simp
  · split at hok
    · exact absurd hok (by simp)
    · simp only [PiecesResult.ok.injEq] at hok
      subst hok
      simp at ht

theorem exHash : IsHash "abc1234".toList := ⟨by decide, by decide⟩

example : piecesOf "v".toList "v0.1-rc-2-15-gabc1234-dirty".toList [] none [] =
    .ok ⟨some "0.1-rc-2".toList, 15, "abc1234".toList, [], true, none⟩ :=
  C52_parse_tagged "v".toList "0.1-rc-2".toList (by decide) (by decide) 15 exHash true [] none []

example : "v".toList ++ "0.1".toList ≠ [] :=
  (C52_sound (C52_parse_tagged "v".toList "0.1".toList (by decide) (by decide) 15 exHash true [] none []) rfl).1

example : render (piecesOf "v".toList "rel-1-15-gabc1234".toList [] none []) none = some "unknown".toList :=
  C52_bad_prefix "v".toList "rel-1".toList (by decide) (by decide) (by decide) 15 exHash false [] none [] none

/-- C52 fails with the configured prefix `v`: the text rendered back never has it, so it differs from what
git printed, for every tag, distance, hash and flag. -/
theorem C52_prefix_violated (tag : Str) (hne : tag ≠ []) (hnl : '\n' ∉ tag) (distance : Nat) {hash : Str}
    (hh : IsHash hash) (dirty : Bool) (full : Str) (branch : Option Str) (count : Str) :
    ∃ p, piecesOf ['v'] (describeText ('v' :: tag) distance hash dirty) full branch count = .ok p ∧
      renderGitDescribeLong p ≠ describeText ('v' :: tag) distance hash dirty := by
  refine ⟨_, C52_parse_tagged ['v'] tag (by simp) ?_ distance hh dirty full branch count, ?_⟩
  · simpa using hnl
  · rw [C52_render_back_partial rfl hne]
    intro h
    have := congrArg List.length h
    simp [describeText] at this

/-- C52 fails without tags when git abbreviates hashes to another length than seven. -/
theorem C52_hash_violated : ∃ p, piecesOf ['v'] (describeUntagged "abc12345".toList false)
      "abc12345ffff".toList none (Nat.toDigits 10 5) = .ok p ∧
    renderGitDescribeLong p ≠ describeUntagged "abc12345".toList false := by
  refine ⟨_, C52_parse_untagged ['v'] ⟨by decide, by decide⟩ false _ none 5, ?_⟩
  decide

end Verif.Ver
