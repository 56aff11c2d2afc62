import Verif.Ver.Props

/-!
# C51: every pep440 style renders a version that the Python packaging tools accept
-/

namespace Verif.Ver

/-! ## Spec: the version identifiers of PEP 440, without epochs and pre-releases -/

/-- Spec.  A number. -/
def IsNumeral (s : Str) : Prop := s ≠ [] ∧ ∀ c ∈ s, '0' ≤ c ∧ c ≤ '9'

/-- Spec.  A release such as `1.0.2`: numbers separated by dots. -/
inductive IsRelease : Str → Prop
  | one {n : Str} : IsNumeral n → IsRelease n
  | dot {r n : Str} : IsRelease r → IsNumeral n → IsRelease (r ++ '.' :: n)

/-- Spec.  A local version label such as `3.gabc1234`: words of digits and small letters separated by dots. -/
inductive IsLabel : Str → Prop
  | one {w : Str} : w ≠ [] → (∀ c ∈ w, ('0' ≤ c ∧ c ≤ '9') ∨ ('a' ≤ c ∧ c ≤ 'z')) → IsLabel w
  | dot {l w : Str} : IsLabel l → w ≠ [] → (∀ c ∈ w, ('0' ≤ c ∧ c ≤ '9') ∨ ('a' ≤ c ∧ c ≤ 'z')) →
      IsLabel (l ++ '.' :: w)

/-- Spec.  An optional part: nothing, or a mark with a number. -/
def IsPart (mark s : Str) : Prop := s = [] ∨ ∃ n, IsNumeral n ∧ s = mark ++ n

/-- Spec.  `release[.postN][.devN][+label]`. -/
def IsVersion (s : Str) : Prop :=
  ∃ r post dev l, IsRelease r ∧ IsPart ".post".toList post ∧ IsPart ".dev".toList dev ∧
    (l = [] ∨ ∃ w, IsLabel w ∧ l = '+' :: w) ∧ s = r ++ post ++ dev ++ l

/-! ## Helpers -/

theorem isDigit_range (c : Char) : isDigit c = true ↔ '0' ≤ c ∧ c ≤ '9' := by
  simp only [isDigit, Bool.and_eq_true, decide_eq_true_eq]
  rfl

theorem decimal_numeral (n : Nat) : IsNumeral (decimal n) :=
  ⟨(decimal_digits n).1, fun c hc => (isDigit_range c).1 ((decimal_digits n).2 c hc)⟩

theorem release_chars {r : Str} (h : IsRelease r) : r ≠ [] ∧ ∀ c ∈ r, ('0' ≤ c ∧ c ≤ '9') ∨ c = '.' := by
  induction h with
  | one h => exact ⟨h.1, fun c hc => .inl (h.2 c hc)⟩
  | dot _ hn ih =>
    refine ⟨by simp, fun c hc => ?_⟩
    rcases List.mem_append.1 hc with h | h
    · exact ih.2 c h
    · rcases List.mem_cons.1 h with rfl | h
      · exact .inr rfl
      · exact .inl (hn.2 c h)

theorem release_no_plus {r : Str} (h : IsRelease r) : plusOrDot r = ['+'] := by
  have : '+' ∉ r := fun hm => by
    rcases (release_chars h).2 _ hm with h | h
    · exact absurd h (by decide)
    · exact absurd h (by decide)
  simp [plusOrDot, this]

theorem release_no_post {r : Str} (h : IsRelease r) : ¬ postMark <:+: r := fun hi => by
  have : 'p' ∈ r := hi.subset (by decide)
  rcases (release_chars h).2 _ this with h | h
  · exact absurd h (by decide)
  · exact absurd h (by decide)

theorem label_number {l : Str} (h : IsLabel l) (n : Nat) : IsLabel (l ++ '.' :: decimal n) :=
  .dot h (decimal_numeral n).1 fun c hc => .inl ((decimal_numeral n).2 c hc)

theorem hex_label {s : Str} (h : ∀ c ∈ s, isHex c = true) :
    ∀ c ∈ 'g' :: s, ('0' ≤ c ∧ c ≤ '9') ∨ ('a' ≤ c ∧ c ≤ 'z') := by
  intro c hc
  rcases List.mem_cons.1 hc with rfl | hc
  · exact .inr (by decide)
  · have := h c hc
    simp only [isHex, Bool.or_eq_true, Bool.and_eq_true, decide_eq_true_eq] at this
    rcases this with h | ⟨h1, h2⟩
    · exact .inl ((isDigit_range c).1 h)
    · refine .inr ⟨h1, ?_⟩
      have : c.toNat ≤ 'z'.toNat := le_trans h2 (by decide)
      exact this

theorem label_dirty {l : Str} (h : IsLabel l) (p : Pieces) : IsLabel (l ++ dirtyMark p) := by
  unfold dirtyMark
  split_ifs
  · exact .dot (w := "dirty".toList) h (by decide) (by decide)
  · simpa using h

theorem label_hash {p : Pieces} (hs : ∀ c ∈ p.short, isHex c = true) : IsLabel ('g' :: p.short) :=
  .one (by simp) (hex_label hs)

theorem label_full {p : Pieces} (hs : ∀ c ∈ p.short, isHex c = true) (n : Nat) :
    IsLabel (decimal n ++ '.' :: 'g' :: p.short) :=
  .dot (.one (decimal_numeral n).1 fun c hc => .inl ((decimal_numeral n).2 c hc)) (by simp) (hex_label hs)

theorem label_untagged {p : Pieces} (hs : ∀ c ∈ p.short, isHex c = true) (n : Nat) :
    IsLabel ("untagged".toList ++ '.' :: decimal n ++ '.' :: 'g' :: p.short) :=
  .dot (label_number (.one (by decide) (by decide)) n) (by simp) (hex_label hs)

theorem part_branch (p : Pieces) : IsPart ".dev".toList (branchMark p) := by
  unfold branchMark
  split_ifs
  · exact .inl rfl
  · exact .inr ⟨['0'], ⟨by decide, by decide⟩, by decide⟩

theorem part_dirty (p : Pieces) : IsPart ".dev".toList (dirtyDev p) := by
  unfold dirtyDev
  split_ifs
  · exact .inr ⟨['0'], ⟨by decide, by decide⟩, by decide⟩
  · exact .inl rfl

theorem part_post (n : Nat) : IsPart ".post".toList (".post".toList ++ decimal n) :=
  .inr ⟨_, decimal_numeral n, rfl⟩

theorem version_release {r : Str} (h : IsRelease r) : IsVersion r :=
  ⟨r, [], [], [], h, .inl rfl, .inl rfl, .inl rfl, by simp⟩

theorem release_zero : IsRelease "0".toList := .one ⟨by decide, by decide⟩

theorem tag_release {p : Pieces} (ht : ∀ tag, p.closestTag = some tag → tag ≠ [] → IsRelease tag) {tag : Str}
    (h : p.tag? = some tag) : IsRelease tag := by
  unfold Pieces.tag? at h
  split at h
  · next c s hc =>
    obtain rfl := Option.some.inj h
    exact ht _ hc (by simp)
  · exact absurd h (by simp)

section
variable {p : Pieces} (ht : ∀ tag, p.closestTag = some tag → tag ≠ [] → IsRelease tag)
  (hs : ∀ c ∈ p.short, isHex c = true)
include ht hs

theorem version_pep440 : IsVersion (renderPep440 p) := by
  unfold renderPep440
  cases htag : p.tag? with
  | none =>
    exact ⟨"0".toList, [], [], '+' :: ("untagged".toList ++ '.' :: decimal p.distance ++ '.' :: 'g' :: p.short ++
      dirtyMark p), release_zero, .inl rfl, .inl rfl,
      .inr ⟨_, label_dirty (label_untagged hs p.distance) p, rfl⟩, by simp⟩
  | some tag =>
    have hr := tag_release ht htag
    dsimp only
    split_ifs
    · exact ⟨tag, [], [], '+' :: (decimal p.distance ++ '.' :: 'g' :: p.short ++ dirtyMark p), hr, .inl rfl,
        .inl rfl, .inr ⟨_, label_dirty (label_full hs p.distance) p, rfl⟩, by simp [release_no_plus hr]⟩
    · exact version_release hr

theorem version_branch : IsVersion (renderPep440Branch p) := by
  unfold renderPep440Branch
  cases htag : p.tag? with
  | none =>
    exact ⟨"0".toList, [], branchMark p, '+' :: ("untagged".toList ++ '.' :: decimal p.distance ++
      '.' :: 'g' :: p.short ++ dirtyMark p), release_zero, .inl rfl, part_branch p,
      .inr ⟨_, label_dirty (label_untagged hs p.distance) p, rfl⟩, by simp⟩
  | some tag =>
    have hr := tag_release ht htag
    dsimp only
    split_ifs
    · exact ⟨tag, [], branchMark p, '+' :: (decimal p.distance ++ '.' :: 'g' :: p.short ++ dirtyMark p), hr,
        .inl rfl, part_branch p, .inr ⟨_, label_dirty (label_full hs p.distance) p, rfl⟩,
        by simp [release_no_plus hr]⟩
    · exact version_release hr

omit hs in
theorem version_pre : ∃ v, renderPep440Pre p = some v ∧ IsVersion v := by
  unfold renderPep440Pre
  have h0 : IsPart ".post".toList ".post0".toList := .inr ⟨['0'], ⟨by decide, by decide⟩, by decide⟩
  have hd : IsPart ".dev".toList (".dev".toList ++ decimal p.distance) := .inr ⟨_, decimal_numeral _, rfl⟩
  cases htag : p.tag? with
  | none =>
    exact ⟨_, rfl, "0".toList, ".post0".toList, _, [], release_zero, h0, hd, .inl rfl, by simp⟩
  | some tag =>
    have hr := tag_release ht htag
    dsimp only
    split_ifs
    · rw [splitPostVersion_none (release_no_post hr)]
      exact ⟨_, rfl, tag, ".post0".toList, _, [], hr, h0, hd, .inl rfl, by simp⟩
    · exact ⟨_, rfl, version_release hr⟩

theorem version_post : IsVersion (renderPep440Post p) := by
  unfold renderPep440Post
  cases htag : p.tag? with
  | none =>
    exact ⟨"0".toList, _, dirtyDev p, '+' :: 'g' :: p.short, release_zero, part_post p.distance, part_dirty p,
      .inr ⟨_, label_hash hs, rfl⟩, by simp⟩
  | some tag =>
    have hr := tag_release ht htag
    dsimp only
    split_ifs
    · exact ⟨tag, _, dirtyDev p, '+' :: 'g' :: p.short, hr, part_post p.distance, part_dirty p,
        .inr ⟨_, label_hash hs, rfl⟩, by simp [release_no_plus hr]⟩
    · exact version_release hr

theorem version_post_branch : IsVersion (renderPep440PostBranch p) := by
  unfold renderPep440PostBranch
  cases htag : p.tag? with
  | none =>
    exact ⟨"0".toList, _, branchMark p, '+' :: ('g' :: p.short ++ dirtyMark p), release_zero,
      part_post p.distance, part_branch p, .inr ⟨_, label_dirty (label_hash hs) p, rfl⟩, by simp⟩
  | some tag =>
    have hr := tag_release ht htag
    dsimp only
    split_ifs
    · exact ⟨tag, _, branchMark p, '+' :: ('g' :: p.short ++ dirtyMark p), hr, part_post p.distance,
        part_branch p, .inr ⟨_, label_dirty (label_hash hs) p, rfl⟩, by simp [release_no_plus hr]⟩
    · exact version_release hr

omit hs in
theorem version_old : IsVersion (renderPep440Old p) := by
  unfold renderPep440Old
  cases htag : p.tag? with
  | none =>
    exact ⟨"0".toList, _, dirtyDev p, [], release_zero, part_post p.distance, part_dirty p, .inl rfl, by simp⟩
  | some tag =>
    have hr := tag_release ht htag
    dsimp only
    split_ifs
    · exact ⟨tag, _, dirtyDev p, [], hr, part_post p.distance, part_dirty p, .inl rfl, by simp⟩
    · exact version_release hr

end

/-! ## The properties -/

/-- **C51, all pep440 styles.** If the closest tag is a release such as `1.0.2`, or there is none, then
every style whose name begins with `pep440` (and the default) renders a version identifier of PEP 440, for
all distances, hashes, branches and states of the working tree. -/
theorem C51_styles {p : Pieces} (ht : ∀ tag, p.closestTag = some tag → tag ≠ [] → IsRelease tag)
    (hs : IsHash p.short) {style : Option String}
    (hst : style = none ∨ ∃ t, style = some t ∧ (t = "" ∨ t = "default" ∨ t = "pep440" ∨
      t = "pep440-branch" ∨ t = "pep440-pre" ∨ t = "pep440-post" ∨ t = "pep440-post-branch" ∨ t = "pep440-old")) :
    ∃ v, renderStyle p style = some v ∧ IsVersion v := by
  have hx := isHash_isHex hs
  rcases hst with rfl | ⟨t, rfl, rfl | rfl | rfl | rfl | rfl | rfl | rfl | rfl⟩
  · exact ⟨_, rfl, version_pep440 ht hx⟩
  · exact ⟨_, rfl, version_pep440 ht hx⟩
  · exact ⟨_, by simp [renderStyle], version_pep440 ht hx⟩
  · exact ⟨_, by simp [renderStyle], version_pep440 ht hx⟩
  · exact ⟨_, by simp [renderStyle], version_branch ht hx⟩
  · obtain ⟨v, h1, h2⟩ := version_pre ht
    exact ⟨v, by simpa [renderStyle] using h1, h2⟩
  · exact ⟨_, by simp [renderStyle], version_post ht hx⟩
  · exact ⟨_, by simp [renderStyle], version_post_branch ht hx⟩
  · exact ⟨_, by simp [renderStyle], version_old ht⟩

/-- **C51, a changed working tree is visible.** In every style `render` knows, apart from `pep440-pre`, the
version of a working tree with uncommitted changes differs from the version of the same commit without
them. -/
theorem C51_dirty_shown (p : Pieces) {style : Option String} (hst : KnownStyle style) :
    renderStyle { p with dirty := true } style ≠ renderStyle { p with dirty := false } style := by
  have key : ∀ a b : Str, b.length < a.length → some a ≠ some b := fun a b h e => by
    rw [Option.some.inj e] at h; exact lt_irrefl _ h
  have tg : ∀ d, Pieces.tag? { p with dirty := d } = p.tag? := fun _ => rfl
  have br : ∀ d, branchMark { p with dirty := d } = branchMark p := fun _ => rfl
  rcases hst with rfl | ⟨t, rfl, rfl | rfl | rfl | rfl | rfl | rfl | rfl | rfl | rfl⟩ <;>
    simp only [renderStyle] <;> simp <;> intro e <;> have e := congrArg List.length e <;> revert e <;>
    simp only [renderPep440, renderPep440Branch, renderPep440Post, renderPep440PostBranch, renderPep440Old,
      renderGitDescribe, renderGitDescribeLong, tg, br, dirtyMark, dirtyDev, dirtySuffix] <;>
    cases p.tag? <;> by_cases h : p.distance = 0 <;> simp [h] <;> omega

/-- **C51, `pep440-pre` hides uncommitted changes**, as its own comment in the code says ("Never dirty"). -/
theorem C51_dirty_shown_violated (p : Pieces) :
    renderStyle { p with dirty := true } (some "pep440-pre") =
      renderStyle { p with dirty := false } (some "pep440-pre") := by
  simp only [renderStyle]
  rfl

/-! ## Worked cases -/

theorem release_example : IsRelease "0.1.0".toList :=
  .dot (r := "0.1".toList) (.dot (r := "0".toList) release_zero ⟨by decide, by decide⟩) ⟨by decide, by decide⟩

/-- A version contains no hyphen. -/
theorem version_no_hyphen {s : Str} (h : IsVersion s) : '-' ∉ s := by
  obtain ⟨r, post, dev, l, hr, hp, hd, hl, rfl⟩ := h
  have hnum : ∀ n, IsNumeral n → '-' ∉ n := fun n hn hm => absurd (hn.2 _ hm) (by decide)
  have hpart : ∀ m s : Str, '-' ∉ m → IsPart m s → '-' ∉ s := by
    rintro m s hm (rfl | ⟨n, hn, rfl⟩)
    · simp
    · simp [hm, hnum n hn]
  have hlab : ∀ w, IsLabel w → '-' ∉ w := by
    have hw : ∀ w : Str, (∀ c ∈ w, ('0' ≤ c ∧ c ≤ '9') ∨ ('a' ≤ c ∧ c ≤ 'z')) → '-' ∉ w :=
      fun w h hm => absurd (h _ hm) (by decide)
    intro w h
    induction h with
    | one _ h => exact hw _ h
    | dot _ _ h ih => simp [ih, hw _ h]
  have h1 : '-' ∉ r := fun hm => absurd ((release_chars hr).2 _ hm) (by decide)
  have h4 : '-' ∉ l := by
    rcases hl with rfl | ⟨w, hw, rfl⟩
    · simp
    · simp [hlab w hw]
  simp only [List.mem_append, not_or]
  exact ⟨⟨⟨h1, hpart _ _ (by decide) hp⟩, hpart _ _ (by decide) hd⟩, h4⟩

/-- Three commits after the tag, on a branch, with uncommitted changes. -/
example : renderStyle (exPieces "0.1.0") (some "pep440-branch") = some "0.1.0.dev0+3.gabc1234.dirty".toList ∧
    IsVersion "0.1.0.dev0+3.gabc1234.dirty".toList := by
  have e : renderStyle (exPieces "0.1.0") (some "pep440-branch") =
      some "0.1.0.dev0+3.gabc1234.dirty".toList := by
    simp only [renderStyle, renderPep440Branch, decimal_eq]
    decide
  obtain ⟨v, h1, h2⟩ := C51_styles (p := exPieces "0.1.0")
    (fun tag h _ => by obtain rfl := Option.some.inj h; exact release_example)
    ⟨by decide, by decide⟩ (style := some "pep440-branch") (.inr ⟨_, rfl, by simp⟩)
  refine ⟨e, ?_⟩
  rw [e] at h1
  rwa [Option.some.inj h1]

example : renderStyle (exPieces "0.1.0") (some "pep440-post") ≠
    renderStyle { exPieces "0.1.0" with dirty := false } (some "pep440-post") :=
  C51_dirty_shown (exPieces "0.1.0") (by simp [KnownStyle])

/-- The style `git-describe` does not render such a version. -/
example : ¬ IsVersion "0.1.0-3-gabc1234".toList := fun h => version_no_hyphen h (by decide)

end Verif.Ver
