import Verif.Ver.LookupPath

/-!
# C62–C63: the version lookup
-/

namespace Verif.Ver

/-! ## C62: the version of an archive -/

/-- The keywords `git archive` writes for a commit with the references `decs`. -/
def archiveKeywords (decs : List Str) (full : Str) (signature : List Str) (day time zone : Str) : Keywords :=
  ⟨some (archiveText decs), some full, some (ciText signature day time zone)⟩

/-- C62.  In a file that `git archive` has written, whatever git prints and wherever the file is: the
version is, of all names that count as tags and are the prefix followed by a digit, the first in the order
of code points, without the prefix; it comes with the revision and the date.  If there is none the version
is unknown and marked as an error.  Missing for the full property: names that count as tags need not be
tags (`C62_branch_violated`), the first need not be the newest (`C62_newest_violated`), and names with commas
or with a parenthesis at the end of the list are misread (`C62_text_violated`). -/
theorem C62_archive_partial (cfg : Config) {decs : List Str} (h : Separable decs) {full : Str}
    (hf : Trim full) (signature : List Str) {day time zone : Str} (hd : Word day) (ht : Word time)
    (hz : Word zone) (file : Option Str) (git : Str → GitOut) :
    ∃ info, getVersions cfg (archiveKeywords decs full signature day time zone) file git = .ok info ∧
      info.fullRevisionid = some full ∧ info.dirty = some false ∧
      (∀ v, info.version = v ∧ info.error = false ↔
        Suitable cfg.tagPrefix decs v ∧ ∀ u, Suitable cfg.tagPrefix decs u → CodeLe v u) ∧
      (info.error = true ↔ ∀ v, ¬ Suitable cfg.tagPrefix decs v) ∧
      (info.error = false → info.date = some (isoText day time zone)) ∧
      (info.error = true → info.version = "0+unknown".toList ∧ info.date = none) := by
  have hk := versionsFromKeywords_archive h cfg.tagPrefix hf (isoDate_ci signature hd ht hz)
  have hmem : ∀ t, t ∈ likelyTags (if decs = [] then [[]] else decs) ↔ Candidate decs t := fun t =>
    mem_likelyTags.trans candidate_refs
  unfold getVersions archiveKeywords
  rw [hk]
  cases hc : chooseTag cfg.tagPrefix (likelyTags (if decs = [] then [[]] else decs)) with
  | none =>
    have hno : ∀ v, ¬ Suitable cfg.tagPrefix decs v := fun v hv =>
      chooseTag_none hc v ((hmem _).2 hv.1) hv.2
    refine ⟨_, rfl, rfl, rfl, fun v => ?_, ?_, ?_, ?_⟩
    · exact ⟨fun h => (nomatch h.2), fun h => absurd h.1 (hno v)⟩
    · exact ⟨fun _ => hno, fun _ => rfl⟩
    · exact fun h => nomatch h
    · exact fun _ => ⟨rfl, rfl⟩
  | some r =>
    obtain ⟨h1, h2, h3⟩ := chooseTag_some hc
    have hs : Suitable cfg.tagPrefix decs r := ⟨(hmem _).1 h1, h2⟩
    have hl : ∀ u, Suitable cfg.tagPrefix decs u → CodeLe r u := fun u hu =>
      h3 u ((hmem _).2 hu.1) hu.2
    refine ⟨_, rfl, rfl, rfl, fun v => ?_, ?_, ?_, ?_⟩
    · constructor
      · rintro ⟨rfl, -⟩
        exact ⟨hs, hl⟩
      · rintro ⟨hv, hvl⟩
        exact ⟨strLe_antisymm ((strLe_iff _ _).2 (hl v hv)) ((strLe_iff _ _).2 (hvl r hs)), rfl⟩
    · exact ⟨fun h => (nomatch h), fun h => absurd hs (h r)⟩
    · exact fun _ => rfl
    · exact fun h => nomatch h

theorem codeLe_prefix (v s : Str) : CodeLe v (v ++ s) := by
  rw [← strLe_iff]
  have := strLe_append v [] s
  rw [List.append_nil] at this
  rw [this]; rfl

/-- C62.  A commit tagged with a version and with that version followed by something, such as a release and
its candidate, never gets the longer one. -/
theorem C62_release_first (cfg : Config) {decs : List Str} (h : Separable decs) {full : Str} (hf : Trim full)
    (signature : List Str) {day time zone : Str} (hd : Word day) (ht : Word time) (hz : Word zone)
    (file : Option Str) (git : Str → GitOut) {v s : Str} (hv : tagDec (cfg.tagPrefix ++ v) ∈ decs)
    (hn : Numbered v) (hs : s ≠ []) {info : VersionInfo}
    (hi : getVersions cfg (archiveKeywords decs full signature day time zone) file git = .ok info) :
    info.version ≠ v ++ s := by
  obtain ⟨info', h1, -, -, h2, h3, -, -⟩ := C62_archive_partial cfg h hf signature hd ht hz file git
  rw [hi] at h1
  injection h1 with h1
  subst h1
  intro e
  have hsv : Suitable cfg.tagPrefix decs v := ⟨Or.inl hv, hn⟩
  have herr : info.error = false := by
    rw [← Bool.not_eq_true, h3]
    exact fun h => h v hsv
  have hle := ((h2 _).1 ⟨e, herr⟩).2 v hsv
  have := strLe_antisymm ((strLe_iff _ _).2 hle) ((strLe_iff _ _).2 (codeLe_prefix v s))
  exact hs (by simpa using this)

/-- C62.  If the commit has a marked tag that is the prefix and a digit, the version is one of its tags. -/
theorem C62_tag_partial (cfg : Config) {decs : List Str} (h : Separable decs) {full : Str} (hf : Trim full)
    (signature : List Str) {day time zone : Str} (hd : Word day) (ht : Word time) (hz : Word zone)
    (file : Option Str) (git : Str → GitOut) {v : Str} (hv : tagDec (cfg.tagPrefix ++ v) ∈ decs)
    (hn : Numbered v) :
    ∃ info, getVersions cfg (archiveKeywords decs full signature day time zone) file git = .ok info ∧
      info.error = false ∧ tagDec (cfg.tagPrefix ++ info.version) ∈ decs := by
  obtain ⟨info, h1, -, -, h2, h3, -, -⟩ := C62_archive_partial cfg h hf signature hd ht hz file git
  have herr : info.error = false := by
    rw [← Bool.not_eq_true, h3]
    exact fun h => h v ⟨Or.inl hv, hn⟩
  refine ⟨info, h1, herr, ?_⟩
  rcases ((h2 _).1 ⟨rfl, herr⟩).1.1 with h | ⟨h, -⟩
  · exact h
  · exact absurd hv (h _)

/-- C62 fails for a commit without tags: a branch named like a version is reported as the version, without
an error, for every such branch. -/
theorem C62_branch_violated (cfg : Config) {decs : List Str} (h : Separable decs) {full : Str}
    (hf : Trim full) (signature : List Str) {day time zone : Str} (hd : Word day) (ht : Word time)
    (hz : Word zone) (file : Option Str) (git : Str → GitOut) (hno : ∀ t, tagDec t ∉ decs) {v : Str}
    (hv : cfg.tagPrefix ++ v ∈ decs) (hn : Numbered v) :
    ∃ info, getVersions cfg (archiveKeywords decs full signature day time zone) file git = .ok info ∧
      info.error = false ∧ cfg.tagPrefix ++ info.version ∈ decs ∧
      tagDec (cfg.tagPrefix ++ info.version) ∉ decs := by
  obtain ⟨info, h1, -, -, h2, h3, -, -⟩ := C62_archive_partial cfg h hf signature hd ht hz file git
  have hsv : Suitable cfg.tagPrefix decs v := by
    obtain ⟨c, r, e, hc⟩ := hn
    exact ⟨Or.inr ⟨hno, hv, c, by rw [e]; simp, hc⟩, c, r, e, hc⟩
  have herr : info.error = false := by
    rw [← Bool.not_eq_true, h3]
    exact fun h => h v hsv
  refine ⟨info, h1, herr, ?_, hno _⟩
  rcases ((h2 _).1 ⟨rfl, herr⟩).1.1 with h | ⟨-, h, -⟩
  · exact absurd h (hno _)
  · exact h

/-- A list of names without commas, parentheses at the ends or white space at the ends. -/
def plain (decs : List Str) : Bool :=
  decs.all fun d => !d.contains ',' &&
    (match d, d.reverse with
    | c :: _, e :: _ => !isSpace c && !isSpace e && c != '(' && c != ')' && e != '(' && e != ')'
    | _, _ => false)

theorem plain_separable {decs : List Str} (h : plain decs = true) : Separable decs := by
  have key : ∀ d ∈ decs, ',' ∉ d ∧ ∃ c r t e, d = c :: r ∧ d = t ++ [e] ∧ ¬ White c ∧ ¬ White e ∧
      (c ≠ '(' ∧ c ≠ ')') ∧ e ≠ '(' ∧ e ≠ ')' := by
    intro d hd
    have := List.all_eq_true.1 h d hd
    rw [Bool.and_eq_true] at this
    refine ⟨by simpa using this.1, ?_⟩
    have h2 := this.2
    rcases List.eq_nil_or_concat d with e | ⟨t, e, he⟩
    · subst e; exact nomatch h2
    · have he : d = t ++ [e] := by simpa using he
      cases d with
      | nil => exact nomatch h2
      | cons c r =>
        have hrev : (c :: r).reverse = e :: t.reverse := by rw [he]; simp
        simp only [hrev, Bool.and_eq_true, Bool.not_eq_true', bne_iff_ne, ne_eq] at h2
        obtain ⟨⟨⟨⟨⟨a1, a2⟩, a3⟩, a4⟩, a5⟩, a6⟩ := h2
        refine ⟨c, r, t, e, rfl, he, ?_, ?_, ⟨a3, a4⟩, a5, a6⟩
        · rw [← isSpace_iff, a1]; decide
        · rw [← isSpace_iff, a2]; decide
  refine ⟨fun d hd => ?_, fun d hd => (key d hd).1, ?_, ?_⟩
  · obtain ⟨-, c, r, t, e, h1, h2, h3, h4, -⟩ := key d hd
    exact ⟨⟨c, r, h1, h3⟩, ⟨t, e, h2, h4⟩⟩
  · rintro d ds e c r h
    obtain ⟨-, c', r', t, e', h1, h2, h3, h4, h5, h6⟩ := key d (by rw [e]; simp)
    rw [h] at h1
    injection h1 with h1 _
    rw [h1]; exact h5
  · rintro ds d e r c h
    obtain ⟨-, c', r', t, e', h1, h2, h3, h4, h5, h6⟩ := key d (by rw [e]; simp)
    rw [h] at h2
    have := List.append_inj' h2 rfl
    rw [List.singleton_inj.1 this.2]; exact h6

theorem trim_of_plain {s : Str} (h : plain [s] = true) : Trim s :=
  (plain_separable h).trim s List.mem_cons_self

theorem word_of_all {s : Str} (hne : s ≠ []) (h : (s.all fun c => !isSpace c) = true) : Word s :=
  ⟨hne, fun c hc => by
    have := List.all_eq_true.1 h c hc
    rw [← isSpace_iff]
    simpa using this⟩

/-- A git that is not there. -/
def noGit : GitOut := ⟨none, none, none, none, none, none, none⟩

/-- The version and whether it is marked as an error. -/
def outcome (r : Except Exc VersionInfo) : Option (Str × Bool) :=
  match r with
  | .ok info => some (info.version, info.error)
  | .error _ => none

/-- The version of the archive of a commit with these references. -/
def archiveVersion (decs : List Str) : Option (Str × Bool) :=
  outcome (getVersions config (archiveKeywords decs "abc1234".toList [] "2022-11-01".toList "10:00:00".toList
    "+0100".toList) none fun _ => noGit)

theorem archiveVersion_eq {decs : List Str} (h : Separable decs) {v : Str} (hv : Suitable ['v'] decs v)
    (hl : ∀ u, Suitable ['v'] decs u → CodeLe v u) : archiveVersion decs = some (v, false) := by
  obtain ⟨info, h1, -, -, h2, -⟩ := C62_archive_partial config h (full := "abc1234".toList)
    (trim_of_plain (by decide)) [] (day := "2022-11-01".toList) (time := "10:00:00".toList)
    (zone := "+0100".toList) (word_of_all (by decide) (by decide)) (word_of_all (by decide) (by decide))
    (word_of_all (by decide) (by decide)) none (fun _ => noGit)
  obtain ⟨e1, e2⟩ := (h2 v).2 ⟨hv, hl⟩
  rw [archiveVersion, h1, outcome, e1, e2]

theorem numbered_of {v : Str} (h : (v.head?.any isDigit) = true) : Numbered v := by
  cases v with
  | nil => exact nomatch h
  | cons c r => exact ⟨c, r, rfl, (isDigit_iff c).1 h⟩

theorem suitable_pair {a b : Str} (u : Str)
    (hu : Suitable ['v'] [tagDec ('v' :: a), tagDec ('v' :: b)] u) : u = a ∨ u = b := by
  have hinj : ∀ {s t : Str}, tagDec s = tagDec t → s = t := fun h => List.append_cancel_left h
  rcases hu.1 with h | ⟨h, -⟩
  · simp only [List.mem_cons, List.not_mem_nil, or_false] at h
    rcases h with h | h
    · exact Or.inl (by simpa using hinj h)
    · exact Or.inr (by simpa using hinj h)
  · exact absurd List.mem_cons_self (h ('v' :: a))

/-- C62 fails for a commit with two releases: the older is reported.  Of `v1.9` and `v1.10` the version is
`1.10`, of `v1.0` and `v1.1` it is `1.0`. -/
theorem C62_newest_violated :
    archiveVersion [tagDec "v1.0".toList, tagDec "v1.1".toList] = some ("1.0".toList, false) ∧
    archiveVersion [tagDec "v1.9".toList, tagDec "v1.10".toList] = some ("1.10".toList, false) := by
  constructor
  · refine archiveVersion_eq (plain_separable (by decide)) ⟨Or.inl (by decide), numbered_of (by decide)⟩ ?_
    intro u hu
    rcases suitable_pair (a := "1.0".toList) (b := "1.1".toList) u hu with rfl | rfl <;>
      exact (strLe_iff _ _).1 (by decide)
  · refine archiveVersion_eq (plain_separable (by decide)) ⟨Or.inl (by decide), numbered_of (by decide)⟩ ?_
    intro u hu
    rcases suitable_pair (a := "1.9".toList) (b := "1.10".toList) u hu with rfl | rfl <;>
      exact (strLe_iff _ _).1 (by decide)

/-- C62 fails for names that git allows and the text does not separate: of the tag `v1,0` the version is
`1`, and of the tag `v1.0(b)` it is `1.0(b`. -/
theorem C62_text_violated :
    archiveVersion [tagDec "v1,0".toList] = some ("1".toList, false) ∧
    archiveVersion [tagDec "v1.0(b)".toList] = some ("1.0(b".toList, false) := by
  have hi : ∃ i, isoDate (ciText [] "2022-11-01".toList "10:00:00".toList "+0100".toList) = some i :=
    ⟨_, isoDate_ci [] (word_of_all (by decide) (by decide)) (word_of_all (by decide) (by decide))
      (word_of_all (by decide) (by decide))⟩
  obtain ⟨i, hi⟩ := hi
  have key : ∀ decs refs v, (splitChar ',' [] (stripParens (strip (archiveText decs)))).map strip = refs →
      ∀ t, likelyTags refs = [t] → pick ['v'] t = some v → archiveVersion decs = some (v, false) := by
    intro decs refs v h1 t h2 h3
    have h4 : chooseTag ['v'] (likelyTags refs) = some v := by
      rw [h2, chooseTag_eq, List.mergeSort_singleton, List.findSome?_cons, h3]
    unfold archiveVersion getVersions archiveKeywords versionsFromKeywords
    simp only [keywordDate, hi, strip_archive_format, h1, Bool.false_eq_true, if_false, config]
    rw [show "v".toList = ['v'] from rfl, h4]
    rfl
  exact ⟨key _ ["tag: v1".toList, "0".toList] _ (by decide) "v1".toList (by decide) (by decide),
    key _ ["tag: v1.0(b".toList] _ (by decide) "v1.0(b".toList (by decide) (by decide)⟩

/-- A commit with a branch, a candidate and a release: the release. -/
example : archiveVersion ["HEAD -> main".toList, tagDec "v1.0rc1".toList, tagDec "v1.0".toList, "v9".toList] =
    some ("1.0".toList, false) := by
  refine archiveVersion_eq (plain_separable (by decide)) ⟨Or.inl (by decide), numbered_of (by decide)⟩ ?_
  intro u hu
  rcases hu.1 with h | ⟨h, -⟩
  · have h' : 'v' :: u = "v1.0rc1".toList ∨ 'v' :: u = "v1.0".toList := by
      simp only [List.mem_cons, List.not_mem_nil, or_false] at h
      rcases h with h | h | h | h
      · exact absurd (congrArg List.head? h) (by simp [tagDec])
      · exact Or.inl (List.append_cancel_left h)
      · exact Or.inr (List.append_cancel_left h)
      · exact absurd (congrArg List.head? h) (by simp [tagDec])
    rcases h' with h | h
    · have : u = "1.0rc1".toList := (List.cons.inj h).2
      rw [this]; exact (strLe_iff _ _).1 (by decide)
    · have : u = "1.0".toList := (List.cons.inj h).2
      rw [this]; exact (strLe_iff _ _).1 (by decide)
  · exact absurd (by decide) (h "v1.0".toList)

/-- The version comes from a tag although a branch is named like a version. -/
example : ∃ info, getVersions config (archiveKeywords ["v9".toList, tagDec "v1.0".toList]
      "abc1234".toList [] "2022-11-01".toList "10:00:00".toList "+0100".toList) none (fun _ => noGit) =
        .ok info ∧ info.error = false ∧
      tagDec (config.tagPrefix ++ info.version) ∈ ["v9".toList, tagDec "v1.0".toList] :=
  C62_tag_partial config (plain_separable (by decide)) (trim_of_plain (by decide)) []
    (word_of_all (by decide) (by decide)) (word_of_all (by decide) (by decide))
    (word_of_all (by decide) (by decide)) none _ (v := "1.0".toList) (by decide) (numbered_of (by decide))

/-- A commit without tags on the branches `main` and `v2-dev`. -/
example : ∃ info, getVersions config (archiveKeywords ["HEAD -> main".toList, "v2-dev".toList]
      "abc1234".toList [] "2022-11-01".toList "10:00:00".toList "+0100".toList) none (fun _ => noGit) =
        .ok info ∧ info.error = false ∧
      config.tagPrefix ++ info.version ∈ ["HEAD -> main".toList, "v2-dev".toList] ∧
      tagDec (config.tagPrefix ++ info.version) ∉ ["HEAD -> main".toList, "v2-dev".toList] :=
  C62_branch_violated config (plain_separable (by decide)) (trim_of_plain (by decide)) []
    (word_of_all (by decide) (by decide)) (word_of_all (by decide) (by decide))
    (word_of_all (by decide) (by decide)) none _
    (fun t h => by
      simp only [List.mem_cons, List.not_mem_nil, or_false] at h
      rcases h with h | h <;> exact absurd (congrArg List.head? h) (by simp [tagDec]))
    (v := "2-dev".toList) (by decide) (numbered_of (by decide))

/-- A release and its candidate. -/
example {info : VersionInfo} (hi : getVersions config (archiveKeywords [tagDec "v1.0rc1".toList,
      tagDec "v1.0".toList] "abc1234".toList [] "2022-11-01".toList "10:00:00".toList "+0100".toList) none
      (fun _ => noGit) = .ok info) : info.version ≠ "1.0rc1".toList :=
  C62_release_first config (plain_separable (by decide)) (trim_of_plain (by decide)) []
    (word_of_all (by decide) (by decide)) (word_of_all (by decide) (by decide))
    (word_of_all (by decide) (by decide)) none _ (v := "1.0".toList) (s := "rc1".toList) (by decide)
    (numbered_of (by decide)) (by decide) hi

/-! ## C63: the lookup in a tree that is not an archive -/

/-- C63.  When git fails, the version is what follows the prefix in the name of the nearest of the tree's
directory and the two above it that has the prefix; if there is none, and when the file is not known, the
version is unknown and marked as an error.  Missing for the full property: when git answers the
tree's name is ignored (`C63_foreign_violated`), and the lookup may raise (`C63_raises_violated`). -/
theorem C63_fallback_partial {dirs : List Str} (hn : ∀ d ∈ dirs, IsName d) (git : Str → GitOut)
    (hg : GitFails (git (dirText dirs))) :
    (∀ near v far, dirs.reverse.take 3 = near ++ ("aemcmc-".toList ++ v) :: far →
      (∀ d ∈ near, ¬ "aemcmc-".toList <+: d) →
      getVersions config rawKeywords (some (versionFile dirs)) git =
        .ok { version := v, fullRevisionid := none, dirty := some false, error := false, date := none }) ∧
    ((∀ d ∈ dirs.reverse.take 3, ¬ "aemcmc-".toList <+: d) →
      getVersions config rawKeywords (some (versionFile dirs)) git =
        .ok { version := "0+unknown".toList, fullRevisionid := none, dirty := none, error := true,
              date := none }) ∧
    getVersions config rawKeywords none git =
        .ok { version := "0+unknown".toList, fullRevisionid := none, dirty := none, error := true,
              date := none } := by
  have hr : getVersions config rawKeywords (some (versionFile dirs)) git =
      orElse (fromParentdir "aemcmc-".toList 3 (dirText dirs)) (.ok unknownVersion) := by
    rw [getVersions_raw]
    simp only [rootOf_versionFile hn, versionsFromGit_fails hg, orElse_not]
  rw [hr, fromParentdir_eq (by decide) 3 hn]
  refine ⟨fun near v far h hnear => ?_, fun h => ?_, getVersions_raw none git⟩
  · have : (dirs.reverse.take 3).find? (fun d => "aemcmc-".toList.isPrefixOf d) =
        some ("aemcmc-".toList ++ v) := by
      rw [h, List.find?_append, List.find?_eq_none.2, Option.none_or, List.find?_cons_of_pos]
      · exact List.isPrefixOf_iff_prefix.2 ⟨v, rfl⟩
      · intro d hd
        rw [List.isPrefixOf_iff_prefix]
        exact hnear d hd
    rw [this]
    simp only [List.drop_left]
    rfl
  · have : (dirs.reverse.take 3).find? (fun d => "aemcmc-".toList.isPrefixOf d) = none := by
      rw [List.find?_eq_none]
      intro d hd
      rw [List.isPrefixOf_iff_prefix]
      exact h d hd
    rw [this]
    rfl

theorem date_error (date : Option Str) (mk : Str → VersionInfo) (next : Except Exc VersionInfo) (e : Exc) :
    orElse (match date with
      | none => .error .attributeError
      | some date0 => match isoDate (strip date0) with
        | none => .error .indexError
        | some date => .ok (mk date)) next = .error e ↔
      (date = none ∧ e = .attributeError) ∨ (∃ d, date = some d ∧ Blank d ∧ e = .indexError) := by
  cases date with
  | none =>
    simp only [orElse, Except.error.injEq, true_and, reduceCtorEq, false_and, exists_false, or_false]
    exact eq_comm
  | some d =>
    cases hi : isoDate (strip d) with
    | none =>
      simp only [hi]
      rw [isoDate_eq_none, strip_eq_nil] at hi
      simp only [orElse, Except.error.injEq, reduceCtorEq, false_and, Option.some.injEq, false_or]
      exact ⟨fun h => ⟨d, rfl, hi, h.symm⟩, fun ⟨_, _, _, h⟩ => h.symm⟩
    | some i =>
      have hnb : ¬ Blank d := by
        rw [← strip_eq_nil, ← isoDate_eq_none, hi]
        exact fun h => nomatch h
      simp only [hi, orElse, reduceCtorEq, false_and, Option.some.injEq, false_or, false_iff]
      rintro ⟨d', rfl, h, -⟩
      exact hnb h

/-- C63.  When git describes the tree by a tag: the version, revision, flag and date are those git printed,
and the lookup raises exactly if the date is missing or blank. -/
theorem C63_tagged_partial {dirs : List Str} (hn : ∀ d ∈ dirs, IsName d) (git : Str → GitOut) {tag : Str}
    (hne : tag ≠ []) (hnl : '\n' ∉ tag) (distance : Nat) {hash : Str} (hh : IsHash hash) (dirty : Bool)
    {full : Str}
    (hg : GitDescribes (git (dirText dirs)) (describeText ('v' :: tag) distance hash dirty) full) :
    (∀ signature day time zone, Word day → Word time → Word zone →
      (git (dirText dirs)).date = some (ciText signature day time zone) →
      getVersions config rawKeywords (some (versionFile dirs)) git =
        .ok { version := taggedVersion tag distance hash dirty, fullRevisionid := some full,
              dirty := some dirty, error := false, date := some (isoText day time zone) }) ∧
    (∀ e, getVersions config rawKeywords (some (versionFile dirs)) git = .error e ↔
      ((git (dirText dirs)).date = none ∧ e = .attributeError) ∨
      (∃ d, (git (dirText dirs)).date = some d ∧ Blank d ∧ e = .indexError)) := by
  obtain ⟨b, hb⟩ := versionsFromGit_describes hg (trim_tagged tag distance hh dirty) ['v'] (some "pep440")
  rw [show describeText ('v' :: tag) distance hash dirty = describeText (['v'] ++ tag) distance hash dirty
    from rfl, C52_parse_tagged ['v'] tag (by simp) (by simpa using hnl) distance hh] at hb
  simp only [renderStyle_tagged hne] at hb
  rw [getVersions_raw]
  simp only [rootOf_versionFile hn, hb]
  constructor
  · intro signature day time zone h1 h2 h3 h4
    simp only [h4, isoDate_strip_ci signature h1 h2 h3]
    rfl
  · exact date_error _ _ _

/-- C63.  When git describes the tree without a tag: the version has the number of commits, and the lookup
raises exactly if the number of commits is missing, or the date is missing or blank. -/
theorem C63_untagged_partial {dirs : List Str} (hn : ∀ d ∈ dirs, IsName d) (git : Str → GitOut)
    {hash : Str} (hh : IsHash hash) (dirty : Bool) {full : Str}
    (hg : GitDescribes (git (dirText dirs)) (describeUntagged hash dirty) full)
    (hc : (git (dirText dirs)).count = none ∨
      ∃ n, (git (dirText dirs)).count = some (Nat.toDigits 10 n)) :
    (∀ n signature day time zone, (git (dirText dirs)).count = some (Nat.toDigits 10 n) →
      Word day → Word time → Word zone →
      (git (dirText dirs)).date = some (ciText signature day time zone) →
      getVersions config rawKeywords (some (versionFile dirs)) git =
        .ok { version := untaggedVersion n full dirty, fullRevisionid := some full, dirty := some dirty,
              error := false, date := some (isoText day time zone) }) ∧
    (∀ e, getVersions config rawKeywords (some (versionFile dirs)) git = .error e ↔
      ((git (dirText dirs)).count = none ∧ e = .typeError) ∨
      ((git (dirText dirs)).count ≠ none ∧
        (((git (dirText dirs)).date = none ∧ e = .attributeError) ∨
        (∃ d, (git (dirText dirs)).date = some d ∧ Blank d ∧ e = .indexError)))) := by
  obtain ⟨b, hb⟩ := versionsFromGit_describes hg (trim_untagged hh dirty) ['v'] (some "pep440")
  rw [getVersions_raw]
  simp only [rootOf_versionFile hn]
  rcases hc with hc | ⟨n, hc⟩
  · rw [hc] at hb
    rw [Option.getD_none, show strip [] = [] from rfl, piecesOf_untagged_none ['v'] hh] at hb
    simp only [if_true] at hb
    rw [hb, hc]
    refine ⟨fun n _ _ _ _ h => (nomatch h), fun e => ?_⟩
    simp only [orElse, Except.error.injEq, true_and, ne_eq, not_true_eq_false, false_and, or_false]
    exact eq_comm
  · rw [hc] at hb
    rw [Option.getD_some, strip_digits, C52_parse_untagged ['v'] hh] at hb
    simp only [renderStyle_untagged] at hb
    rw [hb]
    constructor
    · intro m signature day time zone h0 h1 h2 h3 h4
      rw [hc, Option.some.injEq] at h0
      have hm : m = n := by
        have e1 := pyInt_decimal m
        rw [decimal_eq, ← h0, ← decimal_eq, pyInt_decimal, Option.some.injEq] at e1
        exact_mod_cast e1.symm
      subst hm
      simp only [h4, isoDate_strip_ci signature h1 h2 h3]
      rfl
    · intro e
      refine (date_error _ _ _ e).trans ?_
      rw [hc]
      simp

/-- C63 fails for a tree unpacked into a directory that another repository controls: whatever version the
tree's directory names, the version is that of the other repository's tag.  That git's directory is
another is printed by git and not looked at. -/
theorem C63_foreign_violated {dirs : List Str} (hn : ∀ d ∈ dirs, IsName d) (own : Str) (ho : '/' ∉ own)
    {tag : Str} (hne : tag ≠ []) (hnl : '\n' ∉ tag) {hash : Str} (hh : IsHash hash) (git : Str → GitOut)
    (hg : git (dirText (dirs ++ ["aemcmc-".toList ++ own])) =
      { gitDir := some (pathText dirs ++ "/.git".toList),
        describe := some (describeText ('v' :: tag) 0 hash false), full := some hash,
        abbrevRef := some "main".toList, contains := none, count := none,
        date := some (ciText [] "2022-11-01".toList "10:00:00".toList "+0100".toList) }) :
    outcome (getVersions config rawKeywords (some (versionFile (dirs ++ ["aemcmc-".toList ++ own]))) git) =
      some (tag, false) := by
  have hn' : ∀ d ∈ dirs ++ ["aemcmc-".toList ++ own], IsName d := by
    intro d hd
    rcases List.mem_append.1 hd with h | h
    · exact hn d h
    · rw [List.mem_singleton.1 h]
      refine ⟨by simp, ?_⟩
      rw [List.mem_append]
      rintro (h | h)
      · exact absurd h (by decide)
      · exact ho h
  have htr : Trim hash := by
    have := trim_untagged hh false
    simpa [describeUntagged] using this
  have hd : GitDescribes (git (dirText (dirs ++ ["aemcmc-".toList ++ own])))
      (describeText ('v' :: tag) 0 hash false) hash := by
    rw [hg]
    exact ⟨by simp, rfl, rfl, htr, "main".toList, rfl, trim_of_plain (by decide), fun h => absurd h (by decide)⟩
  rw [(C63_tagged_partial hn' git hne hnl 0 hh false hd).1 [] "2022-11-01".toList "10:00:00".toList
    "+0100".toList (word_of_all (by decide) (by decide)) (word_of_all (by decide) (by decide))
    (word_of_all (by decide) (by decide)) (by rw [hg])]
  simp [outcome, taggedVersion]

/-- C63 fails when git describes the tree but does not count its commits: the import raises `TypeError`,
though the name of the tree's directory has the version. -/
theorem C63_raises_violated : ∃ git : Str → GitOut,
    getVersions config rawKeywords (some (versionFile ["src".toList, "aemcmc-0.0.6".toList])) git =
      .error .typeError := by
  have hh : IsHash "abc1234".toList := exHash
  refine ⟨fun _ => { noGit with gitDir := some ".git".toList, describe := some "abc1234".toList,
                                full := some "abc1234".toList, abbrevRef := some "main".toList }, ?_⟩
  refine ((C63_untagged_partial (hash := "abc1234".toList) ?_ _ hh false (full := "abc1234".toList) ?_
    (Or.inl rfl)).2 _).2 (Or.inl ⟨rfl, rfl⟩)
  · intro d hd
    simp only [List.mem_cons, List.not_mem_nil, or_false] at hd
    rcases hd with rfl | rfl <;> exact ⟨by decide, by decide⟩
  · exact ⟨by simp, rfl, rfl, trim_of_plain (by decide), "main".toList, rfl, trim_of_plain (by decide),
      fun h => absurd h (by decide)⟩

/-- Without git, the nearest directory counts. -/
example : getVersions config rawKeywords
      (some (versionFile ["aemcmc-0.0.1".toList, "aemcmc-0.0.6".toList, "src".toList])) (fun _ => noGit) =
    .ok { version := "0.0.6".toList, fullRevisionid := none, dirty := some false, error := false,
          date := none } :=
  (C63_fallback_partial (by
    intro d hd
    simp only [List.mem_cons, List.not_mem_nil, or_false] at hd
    rcases hd with rfl | rfl | rfl <;> exact ⟨by decide, by decide⟩) _ (Or.inl rfl)).1
    ["src".toList] "0.0.6".toList ["aemcmc-0.0.1".toList] (by decide) (by decide)

/-- A release unpacked in the repository of something at version 9.1. -/
example (git : Str → GitOut) (hg : git "/home/aemcmc-0.0.6".toList =
      { gitDir := some "/home/.git".toList, describe := some "v9.1-0-gabc1234".toList,
        full := some "abc1234".toList, abbrevRef := some "main".toList, contains := none, count := none,
        date := some "2022-11-01 10:00:00 +0100".toList }) :
    outcome (getVersions config rawKeywords (some "/home/aemcmc-0.0.6/aemcmc/_version.py".toList) git) =
      some ("9.1".toList, false) :=
  C63_foreign_violated (dirs := ["home".toList]) (by
    intro d hd
    rw [List.mem_singleton.1 hd]; exact ⟨by decide, by decide⟩) "0.0.6".toList (by decide)
    (tag := "9.1".toList) (by decide) (by decide) exHash git hg

/-- C63.  The keywords alone stop the import in exactly two cases, whatever the prefix: an empty date raises
`IndexError`, before it is looked whether the keywords were filled in, and filled-in keywords without a
revision raise `KeyError`.  They are passed over in exactly two cases: there are no reference names, or
these were not filled in (and the date is not empty). -/
theorem C63_keywords (k : Keywords) (tagPrefix : Str) :
    (versionsFromKeywords k tagPrefix = .error .indexError ↔ k.refnames ≠ none ∧ k.date = some []) ∧
    (versionsFromKeywords k tagPrefix = .error .keyError ↔
      ∃ r, k.refnames = some r ∧ k.date ≠ some [] ∧ ¬ "$Format".toList <+: strip r ∧ k.full = none) ∧
    (versionsFromKeywords k tagPrefix = .error .notThisMethod ↔
      k.refnames = none ∨ ∃ r, k.refnames = some r ∧ k.date ≠ some [] ∧ "$Format".toList <+: strip r) ∧
    ∀ e, versionsFromKeywords k tagPrefix = .error e → e = .indexError ∨ e = .keyError ∨ e = .notThisMethod := by
  have hd : (k.date = some [] ∧ keywordDate k.date = .error .indexError) ∨
      (k.date ≠ some [] ∧ ∃ d, keywordDate k.date = .ok d) := by
    cases h : k.date with
    | none => exact .inr ⟨by simp, none, rfl⟩
    | some d =>
      cases h2 : isoDate d with
      | none => exact .inl ⟨by rw [(isoDate_eq_none _).1 h2], by simp [keywordDate, h2]⟩
      | some d' =>
        refine .inr ⟨fun e => ?_, some d', by simp [keywordDate, h2]⟩
        rw [(isoDate_eq_none _).2 (Option.some.inj e)] at h2
        cases h2
  unfold versionsFromKeywords
  generalize "$Format".toList = fmt
  generalize "0+unknown".toList = unknown
  cases hr : k.refnames with
  | none => simp
  | some r =>
    rcases hd with ⟨hd, he⟩ | ⟨hd, d, he⟩
    · simp only [he]
      simp [hd]
    · simp only [he]
      by_cases hp : fmt.isPrefixOf (strip r) = true
      · have hp' := List.isPrefixOf_iff_prefix.1 hp
        simp [hp', hd]
      · have hp' : ¬ fmt <+: strip r := fun h => hp (List.isPrefixOf_iff_prefix.2 h)
        rw [if_neg hp]
        cases hf : k.full with
        | none =>
          cases chooseTag tagPrefix (likelyTags ((splitChar ',' [] (stripParens (strip r))).map strip)) <;>
            simp [hd, hp']
        | some f =>
          cases chooseTag tagPrefix (likelyTags ((splitChar ',' [] (stripParens (strip r))).map strip)) <;>
            simp [hd, hp']

/-- Keywords of an archive whose date was emptied. -/
example : versionsFromKeywords ⟨some "(tag: v1.0)".toList, some "abc".toList, some []⟩ "v".toList =
    .error .indexError := (C63_keywords _ _).1.2 ⟨by simp, rfl⟩

/-- Keywords that were not filled in, as in a checkout. -/
example : versionsFromKeywords rawKeywords "v".toList = .error .notThisMethod :=
  (C63_keywords _ _).2.2.1.2 (.inr ⟨_, rfl, by decide, by decide⟩)

end Verif.Ver
