import Verif.Ver.KeywordFile
import Verif.Ver.LookupProps

/-!
# C89: the keywords read from the text of the version file
-/

namespace Verif.Ver

/-- Spec.  The line of the version file that assigns a text to a name. -/
def assignLine (indent name value : Str) : Str :=
  indent ++ name ++ [' ', '=', ' ', '"'] ++ value ++ ['"', '\n']

/-- Spec.  The three names, each with the keyword it holds. -/
inductive Key
  | refnames | full | date

/-- Spec.  The name that the version file assigns. -/
def Key.name : Key → Str
  | .refnames => "git_refnames".toList
  | .full => "git_full".toList
  | .date => "git_date".toList

/-- Spec.  The keyword. -/
def Key.get (k : Keywords) : Key → Option Str
  | .refnames => k.refnames
  | .full => k.full
  | .date => k.date

/-- Spec.  The line assigns something to the name of the key, as it appears after blanks. -/
def Assigns (key : Key) (line : Str) : Prop :=
  ∃ indent rest, Blank indent ∧ line = indent ++ key.name ++ [' ', '='] ++ rest

/-- Spec.  A line with its end. -/
def IsLine (line : Str) : Prop := ∃ body, '\n' ∉ body ∧ line = body ++ ['\n']

/-- Spec.  Reading the file does not meet bytes that cannot be decoded. -/
def FileEnd.Decodable : FileEnd → Prop
  | .undecodable => False
  | _ => True

/-- The mark of a key. -/
def Key.mark (key : Key) : Str := key.name ++ [' ', '=']

theorem keywordLine_get (k : Keywords) (line : Str) (key : Key) :
    key.get (keywordLine k line) = updateKey key.mark line (key.get k) := by
  cases key <;> rfl

theorem dropWhile_blank {indent : Str} (h : Blank indent) (s : Str) :
    (indent ++ s).dropWhile isSpace = s.dropWhile isSpace := by
  induction indent with
  | nil => rfl
  | cons c r ih =>
    rw [List.cons_append, List.dropWhile_cons_of_pos ((isSpace_iff c).2 (h c List.mem_cons_self))]
    exact ih fun d hd => h d (List.mem_cons_of_mem _ hd)

theorem strip_prefix {mark s : Str} (hm : ∃ r c, mark = r ++ [c] ∧ ¬ White c) :
    ∃ t, ((mark ++ s).reverse.dropWhile isSpace).reverse = mark ++ t := by
  induction s using List.reverseRecOn with
  | nil =>
    obtain ⟨r, c, rfl, hc⟩ := hm
    refine ⟨[], ?_⟩
    rw [List.append_nil, List.reverse_append, List.reverse_singleton, List.singleton_append,
      List.dropWhile_cons_of_neg (by simp [not_isSpace hc])]
    simp
  | append_singleton s c ih =>
    cases hc : isSpace c with
    | true =>
      rw [← List.append_assoc, List.reverse_append, List.reverse_singleton, List.singleton_append,
        List.dropWhile_cons_of_pos hc]
      exact ih
    | false =>
      refine ⟨s ++ [c], ?_⟩
      rw [← List.append_assoc, List.reverse_append, List.reverse_singleton, List.singleton_append,
        List.dropWhile_cons_of_neg (by simp [hc])]
      simp

theorem mark_ends (key : Key) : ∃ r c, key.mark = r ++ [c] ∧ ¬ White c :=
  ⟨key.name ++ [' '], '=', by simp [Key.mark], by unfold White; decide⟩

theorem mark_begins (key : Key) : ∃ c r, key.mark = c :: r ∧ ¬ White c := by
  cases key <;> exact ⟨'g', _, rfl, by unfold White; decide⟩

/-- A line begins with the mark, for the loop, if and only if it assigns to the name. -/
theorem beginsWith_iff (key : Key) (line : Str) : beginsWith key.mark line = true ↔ Assigns key line := by
  unfold beginsWith
  rw [List.isPrefixOf_iff_prefix]
  constructor
  · rintro ⟨t, ht⟩
    unfold strip stripBy at ht
    have h1 := List.takeWhile_append_dropWhile (p := isSpace) (l := line)
    have h2 := List.takeWhile_append_dropWhile (p := isSpace) (l := (line.dropWhile isSpace).reverse)
    have h3 : line.dropWhile isSpace = key.mark ++ t ++
        ((line.dropWhile isSpace).reverse.takeWhile isSpace).reverse := by
      have := congrArg List.reverse h2
      rw [List.reverse_append, List.reverse_reverse, ← ht] at this
      exact this.symm
    refine ⟨line.takeWhile isSpace, t ++ ((line.dropWhile isSpace).reverse.takeWhile isSpace).reverse, ?_, ?_⟩
    · intro c hc
      exact (isSpace_iff c).1 (List.all_eq_true.1 List.all_takeWhile c hc)
    · conv_lhs => rw [← h1, h3]
      simp [Key.mark]
  · rintro ⟨indent, rest, hi, rfl⟩
    obtain ⟨c, r, hm, hc⟩ := mark_begins key
    unfold strip stripBy
    rw [show indent ++ key.name ++ [' ', '='] ++ rest = indent ++ (key.mark ++ rest) by simp [Key.mark],
      dropWhile_blank hi, hm, List.cons_append, List.dropWhile_cons_of_neg (by simp [not_isSpace hc]),
      ← List.cons_append, ← hm]
    obtain ⟨t, ht⟩ := strip_prefix (s := rest) (mark_ends key)
    exact ⟨t, ht.symm⟩

theorem searchQuoted_skip {p : Str} (h : '=' ∉ p) (s : Str) : searchQuoted (p ++ s) = searchQuoted s := by
  induction p with
  | nil => rfl
  | cons c p ih =>
    rw [List.cons_append, searchQuoted, if_neg fun e => h (by rw [e]; exact List.mem_cons_self)]
    exact ih fun hm => h (List.mem_cons_of_mem _ hm)

theorem matchQuoted_value (value tail : Str) (ht : '"' ∉ tail) :
    matchQuoted (' ' :: '"' :: (value ++ '"' :: tail)) = some value := by
  unfold matchQuoted
  rw [List.dropWhile_cons_of_pos (by decide), List.dropWhile_cons_of_neg (by decide)]
  simp only [List.mem_append, List.mem_cons, true_or, or_true, and_self, if_true, Option.some.injEq]
  have e : ((value ++ '"' :: tail).reverse.dropWhile fun c => decide (c ≠ '"')) = '"' :: value.reverse := by
    rw [List.reverse_append, List.reverse_cons, List.append_assoc]
    have : ∀ l r : Str, '"' ∉ l → ((l ++ ('"' :: r)).dropWhile fun c => decide (c ≠ '"')) = '"' :: r := by
      intro l r hl
      induction l with
      | nil => exact List.dropWhile_cons_of_neg (by simp)
      | cons c l ih =>
        rw [List.cons_append, List.dropWhile_cons_of_pos]
        · exact ih fun h => hl (List.mem_cons_of_mem _ h)
        · simp only [decide_eq_true_eq]
          exact fun h => hl (by rw [h]; exact List.mem_cons_self)
    exact this _ _ (by simpa using ht)
  rw [e]
  simp

theorem blank_noeq {indent : Str} (h : Blank indent) : '=' ∉ indent := fun hm => by
  have := h _ hm
  unfold White at this
  revert this
  decide

theorem name_noeq (key : Key) : '=' ∉ key.name := by cases key <;> decide

theorem search_assign (key : Key) {indent : Str} (hi : Blank indent) (value : Str) :
    searchQuoted (assignLine indent key.name value) = some value := by
  unfold assignLine
  rw [show indent ++ key.name ++ [' ', '=', ' ', '"'] ++ value ++ ['"', '\n'] =
      indent ++ (key.name ++ (([' '] : Str) ++ ('=' :: (' ' :: '"' :: (value ++ '"' :: ['\n']))))) by simp,
    searchQuoted_skip (blank_noeq hi), searchQuoted_skip (name_noeq key), searchQuoted_skip (by decide),
    searchQuoted, if_pos rfl, matchQuoted_value _ _ (by decide)]
  rfl

theorem assigns_assign (key : Key) {indent : Str} (hi : Blank indent) (value : Str) :
    Assigns key (assignLine indent key.name value) :=
  ⟨indent, [' ', '"'] ++ value ++ ['"', '\n'], hi, by simp [assignLine]⟩

theorem fold_get (key : Key) (lines : List Str) (k : Keywords) (h : ∀ l ∈ lines, ¬ Assigns key l) :
    key.get (lines.foldl keywordLine k) = key.get k := by
  induction lines generalizing k with
  | nil => rfl
  | cons l ls ih =>
    rw [List.foldl_cons, ih _ fun l' hl' => h l' (List.mem_cons_of_mem _ hl'), keywordLine_get, updateKey,
      if_neg]
    rw [beginsWith_iff]
    exact h l List.mem_cons_self

theorem fileLines_line {body : Str} (h : '\n' ∉ body) (acc s : Str) :
    fileLines acc (body ++ '\n' :: s) = (acc.reverse ++ body ++ ['\n']) :: fileLines [] s := by
  induction body generalizing acc with
  | nil => simp [fileLines]
  | cons c b ih =>
    rw [List.cons_append, fileLines, if_neg fun e => h (by rw [e]; exact List.mem_cons_self),
      ih fun hm => h (List.mem_cons_of_mem _ hm)]
    simp

theorem fileLines_flatten {lines : List Str} (h : ∀ l ∈ lines, IsLine l) :
    fileLines [] lines.flatten = lines := by
  induction lines with
  | nil => rfl
  | cons l ls ih =>
    obtain ⟨b, hb, rfl⟩ := h l List.mem_cons_self
    rw [List.flatten_cons, List.append_assoc, List.singleton_append, fileLines_line hb,
      ih fun l hl => h l (List.mem_cons_of_mem _ hl)]
    simp

theorem getKeywordsFrom_ok {fileEnd : FileEnd} (h : fileEnd.Decodable) {lines : List Str}
    (hl : ∀ l ∈ lines, IsLine l) :
    getKeywordsFrom lines.flatten fileEnd = .ok (lines.foldl keywordLine ⟨none, none, none⟩) := by
  have e := fileLines_flatten hl
  cases fileEnd with
  | eof => rw [getKeywordsFrom, e]; simp
  | osError => rw [getKeywordsFrom, e]; simp
  | undecodable => exact absurd h id

theorem isLine_assign {indent value : Str} (hi : '\n' ∉ indent) (key : Key) (hv : '\n' ∉ value) :
    IsLine (assignLine indent key.name value) := by
  refine ⟨indent ++ key.name ++ [' ', '=', ' ', '"'] ++ value ++ ['"'], ?_, by simp [assignLine]⟩
  have hk : '\n' ∉ key.name := by cases key <;> decide
  simp only [List.mem_append, not_or]
  exact ⟨⟨⟨⟨hi, hk⟩, by decide⟩, hv⟩, by decide⟩

/-- C89.  A keyword is the text between the quotes, whatever it is, in the last line that assigns to its
name; a keyword to whose name no line assigns is missing; and it does not matter whether the reading ends
with an error of the operating system.  Missing for the full property: a text that has a line break is not
read (`C89_signature_violated`). -/
theorem C89_keyword_partial (key : Key) {fileEnd : FileEnd} (he : fileEnd.Decodable) :
    (∀ (before : List Str) (indent value : Str) (after : List Str), (∀ l ∈ before, IsLine l) → Blank indent → '\n' ∉ indent →
      '\n' ∉ value → (∀ l ∈ after, IsLine l ∧ ¬ Assigns key l) →
      ∃ k, getKeywordsFrom (before.flatten ++ assignLine indent key.name value ++ after.flatten) fileEnd =
        .ok k ∧ key.get k = some value) ∧
    (∀ lines : List Str, (∀ l ∈ lines, IsLine l ∧ ¬ Assigns key l) →
      ∃ k, getKeywordsFrom lines.flatten fileEnd = .ok k ∧ key.get k = none) := by
  constructor
  · intro before indent value after hb hi hn hv ha
    rw [show before.flatten ++ assignLine indent key.name value ++ after.flatten =
      (before ++ assignLine indent key.name value :: after).flatten by simp]
    refine ⟨_, getKeywordsFrom_ok he ?_, ?_⟩
    · intro l hl
      rcases List.mem_append.1 hl with hl | hl
      · exact hb l hl
      · rcases List.mem_cons.1 hl with rfl | hl
        · exact isLine_assign hn key hv
        · exact (ha l hl).1
    · rw [List.foldl_append, List.foldl_cons, fold_get key after _ fun l hl => (ha l hl).2, keywordLine_get,
        updateKey, if_pos ((beginsWith_iff key _).2 (assigns_assign key hi value)), search_assign key hi]
      rfl
  · intro lines h
    refine ⟨_, getKeywordsFrom_ok he fun l hl => (h l hl).1, ?_⟩
    rw [fold_get key lines _ fun l hl => (h l hl).2]
    cases key <;> rfl

theorem strip_assign (key : Key) {indent : Str} (hi : Blank indent) (rest : Str) :
    ∃ t, strip (indent ++ key.name ++ [' ', '='] ++ rest) = key.mark ++ t := by
  have h := (beginsWith_iff key (indent ++ key.name ++ [' ', '='] ++ rest)).2 ⟨indent, rest, hi, rfl⟩
  unfold beginsWith at h
  rw [List.isPrefixOf_iff_prefix] at h
  obtain ⟨t, ht⟩ := h
  exact ⟨t, ht.symm⟩

/-- A line assigns to one name only. -/
theorem assigns_unique {key key' : Key} {line : Str} (h : Assigns key line) (h' : Assigns key' line) :
    key = key' := by
  obtain ⟨indent, rest, hi, rfl⟩ := h
  obtain ⟨t, ht⟩ := strip_assign key hi rest
  rw [← beginsWith_iff, beginsWith, ht] at h'
  revert h'
  cases key <;> cases key' <;> first | (intro _; rfl) | exact fun h => nomatch h

theorem keywords_ext {k k' : Keywords} (h : ∀ key : Key, key.get k = key.get k') : k = k' := by
  cases k
  cases k'
  have h1 := h .refnames
  have h2 := h .full
  have h3 := h .date
  simp only [Key.get] at h1 h2 h3
  rw [h1, h2, h3]

theorem fold_assign (key : Key) {before after : List Str} {indent : Str} (hi : Blank indent) (value : Str)
    (k : Keywords) (ha : ∀ l ∈ after, ¬ Assigns key l) :
    key.get ((before ++ assignLine indent key.name value :: after).foldl keywordLine k) = some value := by
  rw [List.foldl_append, List.foldl_cons, fold_get key after _ ha, keywordLine_get, updateKey,
    if_pos ((beginsWith_iff key _).2 (assigns_assign key hi value)), search_assign key hi]
  rfl

/-- Spec.  The text of a version file with these keywords, among other lines. -/
def fileText (before : List Str) (indent refnames full date : Str) (after : List Str) : Str :=
  before.flatten ++ assignLine indent "git_refnames".toList refnames ++
    assignLine indent "git_full".toList full ++ assignLine indent "git_date".toList date ++ after.flatten

/-- C89.  A program that reads the keywords from the text of a file written by `git archive` has the same
keywords as the package that is imported from it, hence reports the same version; the lines after them may
be any that do not assign to the three names. -/
theorem C89_same_keywords (decs : List Str) (full day time zone : Str) (hdn : '\n' ∉ archiveText decs)
    (hfn : '\n' ∉ full) (hcn : '\n' ∉ ciText [] day time zone) {fileEnd : FileEnd}
    (he : fileEnd.Decodable) {indent : Str} (hi : Blank indent) (hn : '\n' ∉ indent) {before after : List Str}
    (hb : ∀ l ∈ before, IsLine l) (ha : ∀ l ∈ after, IsLine l ∧ ∀ key, ¬ Assigns key l) :
    getKeywordsFrom (fileText before indent (archiveText decs) full (ciText [] day time zone) after) fileEnd =
      .ok (archiveKeywords decs full [] day time zone) := by
  have et : fileText before indent (archiveText decs) full (ciText [] day time zone) after =
      (before ++ assignLine indent "git_refnames".toList (archiveText decs) ::
        assignLine indent "git_full".toList full ::
        assignLine indent "git_date".toList (ciText [] day time zone) :: after).flatten := by
    simp only [fileText, List.flatten_append, List.flatten_cons, List.append_assoc]
  rw [et, getKeywordsFrom_ok he]
  swap
  · intro l hl
    rcases List.mem_append.1 hl with hl | hl
    · exact hb l hl
    rcases List.mem_cons.1 hl with rfl | hl
    · exact isLine_assign hn .refnames hdn
    rcases List.mem_cons.1 hl with rfl | hl
    · exact isLine_assign hn .full hfn
    rcases List.mem_cons.1 hl with rfl | hl
    · exact isLine_assign hn .date hcn
    · exact (ha l hl).1
  have other : ∀ {key key' : Key}, key' ≠ key → ∀ value, ¬ Assigns key (assignLine indent key'.name value) :=
    fun hne value h => hne (assigns_unique (assigns_assign _ hi value) h)
  refine congrArg Except.ok (keywords_ext fun key => ?_)
  cases key with
  | refnames =>
    refine fold_assign .refnames hi _ _ ?_
    intro l hl
    rcases List.mem_cons.1 hl with rfl | hl
    · exact other (key' := .full) (by simp) _
    · rcases List.mem_cons.1 hl with rfl | hl
      · exact other (key' := .date) (by simp) _
      · exact (ha l hl).2 _
  | full =>
    rw [← List.singleton_append, ← List.append_assoc]
    refine fold_assign .full hi _ _ ?_
    intro l hl
    rcases List.mem_cons.1 hl with rfl | hl
    · exact other (key' := .date) (by simp) _
    · exact (ha l hl).2 _
  | date =>
    rw [show ∀ (a b : Str) (r : List Str), before ++ a :: b :: r = (before ++ [a, b]) ++ r by simp]
    exact fold_assign .date hi _ _ fun l hl => (ha l hl).2 _

theorem fileLines_end {body : Str} (h : '\n' ∉ body) (acc : Str) (hne : acc ++ body ≠ []) :
    fileLines acc body = [acc.reverse ++ body] := by
  induction body generalizing acc with
  | nil =>
    rw [List.append_nil] at hne
    simp [fileLines, hne]
  | cons c b ih =>
    rw [fileLines, if_neg fun e => h (by rw [e]; exact List.mem_cons_self),
      ih (fun hm => h (List.mem_cons_of_mem _ hm)) _ (by simp)]
    simp

theorem fileLines_flatten_end {lines : List Str} (h : ∀ l ∈ lines, IsLine l) {body : Str} (hb : '\n' ∉ body)
    (hne : body ≠ []) : fileLines [] (lines.flatten ++ body) = lines ++ [body] := by
  induction lines with
  | nil => simpa using fileLines_end hb [] (by simpa using hne)
  | cons l ls ih =>
    obtain ⟨b, hb', rfl⟩ := h l List.mem_cons_self
    rw [List.flatten_cons, List.append_assoc, List.append_assoc, List.singleton_append, fileLines_line hb',
      ih fun l hl => h l (List.mem_cons_of_mem _ hl)]
    simp

/-- C89.  An assignment in the last line counts also if the file does not end with a line break, and a file
with bytes that cannot be decoded makes the reading fail with the error of the decoder, whatever was read
before. -/
theorem C89_file_end (key : Key) {before : List Str} (hb : ∀ l ∈ before, IsLine l) {indent value : Str}
    (hi : Blank indent) (hn : '\n' ∉ indent) (hv : '\n' ∉ value) {fileEnd : FileEnd} :
    (fileEnd.Decodable → ∃ k, getKeywordsFrom
      (before.flatten ++ (indent ++ key.name ++ [' ', '=', ' ', '"'] ++ value ++ ['"'])) fileEnd = .ok k ∧
        key.get k = some value) ∧
    (¬ fileEnd.Decodable → ∀ text, getKeywordsFrom text fileEnd = .error .unicodeDecodeError) := by
  refine ⟨fun he => ?_, fun he text => ?_⟩
  · have hk : '\n' ∉ key.name := by cases key <;> decide
    have hbody : '\n' ∉ indent ++ key.name ++ [' ', '=', ' ', '"'] ++ value ++ ['"'] := by
      simp only [List.mem_append, not_or]
      exact ⟨⟨⟨⟨hn, hk⟩, by decide⟩, hv⟩, by decide⟩
    have e := fileLines_flatten_end hb hbody (by simp)
    refine ⟨(before ++ [indent ++ key.name ++ [' ', '=', ' ', '"'] ++ value ++ ['"']]).foldl keywordLine
      ⟨none, none, none⟩, ?_, ?_⟩
    · cases fileEnd with
      | eof => rw [getKeywordsFrom, e]; simp
      | osError => rw [getKeywordsFrom, e]; simp
      | undecodable => exact absurd he id
    · rw [List.foldl_append, List.foldl_cons, List.foldl_nil, keywordLine_get, updateKey,
        if_pos ((beginsWith_iff key _).2 ⟨indent, [' ', '"'] ++ value ++ ['"'], hi, by simp⟩)]
      rw [show indent ++ key.name ++ [' ', '=', ' ', '"'] ++ value ++ ['"'] =
          indent ++ (key.name ++ (([' '] : Str) ++ ('=' :: (' ' :: '"' :: (value ++ '"' :: []))))) by simp,
        searchQuoted_skip (blank_noeq hi), searchQuoted_skip (name_noeq key), searchQuoted_skip (by decide),
        searchQuoted, if_pos rfl, matchQuoted_value _ _ (by decide)]
      rfl
  · cases fileEnd with
    | eof => exact absurd trivial he
    | osError => exact absurd trivial he
    | undecodable => rfl

/-- A file of two lines, the second without an end. -/
example : ∃ k, getKeywordsFrom "# keywords\ngit_full = \"abc\"".toList .eof = .ok k ∧
    k.full = some "abc".toList :=
  (C89_file_end .full (before := ["# keywords\n".toList]) (indent := []) (value := "abc".toList)
    (fileEnd := .eof) (by
      intro l hl
      rw [List.mem_singleton.1 hl]
      exact ⟨"# keywords".toList, by decide, by decide⟩) (fun _ h => by cases h) (by decide) (by decide)).1 trivial

/-- C89.  A file that cannot be opened has no keywords, and then the version is looked for elsewhere. -/
theorem C89_no_file (tagPrefix : Str) : ∃ k, getKeywordsFrom [] .osError = .ok k ∧
    versionsFromKeywords k tagPrefix = .error .notThisMethod := ⟨_, rfl, rfl⟩

theorem matchQuoted_none {s : Str} (h : '"' ∉ s) : matchQuoted s = none := by
  unfold matchQuoted
  split
  · rename_i c r e
    rw [if_neg]
    rintro ⟨rfl, -⟩
    have := (List.dropWhile_sublist (p := isSpace) (l := s)).subset (by rw [e]; exact List.mem_cons_self)
    exact h this
  · rfl

theorem searchQuoted_none {s : Str} (h : '"' ∉ s) : searchQuoted s = none := by
  induction s with
  | nil => rfl
  | cons c s ih =>
    have hs : '"' ∉ s := fun hm => h (List.mem_cons_of_mem _ hm)
    rw [searchQuoted, matchQuoted_none hs, ih hs]
    split <;> rfl

theorem search_open (key : Key) {indent : Str} (hi : Blank indent) {s : Str} (h : '"' ∉ s) :
    searchQuoted (indent ++ key.name ++ [' ', '='] ++ (' ' :: '"' :: s)) = none := by
  rw [show indent ++ key.name ++ [' ', '='] ++ (' ' :: '"' :: s) =
      indent ++ (key.name ++ (([' '] : Str) ++ ('=' :: (' ' :: '"' :: s)))) by simp,
    searchQuoted_skip (blank_noeq hi), searchQuoted_skip (name_noeq key), searchQuoted_skip (by decide),
    searchQuoted, if_pos rfl]
  have h1 : matchQuoted (' ' :: '"' :: s) = none := by
    unfold matchQuoted
    rw [List.dropWhile_cons_of_pos (by decide), List.dropWhile_cons_of_neg (by decide)]
    exact if_neg fun hc => h hc.2
  have h2 : searchQuoted (' ' :: '"' :: s) = none := by
    rw [searchQuoted, if_neg (by decide), searchQuoted, if_neg (by decide)]
    exact searchQuoted_none h
  rw [h1, h2]
  rfl

/-- C89 fails for the date of a signed commit, before which git may print lines about the signature: then the
text between the quotes has line breaks, and the date is missing from the keywords, though C62 shows that
the lookup is written to find the date after such lines. -/
theorem C89_signature_violated (decs : List Str) (full day time zone : Str) (hdn : '\n' ∉ archiveText decs)
    (hfn : '\n' ∉ full) (hcn : '\n' ∉ ciText [] day time zone) {fileEnd : FileEnd}
    (he : fileEnd.Decodable) {indent : Str} (hi : Blank indent) (hn : '\n' ∉ indent) {first : Str}
    (hq : '"' ∉ first) (hfi : '\n' ∉ first)
    (more : List Str) (hm : ∀ l ∈ more, '\n' ∉ l ∧ ∀ key, ¬ Assigns key (l ++ ['\n']))
    (hd : ∀ key, ¬ Assigns key (day ++ [' '] ++ time ++ [' '] ++ zone ++ ['"', '\n'])) :
    getKeywordsFrom (fileText [] indent (archiveText decs) full (ciText (first :: more) day time zone) [])
        fileEnd =
      .ok { archiveKeywords decs full (first :: more) day time zone with date := none } := by
  have et : fileText [] indent (archiveText decs) full (ciText (first :: more) day time zone) [] =
      ([assignLine indent "git_refnames".toList (archiveText decs),
        assignLine indent "git_full".toList full,
        indent ++ "git_date = \"".toList ++ first ++ ['\n']] ++ more.map (· ++ ['\n']) ++
        [day ++ [' '] ++ time ++ [' '] ++ zone ++ ['"', '\n']]).flatten := by
    rw [show "git_date = \"".toList = "git_date".toList ++ [' ', '=', ' ', '"'] by decide]
    simp only [fileText, assignLine, ciText, List.flatten_append, List.flatten_cons, List.append_assoc,
      List.flatten_nil, List.nil_append, List.cons_append, List.flatMap, List.map_cons,
      List.append_nil]
  rw [et, getKeywordsFrom_ok he]
  swap
  · intro l hl
    rcases List.mem_append.1 hl with hl | hl
    · rcases List.mem_append.1 hl with hl | hl
      · rcases List.mem_cons.1 hl with rfl | hl
        · exact isLine_assign hn .refnames hdn
        rcases List.mem_cons.1 hl with rfl | hl
        · exact isLine_assign hn .full hfn
        rw [List.mem_singleton.1 hl]
        refine ⟨indent ++ "git_date = \"".toList ++ first, ?_, rfl⟩
        simp only [List.mem_append, not_or]
        exact ⟨⟨hn, by decide⟩, hfi⟩
      · obtain ⟨x, hx, rfl⟩ := List.mem_map.1 hl
        exact ⟨x, (hm x hx).1, rfl⟩
    · rw [List.mem_singleton.1 hl]
      refine ⟨day ++ [' '] ++ time ++ [' '] ++ zone ++ ['"'], ?_, by simp⟩
      rw [List.mem_append, not_or]
      exact ⟨by simpa [ciText] using hcn, by decide⟩
  have other : ∀ {key key' : Key}, key' ≠ key → ∀ value, ¬ Assigns key (assignLine indent key'.name value) :=
    fun hne value h => hne (assigns_unique (assigns_assign _ hi value) h)
  have eopen : indent ++ "git_date = \"".toList ++ first ++ ['\n'] =
      indent ++ Key.date.name ++ [' ', '='] ++ (' ' :: '"' :: (first ++ ['\n'])) := by
    rw [show "git_date = \"".toList = Key.date.name ++ ([' ', '='] ++ [' ', '"']) by decide]
    simp only [List.append_assoc, List.cons_append, List.nil_append]
  have hopen : Assigns .date (indent ++ "git_date = \"".toList ++ first ++ ['\n']) :=
    ⟨indent, _, hi, eopen⟩
  have htail : ∀ key, ∀ l ∈ more.map (· ++ ['\n']) ++ [day ++ [' '] ++ time ++ [' '] ++ zone ++ ['"', '\n']],
      ¬ Assigns key l := by
    intro key l hl
    rcases List.mem_append.1 hl with hl | hl
    · obtain ⟨x, hx, rfl⟩ := List.mem_map.1 hl
      exact (hm x hx).2 key
    · rw [List.mem_singleton.1 hl]
      exact hd key
  rw [List.append_assoc]
  generalize more.map (· ++ ['\n']) ++ [day ++ [' '] ++ time ++ [' '] ++ zone ++ ['"', '\n']] = tail at htail
  refine congrArg Except.ok (keywords_ext fun key => ?_)
  cases key with
  | refnames =>
    refine fold_assign .refnames (before := []) hi _ _ ?_
    intro l hl
    rcases List.mem_cons.1 hl with rfl | hl
    · exact other (key' := .full) (by simp) _
    · rcases List.mem_cons.1 hl with rfl | hl
      · exact fun h => nomatch assigns_unique h hopen
      · exact htail _ l hl
  | full =>
    refine fold_assign .full (before := [_]) hi _ _ ?_
    intro l hl
    rcases List.mem_cons.1 hl with rfl | hl
    · exact fun h => nomatch assigns_unique h hopen
    · exact htail _ l hl
  | date =>
    rw [List.foldl_append, fold_get .date tail _ (htail .date), List.foldl_cons, List.foldl_cons,
      List.foldl_cons, List.foldl_nil, keywordLine_get, updateKey, if_pos ((beginsWith_iff .date _).2 hopen),
      eopen, search_open .date hi (by simpa using hq), keywordLine_get, updateKey,
      if_neg (show ¬ beginsWith Key.date.mark (assignLine indent "git_full".toList full) = true from
        fun h => other (key := .date) (key' := .full) (by simp) full ((beginsWith_iff .date _).1 h)),
      keywordLine_get, updateKey,
      if_neg (show ¬ beginsWith Key.date.mark (assignLine indent "git_refnames".toList (archiveText decs)) = true
        from fun h => other (key := .date) (key' := .refnames) (by simp) _ ((beginsWith_iff .date _).1 h))]
    rfl

/-! ## Cases -/

theorem notAssigns_of {key : Key} {l : Str} (h : beginsWith key.mark l = false) : ¬ Assigns key l := by
  rw [← beginsWith_iff, h]
  exact fun h => nomatch h

set_option maxRecDepth 10000 in
/-- `C89_same_keywords` and `C89_keyword_partial`, with lines around the assignments as they are in the file,
among them one that mentions the name in a condition. -/
example : getKeywordsFrom "def get_keywords():
    git_refnames = \" (tag: v\"1\", main)\"
    git_full = \"abc\"
    git_date = \"2022-11-01 10:00:00 +0100\"
  if line.strip().startswith(\"git_full =\"):
".toList .eof =
    .ok ⟨some " (tag: v\"1\", main)".toList, some "abc".toList, some "2022-11-01 10:00:00 +0100".toList⟩ :=
  C89_same_keywords ["tag: v\"1\"".toList, "main".toList] "abc".toList "2022-11-01".toList "10:00:00".toList
    "+0100".toList (by decide) (by decide) (by decide) (fileEnd := .eof) trivial (indent := "    ".toList)
    (by unfold Blank White; decide) (by decide) (before := ["def get_keywords():\n".toList])
    (after := ["  if line.strip().startswith(\"git_full =\"):\n".toList])
    (by
      intro l hl
      rw [List.mem_singleton.1 hl]
      exact ⟨"def get_keywords():".toList, by decide, by decide⟩) (by
      intro l hl
      rw [List.mem_singleton.1 hl]
      exact ⟨⟨"  if line.strip().startswith(\"git_full =\"):".toList, by decide, by decide⟩,
        fun key => by cases key <;> exact notAssigns_of (by decide)⟩)

/-- `C89_keyword_partial`: the last of two assignments counts. -/
example : ∃ k, getKeywordsFrom "git_full = \"abc\"\ngit_full = \"def\"\n".toList .osError = .ok k ∧
    Key.full.get k = some "def".toList :=
  (C89_keyword_partial .full (fileEnd := .osError) trivial).1 ["git_full = \"abc\"\n".toList] [] "def".toList []
    (by
      intro l hl
      rw [List.mem_singleton.1 hl]
      exact ⟨"git_full = \"abc\"".toList, by decide, by decide⟩)
    (fun _ h => nomatch h) (by decide) (by decide) (fun _ h => nomatch h)

set_option maxRecDepth 10000 in
/-- `C89_signature_violated`. -/
example : getKeywordsFrom "    git_refnames = \" (v1)\"
    git_full = \"abc\"
    git_date = \"gpg: Signature made
gpg: Good signature
2022-11-01 10:00:00 +0100\"
".toList .eof =
    .ok ⟨some " (v1)".toList, some "abc".toList, none⟩ :=
  C89_signature_violated ["v1".toList] "abc".toList "2022-11-01".toList "10:00:00".toList "+0100".toList
    (by decide) (by decide) (by decide) (fileEnd := .eof) trivial (indent := "    ".toList)
    (by unfold Blank White; decide) (by decide) (first := "gpg: Signature made".toList) (by decide) (by decide)
    ["gpg: Good signature".toList] (by
      intro l hl
      rw [List.mem_singleton.1 hl]
      exact ⟨by decide, fun key => by cases key <;> exact notAssigns_of (by decide)⟩)
    (fun key => by cases key <;> exact notAssigns_of (by decide))

end Verif.Ver
