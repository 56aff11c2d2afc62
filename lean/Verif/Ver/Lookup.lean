import Verif.Ver.Model

/-!
# Model of the version lookup

`/repo/aemcmc/_version.py:106-127`, `158-348`, `601-644`.  The calls of git are represented by what
`run_command` returns (`71-103`): the printed text, or `none` if the command is missing or fails.

Simplifications: `\d` is an ASCII digit; text that git prints and `run_command` cannot decode is not
modelled here but in `Verif.Ver.Run`; paths are POSIX paths; nothing is printed (`verbose` is false).
-/

namespace Verif.Ver

/-- The exceptions that can leave the lookup. -/
inductive Exc
  | notThisMethod
  | keyError
  | indexError
  | typeError
  | attributeError
  | valueError
  | unicodeDecodeError
  deriving DecidableEq, Repr

/-- The dictionary that the lookup returns (`/repo/aemcmc/_version.py:208-211`). -/
structure VersionInfo where
  /-- `"version"` -/
  version : Str
  /-- `"full-revisionid"` -/
  fullRevisionid : Option Str
  /-- `"dirty"` -/
  dirty : Option Bool
  /-- `"error"` is not `None` -/
  error : Bool
  /-- `"date"` -/
  date : Option Str
  deriving DecidableEq, Repr

/-- White space for `str.strip()`. -/
def isSpace (c : Char) : Bool :=
  [9, 10, 11, 12, 13, 28, 29, 30, 31, 32, 133, 160, 5760, 8192, 8193, 8194, 8195, 8196, 8197, 8198, 8199,
    8200, 8201, 8202, 8232, 8233, 8239, 8287, 12288].contains c.toNat

/-- `str.strip` for a set of characters. -/
def stripBy (p : Char → Bool) (s : Str) : Str := ((s.dropWhile p).reverse.dropWhile p).reverse

/-- `s.strip()` -/
def strip (s : Str) : Str := stripBy isSpace s

/-- `s.strip("()")` -/
def stripParens (s : Str) : Str := stripBy (fun c => c == '(' || c == ')') s

/-- `s.split(sep)` for a separator of one character; `acc` is the current part, reversed. -/
def splitChar (sep : Char) (acc : Str) : Str → List Str
  | [] => [acc.reverse]
  | c :: s => if c = sep then acc.reverse :: splitChar sep [] s else splitChar sep (c :: acc) s

/-- Line breaks for `str.splitlines()`. -/
def isBreak (c : Char) : Bool := [10, 11, 12, 13, 28, 29, 30, 133, 8232, 8233].contains c.toNat

/-- `s.splitlines()`; `acc` is the current line, reversed. -/
def splitlines (acc : Str) : Str → List Str
  | [] => if acc.isEmpty then [] else [acc.reverse]
  | c :: s =>
    if c = '\r' ∧ s.head? = some '\n' then splitlines acc s
    else if isBreak c then acc.reverse :: splitlines [] s else splitlines (c :: acc) s

/-- `s.replace(" ", t, 1)` -/
def replaceSpace (t : Str) : Str → Str
  | [] => []
  | c :: s => if c = ' ' then t ++ s else c :: replaceSpace t s

/-- `date.splitlines()[-1].strip().replace(" ", "T", 1).replace(" ", "", 1)`
(`/repo/aemcmc/_version.py:167`, `175`, `345-346`); `none` is `IndexError`. -/
def isoDate (date : Str) : Option Str :=
  (splitlines [] date).getLast?.map fun l => replaceSpace [] (replaceSpace ['T'] (strip l))

/-- Order of strings: code point by code point. -/
def strLe : Str → Str → Bool
  | [], _ => true
  | _ :: _, [] => false
  | a :: s, b :: t => if a.toNat < b.toNat then true else if b.toNat < a.toNat then false else strLe s t

/-- The loop over the sorted tags (`/repo/aemcmc/_version.py:196-211`).  A set is a list; repetitions do
not change the result. -/
def chooseTag (tagPrefix : Str) (tags : List Str) : Option Str :=
  (tags.mergeSort strLe).findSome? fun ref =>
    if tagPrefix.isPrefixOf ref then
      match ref.drop tagPrefix.length with
      | c :: r => if isDigit c then some (c :: r) else none
      | [] => none
    else none

/-- The text `tag: `. -/
def tagMark : Str := "tag: ".toList

/-- The likely tags among the references (`/repo/aemcmc/_version.py:181-195`). -/
def likelyTags (refs : List Str) : List Str :=
  let tags := (refs.filter fun r => tagMark.isPrefixOf r).map fun r => r.drop tagMark.length
  if tags.isEmpty then refs.filter fun r => r.any isDigit else tags

/-- The keywords (`/repo/aemcmc/_version.py:20-30`); a missing key is `none`. -/
structure Keywords where
  /-- `"refnames"` -/
  refnames : Option Str
  /-- `"full"` -/
  full : Option Str
  /-- `"date"` -/
  date : Option Str

/-- The date among the keywords (`/repo/aemcmc/_version.py:162-175`). -/
def keywordDate (date : Option Str) : Except Exc (Option Str) :=
  match date with
  | none => .ok none
  | some d => match isoDate d with
    | none => .error .indexError
    | some d' => .ok (some d')

/-- `git_versions_from_keywords` (`/repo/aemcmc/_version.py:158-219`). -/
def versionsFromKeywords (k : Keywords) (tagPrefix : Str) : Except Exc VersionInfo :=
  match k.refnames with
  | none => .error .notThisMethod
  | some refnames =>
    match keywordDate k.date with
    | .error e => .error e
    | .ok date =>
      if "$Format".toList.isPrefixOf (strip refnames) then .error .notThisMethod else
      let refs := (splitChar ',' [] (stripParens (strip refnames))).map strip
      match chooseTag tagPrefix (likelyTags refs), k.full with
      | _, none => .error .keyError
      | some r, some full =>
        .ok { version := r, fullRevisionid := some (strip full), dirty := some false, error := false, date }
      | none, some full =>
        .ok { version := "0+unknown".toList, fullRevisionid := some (strip full), dirty := some false,
              error := true, date := none }

/-- `os.path.basename`: what follows the last slash. -/
def basename (p : Str) : Str := (p.reverse.takeWhile (· ≠ '/')).reverse

/-- `os.path.dirname`: what precedes the last slash, without trailing slashes unless there is nothing
else. -/
def dirname (p : Str) : Str :=
  let head := (p.reverse.dropWhile (· ≠ '/')).reverse
  let cut := (head.reverse.dropWhile (· == '/')).reverse
  if cut.isEmpty then head else cut

/-- The loop of `versions_from_parentdir` (`/repo/aemcmc/_version.py:115-127`) over `n` levels. -/
def fromParentdir (pre : Str) : Nat → Str → Except Exc VersionInfo
  | 0, _ => .error .notThisMethod
  | n + 1, root =>
    if pre.isPrefixOf (basename root) then
      .ok { version := (basename root).drop pre.length, fullRevisionid := none, dirty := some false,
            error := false, date := none }
    else fromParentdir pre n (dirname root)

/-- What the calls of git print (`/repo/aemcmc/_version.py:235-348`). -/
structure GitOut where
  /-- `git rev-parse --git-dir` -/
  gitDir : Option Str
  /-- `git describe --tags --dirty --always --long --match ...` -/
  describe : Option Str
  /-- `git rev-parse HEAD` -/
  full : Option Str
  /-- `git rev-parse --abbrev-ref HEAD` -/
  abbrevRef : Option Str
  /-- `git branch --contains` -/
  contains : Option Str
  /-- `git rev-list HEAD --count` -/
  count : Option Str
  /-- `git show -s --format=%ci HEAD` -/
  date : Option Str

/-- The branch (`/repo/aemcmc/_version.py:264-292`). -/
def branchOf (g : GitOut) : Except Exc (Option Str) :=
  match g.abbrevRef with
  | none => .error .notThisMethod
  | some b =>
    if strip b = "HEAD".toList then
      match g.contains with
      | none => .error .notThisMethod
      | some text =>
        let lines := match splitChar '\n' [] text with
          | l :: rest => if l.contains '(' then rest else l :: rest
          | [] => []
        let branches := lines.map (·.drop 2)
        if branches.contains "master".toList then .ok (some "master".toList) else .ok branches.head?
    else .ok (some (strip b))

/-- `git_pieces_from_vcs` followed by `render` (`/repo/aemcmc/_version.py:222-348`, `565-598`).
`piecesOf` models `296-338`; the number of commits is only read if there is no tag, so a failure there is
`int(None)`, a `TypeError`, if the command failed. -/
def versionsFromGit (g : GitOut) (tagPrefix : Str) (style : Option String) : Except Exc VersionInfo :=
  match g.gitDir, g.describe, g.full, branchOf g with
  | some _, some describe, some full, .ok branch =>
    match piecesOf tagPrefix (strip describe) (strip full) branch (strip (g.count.getD [])) with
    | .unparsable | .badPrefix =>
      .ok { version := "unknown".toList, fullRevisionid := some (strip full), dirty := none, error := true,
            date := none }
    | .valueError => .error (if g.count = none then .typeError else .valueError)
    | .ok p =>
      match g.date with
      | none => .error .attributeError
      | some date0 =>
        match isoDate (strip date0) with
        | none => .error .indexError
        | some date =>
          match renderStyle p style with
          | none => .error .valueError
          | some v =>
            .ok { version := v, fullRevisionid := some p.long, dirty := some p.dirty, error := false,
                  date := some date }
  | _, _, _, _ => .error .notThisMethod

/-- `except NotThisMethod: pass`. -/
def orElse (r : Except Exc VersionInfo) (next : Except Exc VersionInfo) : Except Exc VersionInfo :=
  match r with
  | .error .notThisMethod => next
  | r => r

/-- `root` after as many `dirname` as there are parts of `versionfile_source`
(`/repo/aemcmc/_version.py:619-624`). -/
def rootOf : Nat → Str → Str
  | 0, file => file
  | n + 1, file => rootOf n (dirname file)

/-- The configuration (`/repo/aemcmc/_version.py:33-49`). -/
structure Config where
  /-- `cfg.style` -/
  style : Option String
  /-- `cfg.tag_prefix` -/
  tagPrefix : Str
  /-- `cfg.parentdir_prefix` -/
  parentdirPrefix : Str
  /-- the number of parts of `cfg.versionfile_source` -/
  parts : Nat

/-- `get_config` (`/repo/aemcmc/_version.py:38-49`). -/
def config : Config :=
  { style := some "pep440", tagPrefix := "v".toList, parentdirPrefix := "aemcmc-".toList, parts := 2 }

/-- `get_keywords` in a file that `git archive` has not rewritten (`/repo/aemcmc/_version.py:20-30`). -/
def rawKeywords : Keywords :=
  { refnames := some "$Format:%d$".toList, full := some "$Format:%H$".toList,
    date := some "$Format:%ci$".toList }

/-- The result when nothing is known (`/repo/aemcmc/_version.py:626-629`, `642-644`). -/
def unknownVersion : VersionInfo :=
  { version := "0+unknown".toList, fullRevisionid := none, dirty := none, error := true, date := none }

/-- `get_versions` (`/repo/aemcmc/_version.py:601-644`).  `file` is `os.path.realpath(__file__)`, `none` if
there is no `__file__`; `git root` is what git prints in the directory `root`. -/
def getVersions (cfg : Config) (k : Keywords) (file : Option Str) (git : Str → GitOut) :
    Except Exc VersionInfo :=
  orElse (versionsFromKeywords k cfg.tagPrefix)
    (match file with
    | none => .ok unknownVersion
    | some f =>
      let root := rootOf cfg.parts f
      orElse (versionsFromGit (git root) cfg.tagPrefix cfg.style)
        (orElse (if cfg.parentdirPrefix.isEmpty then .error .notThisMethod
          else fromParentdir cfg.parentdirPrefix 3 root) (.ok unknownVersion)))

end Verif.Ver
