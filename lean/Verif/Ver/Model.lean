/-!
# Model of the version strings

`/repo/aemcmc/_version.py`.  Strings are lists of characters.

Simplifications: digits are the ASCII digits (Python's `int` and `\d` also take other Unicode digits);
surrounding white space, which git neither prints nor allows in tags, is not stripped; the calls of git are
represented by what they print.
-/

namespace Verif.Ver

/-- A string. -/
abbrev Str := List Char

/-- The value of an ASCII digit. -/
def digitVal (c : Char) : Nat := c.toNat - 48

/-- `\d`, and the digits `int` accepts. -/
def isDigit (c : Char) : Bool := 48 ≤ c.toNat && c.toNat ≤ 57

/-- `[0-9a-f]` (`/repo/aemcmc/_version.py:311`). -/
def isHex (c : Char) : Bool := isDigit c || (97 ≤ c.toNat && c.toNat ≤ 102)

/-- `"%d" % n` for a natural number. -/
def decimal (n : Nat) : Str :=
  if n < 10 then [Char.ofNat (48 + n)] else decimal (n / 10) ++ [Char.ofNat (48 + n % 10)]
decreasing_by omega

/-- `"%d" % n` for an integer. -/
def decimalInt : Int → Str
  | .ofNat n => decimal n
  | .negSucc n => '-' :: decimal (n + 1)

/-- The digits of an `int` literal: groups separated by single underscores.  `last` says whether the last
character was a digit. -/
def intDigits : Nat → Bool → Str → Option Nat
  | acc, last, [] => if last then some acc else none
  | acc, last, c :: s =>
    if isDigit c then intDigits (10 * acc + digitVal c) true s
    else if c = '_' && last then intDigits acc false s
    else none

/-- `int(s)`; `none` is `ValueError`. -/
def pyInt : Str → Option Int
  | '-' :: s => (intDigits 0 false s).map fun n : Nat => -(n : Int)
  | '+' :: s => (intDigits 0 false s).map fun n : Nat => (n : Int)
  | s => (intDigits 0 false s).map fun n : Nat => (n : Int)

/-- The version pieces (`/repo/aemcmc/_version.py:259-348`); `branch = None` is `none`. -/
structure Pieces where
  /-- `pieces["closest-tag"]` -/
  closestTag : Option Str
  /-- `pieces["distance"]` -/
  distance : Nat
  /-- `pieces["short"]` -/
  short : Str
  /-- `pieces["long"]` -/
  long : Str
  /-- `pieces["dirty"]` -/
  dirty : Bool
  /-- `pieces["branch"]` -/
  branch : Option Str

/-- `if pieces["closest-tag"]:` the tag if it is neither `None` nor empty. -/
def Pieces.tag? (p : Pieces) : Option Str :=
  match p.closestTag with
  | some (c :: s) => some (c :: s)
  | _ => none

/-- `plus_or_dot` (`/repo/aemcmc/_version.py:351-355`), called when there is a tag. -/
def plusOrDot (tag : Str) : Str := if tag.contains '+' then ['.'] else ['+']

/-- The end of most styles. -/
def dirtyMark (p : Pieces) : Str := if p.dirty then ".dirty".toList else []

/-- `render_pep440` (`/repo/aemcmc/_version.py:358-380`). -/
def renderPep440 (p : Pieces) : Str :=
  match p.tag? with
  | some tag =>
    if p.distance != 0 || p.dirty then
      tag ++ plusOrDot tag ++ (decimal p.distance ++ ".g".toList ++ p.short) ++ dirtyMark p
    else tag
  | none =>
    "0+untagged.".toList ++ (decimal p.distance ++ ".g".toList ++ p.short) ++ dirtyMark p

/-- `if pieces["branch"] != "master": rendered += ".dev0"`. -/
def branchMark (p : Pieces) : Str := if p.branch == some "master".toList then [] else ".dev0".toList

/-- `if pieces["dirty"]: rendered += ".dev0"`. -/
def dirtyDev (p : Pieces) : Str := if p.dirty then ".dev0".toList else []

/-- `render_pep440_branch` (`/repo/aemcmc/_version.py:383-410`). -/
def renderPep440Branch (p : Pieces) : Str :=
  match p.tag? with
  | some tag =>
    if p.distance != 0 || p.dirty then
      tag ++ branchMark p ++ plusOrDot tag ++ (decimal p.distance ++ ".g".toList ++ p.short) ++ dirtyMark p
    else tag
  | none =>
    "0".toList ++ branchMark p ++ "+untagged.".toList ++
      (decimal p.distance ++ ".g".toList ++ p.short) ++ dirtyMark p

/-- `str.split(ver, ".post")`; `acc` is the current piece, reversed. -/
def splitPost (acc : Str) : Str → List Str
  | '.' :: 'p' :: 'o' :: 's' :: 't' :: s => acc.reverse :: splitPost [] s
  | c :: s => splitPost (c :: acc) s
  | [] => [acc.reverse]

/-- `pep440_split_post` (`/repo/aemcmc/_version.py:413-420`); the outer `none` is `ValueError`. -/
def splitPostVersion (ver : Str) : Option (Str × Option Int) :=
  match splitPost [] ver with
  | [v, []] => some (v, some 0)
  | [v, n] => (pyInt n).map fun k => (v, some k)
  | v :: _ => some (v, none)
  | [] => none

/-- `render_pep440_pre` (`/repo/aemcmc/_version.py:423-444`); `none` is `ValueError`. -/
def renderPep440Pre (p : Pieces) : Option Str :=
  match p.tag? with
  | some tag =>
    if p.distance != 0 then
      match splitPostVersion tag with
      | none => none
      | some (v, some k) =>
        some (v ++ ".post".toList ++ decimalInt (k + 1) ++ ".dev".toList ++ decimal p.distance)
      | some (v, none) => some (v ++ ".post0.dev".toList ++ decimal p.distance)
    else some tag
  | none => some ("0.post0.dev".toList ++ decimal p.distance)

/-- `render_pep440_post` (`/repo/aemcmc/_version.py:447-471`). -/
def renderPep440Post (p : Pieces) : Str :=
  match p.tag? with
  | some tag =>
    if p.distance != 0 || p.dirty then
      tag ++ ".post".toList ++ decimal p.distance ++ dirtyDev p ++ plusOrDot tag ++ ('g' :: p.short)
    else tag
  | none => "0.post".toList ++ decimal p.distance ++ dirtyDev p ++ "+g".toList ++ p.short

/-- `render_pep440_post_branch` (`/repo/aemcmc/_version.py:474-500`). -/
def renderPep440PostBranch (p : Pieces) : Str :=
  match p.tag? with
  | some tag =>
    if p.distance != 0 || p.dirty then
      tag ++ ".post".toList ++ decimal p.distance ++ branchMark p ++ plusOrDot tag ++ ('g' :: p.short) ++
        dirtyMark p
    else tag
  | none =>
    "0.post".toList ++ decimal p.distance ++ branchMark p ++ "+g".toList ++ p.short ++ dirtyMark p

/-- `render_pep440_old` (`/repo/aemcmc/_version.py:503-522`). -/
def renderPep440Old (p : Pieces) : Str :=
  match p.tag? with
  | some tag =>
    if p.distance != 0 || p.dirty then tag ++ ".post".toList ++ decimal p.distance ++ dirtyDev p else tag
  | none => "0.post".toList ++ decimal p.distance ++ dirtyDev p

/-- `if pieces["dirty"]: rendered += "-dirty"`. -/
def dirtySuffix (p : Pieces) : Str := if p.dirty then "-dirty".toList else []

/-- `render_git_describe` (`/repo/aemcmc/_version.py:525-542`). -/
def renderGitDescribe (p : Pieces) : Str :=
  (match p.tag? with
  | some tag =>
    if p.distance != 0 then tag ++ '-' :: decimal p.distance ++ "-g".toList ++ p.short else tag
  | none => p.short) ++ dirtySuffix p

/-- `render_git_describe_long` (`/repo/aemcmc/_version.py:545-562`). -/
def renderGitDescribeLong (p : Pieces) : Str :=
  (match p.tag? with
  | some tag => tag ++ '-' :: decimal p.distance ++ "-g".toList ++ p.short
  | none => p.short) ++ dirtySuffix p

/-- The rendering of the pieces in a style (`/repo/aemcmc/_version.py:574-594`); `none` is `ValueError`. -/
def renderStyle (p : Pieces) (style : Option String) : Option Str :=
  let style := match style with
    | none => "pep440"
    | some s => if s = "" ∨ s = "default" then "pep440" else s
  if style = "pep440" then some (renderPep440 p)
  else if style = "pep440-branch" then some (renderPep440Branch p)
  else if style = "pep440-pre" then renderPep440Pre p
  else if style = "pep440-post" then some (renderPep440Post p)
  else if style = "pep440-post-branch" then some (renderPep440PostBranch p)
  else if style = "pep440-old" then some (renderPep440Old p)
  else if style = "git-describe" then some (renderGitDescribe p)
  else if style = "git-describe-long" then some (renderGitDescribeLong p)
  else none

/-- The pieces, or the error message entry (`pieces["error"]`). -/
inductive PiecesResult
  | unparsable
  | badPrefix
  | valueError
  | ok (p : Pieces)

/-- `render` (`/repo/aemcmc/_version.py:565-598`): the version string; the other entries of the result are
copied from the pieces.  `none` is `ValueError`. -/
def render (r : PiecesResult) (style : Option String) : Option Str :=
  match r with
  | .ok p => renderStyle p style
  | .valueError => none
  | _ => some "unknown".toList

/-- The tail `-(\d+)-g([0-9a-f]+)$` of the regular expression. -/
def matchTail : Str → Option (Str × Str)
  | '-' :: s =>
    let ds := s.takeWhile isDigit
    match s.dropWhile isDigit with
    | '-' :: 'g' :: h => if !ds.isEmpty && !h.isEmpty && h.all isHex then some (ds, h) else none
    | _ => none
  | _ => none

/-- The regular expression `^(.+)-(\d+)-g([0-9a-f]+)$` (`/repo/aemcmc/_version.py:311`): the first group is
taken as long as possible.  `pre` is what has been passed, reversed. -/
def matchDescribe (pre : Str) : Str → Option (Str × Str × Str)
  | [] => none
  | c :: s =>
    match (if c = '\n' then none else matchDescribe (c :: pre) s) with
    | some r => some r
    | none => if pre.isEmpty then none else (matchTail (c :: s)).map fun t => (pre.reverse, t.1, t.2)

/-- `s.endswith(t)`. -/
def endsWith (s t : Str) : Bool := t.length ≤ s.length && s.drop (s.length - t.length) == t

/-- `git_pieces_from_vcs` after the calls of git (`/repo/aemcmc/_version.py:245-348`): `describe` is the
output of `git describe`, `full` of `git rev-parse HEAD`, `count` of `git rev-list HEAD --count`.  The part
before the suffix `-dirty` is taken by length: the last occurrence of a suffix is at the end. -/
def piecesOf (tagPrefix describe full : Str) (branch : Option Str) (count : Str) : PiecesResult :=
  let dirty := endsWith describe "-dirty".toList
  let d := if dirty then describe.take (describe.length - 6) else describe
  if d.contains '-' then
    match matchDescribe [] d with
    | none => .unparsable
    | some (fullTag, num, hash) =>
      if !(tagPrefix.isPrefixOf fullTag) then .badPrefix else
      match pyInt num with
      | none => .valueError
      | some k => .ok ⟨some (fullTag.drop tagPrefix.length), k.toNat, hash, full, dirty, branch⟩
  else
    match pyInt count with
    | none => .valueError
    | some k => .ok ⟨none, k.toNat, full.take 7, full, dirty, branch⟩

end Verif.Ver
