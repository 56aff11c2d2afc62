import Verif.Ver.Lookup

/-!
# Model of `git_get_keywords` (`/repo/aemcmc/_version.py:130-155`)

The file is the text that can be read from it, after the translation of line ends by `open`, and how the
reading ends.
-/

namespace Verif.Ver

/-- How reading the file ends (`/repo/aemcmc/_version.py:138-154`); a file that cannot be opened is one
without text whose reading ends with an `OSError`. -/
inductive FileEnd
  | eof
  | osError
  /-- the bytes that follow cannot be decoded -/
  | undecodable

/-- What follows the `=` in `=\s*"(.*)"`: the text up to the last quote, which is greedy
(`/repo/aemcmc/_version.py:142`).  A line has no line break but its end, so the dot matches everything up to
a quote. -/
def matchQuoted (s : Str) : Option Str :=
  match s.dropWhile isSpace with
  | c :: r => if c = '"' ∧ '"' ∈ r then some ((r.reverse.dropWhile (· ≠ '"')).drop 1).reverse else none
  | [] => none

/-- `re.search(r'=\s*"(.*)"', line)` and its group (`/repo/aemcmc/_version.py:142-144`). -/
def searchQuoted : Str → Option Str
  | [] => none
  | c :: s => if c = '=' then (matchQuoted s).or (searchQuoted s) else searchQuoted s

/-- Whether the line begins with the text (`/repo/aemcmc/_version.py:141`, `145`, `149`). -/
def beginsWith (mark line : Str) : Bool := mark.isPrefixOf (strip line)

/-- The value after the line for the key that the mark belongs to (`/repo/aemcmc/_version.py:141-152`). -/
def updateKey (mark line : Str) (old : Option Str) : Option Str :=
  if beginsWith mark line then (searchQuoted line).or old else old

/-- The body of the loop (`/repo/aemcmc/_version.py:141-152`). -/
def keywordLine (k : Keywords) (line : Str) : Keywords :=
  { refnames := updateKey "git_refnames =".toList line k.refnames
    full := updateKey "git_full =".toList line k.full
    date := updateKey "git_date =".toList line k.date }

/-- The lines of a file, each with its line end (`/repo/aemcmc/_version.py:140`); `acc` is the current line,
reversed. -/
def fileLines (acc : Str) : Str → List Str
  | [] => if acc.isEmpty then [] else [acc.reverse]
  | c :: s => if c = '\n' then (c :: acc).reverse :: fileLines [] s else fileLines (c :: acc) s

/-- `git_get_keywords` (`/repo/aemcmc/_version.py:130-155`). -/
def getKeywordsFrom (text : Str) (fileEnd : FileEnd) : Except Exc Keywords :=
  match fileEnd with
  | .undecodable => .error .unicodeDecodeError
  | _ => .ok ((fileLines [] text).foldl keywordLine { refnames := none, full := none, date := none })

end Verif.Ver
