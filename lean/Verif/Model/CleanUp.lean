import Verif.Model.MigrateVersion

/-
Model of `clean_up_translations` of `scripts/migrate_versions/migrate_v01Tov02.py`.  The table of descriptors is a list of rows.
-/

namespace Verif

/-- `s.split(sep)` for one character; the second argument is the piece being read, reversed. -/
def splitOnChar (sep : Char) : Str → Str → List Str
  | [], cur => [cur.reverse]
  | c :: cs, cur => if c = sep then cur.reverse :: splitOnChar sep cs [] else splitOnChar sep cs (c :: cur)

/-- `re.sub(r'\s+', ' ', s)`: the flag says whether the last character read was a white space. -/
def collapseSpaces : Bool → Str → Str
  | _, [] => []
  | b, c :: cs =>
    if pySpace c then (if b then collapseSpaces true cs else ' ' :: collapseSpaces true cs)
    else c :: collapseSpaces false cs

/-- `re.sub(r'\|', ',', s)`. -/
def barsToCommas (s : Str) : Str := s.map fun c => if c = '|' then ',' else c

/-- The values of a row (`migrate_v01Tov02.py` lines 163-170). -/
def cleanValues (vs : List Str) : List Str :=
  vs.foldl (fun res v => (splitOnChar ',' (barsToCommas v) []).foldl (fun res p =>
    let p := strip (collapseSpaces false p)
    if p ∈ res then res else res ++ [p]) res) []

/-- `clean_up_translations` (`migrate_v01Tov02.py` lines 156-172). -/
def cleanUpTranslations (rows : List OldRow) : List OldRow :=
  rows.map fun r => if r.desc = c!"translations" then { r with values := cleanValues r.values } else r

end Verif
