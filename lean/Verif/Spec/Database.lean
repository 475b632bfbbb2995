import Verif.Model.Database

/-
Vocabulary for the properties of the database files.
-/

namespace Verif

/-- One stored descriptor: what a user put in the database. -/
structure Entry where
  key : Str
  lang : Str
  desc : Str
  value : Str
  deriving DecidableEq, Repr

/-- The four fields a reader must find. -/
def Entry.fields (e : Entry) : List Str := [e.key, e.lang, e.desc, e.value]

/-- No line break of any kind. -/
def OneLine (s : Str) : Prop := '\n' ∉ s ∧ '\r' ∉ s

instance (s : Str) : Decidable (OneLine s) := inferInstanceAs (Decidable (_ ∧ _))

/-- No quotation mark. -/
def NoQuote (s : Str) : Prop := '"' ∉ s

instance (s : Str) : Decidable (NoQuote s) := inferInstanceAs (Decidable (¬ _))

/-- An entry that fits on one line, with a declared language and descriptor. -/
structure Entry.Fits (e : Entry) : Prop where
  key : OneLine e.key
  value : OneLine e.value
  lang : e.lang ∈ languages
  desc : e.desc ∈ descriptorClasses

/-- Reading the text of a parsed expression gives the expression back. -/
def Ext.Stable (x : Ext) : Prop := ∀ t u, x.parse t = .ok u → x.parse u.text = .ok u

/-- The descriptor files hold the entries `db`, file by file: one line per entry, every entry in the file of its key, no path
twice. -/
structure Holds (x : Ext) (fs : FS) (db : List (Str × List Entry)) : Prop where
  files : fs.filter (fun f => endsWith f.1 (c!".desc")) =
    db.map fun f => (f.1, f.2.flatMap fun e => descriptorLine e.key e.lang e.desc e.value)
  once : (fs.map (·.1)).Nodup
  fits : ∀ f ∈ db, ∀ e ∈ f.2, e.Fits
  place : ∀ f ∈ db, ∀ e ∈ f.2, pathOf x e.key true true = .ok f.1

/-- A database written by this program. -/
def Consistent (x : Ext) (fs : FS) : Prop := ∃ db, Holds x fs db

end Verif
