import Verif.Model.MigrateVersion
import Verif.Lemmas.Maintenance

/-
Vocabulary for the migration of the files to version 0.4.
-/

namespace Verif

/-- A row that can be stored: the key can be read and factorised, the language and descriptor are declared, and no value
holds a carriage return. -/
structure OldRow.Stores (x : Ext) (factored : Str → Except Err Str) (r : OldRow) : Prop where
  key : ∃ t, factored r.ieml = .ok t ∧ x.Keeps t
  lang : r.lang ∈ languages
  desc : r.desc ∈ descriptorClasses
  values : ∀ v ∈ r.values, '\r' ∉ v

/-- A root that can be stored. -/
structure OldRoot.Stores (x : Ext) (factored : Str → Except Err Str) (r : OldRoot) : Prop where
  key : ∃ t, factored r.ieml = .ok t ∧ x.Keeps t
  inhibitions : ∀ i ∈ r.inhibitions, i ∈ inhibitableRelations

/-- The values of an attribute of a root. -/
def OldRoot.settings (r : OldRoot) (a : Str) : List Str :=
  if a = c!"is_root" then [c!"True"] else if a = c!"inhibition" then r.inhibitions else []

/-- The settings given by the roots. -/
def rootSettings (factored : Str → Except Err Str) (roots : List OldRoot) (k a : Str) : List Str :=
  (roots.filter fun r => decide (factored r.ieml = .ok k)).flatMap (·.settings a)

/-- The rows are those of a table indexed by key, language and descriptor. -/
def RowsIndexed (rows : List OldRow) : Prop := rows.Pairwise fun a b => ¬ (a.ieml = b.ieml ∧ a.lang = b.lang ∧ a.desc = b.desc)

/-- The key `i` is met before the key `j`. -/
def MetBefore (rows : List OldRow) (i j : Str) : Prop := (rows.map (·.ieml)).idxOf i < (rows.map (·.ieml)).idxOf j

/-- The values of the old table. -/
def oldValues (rows : List OldRow) (i l d : Str) : List Str :=
  (rows.filter fun r => decide (r.ieml = i ∧ r.lang = l ∧ r.desc = d)).flatMap (·.values)

/-- The folder has no files of descriptors and of structure (they have been removed). -/
structure Emptied (fs : FS) : Prop where
  once : (fs.map (·.1)).Nodup
  none : ∀ f ∈ fs, endsWith f.1 (c!".desc") = false ∧ endsWith f.1 (c!".ieml") = false

/-- The two keys are written in the same file. -/
def SameFile (x : Ext) (factored : Str → Except Err Str) (i j : Str) : Prop :=
  (factored i).bind (pathOf x · true true) = (factored j).bind (pathOf x · true true)

end Verif
