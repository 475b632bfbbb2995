import Verif.Lemmas.Assemble
import Verif.Lemmas.BuildTotal
import Verif.Lemmas.Cells
import Verif.Lemmas.Cells2
import Verif.Lemmas.Cells3
import Verif.Lemmas.CleanUp
import Verif.Lemmas.Csv
import Verif.Lemmas.Database
import Verif.Lemmas.DatabaseOps
import Verif.Lemmas.Deference
import Verif.Lemmas.Den
import Verif.Lemmas.DictOk
import Verif.Lemmas.DictTotal
import Verif.Lemmas.DictTransaction
import Verif.Lemmas.Distance
import Verif.Lemmas.Examples
import Verif.Lemmas.Except
import Verif.Lemmas.Export
import Verif.Lemmas.Factor
import Verif.Lemmas.FactorEmpty
import Verif.Lemmas.FactorGrid
import Verif.Lemmas.FactorPack
import Verif.Lemmas.FactorRepeat
import Verif.Lemmas.FactorTotal
import Verif.Lemmas.FactorUnique
import Verif.Lemmas.Factorize
import Verif.Lemmas.Families
import Verif.Lemmas.FatherRel
import Verif.Lemmas.Files
import Verif.Lemmas.FlexionCheck
import Verif.Lemmas.FromPaths
import Verif.Lemmas.Git
import Verif.Lemmas.GitFolder
import Verif.Lemmas.Headers
import Verif.Lemmas.Inhibition
import Verif.Lemmas.Instance
import Verif.Lemmas.Layout
import Verif.Lemmas.ListUsls
import Verif.Lemmas.Listing
import Verif.Lemmas.Maintenance
import Verif.Lemmas.Membership
import Verif.Lemmas.Migrate
import Verif.Lemmas.MigrateFiles
import Verif.Lemmas.MigrateVersion
import Verif.Lemmas.OrderSingular
import Verif.Lemmas.OrderedDict
import Verif.Lemmas.Parser
import Verif.Lemmas.ParserErr
import Verif.Lemmas.Partitions
import Verif.Lemmas.Path
import Verif.Lemmas.PathLex
import Verif.Lemmas.PathOrder
import Verif.Lemmas.PolyMorpheme
import Verif.Lemmas.Product
import Verif.Lemmas.Projection
import Verif.Lemmas.Promote
import Verif.Lemmas.PySort
import Verif.Lemmas.Ranking
import Verif.Lemmas.ReadMade
import Verif.Lemmas.ReadRole
import Verif.Lemmas.ReadTotal
import Verif.Lemmas.Reading
import Verif.Lemmas.RoleLookup
import Verif.Lemmas.Rules
import Verif.Lemmas.SFun
import Verif.Lemmas.SFun2
import Verif.Lemmas.SFun3
import Verif.Lemmas.SFun4
import Verif.Lemmas.SFun5
import Verif.Lemmas.SFun6
import Verif.Lemmas.SS
import Verif.Lemmas.SSNodup
import Verif.Lemmas.ScriptAttr
import Verif.Lemmas.ScriptBuilt
import Verif.Lemmas.ScriptChars
import Verif.Lemmas.ScriptDec
import Verif.Lemmas.ScriptNorm
import Verif.Lemmas.ScriptOrder
import Verif.Lemmas.ScriptStr
import Verif.Lemmas.ScriptWF
import Verif.Lemmas.Siblings
import Verif.Lemmas.Simplify
import Verif.Lemmas.Structure
import Verif.Lemmas.Sum
import Verif.Lemmas.TableRel
import Verif.Lemmas.TableRelAll
import Verif.Lemmas.TableStructure
import Verif.Lemmas.Threads
import Verif.Lemmas.Tiling
import Verif.Lemmas.TreeOrder
import Verif.Lemmas.Usl
import Verif.Lemmas.UslLex
import Verif.Lemmas.UslOrder
import Verif.Lemmas.UslParse
import Verif.Lemmas.UslTable
import Verif.Lemmas.UslTableCells
import Verif.Lemmas.UslTableParts
import Verif.Lemmas.UslTableRows
import Verif.Lemmas.WordCheck
import Verif.Lemmas.WordOrder
import Verif.Lemmas.WordText
import Verif.Model.Arguments
import Verif.Model.Cache
import Verif.Model.Cast
import Verif.Model.Cells
import Verif.Model.CleanUp
import Verif.Model.Csv
import Verif.Model.Database
import Verif.Model.Decoration
import Verif.Model.DictTransaction
import Verif.Model.Diff
import Verif.Model.Distance
import Verif.Model.Examples
import Verif.Model.Export
import Verif.Model.Factor
import Verif.Model.FlexionCheck
import Verif.Model.FromPaths
import Verif.Model.Git
import Verif.Model.GitFolder
import Verif.Model.ImportSeries
import Verif.Model.Index
import Verif.Model.Instance
import Verif.Model.Latex
import Verif.Model.ListUsls
import Verif.Model.Listing
import Verif.Model.Maintenance
import Verif.Model.Membership
import Verif.Model.Migrate
import Verif.Model.MigrateVersion
import Verif.Model.OrderedDict
import Verif.Model.Parser
import Verif.Model.Partitions
import Verif.Model.Path
import Verif.Model.PathOrder
import Verif.Model.PathParser
import Verif.Model.Phrase
import Verif.Model.PolyMorpheme
import Verif.Model.Py
import Verif.Model.ReadKey
import Verif.Model.RelationViews
import Verif.Model.Relations
import Verif.Model.Rewrite
import Verif.Model.RoleLookup
import Verif.Model.Rules
import Verif.Model.RulesSums
import Verif.Model.SFun
import Verif.Model.Script
import Verif.Model.ScriptBuild
import Verif.Model.Table
import Verif.Model.TableAccess
import Verif.Model.TableLines
import Verif.Model.Threads
import Verif.Model.Tools
import Verif.Model.Usl
import Verif.Model.UslOrder
import Verif.Model.UslParser
import Verif.Model.UslTable
import Verif.Model.Variation
import Verif.Model.WordCheck
import Verif.Props.Arguments
import Verif.Props.Cache
import Verif.Props.Cast
import Verif.Props.Cells
import Verif.Props.CheckAgain
import Verif.Props.CheckAll
import Verif.Props.CheckedOrder
import Verif.Props.CheckedPhrase
import Verif.Props.CleanUp
import Verif.Props.Constructors
import Verif.Props.Database
import Verif.Props.Decoration
import Verif.Props.DecorationList
import Verif.Props.DecorationRefused
import Verif.Props.Deference
import Verif.Props.DictAfter
import Verif.Props.DictBuild
import Verif.Props.DictReading
import Verif.Props.DictTransaction
import Verif.Props.Dictionary
import Verif.Props.Diff
import Verif.Props.DistanceSort
import Verif.Props.Examples
import Verif.Props.Export
import Verif.Props.Factor
import Verif.Props.FactorText
import Verif.Props.FlexionCheck
import Verif.Props.FromPaths
import Verif.Props.FromPathsLexeme
import Verif.Props.FromPathsOrder
import Verif.Props.FromPathsWord
import Verif.Props.GitFolder
import Verif.Props.ImportSeries
import Verif.Props.Index
import Verif.Props.Instance
import Verif.Props.InstanceObjects
import Verif.Props.InstanceOrder
import Verif.Props.Keys
import Verif.Props.Latex
import Verif.Props.ListUsls
import Verif.Props.Listing
import Verif.Props.Maintenance
import Verif.Props.Membership
import Verif.Props.Migrate
import Verif.Props.MigrateVersion
import Verif.Props.Morphemes
import Verif.Props.OrderedDict
import Verif.Props.Parser
import Verif.Props.Partitions
import Verif.Props.Path
import Verif.Props.PathOrder
import Verif.Props.PathParser
import Verif.Props.Phrase
import Verif.Props.PhraseJunctions
import Verif.Props.PolyMorpheme
import Verif.Props.Projection
import Verif.Props.Pull
import Verif.Props.Ranking
import Verif.Props.Refusals
import Verif.Props.RelationViews
import Verif.Props.Relations
import Verif.Props.Rewrite
import Verif.Props.RoleLookup
import Verif.Props.RoleOrder
import Verif.Props.Rules
import Verif.Props.RulesSums
import Verif.Props.ScriptOrder
import Verif.Props.Settled
import Verif.Props.Simplify
import Verif.Props.SingularSequences
import Verif.Props.Stability
import Verif.Props.Strip
import Verif.Props.Structure
import Verif.Props.SyntagmaticFunction
import Verif.Props.TableAccess
import Verif.Props.TableLines
import Verif.Props.TableRelations
import Verif.Props.TableRelationsAll
import Verif.Props.Threads
import Verif.Props.ThreadsOrder
import Verif.Props.Tiling
import Verif.Props.Tools
import Verif.Props.Transaction
import Verif.Props.TreeOrder
import Verif.Props.UslErrors
import Verif.Props.UslOrder
import Verif.Props.UslParser
import Verif.Props.UslTable
import Verif.Props.Variation
import Verif.Props.Word
import Verif.Props.WordCheck
import Verif.Props.WordParser
import Verif.Spec.CleanUp
import Verif.Spec.Database
import Verif.Spec.Dictionary
import Verif.Spec.Diff
import Verif.Spec.Factor
import Verif.Spec.Flexion
import Verif.Spec.GitFolder
import Verif.Spec.Headers
import Verif.Spec.Latex
import Verif.Spec.Layout
import Verif.Spec.Listing
import Verif.Spec.Migrate
import Verif.Spec.MigrateVersion
import Verif.Spec.Nearest
import Verif.Spec.PolyMorpheme
import Verif.Spec.Projection
import Verif.Spec.Relations
import Verif.Spec.Roles
import Verif.Spec.Rules
import Verif.Spec.RulesSums
import Verif.Spec.Stability
import Verif.Spec.Tables
import Verif.Spec.Threads
import Verif.Spec.Tiling
import Verif.Spec.Tools
import Verif.Spec.UslTable
import Verif.Spec.White
import Verif.Spec.Word
