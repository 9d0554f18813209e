import Verif.Basic.Text
import Verif.Basic.Regex
import Verif.Model.Syntax
import Verif.Model.Text
import Verif.Model.Lexer
import Verif.Proofs.Regex
import Verif.Proofs.Cursor
import Verif.Proofs.LexShape
import Verif.Proofs.LexShape2
import Verif.Proofs.LexLoop
import Verif.Spec.Source
import Verif.Props.Lexer
import Verif.Proofs.LexStrings
import Verif.Spec.Strings
import Verif.Props.LexStrings
import Verif.Spec.TomlGrammar
import Verif.Proofs.Numbers
import Verif.Props.LexNumbers
import Verif.Props.LexAccept
import Verif.Model.TokenSet
import Verif.Model.Parser
import Verif.Model.Tree
import Verif.Spec.Tree
import Verif.Proofs.TokenSet
import Verif.Proofs.ParserBase
import Verif.Proofs.ParserFloat
import Verif.Proofs.ParserLoops
import Verif.Proofs.ParserMain
import Verif.Proofs.ParserStatic
import Verif.Proofs.Output
import Verif.Proofs.TreeBuild
import Verif.Proofs.ParserTop
import Verif.Props.Parser
import Verif.Model.TomlText
import Verif.Spec.TomlText
import Verif.Proofs.TomlText
import Verif.Proofs.TomlText2
import Verif.Props.TomlText
import Verif.Model.Literals
import Verif.Spec.Numbers
import Verif.Proofs.Literals
import Verif.Proofs.Floats
import Verif.Props.Literals
import Verif.Basic.DateTime
import Verif.Model.DateTime
import Verif.Spec.DateTime
import Verif.Proofs.DateTime
import Verif.Props.DateTime
import Verif.Model.VersionSort
import Verif.Spec.Order
import Verif.Proofs.VersionSort
import Verif.Proofs.VersionSort2
import Verif.Props.VersionSort
import Verif.Model.TextOps
import Verif.Spec.TextOps
import Verif.Proofs.TextOps
import Verif.Proofs.TextEdit
import Verif.Proofs.TextPos
import Verif.Props.TextOps
import Verif.Model.DocumentTree
import Verif.Spec.Document
import Verif.Proofs.DocMerge
import Verif.Proofs.DocEmbed
import Verif.Proofs.DocValues
import Verif.Proofs.DocSections
import Verif.Proofs.DocResolve
import Verif.Proofs.DocSteps
import Verif.Proofs.DocConflict
import Verif.Proofs.DocConflict2
import Verif.Proofs.DocOrder
import Verif.Props.DocumentTree
import Verif.Model.KeysOrder
import Verif.Spec.KeysOrder
import Verif.Proofs.KeysOrder
import Verif.Proofs.KeysOrder2
import Verif.Proofs.KeysOrder3
import Verif.Proofs.KeysOrder4
import Verif.Proofs.KeysOrder5
import Verif.Proofs.KeysHeaders
import Verif.Proofs.KeysSections
import Verif.Proofs.KeysMeaning
import Verif.Proofs.KeysMeaning2
import Verif.Props.KeysOrder
import Verif.Model.ArrayOrder
import Verif.Spec.ArrayOrder
import Verif.Proofs.ArrayOrder
import Verif.Proofs.ArrayOrder2
import Verif.Proofs.ArrayOrder3
import Verif.Proofs.ArrayOrder4
import Verif.Proofs.ArrayOrder5
import Verif.Props.ArrayOrder
import Verif.Model.Format
import Verif.Spec.Format
import Verif.Proofs.Format
import Verif.Props.Format
import Verif.Model.Json
import Verif.Spec.Json
import Verif.Proofs.JsonLex
import Verif.Proofs.JsonShape
import Verif.Proofs.JsonDecode
import Verif.Proofs.JsonScan
import Verif.Proofs.JsonSound
import Verif.Proofs.JsonComplete
import Verif.Proofs.JsonRender
import Verif.Props.Json
import Verif.Model.ValidateTypes
import Verif.Model.Validate
import Verif.Spec.Validate
import Verif.Proofs.ValidateOutcome
import Verif.Proofs.ValidateValue
import Verif.Proofs.ValidateAccepts
import Verif.Proofs.ValidateApply
import Verif.Proofs.ValidateTable
import Verif.Proofs.ValidateStep
import Verif.Proofs.ValidateMeaning
import Verif.Proofs.ValidateShown
import Verif.Proofs.ValidateClean
import Verif.Proofs.ValidateInt
import Verif.Props.Validate
import Verif.Model.Accessor
import Verif.Spec.Accessor
import Verif.Proofs.Accessor
import Verif.Proofs.AccessorBest
import Verif.Props.Accessor
import Verif.Model.Cache
import Verif.Spec.Cache
import Verif.Proofs.Cache
import Verif.Props.Cache
import Verif.Model.Lsp
import Verif.Spec.Lsp
import Verif.Proofs.Lsp
import Verif.Props.Lsp
import Verif.Model.LintOrder
import Verif.Spec.LintOrder
import Verif.Proofs.LintOrder
import Verif.Props.LintOrder
import Verif.Model.Formatter
import Verif.Model.AstDoc
import Verif.Spec.Formatter
import Verif.Proofs.Formatter
import Verif.Proofs.FormatterDoc
import Verif.Props.Formatter
import Verif.Spec.Blanks
import Verif.Proofs.View
import Verif.Proofs.ViewSim
import Verif.Proofs.ViewStep
import Verif.Proofs.ViewKeys
import Verif.Proofs.ViewMain
import Verif.Proofs.ViewBuild
import Verif.Proofs.ViewKeeps
import Verif.Proofs.ViewTop
import Verif.Proofs.ViewMask
import Verif.Props.Blanks
import Verif.Proofs.DocStrip
import Verif.Proofs.DocWf
import Verif.Proofs.ViewWords
import Verif.Proofs.DocRead
import Verif.Proofs.ViewRead
import Verif.Proofs.ViewRead2
import Verif.Proofs.FormatRead
import Verif.Proofs.FormatRead2
import Verif.Proofs.FormatRead3
import Verif.Spec.FormatWords
import Verif.Proofs.Relex
import Verif.Proofs.Relex2
import Verif.Proofs.FormatAdj
import Verif.Proofs.WordLex
import Verif.Proofs.FormatAgain
import Verif.Proofs.NormWords
import Verif.Proofs.FormatIdem
import Verif.Proofs.FormatCalm
import Verif.Props.FormatAgain
import Verif.Spec.Valid
import Verif.Proofs.DocAccept
import Verif.Proofs.DocAccept2
import Verif.Props.Accepted
import Verif.Spec.TomlDocument
import Verif.Proofs.FileRead
import Verif.Proofs.FileRead2
import Verif.Proofs.FileLex
import Verif.Proofs.FileParse
import Verif.Proofs.FileWords
import Verif.Props.TomlGrammar
import Verif.Model.ReadDocument
import Verif.Spec.ReadDocument
import Verif.Proofs.ReadLiteral
import Verif.Proofs.ReadTree
import Verif.Proofs.ReadComments
import Verif.Props.ReadDocument
import Verif.Proofs.ReadSound
import Verif.Proofs.FormatMeans
import Verif.Proofs.FileSource
import Verif.Props.FormatMeans
import Verif.Model.Serialize
import Verif.Spec.Serialize
import Verif.Proofs.SerializeFlat
import Verif.Proofs.SerializeWords
import Verif.Proofs.SerializeText
import Verif.Proofs.SerializeNodes
import Verif.Proofs.SerializeData
import Verif.Props.Serialize
import Verif.Model.Editor
import Verif.Proofs.EditorWords
import Verif.Proofs.EditorAgain
import Verif.Props.Editor
import Verif.Model.Cli
import Verif.Spec.Cli
import Verif.Proofs.Cli
import Verif.Props.Cli
import Verif.Model.Select
import Verif.Props.Select
import Verif.Model.Deserialize
import Verif.Spec.Deserialize
import Verif.Proofs.DocComplete
import Verif.Proofs.Deserialize
import Verif.Proofs.DeserializeData
import Verif.Props.Deserialize
import Verif.Model.EditorSort
import Verif.Spec.Gathered
import Verif.Proofs.Gathered
import Verif.Proofs.GatheredCheck
import Verif.Proofs.EditorGroups
import Verif.Proofs.EditorGathered
import Verif.Proofs.EditorGrouped
import Verif.Proofs.EditorEnds
import Verif.Props.EditorSort
import Verif.Spec.Rearranged
import Verif.Proofs.EditorRe
import Verif.Proofs.EditorReGroups
import Verif.Proofs.EditorReSort
import Verif.Proofs.EditorReDoc
import Verif.Props.EditorTokens
import Verif.Proofs.SortedOrder
import Verif.Proofs.SortedValid
import Verif.Proofs.SameData
import Verif.Proofs.EditorSame
import Verif.Props.EditorData
import Verif.Proofs.DocPlaces
import Verif.Spec.SchemaOrder
import Verif.Proofs.EditorOrdered
import Verif.Proofs.EditorOrdered2
import Verif.Proofs.EditorOrdered3
import Verif.Props.EditorOrder
import Verif.Spec.SortingOff
import Verif.Proofs.EditorKept
import Verif.Props.EditorOff
import Verif.Model.Offers
import Verif.Spec.Offers
import Verif.Proofs.Offers
import Verif.Proofs.OffersText
import Verif.Props.Offers
import Verif.Spec.Depth
import Verif.Proofs.Depth
import Verif.Props.Depth
import Verif.Model.SchemaFile
import Verif.Spec.SchemaFile
import Verif.Proofs.SchemaPlaces
import Verif.Proofs.SchemaNode
import Verif.Proofs.SchemaMeans
import Verif.Proofs.SchemaHolds
import Verif.Proofs.SchemaObject
import Verif.Proofs.SchemaCovered
import Verif.Proofs.SchemaFile
import Verif.Proofs.SchemaMeaning
import Verif.Proofs.SchemaCheck
import Verif.Props.SchemaFile
import Verif.Model.Locate
import Verif.Spec.Locate
import Verif.Proofs.Locate
import Verif.Proofs.LocateCursor
import Verif.Proofs.LocateNodes
import Verif.Props.Locate
import Verif.Model.Pointer
import Verif.Spec.Pointer
import Verif.Props.Pointer
import Verif.Model.Formats
import Verif.Spec.Formats
import Verif.Proofs.Formats
import Verif.Props.Formats
import Verif.Model.Outline
import Verif.Spec.Outline
import Verif.Proofs.Outline
import Verif.Proofs.OutlineErase
import Verif.Props.Outline
import Verif.Model.ConfigFile
import Verif.Spec.ConfigFile
import Verif.Proofs.ConfigFile
import Verif.Props.ConfigFile
import Verif.Model.Refactor
import Verif.Spec.Refactor
import Verif.Proofs.RefactorTree
import Verif.Proofs.RefactorText
import Verif.Proofs.RefactorValid
import Verif.Proofs.RefactorDoc
import Verif.Props.Refactor
import Verif.Model.SemanticTokens
import Verif.Spec.SemanticTokens
import Verif.Proofs.SemanticTokens
import Verif.Props.SemanticTokens
import Verif.Model.SemanticTree
import Verif.Spec.SemanticTree
import Verif.Proofs.SemanticTree
import Verif.Props.SemanticTree
import Verif.Spec.SemanticKinds
import Verif.Proofs.SemanticKinds
import Verif.Spec.SemanticItems
import Verif.Proofs.SemanticItems
import Verif.Props.SemanticItems
