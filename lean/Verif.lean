import Verif.Base
import Verif.Path
import Verif.Chars
import Verif.Token
import Verif.Tokenizer
import Verif.PathParser
import Verif.Props.PathProps
import Verif.Props.PathParserProps
import Verif.Props.TokenizerProps
import Verif.Node
import Verif.DocParser
import Verif.Spec.Json
import Verif.Props.DocParserProps
import Verif.DocEdit
import Verif.Props.DocEditProps
import Verif.Value
import Verif.Spec.Lookup
import Verif.Props.MergeProps
import Verif.Access
import Verif.Spec.Convert
import Verif.Spec.Equal
import Verif.Props.GetterProps
import Verif.Props.ObjectProps
import Verif.Props.EntryProps
import Verif.Props.EqualProps
import Verif.Duration
import Verif.Spec.Time
import Verif.Props.DurationProps
import Verif.Factory
import Verif.Props.FactoryProps
import Verif.Origin
import Verif.Props.OriginProps
import Verif.Concat
import Verif.ConfigParser
import Verif.Include
import Verif.Lemmas.ConfigParserLemmas
import Verif.Props.ConcatProps
import Verif.Props.ConfigParserProps
import Verif.Lemmas.ConfigParserTotal
import Verif.Lemmas.IncludeLemmas
import Verif.Lemmas.IncludeMono
import Verif.Props.IncludeProps
import Verif.Resolve
import Verif.Spec.Subst
import Verif.Lemmas.ResolveClosed
import Verif.Lemmas.ParsedClosed
import Verif.Lemmas.SubstSpec
import Verif.Lemmas.SubstPart
import Verif.Lemmas.SubstLookup
import Verif.Lemmas.SimpleCheck
import Verif.Lemmas.ResolveSound
import Verif.Lemmas.ResolveMono
import Verif.Lemmas.ResolveTerm
import Verif.Lemmas.ResolveDiverge
import Verif.Lemmas.ResolveMissing
import Verif.Props.ResolveProps
import Verif.Spec.JsonText
import Verif.Lemmas.JsonParse
import Verif.Lemmas.JsonLex
import Verif.Lemmas.JsonAccept
import Verif.Props.JsonProps
import Verif.Render
import Verif.Spec.RenderText
import Verif.Lemmas.RenderSort
import Verif.Lemmas.RenderJson
import Verif.Lemmas.RenderOrder
import Verif.Props.RenderProps
import Verif.Spec.HoconText
import Verif.Lemmas.HoconParse
import Verif.Lemmas.HoconTokens
import Verif.Lemmas.HoconLex
import Verif.Lemmas.HoconAccept
import Verif.Props.HoconProps
import Verif.Lemmas.RenderHocon
import Verif.Lemmas.RenderParsed
import Verif.Lemmas.KeyPath
import Verif.Spec.Settings
import Verif.Lemmas.SettingLemmas
import Verif.Props.SettingProps
import Verif.Spec.Settle
import Verif.Lemmas.SettleRun
import Verif.Props.SettleProps
import Verif.RenderNotes
import Verif.Spec.Notes
import Verif.Lemmas.NotesText
import Verif.Lemmas.ResolveClass
import Verif.Props.NotesProps
import Verif.Spec.SubstText
import Verif.Lemmas.ParseBuilt
import Verif.Lemmas.SubstRun
import Verif.Props.SubstTextProps
import Verif.Spec.Status
import Verif.Lemmas.StatusLemmas
import Verif.Props.StatusProps
import Verif.Spec.Unresolved
import Verif.Lemmas.RenderSubst
import Verif.Lemmas.SubstSound
import Verif.Props.UnresolvedProps
import Verif.ParseNotes
import Verif.AccessNotes
import Verif.Spec.Lines
import Verif.Lemmas.NotesErase
import Verif.Lemmas.AccessNotesErase
import Verif.Lemmas.LinesParse
import Verif.Lemmas.LinesLex
import Verif.Lemmas.LinesFind
import Verif.Props.CommentProps
import Verif.Spec.Positions
import Verif.Lemmas.TokenPlaces
import Verif.Lemmas.NotesBounds
import Verif.Props.PositionProps
import Verif.Spec.LinesEdit
import Verif.Lemmas.LinesShape
import Verif.Lemmas.LinesHole
import Verif.Lemmas.LinesEdit
import Verif.Props.LinesEditProps
import Verif.Lemmas.DocCut
import Verif.Lemmas.LinesGap
import Verif.Lemmas.LinesRemove
import Verif.Props.LinesRemoveProps
import Verif.Lemmas.DocPut
import Verif.Lemmas.LinesPut
import Verif.Lemmas.LinesSlot
import Verif.Lemmas.LinesAdd
import Verif.Props.LinesAddProps
import Verif.Spec.JsonEdit
import Verif.Lemmas.JsonEdit
import Verif.Props.JsonEditProps
import Verif.Lemmas.DocInsert
import Verif.Lemmas.JsonPath
import Verif.Lemmas.JsonAdd
import Verif.Props.JsonAddProps
import Verif.DocValue
import Verif.Lemmas.ValueText
import Verif.Props.ValueProps
import Verif.Lemmas.JsonRemove
import Verif.Props.JsonRemoveProps
import Verif.Lemmas.ParserMono
import Verif.Lemmas.ParserCut
import Verif.Lemmas.ParserLocal
import Verif.Lemmas.ParserSwap
import Verif.Lemmas.ParserSingle
import Verif.Lemmas.LexTrunc
import Verif.Lemmas.LexLine
import Verif.Lemmas.LexEnd
import Verif.Lemmas.LexRun
import Verif.Lemmas.ParserLine
import Verif.Lemmas.Reparse
import Verif.Lemmas.ReparseEdit
import Verif.Props.ReparseProps
import Verif.Lemmas.LexCut
import Verif.Lemmas.ParserRemove
import Verif.Lemmas.RemoveText
import Verif.Lemmas.RemoveEdit
import Verif.Lemmas.RemoveInline
import Verif.Props.RemoveReparseProps
import Verif.Lemmas.SetEdit
import Verif.Props.EditReparseProps
import Verif.ProgOptions
import Verif.Spec.Options
import Verif.Props.ProgOptionsProps
import Verif.Spec.Fractions
import Verif.Props.FractionProps
import Verif.FunctionalList
import Verif.Props.FListProps
import Verif.Includers
import Verif.IncludeNotes
import Verif.Spec.Sources
import Verif.Props.SourceProps
import Verif.Spec.Layers
import Verif.Props.LayerProps
import Verif.Props.IncluderProps
import Verif.Spec.Shown
import Verif.Lemmas.NotesLines
import Verif.Props.ShownProps
import Verif.Spec.ListSubst
import Verif.Lemmas.ListSubst
import Verif.Props.ListSubstProps
import Verif.Spec.Named
import Verif.Lemmas.NamedLemmas
import Verif.Props.NamedProps
import Verif.ResolveNotes
import Verif.Lemmas.ResolveErase
import Verif.Lemmas.ResolveOrigins
import Verif.Spec.SettingsA
import Verif.Lemmas.ResolveTarget
import Verif.Props.ResolveOriginProps
import Verif.Lemmas.ManyAppends
import Verif.Spec.Seen
import Verif.Lemmas.SeenLemmas
import Verif.Props.SeenProps
import Verif.Lemmas.Relaxed
import Verif.Lemmas.RelaxedClass
import Verif.Lemmas.RelaxedLeft
import Verif.Props.RelaxedProps
import Verif.Lemmas.EditAgain
import Verif.Lemmas.EditAdded
import Verif.Lemmas.EditCommute
import Verif.Props.EditLawsProps
import Verif.Lemmas.EditRead
import Verif.Lemmas.EditReadLoop
import Verif.Lemmas.EditReadHas
import Verif.Lemmas.EditReadAt
import Verif.Lemmas.EditReadSeen
import Verif.Props.EditReadProps
import Verif.Lemmas.TameFiles
import Verif.Props.IncludeFilesProps
import Verif.Lemmas.MoveFields
import Verif.Lemmas.MoveInside
import Verif.Props.MoveProps
import Verif.Props.IndentProps
import Verif.Conformance
