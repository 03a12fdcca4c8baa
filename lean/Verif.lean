import Verif.SymbolSetProps
import Verif.SymbolMapProps
import Verif.NdfaProps
import Verif.StateMachineProps
import Verif.CompactProps
import Verif.SymbolTableProps
import Verif.HardCodedProps
import Verif.PositionProps
import Verif.LexerProps
import Verif.Pipeline
import Verif.RegexProps
import Verif.LexerBuild
import Verif.UtilProps
import Verif.RefcountProps
import Verif.ItemSetProps
import Verif.GrammarIdsProps
import Verif.FirstProps
import Verif.Lr1SetProps
import Verif.ParserTablesProps
import Verif.ParserStackProps
import Verif.SessionProps
import Verif.RewritersProps
import Verif.CanReduceProps
import Verif.FuelProps
import Verif.IgnoreProps
import Verif.ClosureProps
import Verif.LalrProps
import Verif.LookaheadProps
import Verif.ActionProps
import Verif.AttributesProps
import Verif.SoundGrammarProps
import Verif.SoundExample
import Verif.IgnoreGrammarProps
import Verif.IgnoreExample
import Verif.CompleteGrammarProps
import Verif.CompleteExample
import Verif.TermProps
import Verif.TermGrammarProps
import Verif.TermExample
import Verif.LanguageGrammarProps
import Verif.WeakFallbackProps
import Verif.IgnoredUseProps
import Verif.LanguageParserProps
import Verif.PrecTreeProps
import Verif.PrecGrammarProps
import Verif.PrecCompleteProps
import Verif.PrecDecideProps
import Verif.PrecBlock
import Verif.PrecBlockProps
import Verif.PrecExample
import Verif.AstParseProps
import Verif.Names
import Verif.NamesProps
import Verif.ClassProps
import Verif.LexerStageProps
import Verif.GuardExample
import Verif.UnusedProps
import Verif.AttrProps
import Verif.StringProps
import Verif.DivertProps
import Verif.DefinitionProps
import Verif.TextProps
import Verif.TextExample
import Verif.WeakParserProps
import Verif.WeakParserExample
import Verif.FilesProps
import Verif.FilesExample
import Verif.ToolProps
import Verif.ToolExample
import Verif.WrittenExample
import Verif.ParserStageExample
import Verif.ClashExample
import Verif.GuardExactProps
import Verif.GuardExactExample
import Verif.GuardDecideProps
import Verif.GuardDecideExample
import Verif.ErrorProps
import Verif.ErrorExample
import Verif.GuardReportProps
import Verif.FollowProps
import Verif.FollowExample
import Verif.CaseProps
import Verif.CaseExample
import Verif.CaseStage
import Verif.Lr1Example
import Verif.NamedExample
import Verif.RegexCheckExample
import Verif.UnicodeDataProps
import Verif.SpansExample
import Verif.EscapeProps
import Verif.DashProps
import Verif.BlocksProps
import Verif.FormatProps
import Verif.OrdersProps
import Verif.BootstrapProps
import Verif.ShowProps
import Verif.BootstrapNull
import Verif.JsonFormatProps
import Verif.JsonExprs
import Verif.ConsoleProps
import Verif.ShowGrammarProps
import Verif.ShowMachineProps
import Verif.ShowClosureProps
import Verif.ConflictCountProps
import Verif.ShowLinesProps
import Verif.TablesOrderProps
import Verif.BlocksFreeProps
import Verif.ToolReportProps
import Verif.Audit
