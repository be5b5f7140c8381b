import Verif.Model.Regexp
import Verif.Spec.Regexp
import Verif.Lemmas.Bitset
import Verif.Lemmas.Vm
import Verif.Lemmas.Run
import Verif.Lemmas.Frag
import Verif.Lemmas.Compile
import Verif.Lemmas.Find
import Verif.Props.Regexp
import Verif.Spec.Prefs
import Verif.Lemmas.Priority
import Verif.Props.Preference
import Verif.Model.Types
import Verif.Model.Multipass
import Verif.Lemmas.Multipass
import Verif.Props.Multipass
import Verif.Props.Effects
import Verif.Model.Trie
import Verif.Spec.Trie
import Verif.Lemmas.Trie
import Verif.Props.Trie
import Verif.Model.MatchPattern
import Verif.Lemmas.MatchPattern
import Verif.Model.Primary
import Verif.Lemmas.Primary
import Verif.Props.Primary
import Verif.Props.Main
import Verif.Props.MainMore
import Verif.Props.MainWrong
import Verif.Props.Braille
import Verif.Props.Spans
import Verif.Props.Numbers
import Verif.Spec.Rules
import Verif.Lemmas.Rules
import Verif.Props.Rules
import Verif.Props.RulesTrace
import Verif.Props.Backward
import Verif.Props.BackwardTrace
import Verif.Props.Hyphenation
import Verif.Lemmas.Sort
import Verif.Props.Emphasis
import Verif.Spec.Capitals
import Verif.Props.Capitals
import Verif.Props.LetterSigns
import Verif.Props.Indicators
import Verif.Model.Table
import Verif.Model.Compile
import Verif.Model.Library
import Verif.Model.Pipeline
import Verif.Spec.Table
import Verif.Props.Library
import Verif.Lemmas.Exec
import Verif.Props.Definitions
import Verif.Props.Scanner
import Verif.Lemmas.Signs
import Verif.Lemmas.Pipeline
import Verif.Spec.Pipeline
import Verif.Props.Pipeline
import Verif.Props.PipelineTotal
import Verif.Props.Origins
import Verif.Model.Lexer
import Verif.Model.Operand
import Verif.Model.RuleParser
import Verif.Model.Source
import Verif.Lemmas.DecEq
import Verif.Props.ParseTable
import Verif.Props.Includes
import Verif.Lemmas.Content
import Verif.Spec.Layout
import Verif.Props.Layout
import Verif.Spec.Paste
import Verif.Props.Paste
import Verif.Props.Escapes
import Verif.Spec.Operand
import Verif.Props.OperandPieces
import Verif.Props.TestGrammar
import Verif.Props.MatchGrammar
import Verif.Props.Negation
import Verif.Props.Panics
import Verif.Props.Demo
import Verif.Props.Classes
import Verif.Props.SpansText
import Verif.Spec.Explain
import Verif.Props.Explained
import Verif.Props.ExplainedOps
import Verif.Props.ExplainedMain
import Verif.Props.Conditions
import Verif.Spec.Lines
import Verif.Props.Lines
import Verif.Props.LineGrammar
import Verif.Spec.Config
import Verif.Props.Config
import Verif.Props.Gates
import Verif.Props.GatesBackward
import Verif.Spec.Emphasis
import Verif.Props.EmphasisRuns
import Verif.Spec.Dic
import Verif.Props.DicGrammar
import Verif.Model.Check
import Verif.Spec.Check
import Verif.Props.CheckGrammar
import Verif.Props.CheckRun
import Verif.Lemmas.Each
import Verif.Props.CapitalSigns
import Verif.Props.TableSigns
import Verif.Spec.Longest
import Verif.Props.Longest
import Verif.Spec.Precedence
import Verif.Props.Precedence
import Verif.Model.Show
import Verif.Model.Cli
import Verif.Spec.Show
import Verif.Spec.Cli
import Verif.Props.Cli
import Verif.Model.Search
import Verif.Props.Search
import Verif.Spec.Whole
import Verif.Props.Whole
import Verif.Props.Show
import Verif.Lemmas.Compiles
import Verif.Props.ShowTrace
import Verif.Conform.Base
import Verif.Conform.Regexp
import Verif.Conform.Trie
import Verif.Conform.MatchPattern
import Verif.Conform.Context
import Verif.Conform.Primary
import Verif.Conform.Tables
import Verif.Conform.Indication
import Verif.Conform.Parsing
import Verif.Spec.Passes
import Verif.Spec.Stage
import Verif.Lemmas.Passes
import Verif.Props.Passes
import Verif.Props.PassStage
import Verif.Props.PassTables
import Verif.Props.PassClasses
import Verif.Props.Matches
import Verif.Spec.MainRun
import Verif.Props.MainRun
import Verif.Props.MainTables
import Verif.Spec.HashOrder
import Verif.Props.HashOrder
import Verif.Props.Determinism
import Verif.Props.MainFacts
import Verif.Props.RoundTrip
import Verif.Lemmas.TrieOrder
import Verif.Spec.Words
import Verif.Props.WordsRun
import Verif.Props.WordsSeam
import Verif.Props.WordsFlags
import Verif.Props.WordsTable
import Verif.Props.WordsCaps
import Verif.Props.WordsSigns
import Verif.Props.Words
import Verif.Lemmas.Agree
import Verif.Lemmas.Canon
import Verif.Spec.SameLines
import Verif.Props.SameLines
import Verif.Props.SameLinesDemo
import Verif.Model.Cost
import Verif.Spec.Size
import Verif.Props.Cost
import Verif.Props.Rounds
import Verif.Spec.Output
import Verif.Props.Output
import Verif.Spec.OutputBack
import Verif.Props.OutputBack
import Verif.Spec.Letters
import Verif.Props.Letters
import Verif.Props.LettersBack
import Verif.Props.LetterNumbers
import Verif.Props.NumbersBack
import Verif.Props.DirectionWords
import Verif.Props.NocrossLines
import Verif.Props.PassExamples
