import Verif.Model.Types
import Verif.Model.Basic
import Verif.Model.Dfa
import Verif.Model.Nfa
import Verif.Model.Words
import Verif.Spec.Automata
import Verif.Proofs.Basic
import Verif.Proofs.DfaCore
import Verif.Props.Samples
import Verif.Proofs.Names
import Verif.Proofs.DfaProduct
import Verif.Props.DfaEvaluator
import Verif.Props.DfaProduct
import Verif.Proofs.Remove
import Verif.Proofs.DfaQuot
import Verif.Proofs.Hopcroft
import Verif.Proofs.Minimize
import Verif.Props.DfaMinimize
import Verif.Proofs.NfaCore
import Verif.Proofs.ToNfa
import Verif.Props.NfaEvaluator
import Verif.Proofs.ToDfa
import Verif.Props.NfaToDfa
import Verif.Proofs.NfaRestr
import Verif.Proofs.NfaEps
import Verif.Props.NfaEps
import Verif.Proofs.NfaUnion
import Verif.Proofs.NfaProduct
import Verif.Props.NfaProduct
import Verif.Spec.Words
import Verif.Proofs.Words
import Verif.Props.Words
import Verif.Model.Regex
import Verif.Spec.Regex
import Verif.Proofs.Regex
import Verif.Props.Regex
import Verif.Model.Nom
import Verif.Model.RegexParser
import Verif.Spec.RegexGrammar
import Verif.Proofs.Nom
import Verif.Proofs.RegexParser
import Verif.Proofs.RegexPrint
import Verif.Proofs.RegexStrip
import Verif.Props.RegexParser
import Verif.Model.Validate
import Verif.Spec.Validate
import Verif.Proofs.Validate
import Verif.Props.Validate
import Verif.Model.FaParser
import Verif.Model.Table
import Verif.Spec.TableText
import Verif.Proofs.FaParser
import Verif.Proofs.Table
import Verif.Proofs.TableAlign
import Verif.Props.Tables
import Verif.Spec.History
import Verif.Proofs.History
import Verif.Props.History
import Verif.Model.Chars
import Verif.Model.Cli
import Verif.Spec.Cli
import Verif.Proofs.Cli
import Verif.Proofs.CliPath
import Verif.Props.Cli
import Verif.Spec.Graphemes
import Verif.Proofs.Graphemes
import Verif.Props.Graphemes
import Verif.Model.Wasm
import Verif.Spec.Wasm
import Verif.Proofs.Wasm
import Verif.Props.Wasm
import Verif.Model.Draw
import Verif.Spec.Draw
import Verif.Proofs.Draw
import Verif.Proofs.DrawAscii
import Verif.Proofs.DrawPicture
import Verif.Proofs.DrawDecode
import Verif.Proofs.DrawCanvas
import Verif.Props.Draw
import Verif.Props.DrawDecode
import Verif.Model.Backends
import Verif.Spec.Backends
import Verif.Proofs.Backends
import Verif.Props.Backends
import Verif.Proofs.DrawSight
import Verif.Props.DrawSight
import Verif.Props.Docs
import Verif.Model.Site
import Verif.Spec.Site
import Verif.Proofs.Site
import Verif.Props.Site
import Verif.Model.CliMain
import Verif.Spec.CliMain
import Verif.Proofs.CliMain
import Verif.Props.CliMain
import Verif.Model.Tests
import Verif.Spec.Tests
import Verif.Proofs.Tests
import Verif.Props.Tests
import Verif.Model.Window
import Verif.Spec.Window
import Verif.Props.Window
import Verif.Model.ParseErrors
import Verif.Spec.ParseErrors
import Verif.Proofs.ParseErrors
import Verif.Proofs.RegexErrors
import Verif.Props.ParseErrors
import Verif.Spec.Laws
import Verif.Props.Laws
import Verif.Spec.Sizes
import Verif.Proofs.RegexSize
import Verif.Props.Sizes
import Verif.Proofs.Finite
import Verif.Props.Finite
import Verif.Model.WordsCost
import Verif.Spec.WordsCost
import Verif.Proofs.WordsCost
import Verif.Props.WordsCost
import Verif.Spec.Reproducible
import Verif.Proofs.Reproducible
import Verif.Props.Reproducible
import Verif.Model.CliWarnings
import Verif.Props.CliWarnings
import Verif.Model.Examples
import Verif.Props.Examples
import Verif.Model.ProductMut
import Verif.Model.ParseCost
import Verif.Spec.ProductMut
import Verif.Spec.ParseCost
import Verif.Proofs.ProductMut
import Verif.Proofs.ParseCost
import Verif.Proofs.ParseCostFa
import Verif.Proofs.ParseCostRegex
import Verif.Props.ProductMut
import Verif.Props.ParseCost
import Verif.Model.AlgCost
import Verif.Spec.AlgCost
import Verif.Proofs.AlgCost
import Verif.Props.AlgCost
import Verif.Model.AlgCostNfa
import Verif.Proofs.AlgCostNfa
import Verif.Proofs.AlgCostNfaOps
import Verif.Props.AlgCostNfa
import Verif.Model.Unicode
import Verif.Spec.Unicode
import Verif.Proofs.Unicode
import Verif.Props.Unicode
import Verif.Model.Clap
import Verif.Spec.Clap
import Verif.Proofs.Clap
import Verif.Props.Clap
import Verif.Props.Exact
import Verif.Props.Cleanup
import Verif.Props.Pictures
import Verif.Props.Bench
import Verif.Model.ParseDepth
import Verif.Spec.ParseDepth
import Verif.Proofs.ParseDepth
import Verif.Props.ParseDepth
import Verif.Model.ConvCost
import Verif.Proofs.ConvCost
import Verif.Proofs.TextSize
import Verif.Props.TextSize
import Verif.Model.DrawF32
import Verif.Spec.F32
import Verif.Proofs.F32
import Verif.Props.F32
import Verif.Model.Wasm32
import Verif.Props.Wasm32
import Verif.Spec.LineEnds
import Verif.Proofs.LineEnds
import Verif.Props.Agree
import Verif.Spec.Reader
import Verif.Proofs.Reader
import Verif.Props.Reader
import Verif.Spec.DrawBox
import Verif.Proofs.DrawBox
import Verif.Props.DrawBox
import Verif.Props.DrawDefault
import Verif.Model.Checked
import Verif.Proofs.CheckedDfa
import Verif.Proofs.CheckedNfa
import Verif.Proofs.CheckedWords
import Verif.Props.Checked
import Verif.Model.ReadCost
import Verif.Spec.ReadCost
import Verif.Proofs.ReadCost
import Verif.Props.ReadCost
import Verif.Spec.DrawLevels
import Verif.Proofs.DrawLevels
import Verif.Props.DrawLevels
import Verif.Model.DrawCost
import Verif.Spec.DrawCost
import Verif.Proofs.DrawCost
import Verif.Props.DrawCost
import Verif.Proofs.Apart
import Verif.Proofs.ApartWords
import Verif.Proofs.Rearrange
import Verif.Proofs.Regular
import Verif.Props.Apart
import Verif.Props.Rearrange
import Verif.Props.Regular
import Verif.Props.Rename
import Verif.Props.Normal
import Verif.Props.Compose
import Verif.Props.Combined
import Verif.Props.Observe
import Verif.Props.Attained
import Verif.Props.DrawSize
import Verif.Props.DrawTexts
import Verif.Props.Decide
import Verif.Props.Kinds
import Verif.Spec.Escape
import Verif.Props.Escape
import Verif.Proofs.Messages
import Verif.Props.Messages
import Verif.Props.Equations
import Verif.Proofs.RegexStable
import Verif.Props.Stable
import Verif.Spec.RegexPump
import Verif.Proofs.RegexPump
import Verif.Props.Pump
import Verif.Props.StableUnicode
import Verif.Spec.Count
import Verif.Proofs.Count
import Verif.Props.Count
import Verif.Spec.Solve
import Verif.Proofs.Solve
import Verif.Props.Solve
import Verif.Spec.Residual
import Verif.Props.Residual
import Verif.Spec.Certificate
import Verif.Props.Certificate
import Verif.Props.Conformance
import Verif.Props.Padding
import Verif.Props.ConvLeast
