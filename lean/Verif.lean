import Verif.Props.Money
import Verif.Props.Transaction
import Verif.Props.List
import Verif.Props.Display
import Verif.Props.Price
import Verif.Props.Expr
import Verif.Props.Grammar
import Verif.Props.Query
import Verif.Props.Report
import Verif.Props.Comment
import Verif.Props.Ledger
import Verif.Props.Columns
import Verif.Props.Date
import Verif.Lemmas.Tokenizer
import Verif.Lemmas.Include
import Verif.Lemmas.Lines
import Verif.Lemmas.Posting
import Verif.Props.Config
import Verif.Props.Journal
import Verif.Props.Tokenizer
import Verif.Props.Commands
import Verif.Props.Text
import Verif.Props.Print
import Verif.Props.App
import Verif.Props.Rules
import Verif.Props.Tree
import Verif.Props.Options
import Verif.Props.Rulework
import Verif.Props.Lists
import Verif.Props.Typing
import Verif.Props.Answer
import Verif.Props.Meaning
import Verif.Props.Ruled
import Verif.Props.Sales
import Verif.Props.Complaint
import Verif.Props.Excerpt
import Verif.Props.Crash
import Verif.Props.Periods
import Verif.Props.Halfway
import Verif.Props.Question
import Verif.Props.Status
import Verif.Props.Naming
import Verif.Props.Rates
import Verif.Props.Args
import Verif.Props.History
import Verif.Props.Colour
import Verif.Props.Trouble
import Verif.Props.Stderr
import Verif.Props.Accepted
import Verif.Props.Notes
import Verif.Props.Exact
import Verif.Props.Appended
import Verif.Props.Outer
import Verif.Props.Hangs
import Verif.Props.Parts
import Verif.Props.Seeds
import Verif.Conformance
import Verif.Props.Depths
import Verif.Props.Scale
import Verif.Props.Merge
import Verif.Props.Coins
import Verif.Props.Course
import Verif.Props.Sum
import Verif.Props.Extract
import Verif.Props.Turn
import Verif.Props.Split
import Verif.Props.Terse
