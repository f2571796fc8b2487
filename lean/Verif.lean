import Verif.Lemmas.Apostrophe
import Verif.Lemmas.Basic
import Verif.Lemmas.Cli
import Verif.Lemmas.Code
import Verif.Lemmas.CodeMap
import Verif.Lemmas.Collect
import Verif.Lemmas.Config
import Verif.Lemmas.Content
import Verif.Lemmas.ContentOne
import Verif.Lemmas.Core
import Verif.Lemmas.CoreRead
import Verif.Lemmas.Curl
import Verif.Lemmas.Curled
import Verif.Lemmas.CurledCore
import Verif.Lemmas.Dashes
import Verif.Lemmas.Defaults
import Verif.Lemmas.Description
import Verif.Lemmas.DocRun
import Verif.Lemmas.Ellipsis
import Verif.Lemmas.Escape
import Verif.Lemmas.FileEnd
import Verif.Lemmas.FileEndDoc
import Verif.Lemmas.FileEndNotes
import Verif.Lemmas.FoldSpace
import Verif.Lemmas.Formatter
import Verif.Lemmas.Frame
import Verif.Lemmas.Heading
import Verif.Lemmas.HeadingStable
import Verif.Lemmas.HeadingText
import Verif.Lemmas.HeadingWords
import Verif.Lemmas.Indented
import Verif.Lemmas.ItemBlank
import Verif.Lemmas.ItemQuote
import Verif.Lemmas.Keep
import Verif.Lemmas.KeepNotes
import Verif.Lemmas.KeepText
import Verif.Lemmas.Layout
import Verif.Lemmas.LineEnd
import Verif.Lemmas.LineEndDoc
import Verif.Lemmas.LineEndNotes
import Verif.Lemmas.LineEndTree
import Verif.Lemmas.LineEnds
import Verif.Lemmas.Links
import Verif.Lemmas.Lists
import Verif.Lemmas.Marks
import Verif.Lemmas.Names
import Verif.Lemmas.Nested
import Verif.Lemmas.NestedDoc
import Verif.Lemmas.NestedEq
import Verif.Lemmas.NestedLine
import Verif.Lemmas.NestedLinks
import Verif.Lemmas.NestedMap
import Verif.Lemmas.NestedMarks
import Verif.Lemmas.NestedQuote
import Verif.Lemmas.NestedRead
import Verif.Lemmas.NestedValid
import Verif.Lemmas.NestedWritten
import Verif.Lemmas.Notes
import Verif.Lemmas.Off
import Verif.Lemmas.OffNotes
import Verif.Lemmas.On
import Verif.Lemmas.OtherSite
import Verif.Lemmas.Pairs
import Verif.Lemmas.PhraseWords
import Verif.Lemmas.Phrases
import Verif.Lemmas.Placeholder
import Verif.Lemmas.Prefix
import Verif.Lemmas.Prefixed
import Verif.Lemmas.Prose
import Verif.Lemmas.PunctPipeline
import Verif.Lemmas.Quotation
import Verif.Lemmas.Quote
import Verif.Lemmas.Quotes
import Verif.Lemmas.Ranges
import Verif.Lemmas.RefRun
import Verif.Lemmas.Refs
import Verif.Lemmas.SamePunct
import Verif.Lemmas.Section
import Verif.Lemmas.Sections
import Verif.Lemmas.Sentence
import Verif.Lemmas.SentenceRun
import Verif.Lemmas.Settings
import Verif.Lemmas.SingleQuotes
import Verif.Lemmas.Slice
import Verif.Lemmas.Source
import Verif.Lemmas.SourceText
import Verif.Lemmas.Std
import Verif.Lemmas.Str
import Verif.Lemmas.Style
import Verif.Lemmas.Table
import Verif.Lemmas.Task
import Verif.Lemmas.Text
import Verif.Lemmas.Undefined
import Verif.Lemmas.Underscores
import Verif.Lemmas.Unused
import Verif.Lemmas.UnusedDoc
import Verif.Lemmas.Wrap
import Verif.Lemmas.WrapEnd
import Verif.Lemmas.WrapFirst
import Verif.Lemmas.WrapFits
import Verif.Lemmas.WrapHead
import Verif.Lemmas.WrapKeep
import Verif.Lemmas.WrapLayout
import Verif.Lemmas.WrapLines
import Verif.Lemmas.WrapStable
import Verif.Lemmas.WrapText
import Verif.Model.Ast
import Verif.Model.Block
import Verif.Model.Cli
import Verif.Model.Code
import Verif.Model.Collect
import Verif.Model.Config
import Verif.Model.Document
import Verif.Model.Escape
import Verif.Model.Formatter
import Verif.Model.Heading
import Verif.Model.Inline
import Verif.Model.Options
import Verif.Model.Punctuation
import Verif.Model.Refs
import Verif.Model.Source
import Verif.Model.State
import Verif.Model.Table
import Verif.Model.Uni
import Verif.Model.Warn
import Verif.Model.Wasm
import Verif.Model.Wrap
import Verif.Props.Abbreviation
import Verif.Props.Alert
import Verif.Props.Apostrophe
import Verif.Props.Before
import Verif.Props.Cli
import Verif.Props.Code
import Verif.Props.Collect
import Verif.Props.Config
import Verif.Props.Core
import Verif.Props.Curled
import Verif.Props.Defaults
import Verif.Props.Description
import Verif.Props.Directive
import Verif.Props.Document
import Verif.Props.Escape
import Verif.Props.FileEnd
import Verif.Props.FileEndNotes
import Verif.Props.FileEndSentence
import Verif.Props.Fitted
import Verif.Props.Formatter
import Verif.Props.Frame
import Verif.Props.Heading
import Verif.Props.HeadingText
import Verif.Props.ItemBlank
import Verif.Props.ItemQuote
import Verif.Props.Keep
import Verif.Props.LineEnd
import Verif.Props.LineEndNotes
import Verif.Props.LineEndSentence
import Verif.Props.LineEnds
import Verif.Props.Links
import Verif.Props.Lists
import Verif.Props.Marks
import Verif.Props.Nested
import Verif.Props.Nodes
import Verif.Props.Notes
import Verif.Props.Off
import Verif.Props.OffNotes
import Verif.Props.On
import Verif.Props.OtherSite
import Verif.Props.Pad
import Verif.Props.Project
import Verif.Props.Prose
import Verif.Props.PunctScope
import Verif.Props.Punctuation
import Verif.Props.Quotation
import Verif.Props.Quote
import Verif.Props.Refs
import Verif.Props.Section
import Verif.Props.Sections
import Verif.Props.Sentence
import Verif.Props.Settings
import Verif.Props.SingleQuotes
import Verif.Props.Source
import Verif.Props.SourceText
import Verif.Props.Style
import Verif.Props.Table
import Verif.Props.Task
import Verif.Props.Twice
import Verif.Props.Undefined
import Verif.Props.Underscores
import Verif.Props.Unused
import Verif.Props.Wasm
import Verif.Props.Wrap
import Verif.Spec.Abbreviation
import Verif.Spec.Alert
import Verif.Spec.Apostrophe
import Verif.Spec.BlockText
import Verif.Spec.Cli
import Verif.Spec.Code
import Verif.Spec.CodeMap
import Verif.Spec.Collect
import Verif.Spec.Config
import Verif.Spec.Content
import Verif.Spec.Core
import Verif.Spec.Curled
import Verif.Spec.Defaults
import Verif.Spec.Description
import Verif.Spec.Directive
import Verif.Spec.Document
import Verif.Spec.FileEnd
import Verif.Spec.Fitted
import Verif.Spec.FoldSpace
import Verif.Spec.Formatter
import Verif.Spec.Heading
import Verif.Spec.HeadingRead
import Verif.Spec.Inline
import Verif.Spec.LineEnd
import Verif.Spec.LineEndNotes
import Verif.Spec.LineEnds
import Verif.Spec.Links
import Verif.Spec.Lists
import Verif.Spec.Marks
import Verif.Spec.Names
import Verif.Spec.Nested
import Verif.Spec.Notes
import Verif.Spec.Off
import Verif.Spec.OtherSite
import Verif.Spec.Pad
import Verif.Spec.Quotation
import Verif.Spec.Quote
import Verif.Spec.Refs
import Verif.Spec.Section
import Verif.Spec.Sentence
import Verif.Spec.Settings
import Verif.Spec.SingleQuotes
import Verif.Spec.Source
import Verif.Spec.SourceText
import Verif.Spec.Table
import Verif.Spec.Task
import Verif.Spec.Tree
import Verif.Spec.Typography
import Verif.Spec.Undefined
import Verif.Spec.Underscores
import Verif.Spec.Unused
import Verif.Spec.Words
import Verif.Str
