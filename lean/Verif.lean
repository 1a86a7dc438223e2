import Verif.Model.Ast1
import Verif.Model.Ast2
import Verif.Model.Ast3
import Verif.Model.Back
import Verif.Model.Basic
import Verif.Model.Conv2
import Verif.Model.Conv3
import Verif.Model.Cost1
import Verif.Model.Cost2
import Verif.Model.Cost3
import Verif.Model.Eq1
import Verif.Model.Eq2
import Verif.Model.Eq3
import Verif.Model.Fidelity
import Verif.Model.Machine
import Verif.Model.Machine2
import Verif.Model.Machine3
import Verif.Model.MachineBack
import Verif.Model.MachineLines
import Verif.Model.Message
import Verif.Model.Parser1
import Verif.Model.Parts
import Verif.Proofs.Again3a
import Verif.Proofs.Again3b
import Verif.Proofs.Again3c
import Verif.Proofs.Again3d
import Verif.Proofs.Again3e
import Verif.Proofs.Again3f
import Verif.Proofs.Again4a
import Verif.Proofs.Again4b
import Verif.Proofs.Again4c
import Verif.Proofs.Again5a
import Verif.Proofs.Again5b
import Verif.Proofs.Again5c
import Verif.Proofs.Again5d
import Verif.Proofs.AnyConversion
import Verif.Proofs.AnyConversion2
import Verif.Proofs.Atoms1
import Verif.Proofs.Back2
import Verif.Proofs.Back3
import Verif.Proofs.BackLines
import Verif.Proofs.BackRule2
import Verif.Proofs.BackRule3
import Verif.Proofs.Backward
import Verif.Proofs.Bracketed
import Verif.Proofs.Build3
import Verif.Proofs.Canon1
import Verif.Proofs.Chain
import Verif.Proofs.Complete1
import Verif.Proofs.Complete2
import Verif.Proofs.Compose3
import Verif.Proofs.Conv2
import Verif.Proofs.Conv2Facts
import Verif.Proofs.Conversion2
import Verif.Proofs.Conversion3
import Verif.Proofs.Cost1
import Verif.Proofs.Cost1b
import Verif.Proofs.Cost2
import Verif.Proofs.Cost3
import Verif.Proofs.Crlf1
import Verif.Proofs.Crlf2
import Verif.Proofs.Crlf3
import Verif.Proofs.Crlf4
import Verif.Proofs.Depth1
import Verif.Proofs.Depth2
import Verif.Proofs.Depth3
import Verif.Proofs.Depth3b
import Verif.Proofs.Document3
import Verif.Proofs.Document3Facts
import Verif.Proofs.DocumentRule
import Verif.Proofs.DollarCount
import Verif.Proofs.DollarForm
import Verif.Proofs.Edit
import Verif.Proofs.Enclosed1
import Verif.Proofs.Errors3
import Verif.Proofs.ExactLines2
import Verif.Proofs.Fault
import Verif.Proofs.Filter1
import Verif.Proofs.FinalBlanks1
import Verif.Proofs.FinalBlanks2
import Verif.Proofs.FinalBlanks3
import Verif.Proofs.FirstFault
import Verif.Proofs.ForthBack2
import Verif.Proofs.ForthBack3
import Verif.Proofs.Forward
import Verif.Proofs.Forward1
import Verif.Proofs.Grammar1
import Verif.Proofs.Grammar2
import Verif.Proofs.Grammar3
import Verif.Proofs.Grammar4
import Verif.Proofs.Grown1
import Verif.Proofs.Grown2
import Verif.Proofs.Grown3
import Verif.Proofs.Join
import Verif.Proofs.Join2
import Verif.Proofs.Join3
import Verif.Proofs.KeepsText
import Verif.Proofs.LeadingBlanks1
import Verif.Proofs.LeadingBlanks2
import Verif.Proofs.LeadingBlanks3
import Verif.Proofs.Lex
import Verif.Proofs.Lines
import Verif.Proofs.Lines2
import Verif.Proofs.Lines3
import Verif.Proofs.Load3a
import Verif.Proofs.Load3b
import Verif.Proofs.Load3c
import Verif.Proofs.Load3d
import Verif.Proofs.Load3e
import Verif.Proofs.Load3f
import Verif.Proofs.Load3g
import Verif.Proofs.Machine
import Verif.Proofs.Machine2
import Verif.Proofs.Machine3
import Verif.Proofs.MachineBack2
import Verif.Proofs.MachineBack3
import Verif.Proofs.MachineBack4
import Verif.Proofs.MachineLines
import Verif.Proofs.Maths
import Verif.Proofs.MathsClosed
import Verif.Proofs.MathsConv
import Verif.Proofs.MathsCount
import Verif.Proofs.MathsFail
import Verif.Proofs.MathsFuel
import Verif.Proofs.MathsNear
import Verif.Proofs.MathsNodes
import Verif.Proofs.MathsRule
import Verif.Proofs.MathsStrict
import Verif.Proofs.MathsText
import Verif.Proofs.MathsTotal
import Verif.Proofs.Near
import Verif.Proofs.Nest1
import Verif.Proofs.Nested
import Verif.Proofs.NestedDepth
import Verif.Proofs.NestedLeast
import Verif.Proofs.Nesting
import Verif.Proofs.Options3
import Verif.Proofs.Paragraph
import Verif.Proofs.Parse1
import Verif.Proofs.Paste1
import Verif.Proofs.Paste2
import Verif.Proofs.Paste3
import Verif.Proofs.Paste4
import Verif.Proofs.Paste5
import Verif.Proofs.Push
import Verif.Proofs.Rename1
import Verif.Proofs.Rename2
import Verif.Proofs.Rename3
import Verif.Proofs.Rename4
import Verif.Proofs.Renum1
import Verif.Proofs.Retext1
import Verif.Proofs.Retext2
import Verif.Proofs.Retext3
import Verif.Proofs.Retext3b
import Verif.Proofs.Sections3
import Verif.Proofs.Settle
import Verif.Proofs.Shape1
import Verif.Proofs.Size
import Verif.Proofs.Skeleton
import Verif.Proofs.Slides
import Verif.Proofs.Source1
import Verif.Proofs.Tree
import Verif.Proofs.Trouble
import Verif.Proofs.Valid
import Verif.Proofs.Verbatim
import Verif.Proofs.Written
import Verif.Props.Again3
import Verif.Props.Again4
import Verif.Props.Again5
import Verif.Props.BackLines
import Verif.Props.BackRule
import Verif.Props.Backward
import Verif.Props.Boxes
import Verif.Props.Bracketed
import Verif.Props.Brackets
import Verif.Props.Build3
import Verif.Props.Building
import Verif.Props.Calm
import Verif.Props.Chain
import Verif.Props.Chars
import Verif.Props.Comments
import Verif.Props.Complete
import Verif.Props.Compose3
import Verif.Props.Conversion
import Verif.Props.Cost
import Verif.Props.Cost2
import Verif.Props.Cost3
import Verif.Props.Counts
import Verif.Props.Crlf
import Verif.Props.Depth
import Verif.Props.DocumentRule
import Verif.Props.Documents
import Verif.Props.DollarCount
import Verif.Props.DollarForm
import Verif.Props.Edit
import Verif.Props.Enclosed
import Verif.Props.Environments
import Verif.Props.Exact
import Verif.Props.Fault
import Verif.Props.FinalBlanks
import Verif.Props.FirstFault
import Verif.Props.ForthBack2
import Verif.Props.ForthBack3
import Verif.Props.Forward
import Verif.Props.Grammar
import Verif.Props.Grown
import Verif.Props.Join3
import Verif.Props.KeepsText
import Verif.Props.LeadingBlanks
import Verif.Props.Lines3
import Verif.Props.Load3
import Verif.Props.Machine
import Verif.Props.Machine3
import Verif.Props.MachineBack
import Verif.Props.Maths
import Verif.Props.MathsRule
import Verif.Props.Messages
import Verif.Props.Nested
import Verif.Props.NestedDepth
import Verif.Props.NestedLeast
import Verif.Props.ParagraphRule
import Verif.Props.Paragraphs
import Verif.Props.Parsing
import Verif.Props.Parts
import Verif.Props.Paste
import Verif.Props.Paste2
import Verif.Props.PrintsBack3
import Verif.Props.ReadBack3
import Verif.Props.Rename
import Verif.Props.Retext
import Verif.Props.Retext3
import Verif.Props.RetextSharp
import Verif.Props.Returns
import Verif.Props.RoundTrip1
import Verif.Props.Sections
import Verif.Props.Settle
import Verif.Props.Sharp
import Verif.Props.Size
import Verif.Props.Skeleton
import Verif.Props.Slides
import Verif.Props.SlidesAll
import Verif.Props.ThereAndBack
import Verif.Props.Total3
import Verif.Props.Trouble
import Verif.Props.Validates
import Verif.Props.Verbatim
import Verif.Props.Written
import Verif.Spec.Again3
import Verif.Spec.Again4
import Verif.Spec.Again5
import Verif.Spec.AnyConversion
import Verif.Spec.Atoms
import Verif.Spec.Back
import Verif.Spec.BackRule
import Verif.Spec.Bracketed
import Verif.Spec.Build3
import Verif.Spec.Calm
import Verif.Spec.Chars
import Verif.Spec.Complete
import Verif.Spec.Conversion
import Verif.Spec.Crlf
import Verif.Spec.Depth
import Verif.Spec.Document
import Verif.Spec.DocumentRule
import Verif.Spec.DollarCount
import Verif.Spec.DollarForm
import Verif.Spec.Edit
import Verif.Spec.Enclosed
import Verif.Spec.Fault
import Verif.Spec.FinalBlanks
import Verif.Spec.FirstFault
import Verif.Spec.ForthBack
import Verif.Spec.Forward
import Verif.Spec.Grammar
import Verif.Spec.Grown
import Verif.Spec.Join3
import Verif.Spec.KeepsText
import Verif.Spec.LeadingBlanks
import Verif.Spec.Lines
import Verif.Spec.Lines3
import Verif.Spec.Load3
import Verif.Spec.Maths
import Verif.Spec.MathsRule
import Verif.Spec.Moved
import Verif.Spec.Nested
import Verif.Spec.Nesting
import Verif.Spec.Paragraph
import Verif.Spec.Paste
import Verif.Spec.PlainDelims
import Verif.Spec.Rename
import Verif.Spec.Retext
import Verif.Spec.Retext3
import Verif.Spec.Settle
import Verif.Spec.Size
import Verif.Spec.Skeleton
import Verif.Spec.Slides
import Verif.Spec.Source
import Verif.Spec.Tree
import Verif.Spec.Trouble
import Verif.Spec.Valid
import Verif.Spec.Verbatim
import Verif.Spec.WellFormed
import Verif.Spec.Written
