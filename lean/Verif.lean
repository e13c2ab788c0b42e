import Verif.Model.Lex
import Verif.Props.Kebab
import Verif.Props.Safety
import Verif.Lemmas.MeaningRoot
import Verif.Props.Whole
import Verif.Props.Values
import Verif.Props.Elements
import Verif.Props.Components
import Verif.Props.Slots
import Verif.Props.Names
import Verif.Props.Grammar
import Verif.Props.Order
import Verif.Props.Recover
import Verif.Spec.Twice
import Verif.Lemmas.Twice
import Verif.Props.Count
import Verif.Props.Hygiene
import Verif.Props.Issues
import Verif.Props.Reads
import Verif.Props.RepoTests
import Verif.Props.RepoSpans
import Verif.Props.Located
import Verif.Spec.LocIssues
import Verif.Lemmas.LocBasic
import Verif.Lemmas.LocIssues
import Verif.Props.Places
import Verif.Spec.LocReads
import Verif.Lemmas.LocReads
import Verif.Lemmas.LocReadsTree
import Verif.Lemmas.LocReadsTotal
import Verif.Lemmas.LocFuel
import Verif.Props.LocReads
import Verif.Spec.LocQuote
import Verif.Spec.LocMeaning
import Verif.Lemmas.LocMeaning
import Verif.Lemmas.LocMeaningTree
import Verif.Lemmas.LocMeaningRoot
import Verif.Props.LocMeaning
import Verif.Spec.Moves
import Verif.Lemmas.Moves
import Verif.Lemmas.MovesExpand
import Verif.Lemmas.Made
import Verif.Props.Moves
import Verif.Spec.Syntax
import Verif.Lemmas.Syntax
import Verif.Props.Syntax
import Verif.Spec.Opaque
import Verif.Lemmas.OpaqueExpand
import Verif.Lemmas.Opaque
import Verif.Props.Opaque
import Verif.Model.Nightly
import Verif.Spec.Recovery
import Verif.Lemmas.Nightly
import Verif.Lemmas.NightlyTree
import Verif.Props.Nightly
import Verif.Lemmas.NightlySyntax
import Verif.Props.NightlySyntax
import Verif.Lemmas.Pieces
import Verif.Props.Pieces
import Verif.Spec.Ignored
import Verif.Lemmas.Ignored
import Verif.Props.Ignored
import Verif.Spec.Size
import Verif.Lemmas.Size
import Verif.Lemmas.SizeReads
import Verif.Props.Size
import Verif.Loc.Nightly
import Verif.Spec.LocRecovery
import Verif.Lemmas.LocNightly
import Verif.Lemmas.LocNightlyTree
import Verif.Props.LocNightly
import Verif.Lemmas.NightlyHygiene
import Verif.Spec.Mentions
import Verif.Lemmas.Mentions
import Verif.Props.Mentions
import Verif.Lemmas.NightlyCount
import Verif.Props.NightlyCount
import Verif.Spec.Loose
import Verif.Lemmas.Loose
import Verif.Props.Loose
import Verif.Spec.Advice
import Verif.Lemmas.Advice
import Verif.Lemmas.AdviceEnds
import Verif.Lemmas.AdviceIssues
import Verif.Lemmas.AdviceModifiers
import Verif.Props.Advice
import Verif.Spec.FewErrors
import Verif.Lemmas.FewErrors
import Verif.Props.FewErrors
import Verif.Spec.Run
import Verif.Lemmas.Run
import Verif.Props.Run
import Verif.Spec.Longhand
import Verif.Lemmas.Longhand
import Verif.Props.Longhand
import Verif.Steps.Parse
import Verif.Lemmas.StepsErase
import Verif.Lemmas.Steps
import Verif.Lemmas.StepsLower
import Verif.Props.Steps
import Verif.Spec.Lexical
import Verif.Lemmas.Lexical
import Verif.Props.Lexical
import Verif.Model.SynPath
import Verif.Spec.SynPath
import Verif.Spec.PathText
import Verif.Lemmas.SynPath
import Verif.Lemmas.SynPathMore
import Verif.Lemmas.PathText
import Verif.Props.SynPath
import Verif.Spec.SameCode
import Verif.Lemmas.SameCode
import Verif.Lemmas.SameCodeEntry
import Verif.Lemmas.SameCodePath
import Verif.Lemmas.SameCodeParts
import Verif.Lemmas.SameCodeTree
import Verif.Props.SameCode
import Verif.Spec.Block
import Verif.Lemmas.Block
import Verif.Lemmas.BlockIssues
import Verif.Props.Block
import Verif.Spec.Kinds
import Verif.Lemmas.Kinds
import Verif.Props.Kinds
import Verif.Spec.Edit
import Verif.Lemmas.Edit
import Verif.Props.Edit
import Verif.Spec.EditAnyway
import Verif.Lemmas.EditAnyway
import Verif.Props.EditAnyway
import Verif.Spec.EditAttr
import Verif.Lemmas.EditAttr
import Verif.Props.EditAttr
import Verif.Spec.EditSel
import Verif.Lemmas.EditSel
import Verif.Props.EditSel
import Verif.Spec.About
import Verif.Lemmas.About
import Verif.Props.About
import Verif.Model.Unread
import Verif.Spec.Unread
import Verif.Lemmas.Unread
import Verif.Props.Unread
import Verif.Loc.Messages
import Verif.Spec.Messages
import Verif.Lemmas.Messages
import Verif.Props.Messages
import Verif.Spec.Combine
import Verif.Lemmas.Combine
import Verif.Props.Combine
import Verif.Spec.Threads
import Verif.Lemmas.Threads
import Verif.Props.Threads
import Verif.Spec.Leave
import Verif.Lemmas.Leave
import Verif.Props.Leave
import Verif.Spec.Fewer
import Verif.Lemmas.Fewer
import Verif.Props.Fewer
import Verif.Spec.Assemble
import Verif.Lemmas.Assemble
import Verif.Props.Assemble
import Verif.Spec.SamePage
import Verif.Lemmas.SamePage
import Verif.Props.SamePage
import Verif.Spec.Mend
import Verif.Lemmas.Mend
import Verif.Lemmas.MendWrite
import Verif.Props.Mend
import Verif.Lemmas.SameEquiv
import Verif.Lemmas.Interchange
import Verif.Spec.Seen
import Verif.Lemmas.Seen
import Verif.Props.Interchange
import Verif.Spec.Template
import Verif.Lemmas.Template
import Verif.Props.Template
import Verif.Spec.PageGap
import Verif.Lemmas.PageGap
import Verif.Props.PageGap
import Verif.Spec.Ingredients
import Verif.Lemmas.Ingredients
import Verif.Props.Ingredients
import Verif.Spec.AttrPage
import Verif.Lemmas.AttrPage
import Verif.Props.AttrPage
import Verif.Spec.SelPage
import Verif.Lemmas.SelPage
import Verif.Props.SelPage
import Verif.Spec.AttrAnyway
import Verif.Lemmas.AttrAnyway
import Verif.Props.AttrAnyway
import Verif.Spec.SelAnyway
import Verif.Lemmas.SelAnyway
import Verif.Props.SelAnyway
import Verif.Props.Outside
import Verif.Spec.AddUp
import Verif.Props.AddUp
import Verif.Props.Axioms
