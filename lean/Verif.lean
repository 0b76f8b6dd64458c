import Verif.Bytes
import Verif.Types
import Verif.Slab
import Verif.Data
import Verif.Scan
import Verif.Parse
import Verif.Write
import Verif.Edit
import Verif.Access
import Verif.Num
import Verif.History
import Verif.Quotes
import Verif.Tree
import Verif.TreeOps
import Verif.PParse
import Verif.Refine
import Verif.SlabLemmas
import Verif.Rep
import Verif.Focus
import Verif.Patch
import Verif.ItemsLemmas
import Verif.EditLemmas
import Verif.HistLemmas
import Verif.OpLemmas
import Verif.FrameLemmas
import Verif.Props.Samples
import Verif.LiveLemmas
import Verif.Props.Shape
import Verif.Props.Ids
import Verif.Props.Sets
import Verif.Utf8
import Verif.JoinLemmas
import Verif.Props.Quoting
import Verif.Props.Commute
import Verif.Props.Make
import Verif.Props.Maps
import Verif.Props.Seqs
import Verif.Rules
import Verif.ScanLemmas
import Verif.LeadLemmas
import Verif.Bounds
import Verif.Fuel
import Verif.Finish
import Verif.Boundary
import Verif.Props.Parser
import Verif.Spec
import Verif.Keep
import Verif.Shows
import Verif.Props.RoundTrip
import Verif.Sound
import Verif.Props.Display
import Verif.Grammar
import Verif.Forward
import Verif.ForwardBlock
import Verif.Eval
import Verif.GrammarLemmas
import Verif.GrammarDocs
import Verif.Props.Ints
import Verif.Props.Grammar
import Verif.Props.Blocks
import Verif.Good
import Verif.Safe
import Verif.SafeLemmas
import Verif.GoodEdit
import Verif.Props.Edits
import Verif.Keys
import Verif.Props.Keys
import Verif.Serde
import Verif.Floats
import Verif.SerdeSpec
import Verif.Leaves
import Verif.SerdeLemmas
import Verif.Props.Serde
import Verif.Intern
import Verif.Props.Intern
import Verif.Conform
import Verif.Props.Escapes
import Verif.Place
import Verif.PlaceScan
import Verif.PlaceBlock
import Verif.PlaceLead
import Verif.PlaceRules
import Verif.Props.Places
import Verif.Props.Plain
import Verif.Props.Siblings
import Verif.Fault
import Verif.FaultRules
import Verif.Props.Faults
import Verif.ExactScan
import Verif.ExactLead
import Verif.ExactRules
import Verif.ExactFault
import Verif.ExactDocs
import Verif.ExactStuck
import Verif.Props.Exact
import Verif.Echo
import Verif.EchoLead
import Verif.EchoRules
import Verif.EchoRun
import Verif.EchoDocs
import Verif.Props.Echo
import Verif.Props.Spans
import Verif.Sink
import Verif.SinkLemmas
import Verif.Message
import Verif.Props.Sink
import Verif.Again
import Verif.AgainNext
import Verif.AgainLines
import Verif.AgainBlock
import Verif.AgainRules
import Verif.Lined
import Verif.AgainDoc
import Verif.Props.Again
import Verif.Show
import Verif.LeavesAt
import Verif.Props.Handles
import Verif.Props.Undo
import Verif.Apart
import Verif.Props.Order
import Verif.Rename
import Verif.Snapshot
import Verif.SnapLemmas
import Verif.Props.Snapshot
import Verif.Shift
import Verif.ShiftDoc
import Verif.Props.Before
import Verif.After
import Verif.Props.After
import Verif.Clear
import Verif.Swap
import Verif.SwapRules
import Verif.SwapText
import Verif.Props.Between
import Verif.Amount
import Verif.AmountLemmas
import Verif.Props.Amount
import Verif.LineEnd
import Verif.Props.LineEnds
import Verif.Shove
import Verif.Join
import Verif.JoinText
import Verif.Props.Join
import Verif.Props.Missing
import Verif.Check
import Verif.Props.Check
import Verif.Lies
import Verif.LiesKeep
import Verif.LiesPlace
import Verif.LiesDocs
import Verif.Props.Where
import Verif.Props.NumRead
import Verif.PutBefore
import Verif.PutAfter
import Verif.Put
import Verif.PutDocs
import Verif.Props.SetRead
import Verif.Lossy
import Verif.Utf8Spec
import Verif.Shown
import Verif.Props.Lossy
import Verif.Props.BlockAny
import Verif.Float
import Verif.Props.Floats
import Verif.Sane
import Verif.Props.Restored
import Verif.Props.KeyLines
import Verif.Grow
import Verif.Props.Grow
import Verif.Props.Shrink
import Verif.PutInner
import Verif.Nest
import Verif.NestText
import Verif.NestDocs
import Verif.Props.Nest
import Verif.Cut
import Verif.CutDocs
import Verif.Props.Unnest
import Verif.LiesMove
import Verif.LiesStay
import Verif.LiesPut
import Verif.LaidDocs
import Verif.LaidEdits
import Verif.Props.Series
import Verif.Nested
import Verif.Lines
import Verif.LinesDocs
import Verif.Props.Lines
import Verif.Alone
import Verif.Props.Alone
import Verif.Flow
import Verif.FlowDocs
import Verif.Props.Flow
import Verif.Inside
import Verif.Props.Inside
import Verif.Loaded
import Verif.Props.Loaded
import Verif.InsideBlock
import Verif.Props.InsideBlock
import Verif.Build
import Verif.Props.Build
import Verif.Second
import Verif.Props.Second
import Verif.Front
import Verif.Props.First
import Verif.FlowCut
import Verif.FlowCutDocs
import Verif.Props.FlowCut
import Verif.Props.SeriesFirst
import Verif.FlowNew
import Verif.Props.FlowNew
import Verif.Props.AloneScalar
import Verif.AloneLines
import Verif.Props.AloneLines
import Verif.BlockTail
import Verif.Props.SeriesFill
import Verif.Wanted
import Verif.WantedLemmas
import Verif.Props.Wanted
import Verif.AlikeLemmas
import Verif.Props.Alike
import Verif.Typed
import Verif.TypedLemmas
import Verif.Props.Typed
import Verif.Props.Saved
