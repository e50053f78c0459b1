import Verif.Basic
import Verif.Spec.Base64
import Verif.Spec.Calendar
import Verif.Spec.Compose
import Verif.Spec.Concerns
import Verif.Spec.Cut
import Verif.Spec.Data
import Verif.Spec.Doc
import Verif.Spec.Duration
import Verif.Spec.Endless
import Verif.Spec.Faults
import Verif.Spec.Fields
import Verif.Spec.Finite
import Verif.Spec.First
import Verif.Spec.Flat
import Verif.Spec.FlatLoose
import Verif.Spec.Float
import Verif.Spec.Held
import Verif.Spec.Html
import Verif.Spec.Ints
import Verif.Spec.Invoked
import Verif.Spec.Json
import Verif.Spec.JsonNumber
import Verif.Spec.JsonString
import Verif.Spec.Live
import Verif.Spec.LiveText
import Verif.Spec.Local
import Verif.Spec.Loosened
import Verif.Spec.Lossless
import Verif.Spec.Mapped
import Verif.Spec.Maps
import Verif.Spec.Messages
import Verif.Spec.Methods
import Verif.Spec.Milder
import Verif.Spec.Options
import Verif.Spec.Parser
import Verif.Spec.Part
import Verif.Spec.Peel
import Verif.Spec.Recast
import Verif.Spec.Rename
import Verif.Spec.Respell
import Verif.Spec.Route
import Verif.Spec.Safe
import Verif.Spec.Scope
import Verif.Spec.Select
import Verif.Spec.Shown
import Verif.Spec.Size
import Verif.Spec.Sort
import Verif.Spec.Spoils
import Verif.Spec.Std
import Verif.Spec.Tags
import Verif.Spec.Text
import Verif.Spec.Times
import Verif.Spec.Trim
import Verif.Spec.Utf8
import Verif.Spec.Value
import Verif.Spec.Visits
import Verif.Spec.Writes
import Verif.Model.Api
import Verif.Model.Base64
import Verif.Model.Calls
import Verif.Model.Compact
import Verif.Model.Duration
import Verif.Model.Encode
import Verif.Model.Escape
import Verif.Model.Fields
import Verif.Model.Float
import Verif.Model.Gen
import Verif.Model.Instr
import Verif.Model.Integer
import Verif.Model.Live
import Verif.Model.Memory
import Verif.Model.Messages
import Verif.Model.Nested
import Verif.Model.Number
import Verif.Model.Options
import Verif.Model.Shared
import Verif.Model.Tags
import Verif.Model.Talk
import Verif.Model.Time
import Verif.Model.Types
import Verif.Model.Utf8
import Verif.Proofs.Abs
import Verif.Proofs.Alphabet
import Verif.Proofs.Back
import Verif.Proofs.Base64
import Verif.Proofs.Bfs
import Verif.Proofs.BfsInv
import Verif.Proofs.Body
import Verif.Proofs.Calendar
import Verif.Proofs.CallOk
import Verif.Proofs.Closed
import Verif.Proofs.Cls
import Verif.Proofs.Compact
import Verif.Proofs.CompactGr
import Verif.Proofs.Conf
import Verif.Proofs.Cut
import Verif.Proofs.Doc
import Verif.Proofs.Duration
import Verif.Proofs.Econ
import Verif.Proofs.EncOk
import Verif.Proofs.EncOk2
import Verif.Proofs.Ends
import Verif.Proofs.Ends2
import Verif.Proofs.Entry
import Verif.Proofs.Escape
import Verif.Proofs.Fair
import Verif.Proofs.Faults
import Verif.Proofs.Filter
import Verif.Proofs.First
import Verif.Proofs.Fixed
import Verif.Proofs.Flags
import Verif.Proofs.Float
import Verif.Proofs.GenOk
import Verif.Proofs.GoYear
import Verif.Proofs.Heaps
import Verif.Proofs.Integer
import Verif.Proofs.Invoked
import Verif.Proofs.Judged
import Verif.Proofs.Kinds
import Verif.Proofs.Letters
import Verif.Proofs.LiveKept
import Verif.Proofs.LiveReads
import Verif.Proofs.LiveSafe
import Verif.Proofs.LiveText
import Verif.Proofs.LocalC
import Verif.Proofs.LocalD
import Verif.Proofs.LocalR
import Verif.Proofs.LocalT
import Verif.Proofs.LocalV
import Verif.Proofs.LocalW
import Verif.Proofs.Lossless
import Verif.Proofs.Members
import Verif.Proofs.NoBad
import Verif.Proofs.Number
import Verif.Proofs.Once
import Verif.Proofs.OpStep
import Verif.Proofs.Options
import Verif.Proofs.Order
import Verif.Proofs.Owned
import Verif.Proofs.Parser
import Verif.Proofs.Parts
import Verif.Proofs.Prefix
import Verif.Proofs.PrefixRun
import Verif.Proofs.Reads
import Verif.Proofs.Recorded
import Verif.Proofs.Refine
import Verif.Proofs.Relate
import Verif.Proofs.Reorder
import Verif.Proofs.Route
import Verif.Proofs.Scope
import Verif.Proofs.Select
import Verif.Proofs.Shown
import Verif.Proofs.Size
import Verif.Proofs.Sort
import Verif.Proofs.SortEx
import Verif.Proofs.Spelling
import Verif.Proofs.Spoils
import Verif.Proofs.Std
import Verif.Proofs.StructOut
import Verif.Proofs.Tags
import Verif.Proofs.Talk
import Verif.Proofs.Time
import Verif.Proofs.Twin
import Verif.Proofs.Typed
import Verif.Proofs.Unescape
import Verif.Proofs.Utf8
import Verif.Proofs.Visible
import Verif.Proofs.Visits
import Verif.Proofs.Walk
import Verif.Proofs.Writes
import Verif.Proofs.WritesUnique
import Verif.Proofs.YearZero
import Verif.Props.Api
import Verif.Props.Base64
import Verif.Props.Check
import Verif.Props.Compact
import Verif.Props.Compose
import Verif.Props.ComposeError
import Verif.Props.ComposeEx
import Verif.Props.ConcEx
import Verif.Props.Concerns
import Verif.Props.ConcernsEx
import Verif.Props.ConcernsFirst
import Verif.Props.Concurrent
import Verif.Props.Cut
import Verif.Props.CutEx
import Verif.Props.CutExact
import Verif.Props.CutText
import Verif.Props.Data
import Verif.Props.DataBack
import Verif.Props.DataEx
import Verif.Props.Document
import Verif.Props.DocumentEx
import Verif.Props.Duration
import Verif.Props.Econ
import Verif.Props.Endless
import Verif.Props.Exact
import Verif.Props.Faults
import Verif.Props.Fields
import Verif.Props.First
import Verif.Props.Flat
import Verif.Props.FlatEx
import Verif.Props.FlatLoose
import Verif.Props.Float
import Verif.Props.Html
import Verif.Props.Integer
import Verif.Props.Invoked
import Verif.Props.Json
import Verif.Props.Levels
import Verif.Props.Live
import Verif.Props.LiveText
import Verif.Props.Local
import Verif.Props.LocalCut
import Verif.Props.LocalText
import Verif.Props.Loosened
import Verif.Props.LoosenedEx
import Verif.Props.Lossless
import Verif.Props.LosslessEx
import Verif.Props.Mapped
import Verif.Props.MappedEx
import Verif.Props.Maps
import Verif.Props.MapsEx
import Verif.Props.Messages
import Verif.Props.Methods
import Verif.Props.Milder
import Verif.Props.MilderEx
import Verif.Props.Native
import Verif.Props.NativeEx
import Verif.Props.Nested
import Verif.Props.Number
import Verif.Props.Options
import Verif.Props.Races
import Verif.Props.Recast
import Verif.Props.RecastEx
import Verif.Props.Recorded
import Verif.Props.Relay
import Verif.Props.Rename
import Verif.Props.RenameEx
import Verif.Props.RenameFields
import Verif.Props.Respell
import Verif.Props.RespellAdd
import Verif.Props.RespellEx
import Verif.Props.Sample
import Verif.Props.Scope
import Verif.Props.Shop
import Verif.Props.Shown
import Verif.Props.Size
import Verif.Props.Spoils
import Verif.Props.SpoilsEx
import Verif.Props.Std
import Verif.Props.StdEx
import Verif.Props.StringIff
import Verif.Props.StringTag
import Verif.Props.Strings
import Verif.Props.Structs
import Verif.Props.SyncSame
import Verif.Props.Tags
import Verif.Props.Terminate
import Verif.Props.Time
import Verif.Props.Told
import Verif.Props.Transparent
import Verif.Props.Traps
import Verif.Props.TrapsEx
import Verif.Props.Trim
import Verif.Props.TrimEx
import Verif.Props.Universe
import Verif.Props.Visits
import Verif.Props.Writes
import Verif.Props.WritesEx
import Verif.Props.WritesExact
import Verif.Props.WritesUnique
import Verif.Props.Wrong
import Verif.Props.YearZero
