import Verif.Py
import Verif.Bytes
import Verif.Struct.Numeric
import Verif.Struct.NumericLemmas
import Verif.Struct.BitIO
import Verif.Struct.BitIOLemmas
import Verif.Struct.Stream
import Verif.Struct.StreamLemmas
import Verif.Struct.MinMax
import Verif.Struct.Schema
import Verif.Struct.Wire
import Verif.Struct.WireLemmas
import Verif.Struct.BitsLemmas
import Verif.Struct.ClassLemmas
import Verif.Struct.AttrsLemmas
import Verif.Struct.Frame
import Verif.Struct.Repr
import Verif.Struct.Progress
import Verif.Buffer.Range
import Verif.Buffer.RangeOrder
import Verif.Buffer.BitView
import Verif.Buffer.BitViewLemmas
import Verif.Buffer.IOBuffer
import Verif.Buffer.BitRange
import Verif.Buffer.Serialize

import Verif.Props.Numeric
import Verif.Props.BitFields
import Verif.Props.Selectors
import Verif.Props.SelectByFunc
import Verif.Props.Strings
import Verif.Props.Arrays
import Verif.Props.Structs
import Verif.Props.Equality
import Verif.Props.Sizes
import Verif.Props.Ranges
import Verif.Props.BitViews
import Verif.Props.Scatter
import Verif.Props.BitRanges
import Verif.Props.Serialize
import Verif.Buffer.Engine
import Verif.Props.References
import Verif.Props.Demand
import Verif.Buffer.Class
import Verif.Buffer.Deep
import Verif.Buffer.Operators
import Verif.Buffer.Declare
import Verif.Buffer.Sequence
import Verif.Buffer.Subclass
import Verif.Buffer.Compat
import Verif.Props.Ordinary
import Verif.Props.Buffers
import Verif.Props.Termination
import Verif.Props.Static
import Verif.Props.Plain
import Verif.Props.Pack
import Verif.Props.Unpack
import Verif.Props.RoundTrip
import Verif.Props.Fits
import Verif.Props.Flat
import Verif.Props.Dynamic
import Verif.Props.Prefixed
import Verif.Props.Used
import Verif.Props.Conditional
import Verif.Props.Operators
import Verif.Props.Subclass
import Verif.Props.Repeat
import Verif.Props.Deep
import Verif.Props.DeepAfter
import Verif.Props.Stale
import Verif.Props.Touches
import Verif.Props.Emit
import Verif.Props.Surround
import Verif.Props.Values
import Verif.Props.RefValues
import Verif.Props.Accepts
import Verif.Props.Cut
import Verif.Props.Declare
import Verif.Props.Sequence
import Verif.Props.InsertExact
import Verif.Props.ScatterExact
import Verif.Struct.Macros
import Verif.Props.Macros
import Verif.Props.SelfExtend
import Verif.Props.BitRangesExact
import Verif.Props.IntSlices
import Verif.Props.RangesExact
import Verif.Props.RangeOrder
import Verif.Struct.Text
import Verif.Props.ReprText
import Verif.Props.ReprFloat
import Verif.Props.Refusals
import Verif.Props.Items
import Verif.Props.Details
import Verif.Props.Print
import Verif.Props.Compat
import Verif.Kwargs
import Verif.Props.Contexts
import Verif.Struct.Init
import Verif.Props.Init
import Verif.Struct.Lazy
import Verif.Struct.Emit
import Verif.Props.Lazy
import Verif.Struct.LazyTree
import Verif.Props.LazyTree
import Verif.Buffer.Construct
import Verif.Props.Construct
import Verif.Buffer.CalcSize
import Verif.Buffer.Leaves
import Verif.Props.After
import Verif.Props.CalcSize
import Verif.Props.Json
import Verif.Props.Report
import Verif.Props.Repr
import Verif.Props.OpenEnd
import Verif.Props.Errors
import Verif.Props.Depends
import Verif.Validate.Views
import Verif.Validate.Structs
import Verif.Validate.Buffers
import Verif.Props.Choose
import Verif.Struct.LazyText
import Verif.Props.LazyPrint
import Verif.Props.BitInts
import Verif.Props.UserMarshals
import Verif.Props.Floats
import Verif.Props.AsText
import Verif.Buffer.NestedView
import Verif.Props.NestedView
import Verif.Props.Renaming
import Verif.Props.Extend
import Verif.Props.WriteBack
import Verif.Props.Unchanged
import Verif.Props.Inherit
import Verif.Props.RangeText
import Verif.Props.FormatText
import Verif.Props.Rename
import Verif.Props.Limit
import Verif.Props.Group
import Verif.Props.Offset
import Verif.Props.Trailing
import Verif.Props.Only
import Verif.Props.Framing
