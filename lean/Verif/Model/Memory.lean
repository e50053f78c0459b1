import Verif.Model.Types
import Verif.Model.Time

/-!
# Memory as the instructions see it (/repo/unsafe.go)

An address is a number, 0 is nil. A cell holds one scalar or header at the
address where it starts: sizes and offsets enter only through address
arithmetic. A read through an `unsafe.Pointer` of a given Go type succeeds when
the cell holds data of the layout of that type; otherwise the model reports a
misread (`none`), which the code would not notice.
-/

namespace Jettison.Model
open Jettison.Spec (FWidth)

/-- An address held in memory. An `unsafe.Pointer`, /repo/unsafe.go. -/
abbrev Addr := Nat

/-- An interface value of either layout: nothing, or a dynamic type and a data
word (/repo/unsafe.go:8-13). -/
abbrev Eface := Option (TId × Addr)

/-- What is stored at an address.
- `word`: anything pointer-shaped (pointers and maps);
- `slice`: the slice header (/repo/unsafe.go:15-21), capacity left out;
- `str`: a string header together with the bytes it points to;
- `eface`: an empty interface; `iface`: an interface with methods, whose first
  word is not the type;
- `time`: a `time.Time`;
- `hmap`: the runtime's map object: addresses of keys and values;
- `smap`: a `sync.Map`, by its entries. -/
inductive Cell
  | bool (b : Bool)
  | int (v : IntVal)
  | float (w : FWidth) (bits : Nat)
  | str (b : Bytes)
  | word (a : Addr)
  | slice (data : Addr) (len : Nat)
  | eface (v : Eface)
  | iface (v : Eface)
  | time (t : GoTime)
  | hmap (entries : List (Addr × Addr))
  | smap (entries : List (Eface × Eface))
  deriving DecidableEq

/-- Memory during one call; the encoder never writes to it. What the pointers of /repo/unsafe.go lead to. -/
abbrev Mem := Addr → Option Cell

/-- An `unsafe.Pointer` held by an instruction: an address, or the address of a
local variable holding the word `w` (`&p` in `wrapInlineInstr`,
/repo/instruction.go:407-411). -/
inductive Loc
  | heap (a : Addr)
  | tmp (w : Addr)
  deriving DecidableEq, Repr

/-- `unsafe.Pointer(uintptr(p) + off)`. Beyond a local variable there is nothing
to point to (/repo/encode.go:214, 319). -/
def Loc.add : Loc → Nat → Loc
  | .heap a, off => .heap (a + off)
  | .tmp w, off => if off = 0 then .tmp w else .heap 0

/-- The cell at a location. As /repo/encode.go:25 reads. -/
def Mem.at (m : Mem) : Loc → Option Cell
  | .heap a => if a = 0 then none else m a
  | .tmp w => some (.word w)

/-- `*(*unsafe.Pointer)(p)` where a pointer or a map is expected (/repo/encode.go:186, 216, 352;
/repo/unsafe.go:50; /repo/instruction.go:427). -/
def readWord (m : Mem) (p : Loc) : Option Addr :=
  match m.at p with | some (.word a) => some a | _ => none

/-- `*(*unsafe.Pointer)(p) == nil` on anything whose first word is a pointer:
pointers, maps, slices and interfaces (/repo/encode.go:226, 652; /repo/types.go:171-174). -/
def firstWordNil (m : Mem) (p : Loc) : Option Bool :=
  match m.at p with
  | some (.word a) => some (a == 0)
  | some (.slice d _) => some (d == 0)
  | some (.eface v) => some v.isNone
  | some (.iface v) => some v.isNone
  | _ => none

/-- `*(*bool)(p)` (/repo/encode.go:25). -/
def readBool (m : Mem) (p : Loc) : Option Bool :=
  match m.at p with | some (.bool b) => some b | _ => none

/-- The kind an integer value belongs to (/repo/integer.go:9-83). -/
def IntVal.kind : IntVal → IntK
  | .int _ => .int | .int8 _ => .int8 | .int16 _ => .int16 | .int32 _ => .int32 | .int64 _ => .int64
  | .uint _ => .uint | .uint8 _ => .uint8 | .uint16 _ => .uint16 | .uint32 _ => .uint32
  | .uint64 _ => .uint64 | .uintptr _ => .uintptr

/-- `*(*int)(p)`, `*(*int8)(p)` and so on (/repo/integer.go:9-83). -/
def readInt (m : Mem) (k : IntK) (p : Loc) : Option IntVal :=
  match m.at p with | some (.int v) => if v.kind = k then some v else none | _ => none

/-- `*(*float32)(p)`, `*(*float64)(p)`, as bits (/repo/encode.go:56, 62). -/
def readFloat (m : Mem) (w : FWidth) (p : Loc) : Option Nat :=
  match m.at p with | some (.float w' b) => if w' = w then some b else none | _ => none

/-- `*(*string)(p)` and `sp2b(p)`, /repo/unsafe.go:58-67. -/
def readStr (m : Mem) (p : Loc) : Option Bytes :=
  match m.at p with | some (.str b) => some b | _ => none

/-- `(*sliceHeader)(p)`: data and length (/repo/encode.go:265, /repo/types.go:177). -/
def readSlice (m : Mem) (p : Loc) : Option (Addr × Nat) :=
  match m.at p with | some (.slice d n) => some (d, n) | _ => none

/-- The bytes at `p`, `p+1` and so on (/repo/encode.go:337-341). -/
def readBytesAt (m : Mem) : Nat → Loc → Option Bytes
  | 0, _ => some []
  | n + 1, p =>
    match m.at p with
    | some (.int (.uint8 v)) => (readBytesAt m n (p.add 1)).map (v :: ·)
    | _ => none

/-- `*(*[]byte)(p)`: `some none` is the nil slice (/repo/encode.go:95, 284). -/
def readByteSlice (m : Mem) (p : Loc) : Option (Option Bytes) :=
  match readSlice m p with
  | some (d, n) => if d = 0 then some none else (readBytesAt m n (.heap d)).map some
  | none => none

/-- `*(*interface{})(p)`. An interface with methods is read correctly only when it
is nil: its first word is not a type otherwise (/repo/encode.go:66, 669). -/
def readEface (m : Mem) (p : Loc) : Option Eface :=
  match m.at p with
  | some (.eface v) => some v
  | some (.iface none) => some none
  | _ => none

/-- `*(*interface{ M() })(p)` (/repo/encode.go:671). -/
def readIface (m : Mem) (p : Loc) : Option Eface :=
  match m.at p with | some (.iface v) => some v | _ => none

/-- `*(*time.Time)(p)` (/repo/encode.go:108). -/
def readTime (m : Mem) (p : Loc) : Option GoTime :=
  match m.at p with | some (.time t) => some t | _ => none

/-- The entries of the map object at `a` (`maplen`, `mapiterinit`, `mapiternext`,
/repo/map.go:57-67). -/
def readMap (m : Mem) (a : Addr) : Option (List (Addr × Addr)) :=
  match m.at (.heap a) with | some (.hmap es) => some es | _ => none

/-- The entries of the `sync.Map` at `p` (`Range`) (/repo/encode.go:482, 511, 545). -/
def readSyncMap (m : Mem) (p : Loc) : Option (List (Eface × Eface)) :=
  match m.at p with | some (.smap es) => some es | _ => none

end Jettison.Model
