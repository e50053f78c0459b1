import Verif.Props.Universe
import Verif.Proofs.Entry

/-!
# A universe of types for the examples

A program with structs, embedded structs, maps, methods and the natively handled types.
-/

namespace Jettison.Props
open Jettison Jettison.Spec Jettison.Model Jettison.Proofs

def shopDefs : List TypeDef :=
  [ -- 0: int
    { kind := .int .int, name := b! "int", size := 8 },
    -- 2: string
    { kind := .string, name := b! "string", size := 16 },
    -- 4: type Item struct { Name string "name"; Qty int "qty,omitempty"; Code *int "code,omitnil"; Secret string "-"; Price int "p,string" }
    { kind := .struct [fld (b! "Name") 2 0 (b! "name"), fld (b! "Qty") 0 16 (b! "qty,omitempty"), fld (b! "Code") 1 24 (b! "code,omitnil"),
        fld (b! "Secret") 2 32 (b! "-"), fld (b! "Price") 0 48 (b! "p,string")], name := b! "Item", size := 56 },
    -- 6: map[string]Item
    { kind := .map 2 4, size := 8 },
    -- 8: []Item
    { kind := .slice 4, size := 24 },
    -- 10: interface{}
    { kind := .iface 0, size := 16 },
    -- 12: bool
    { kind := .bool, name := b! "bool", size := 1 },
    -- 14: float64
    { kind := .float .f64, name := b! "float64", size := 8 },
    -- 16: uint8
    { kind := .int .uint8, name := b! "uint8", size := 1 },
    -- 18: [3]uint8
    { kind := .array 3 16, size := 3 },
    -- 20: []uint8
    { kind := .slice 16, size := 24 },
    -- 22: type Loud string, with MarshalJSON
    { kind := .string, name := b! "Loud", meths := { json := true }, pmeths := { json := true }, size := 16 },
    -- 24: type Soft string, with MarshalText
    { kind := .string, name := b! "Soft", meths := { text := true }, pmeths := { text := true }, size := 16 },
    -- 26: time.Time
    { kind := .struct [], name := b! "Time", special := some .time, meths := { json := true, text := true },
      pmeths := { json := true, text := true }, size := 24 },
    -- 28: time.Duration
    { kind := .int .int64, name := b! "Duration", special := some .duration, size := 8 },
    -- 30: sync.Map
    { kind := .struct [], name := b! "Map", special := some .syncMap, size := 48 },
    -- 32: map[int]interface{}
    { kind := .map 0 10, size := 8 },
    -- 34: chan int
    { kind := .other, size := 8 },
    -- 36: []chan int
    { kind := .slice 34, size := 24 },
    -- 38: map[chan int]int
    { kind := .map 34 0, size := 8 },
    -- 40: type Base struct { ID int "id"; When time.Duration "when"; Name string }
    { kind := .struct [fld (b! "ID") 0 0 (b! "id"), fld (b! "When") 28 8 (b! "when"), fld (b! "Name") 2 16], name := b! "Base", size := 32 },
    -- 42: type Full struct { *Base; L []Loud; M map[Soft]int; A [3]uint8; Any interface{}; P PLoud; N Loud "n,omitnil" }
    { kind := .struct [emb (b! "Base") 81 0, fld (b! "L") 46 8, fld (b! "M") 48 32, fld (b! "A") 18 40, fld (b! "Any") 10 48,
        fld (b! "P") 44 64, fld (b! "N") 22 72 (b! "n,omitnil")], name := b! "Full", size := 88 },
    -- 44: type PLoud struct { N int }, with MarshalJSON on *PLoud
    { kind := .struct [fld (b! "N") 0 0], name := b! "PLoud", pmeths := { json := true }, size := 8 },
    -- 46: []Loud
    { kind := .slice 22, size := 24 },
    -- 48: map[Soft]int
    { kind := .map 24 0, size := 8 },
    -- 50: json.Number
    { kind := .string, name := b! "Number", special := some .number, size := 16 },
    -- 52: json.RawMessage
    { kind := .slice 16, name := b! "RawMessage", special := some .rawMessage, size := 24 },
    -- 54: type Text struct { A, B int }, with AppendJSONContext, AppendJSON, MarshalJSON and MarshalText
    { kind := .struct [fld (b! "A") 0 0, fld (b! "B") 0 8], name := b! "Text", meths := { appendCtx := true, append := true, json := true, text := true },
      pmeths := { appendCtx := true, append := true, json := true, text := true }, size := 16 },
    -- 56: []int
    { kind := .slice 0, size := 24 },
    -- 58: map[string]int
    { kind := .map 2 0, size := 8 },
    -- 60: map[string]interface{}
    { kind := .map 2 10, size := 8 },
    -- 62: []PLoud
    { kind := .slice 44, size := 24 },
    -- 64: type Node struct { N int; Next *Node }
    { kind := .struct [fld (b! "N") 0 0, fld (b! "Next") 129 8], name := b! "Node", size := 16 } ]

/-- `MarshalJSON` returns an array with a space, except on the strings `nil`, where it
returns `null`, `fail`, where it returns an error, and `boom`, where it panics; `MarshalText` returns the receiver's text, `AppendJSON` appends 7 and
`AppendJSONContext` 8. -/
def shopMeth : MethKind → Option Ctx → TId → Option Bytes → Bytes → MethRes
  | .json, _, _, s, _ => if s = some (b! "fail") then .err 3 else if s = some (b! "boom") then .panic else .ok (if s = some (b! "nil") then b! "null" else b! "[1, 2]")
  | .text, _, _, s, _ => .ok (s.getD (b! "t"))
  | .append, _, _, _, dst => .ok (dst ++ b! "7")
  | .appendCtx, _, _, _, dst => .ok (dst ++ b! "8")

theorem shop_ok : univOk shopDefs = true := by decide +kernel

/-- The memory of an example. -/
def shopH (cells : List (Addr × Cell)) : Heap := univHeap shopDefs shopMeth cells

/-- The world of the examples. -/
def shopW : World := univW shopDefs

theorem shop_ready (cells : List (Addr × Cell)) : Ready shopW (shopH cells) (univM shopMeth) :=
  univ_ready shop_ok shopMeth cells

theorem shop_honest (cells : List (Addr × Cell)) : HonestAppend (shopH cells).meth := by
  rintro path m ctx t w (rfl | rfl)
  · exact .inr <| .inr ⟨b! "7", fun dst => rfl⟩
  · exact .inr <| .inr ⟨b! "8", fun dst => rfl⟩

theorem shop_names : GoNames shopW.U.isLetter shopW.U.isDigit shopW.E := univ_names (by decide +kernel)

/-- The memory holds the value in an interface. -/
theorem shop_holds {cells : List (Addr × Cell)} {x : Eface} {v : Val} (n : Nat)
    (h : checkE (univE shopDefs) (isInlined (univE shopDefs) 10) (shopH cells).mem n x v = true) :
    ReprE shopW.E (shopH cells).mem x v := univ_repr n h

/-- The value at an address, for types not held directly. -/
theorem shop_at {cells : List (Addr × Cell)} {t : TId} {w : Addr} {v : Val} (n : Nat)
    (h : (checkE (univE shopDefs) (isInlined (univE shopDefs) 10) (shopH cells).mem n (some (t, w)) (.iface t v) &&
      !isInlined (univE shopDefs) 10 t) = true) : Repr shopW.E (shopH cells).mem t (.heap w) v := by
  rw [Bool.and_eq_true] at h
  obtain ⟨rank, hr, hlt⟩ := univ_nest shop_ok
  cases shop_holds n h.1 with
  | direct hd _ => have := (isInlined_iff hr 10 t (hlt t)).mpr hd; rw [this] at h; simp at h
  | indirect _ h => exact h

/-- The value stands in the interface. -/
theorem shop_stands {cells : List (Addr × Cell)} {t : TId} {w : Addr} {v : Val} (n : Nat)
    (h : checkE (univE shopDefs) (isInlined (univE shopDefs) 10) (shopH cells).mem n (some (t, w)) (.iface t v) = true) {i : Instr}
    (hi : newInstruction shopW.E shopW.tfuel t (isPtrK (shopW.E t).kind) false = some i) :
    ∃ p, Stands shopW (shopH cells) t (isPtrK (shopW.E t).kind) false i p v :=
  entry_stands (shop_ready cells) (shop_holds n h) hi

/-- A stock of two items and a `Full`. -/
def shopCells : List (Addr × Cell) :=
  [(100, .word 200), (108, .slice 240 2), (132, .word 290), (290, .hmap [(300, 316)]), (140, .int (.uint8 1)), (141, .int (.uint8 2)), (142, .int (.uint8 3)),
   (148, .eface (some (0, 320))), (164, .int (.int 5)), (172, .str (b! "nil")), (200, .int (.int 9)), (208, .int (.int64 1000000000)), (216, .str (b! "base")),
   (240, .str (b! "a")), (256, .str (b! "b")), (300, .str (b! "k")), (316, .int (.int 4)), (320, .int (.int 6)),
   (400, .str (b! "tea")), (416, .int (.int 0)), (424, .word 0), (432, .str (b! "x")), (448, .int (.int 12))]

def itemV : Val := .struct [.str (b! "tea"), .int (.int 0), .nil, .str (b! "x"), .int (.int 12)]

def fullV : Val :=
  .struct [.ptr (.struct [.int (.int 9), .int (.int64 1000000000), .str (b! "base")]), .slice [.str (b! "a"), .str (b! "b")],
    .map [(.str (b! "k"), .int (.int 4))], .array [.int (.uint8 1), .int (.uint8 2), .int (.uint8 3)], .iface 0 (.int (.int 6)),
    .struct [.int (.int 5)], .str (b! "nil")]

example : ∃ p, Stands shopW (shopH shopCells) 42 false false (.struct 42 false) p fullV := shop_stands (w := 100) 6 (by decide +kernel) (by decide +kernel)

example : marshal shopW (shopH shopCells) 9 (some (42, 100)) =
    .ret (some (b! "{\"id\":9,\"when\":1000000000,\"Name\":\"base\",\"L\":[[1,2],[1,2]],\"M\":{\"k\":4},\"A\":[1,2,3],\"Any\":6,\"P\":{\"N\":5}}")) none := by
  decide +kernel

example : marshal shopW (shopH shopCells) 9 (some (85, 100)) =
    .ret (some (b! "{\"id\":9,\"when\":1000000000,\"Name\":\"base\",\"L\":[[1,2],[1,2]],\"M\":{\"k\":4},\"A\":[1,2,3],\"Any\":6,\"P\":[1,2]}")) none := by
  decide +kernel

example : marshal shopW (shopH shopCells) 9 (some (4, 400)) = .ret (some (b! "{\"name\":\"tea\",\"p\":\"12\"}")) none := by
  decide +kernel

end Jettison.Props
