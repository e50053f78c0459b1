import Verif.Props.Structs
import Verif.Props.Universe
import Verif.Proofs.Parser

/-!
# Calls that do not do what they should (findings in DESIGN.md)

Each theorem shows a value of ordinary Go types (`Ready` holds: none of the traps of
C36 is involved) and the outcome of a call that contradicts the statement of a property,
which is therefore proved with a restriction.
-/

namespace Jettison.Props
open Jettison Jettison.Spec Jettison.Model Jettison.Proofs

def wrongDefs : List TypeDef :=
  [ -- 0: int
    { kind := .int .int, name := b! "int", size := 8 },
    -- 2: string
    { kind := .string, name := b! "string", size := 16 },
    -- 4: type Nul string, with MarshalJSON
    { kind := .string, name := b! "Nul", meths := { json := true }, pmeths := { json := true }, size := 16 },
    -- 6: struct { A Nul "a,omitnil"; B int "b" }
    { kind := .struct [fld (b! "A") 4 0 (b! "a,omitnil"), fld (b! "B") 0 16 (b! "b")], size := 24 },
    -- 8: type Txt string, with MarshalText
    { kind := .string, name := b! "Txt", meths := { text := true }, pmeths := { text := true }, size := 16 },
    -- 10: json.Number
    { kind := .string, name := b! "Number", special := some .number, size := 16 },
    -- 12: struct { N json.Number "n,string"; D time.Duration "d,string" }
    { kind := .struct [fld (b! "N") 10 0 (b! "n,string"), fld (b! "D") 24 16 (b! "d,string")], size := 24 },
    -- 14: struct { S string "s,string"; T string "t" }
    { kind := .struct [fld (b! "S") 2 0 (b! "s,string"), fld (b! "T") 2 16 (b! "t")], size := 32 },
    -- 16: []uint8
    { kind := .slice 18, size := 24 },
    -- 18: uint8
    { kind := .int .uint8, name := b! "uint8", size := 1 },
    -- 20: json.RawMessage
    { kind := .slice 18, name := b! "RawMessage", special := some .rawMessage, size := 24 },
    -- 22: map[string]int
    { kind := .map 2 0, size := 8 },
    -- 24: time.Duration
    { kind := .int .int64, name := b! "Duration", special := some .duration, size := 8 },
    -- 26: map[time.Duration]int
    { kind := .map 24 0, size := 8 },
    -- 28: time.Time
    { kind := .struct [], name := b! "Time", special := some .time, meths := { json := true, text := true },
      pmeths := { json := true, text := true }, size := 24 },
    -- 30: map[time.Time]int
    { kind := .map 28 0, size := 8 },
    -- 32: sync.Map
    { kind := .struct [], name := b! "Map", special := some .syncMap, size := 48 },
    -- 34: type Dual string, with AppendJSON and MarshalText
    { kind := .int .int, name := b! "Dual", meths := { append := true, text := true }, pmeths := { append := true, text := true }, size := 8 },
    -- 36: map[Dual]int
    { kind := .map 34 0, size := 8 },
    -- 38: type Rec []Rec
    { kind := .slice 38, name := b! "Rec", size := 24 },
    -- 40: struct { *Inner }
    { kind := .struct [emb (b! "Inner") 85 0], size := 8 },
    -- 42: type Inner struct { B Blob; C int }
    { kind := .struct [fld (b! "B") 44 0, fld (b! "C") 0 0], name := b! "Inner", size := 8 },
    -- 44: type Blob struct{}, with MarshalJSON on *Blob
    { kind := .struct [], name := b! "Blob", pmeths := { json := true }, size := 0 },
    -- 46: interface{}
    { kind := .iface 0, size := 16 },
    -- 48: map[string]interface{}
    { kind := .map 2 46, size := 8 },
    -- 50: encoding.TextMarshaler
    { kind := .iface 1, name := b! "TextMarshaler", meths := { text := true }, size := 16 },
    -- 52: map[encoding.TextMarshaler]int
    { kind := .map 50 0, size := 8 } ]

/-- `MarshalJSON` returns `null` on a `Nul` and `"blob"` otherwise, `MarshalText` the
receiver's text, `AppendJSON` appends 77. -/
def wrongMeth : MethKind → Option Ctx → TId → Option Bytes → Bytes → MethRes
  | .json, _, t, _, _ => .ok (if t = 4 then b! "null" else b! "\"blob\"")
  | .text, _, _, s, _ => .ok (s.getD (b! "t"))
  | _, _, _, _, dst => .ok (dst ++ b! "77")

theorem wrong_ok : univOk wrongDefs = true := by decide +kernel

/-- The memory of a counterexample. -/
def wrongH (cells : List (Addr × Cell)) : Heap := univHeap wrongDefs wrongMeth cells

/-- The world of the counterexamples. -/
def wrongW : World := univW wrongDefs

theorem wrong_ready (cells : List (Addr × Cell)) : Ready wrongW (wrongH cells) (univM wrongMeth) :=
  univ_ready wrong_ok wrongMeth cells

theorem wrong_honest (cells : List (Addr × Cell)) : HonestAppend (wrongH cells).meth := by
  rintro path m ctx t w (rfl | rfl)
  · exact .inr <| .inr ⟨b! "77", fun dst => rfl⟩
  · exact .inr <| .inr ⟨b! "77", fun dst => rfl⟩

/-- The memory holds the value in an interface. -/
theorem wrong_holds {cells : List (Addr × Cell)} {x : Eface} {v : Val} (n : Nat)
    (h : checkE (univE wrongDefs) (isInlined (univE wrongDefs) 10) (wrongH cells).mem n x v = true) :
    ReprE wrongW.E (wrongH cells).mem x v := univ_repr n h

/-- Finding 1: when the first field encoded is dropped because its text is `null`, the
comma before the next one stays. -/
theorem C21_null_first_wrong : ∃ H v out, Ready wrongW H (univM wrongMeth) ∧ ReprE wrongW.E H.mem (some (6, 100)) (.iface 6 v) ∧
    marshal wrongW H 5 (some (6, 100)) = .ret (some out) none ∧ ∀ j, ¬ JsonText j out :=
  ⟨wrongH [(100, .str (b! "x")), (116, .int (.int 1))], .struct [.str (b! "x"), .int (.int 1)], b! "{,\"b\":1}",
    wrong_ready _, wrong_holds 5 (by decide +kernel), by decide +kernel, not_jsonText (by decide +kernel)⟩

/-- Finding 2: what `MarshalText` returns is put between quotes without escaping. -/
theorem C46_text_wrong : ∃ H v out, Ready wrongW H (univM wrongMeth) ∧ ReprE wrongW.E H.mem (some (8, 100)) (.iface 8 v) ∧
    v = .str (b! "a\"b") ∧ marshal wrongW H 5 (some (8, 100)) = .ret (some out) none ∧ ∀ j, ¬ JsonText j out :=
  ⟨wrongH [(100, .str (b! "a\"b"))], _, b! "\"a\"b\"", wrong_ready _, wrong_holds 5 (by decide +kernel), rfl, by decide +kernel,
    not_jsonText (by decide +kernel)⟩

/-- Finding 3: the `string` option on a string: the content of the JSON string is not the
JSON text of the value. The second field shows that text. -/
theorem C38_string_wrong : ∃ H v out body inner, Ready wrongW H (univM wrongMeth) ∧ ReprE wrongW.E H.mem (some (14, 100)) (.iface 14 v) ∧
    v = .struct [.str (b! "a\"b"), .str (b! "a\"b")] ∧ marshal wrongW H 5 (some (14, 100)) = .ret (some out) none ∧
    out = b! "{\"s\":" ++ strToken body ++ b! ",\"t\":" ++ inner ++ b! "}" ∧ unescape body = some (b! "\"a\"b\"") ∧
    inner ≠ b! "\"a\"b\"" ∧ CompactText (.str (b! "a\"b")) inner :=
  ⟨wrongH [(100, .str (b! "a\"b")), (116, .str (b! "a\"b"))], _, b! "{\"s\":\"\\\"a\\\"b\\\"\",\"t\":\"a\\\"b\"}", b! "\\\"a\\\"b\\\"", b! "\"a\\\"b\"",
    wrong_ready _, wrong_holds 5 (by decide +kernel), rfl, by decide +kernel, by decide +kernel, by decide +kernel, by decide +kernel,
    .str (b! "a\\\"b") _ (by decide +kernel)⟩

/-- Finding 6: the `string` option does nothing on the natively handled types of basic
kind. -/
theorem C38_native_wrong : ∃ H v, Ready wrongW H (univM wrongMeth) ∧ ReprE wrongW.E H.mem (some (12, 100)) (.iface 12 v) ∧
    marshalOpts wrongW H 5 (some (12, 100)) [some (.durationFormat 5)] = .ret (some (b! "{\"n\":12,\"d\":7}")) none :=
  ⟨wrongH [(100, .str (b! "12")), (116, .int (.int64 7))], .struct [.str (b! "12"), .int (.int64 7)], wrong_ready _, wrong_holds 5 (by decide +kernel), by decide +kernel⟩

/-- Finding 4: a nil `[]byte` is `null` even with `NilSliceEmpty`. -/
theorem C25_nil_bytes_wrong : ∃ H, Ready wrongW H (univM wrongMeth) ∧ ReprE wrongW.E H.mem (some (16, 100)) (.iface 16 .nil) ∧
    marshalOpts wrongW H 5 (some (16, 100)) [some (.flag .nilSliceEmpty)] = .ret (some (b! "null")) none :=
  ⟨wrongH [(100, .slice 0 0)], wrong_ready _, wrong_holds 5 (by decide +kernel), by decide +kernel⟩

/-- Finding 7: a `json.RawMessage` is not checked: an empty one vanishes, and a malformed
one is copied. -/
theorem C30_raw_wrong : ∃ H v out, Ready wrongW H (univM wrongMeth) ∧ ReprE wrongW.E H.mem (some (20, 100)) (.iface 20 v) ∧
    marshal wrongW H 5 (some (20, 100)) = .ret (some out) none ∧ ∀ j, ¬ JsonText j out :=
  ⟨wrongH [(100, .slice 200 1), (200, .int (.uint8 (c! '{')))], .slice [.int (.uint8 (c! '{'))], b! "{", wrong_ready _,
    wrong_holds 5 (by decide +kernel), by decide +kernel, not_jsonText (by decide +kernel)⟩

/-- Finding 9: a map with `time.Duration` keys and the string format. -/
theorem C30_duration_key_wrong : ∃ H v out, Ready wrongW H (univM wrongMeth) ∧ ReprE wrongW.E H.mem (some (26, 100)) (.iface 26 v) ∧
    marshalOpts wrongW H 5 (some (26, 100)) [some (.durationFormat 0)] = .ret (some out) none ∧ ∀ j, ¬ JsonText j out :=
  ⟨wrongH [(100, .hmap [(110, 120)]), (110, .int (.int64 1000000000)), (120, .int (.int 1))], .map [(.int (.int64 1000000000), .int (.int 1))],
    b! "{\"\"1s\"\":1}", wrong_ready _, wrong_holds 5 (by decide +kernel), by decide +kernel, not_jsonText (by decide +kernel)⟩

/-- Finding 9: a map with `time.Time` keys and `UnixTime`: the key has no quotes. -/
theorem C30_time_key_wrong : ∃ H v out, Ready wrongW H (univM wrongMeth) ∧ ReprE wrongW.E H.mem (some (30, 100)) (.iface 30 v) ∧
    marshalOpts wrongW H 5 (some (30, 100)) [some (.flag .unixTime)] = .ret (some out) none ∧ ∀ j, ¬ JsonText j out :=
  ⟨wrongH [(100, .hmap [(110, 120)]), (110, .time ⟨100, 0, 0⟩), (120, .int (.int 1))], .map [(.time ⟨100, 0, 0⟩, .int (.int 1))],
    b! "{100:1}", wrong_ready _, wrong_holds 5 (by decide +kernel), by decide +kernel, not_jsonText (by decide +kernel)⟩

/-- Finding 26: a `TimeLayout` with a quote, which `AppendFormat` copies (so does the `appendFormat` of this program): the
result is put between quotes without escapes. -/
theorem C30_layout_wrong : ∃ H v out, Ready wrongW H (univM wrongMeth) ∧ ReprE wrongW.E H.mem (some (28, 100)) (.iface 28 v) ∧
    (∀ t, wrongW.appendFormat t (b! "\"") = b! "\"") ∧
    marshalOpts wrongW H 5 (some (28, 100)) [some (.timeLayout (b! "\""))] = .ret (some out) none ∧ ∀ j, ¬ JsonText j out :=
  ⟨wrongH [(100, .time ⟨100, 0, 0⟩)], .time ⟨100, 0, 0⟩, b! "\"\"\"", wrong_ready _, wrong_holds 5 (by decide +kernel), fun _ => rfl,
    by decide +kernel, not_jsonText (by decide +kernel)⟩

/-- Finding 22: a nil `encoding.TextMarshaler` as a map key: the key has no quotes. -/
theorem C45_nil_iface_key_wrong : ∃ H v out, Ready wrongW H (univM wrongMeth) ∧ ReprE wrongW.E H.mem (some (52, 100)) (.iface 52 v) ∧
    v = .map [(.nil, .int (.int 1))] ∧ marshal wrongW H 5 (some (52, 100)) = .ret (some out) none ∧ ∀ j, ¬ JsonText j out :=
  ⟨wrongH [(100, .hmap [(110, 120)]), (110, .iface none), (120, .int (.int 1))], .map [(.nil, .int (.int 1))],
    b! "{null:1}", wrong_ready _, wrong_holds 5 (by decide +kernel), rfl, by decide +kernel, not_jsonText (by decide +kernel)⟩

/-- Finding 9: the same with a key of one digit: the call panics. -/
theorem C30_time_key_panic : ∃ H v, Ready wrongW H (univM wrongMeth) ∧ ReprE wrongW.E H.mem (some (30, 100)) (.iface 30 v) ∧
    marshalOpts wrongW H 5 (some (30, 100)) [some (.flag .unixTime)] = .panic :=
  ⟨wrongH [(100, .hmap [(110, 120)]), (110, .time ⟨0, 0, 0⟩), (120, .int (.int 1))], .map [(.time ⟨0, 0, 0⟩, .int (.int 1))],
    wrong_ready _, wrong_holds 5 (by decide +kernel), by decide +kernel⟩

/-- Finding 9: a key type with `MarshalText` and `AppendJSON`: the latter is used for the
key, without quotes. -/
theorem C26_text_key_wrong : ∃ H v out, Ready wrongW H (univM wrongMeth) ∧ ReprE wrongW.E H.mem (some (36, 100)) (.iface 36 v) ∧
    marshal wrongW H 5 (some (36, 100)) = .ret (some out) none ∧ ∀ j, ¬ JsonText j out :=
  ⟨wrongH [(100, .hmap [(110, 120)]), (110, .int (.int 5)), (120, .int (.int 1))], .map [(.int (.int 5), .int (.int 1))],
    b! "{77:1}", wrong_ready _, wrong_holds 5 (by decide +kernel), by decide +kernel, not_jsonText (by decide +kernel)⟩

/-- Finding 8: two keys that are coerced to the same text: the output depends on the
order in which the runtime visits the entries. -/
theorem C23_coerced_keys_wrong : ∃ H v out out', Ready wrongW H (univM wrongMeth) ∧ ReprE wrongW.E H.mem (some (22, 100)) (.iface 22 v) ∧
    marshal wrongW H 5 (some (22, 100)) = .ret (some out) none ∧
    marshal { wrongW with order := fun _ n => List.range n } H 5 (some (22, 100)) = .ret (some out') none ∧ out ≠ out' :=
  ⟨wrongH [(100, .hmap [(110, 120), (130, 140)]), (110, .str [0xff]), (120, .int (.int 1)), (130, .str [0xfe]), (140, .int (.int 2))],
    .map [(.str [0xff], .int (.int 1)), (.str [0xfe], .int (.int 2))],
    b! "{\"\\ufffd\":2,\"\\ufffd\":1}", b! "{\"\\ufffd\":1,\"\\ufffd\":2}",
    wrong_ready _, wrong_holds 5 (by decide +kernel), by decide +kernel, by decide +kernel, by decide +kernel⟩

/-- Finding 10: a nil value in a `sync.Map` makes the call panic, in a map it is `null`. -/
theorem C39_nil_value_wrong : ∃ H v v', Ready wrongW H (univM wrongMeth) ∧ ReprE wrongW.E H.mem (some (32, 100)) (.iface 32 (.smap v)) ∧
    ReprE wrongW.E H.mem (some (48, 200)) (.iface 48 (.map v')) ∧
    v = [(.iface 2 (.str (b! "k")), .nil)] ∧ v' = [(.str (b! "k"), .nil)] ∧
    marshal wrongW H 5 (some (32, 100)) = .panic ∧ marshal wrongW H 5 (some (48, 200)) = .ret (some (b! "{\"k\":null}")) none :=
  ⟨wrongH [(100, .smap [(some (2, 110), none)]), (110, .str (b! "k")), (200, .hmap [(110, 120)]), (120, .eface none)], _, _,
    wrong_ready _, wrong_holds 5 (by decide +kernel), wrong_holds 5 (by decide +kernel), rfl, rfl, by decide +kernel, by decide +kernel⟩

/-- Finding 14: creating the instruction of `type Rec []Rec` does not end: no bound on
the recursion is enough. -/
theorem C33_self_slice_wrong : ∀ k ca q, newInstruction wrongW.E k 38 ca q = none
  | 0, _, _ => rfl
  | k + 1, ca, q => by
    have ih := C33_self_slice_wrong k true false
    have h1 : (wrongW.E 38).kind = .slice 38 := by decide +kernel
    have h2 : newGoTypeInstr wrongW.E 38 = none := by decide +kernel
    have h3 : newMarshalerTypeInstr wrongW.E 38 ca = none := by cases ca <;> decide +kernel
    have h4 : isByteElem wrongW.E 38 = false := by decide +kernel
    simp only [newInstruction, h1, h2, h3, newBasicTypeInstr, h4, Bool.false_eq_true, if_false, ih, Option.map_none]

/-- Finding 17: a field behind an embedded pointer is addressable, but its method with a
pointer receiver is not used when the outer struct is not. Behind an ordinary pointer
it is. -/
theorem C26_embedded_pointer_wrong : ∃ H v, Ready wrongW H (univM wrongMeth) ∧ ReprE wrongW.E H.mem (some (40, 200)) (.iface 40 v) ∧
    v = .struct [.ptr (.struct [.struct [], .int (.int 3)])] ∧
    marshal wrongW H 6 (some (40, 200)) = .ret (some (b! "{\"B\":{},\"C\":3}")) none ∧
    marshal wrongW H 6 (some (85, 200)) = .ret (some (b! "{\"B\":\"blob\",\"C\":3}")) none :=
  ⟨wrongH [(200, .int (.int 3))], _, wrong_ready _, wrong_holds 6 (by decide +kernel), rfl, by decide +kernel, by decide +kernel⟩

/-- Finding 20: cyclic data: `var x interface{}; x = &x`. Such data denotes no finite value, and
no bound on the nesting depth is enough: the program runs out of stack. -/
theorem C33_cycle_wrong : ∃ H, ∀ n path dst, run wrongW H defaultEncOpts n path .iface (.heap 120) dst = .nofuel := by
  refine ⟨wrongH [(120, .eface (some (93, 120)))], ?_⟩
  intro n
  induction n using Nat.strongRecOn with
  | _ n ih =>
    intro path dst
    match n with
    | 0 => rfl
    | n + 1 =>
      have h1 : readEface (wrongH [(120, .eface (some (93, 120)))]).mem (.heap 120) = some (some (93, 120)) := by decide +kernel
      have h2 : instrFor wrongW.E wrongW.tfuel 93 = some (.inline (.ptr .iface)) := by decide +kernel
      simp only [run, exec, h1, withRead, appendJSON, h2]
      match n with
      | 0 => rfl
      | 1 => rfl
      | n + 2 =>
        show run wrongW _ _ n path .iface (.heap 120) dst = _
        exact ih n (by omega) path dst

end Jettison.Props
