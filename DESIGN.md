# Formal model of wI2L/jettison in Lean 4

## 1. Trusted base

* Lean 4.33.0's kernel. No axioms are added. Every property theorem depends on
  at most `propext`, `Classical.choice` and `Quot.sound`; section 9 lists which
  theorem depends on which. There is no `sorry`, `admit`, `native_decide`,
  `bv_decide`, `implemented_by`, `extern` or `unsafe`. No Mathlib module is
  imported.
* The reading of the Go source. Each model definition cites the file and lines
  in `/repo` it models, with the simplifications made. The code is not run, so
  this reading is the only tie to it.
* The behaviour of Go and of its standard library written down in the model:
  `utf8.DecodeRune`, `strconv.AppendInt/AppendUint`, `base64.StdEncoding`,
  `strings.Index/Split`, `bytes.Compare`, `json.HTMLEscape`, `sync.Map`,
  `sync.Pool`, atomic load and store, slices that share an array, interface
  layout (direct versus indirect data word), wrap-around of fixed width
  integers. These are small definitions.
* For C57 only: `Spec/Std`, a description of what encoding/json writes, from its
  documentation and known behaviour. Its sources are not at hand.
* Behaviour taken as a parameter, with a contract as a hypothesis. Each contract
  has an instance in the examples:

  | parameter | contract |
  |---|---|
  | `strconv.AppendFloat` | `FormatContract`: the text has the shape of the formats 'f' and 'e'; its digits are not constrained, except in C55 (`ReadsBack`: they represent the value uniquely) |
  | `sort.Sort` | `SortOk`: a sorted permutation |
  | map iteration order | `OrderOk`: a permutation |
  | slice growth in `append` | a function of the old capacity; C22 and C36 exclude types with a member whose recorded route is not its own (`RoutesApart`); C71 gives the routes for every growth |
  | `unicode.IsLetter/IsDigit` | `TablesOk`: agree with ASCII below 128, U+FFFD is in neither |
  | `json.Valid` | `ValidContract`: iff a JSON text |
  | names of types, `%q`, messages of user errors | none; C54: `%q` is injective, names have no colon |
  | `time.AppendFormat` | none; layouts other than the two RFC 3339 ones are copied as they come |
  | user methods | `HonestAppend`: append methods keep the destination. Results are otherwise arbitrary bytes, errors or panics |
  | float arithmetic in `Duration.Seconds` and others | a function `Int64 → Float bits` |

## 2. Layout

* `Verif/Spec/*` specifications, written without reference to the model.
* `Verif/Model/*` the model of the code, function by function.
* `Verif/Proofs/*` helper lemmas.
* `Verif/Props/*` the property theorems, with examples that meet their
  hypotheses, and the counterexamples.

| /repo | model | specification | proofs | theorems |
|---|---|---|---|---|
| encode.go:31-51, 804-895 (strings) | Escape, Utf8 | JsonString, Utf8 | Escape, Unescape, Utf8, Body | Strings (C01-C06) |
| number.go | Number | JsonNumber | Number | Number (C07) |
| integer.go | Integer | Ints | Integer | Integer (C08) |
| encode.go:53-63, 155-183 (floats) | Float | Float | Float | Float (C09) |
| time.go:153-253, encode.go:105-129 | Time | Calendar, Times | Calendar, GoYear, Time, YearZero | Time, YearZero (C10, C11) |
| time.go:1-151, encode.go:131-153 | Duration | Duration | Duration | Duration (C12, C13) |
| encode.go:731-802 | Compact | Json | Compact, CompactGr | Compact (C14, C15, C47) |
| encode.go:278-305 | Base64 | Base64 | Base64 | Base64 (C16) |
| tags.go, struct.go:151-169, 239-282 | Tags | Tags | Tags, Cls | Tags (C40, C41) |
| struct.go | Fields | Fields, Route, Select, Sort | Bfs, BfsInv, Filter, Visible, Select, Sort, Route, Recorded | Fields (C17-C19, C22, C49), Recorded (C71) |
| types.go, instruction.go | Types, Instr | Safe, Methods | Typed, Kinds, NoBad | Traps, Methods |
| unsafe.go | Memory | Value | Reads, Walk | |
| encode.go (everything) | Encode | Value, Text, Maps, Held, Part, Peel, Scope, Doc, Faults, Html, Lossless, Writes, Std | Abs, Refine, Prefix, PrefixRun, Parts, Entry, StructOut, Members, Order, Reorder, Relate, Twin, Scope, Closed, Doc, Faults, Judged, Letters, Spelling, Alphabet, Lossless, Writes, Std | Structs, Maps, SyncSame, Levels, Methods, StringTag, Transparent, Scope, Document, Faults, Html, Lossless, Writes, Std |
| encode.go (everything), json.go:130-192, on memory the user methods change | Live | Live, LiveText | LiveReads, LiveSafe, LiveKept, LiveText | Live (C67, C68), LiveText (C69) |
| encode.go (everything), json.go:130-192, as a conversation with the user methods | Talk | Invoked | Talk, Invoked, Once | Invoked (C61) |
| options.go | Options | Options | Options, Flags | Options (C29) |
| json.go:108-192 | Api | | | Api (C27, C28, C36, C44) |
| instruction.go, struct.go:64-70, types.go:88-96 with caches | Shared, Gen | | Owned, GenOk, Econ | Concurrent (C31, C32), Econ (C70) |
| encode.go, buffer.go, map.go with pools | Shared, Calls | | Heaps, EncOk, EncOk2, CallOk, OpStep, Conf, Fair | Concurrent (C34, C35), Races (C62, C63) |
| encode.go:631-729, methods that call json.go:111-160 | Calls (`MStep`), Nested | | Conf, Fair, Back | Nested (C64) |
| everything above, lengths of texts | | Size | Size | Size (C65) |
| everything above, in programs that have types in common | | Local | LocalT, LocalR, LocalV, LocalW, LocalD, LocalC | Local, LocalText, LocalCut (C72) |
| causes of malformed output | | Spoils | Spoils | Spoils, SpoilsEx (C73) |
| the lists take members away | | Trim | | Trim, TrimEx (C74) |
| what an option is about, by content | | Concerns | | Concerns, ConcernsFirst, ConcernsEx (C75) |
| text put together from calls for the parts | | Compose | | Compose, ComposeEx, ComposeError (C76) |
| pointers to natively handled types | | | Visits | Native, NativeEx (C77) |
| options about spelling | | Respell | | Respell, RespellEx, RespellAdd (C78) |
| options that cannot make a call fail | | Milder | | Milder, MilderEx (C79) |
| options about form | | Recast | | Recast, RecastEx (C80) |
| names of types | | Rename | | Rename, RenameFields, RenameEx (C81) |
| structs as maps | | Mapped | | Mapped, MappedEx (C82) |
| containers of interfaces | | Loosened | | Loosened, LoosenedEx (C83) |
| structs with the same members | | Flat, FlatLoose | | Flat, FlatLoose, FlatEx (C84) |
| generic data | | Data | | Data, DataBack, DataEx (C85) |
| everything above, what is left beside an error | | Cut | Cut | Cut, CutExact, CutText, CutEx (C66) |
| json.go:29-106, options.go:67-78, time.go:21-36 (messages) | Messages | Messages | | Messages (C54) |
| termination | | Finite, Endless | Ends, Ends2, Fair | Terminate, Endless (C33) |
| | | Parser | Parser | Json (C48) |

Examples: Sample, Shop (the universe of types of most examples), Universe and
Check (checkers for the hypotheses), MapsEx, ConcEx, DocumentEx, Wrong, Traps.

## 3. What is modelled, and how

* `[]byte` and `string` contents are `List UInt8`. The destination is threaded
  through and returned as in the code. Loops with index windows (`at`, `i`) are
  modelled with these indices.
* Types are nodes of a graph (`TId`), as `reflect.Type` values are pointers:
  identity is the id, recursion is a cycle. A universe `Env` gives each node its
  kind, fields, offsets, sizes and methods.
* Instructions (closures) are defunctionalised: one constructor per closure or
  function value, interpreted over a memory of cells. A read of a cell as another
  kind of data is the outcome `bad`, so misinterpreted memory is visible. Go
  panics are the outcome `panic`, errors are `fail`.
* A value `Val` is a tree. `ReprE` and `Repr` (Spec/Value) say when memory holds
  a value. `stands_runV` proves that the encoder on memory is a function of the
  value (`runV`). `Repr` leaves out the values of findings 11 to 13; it asks for nothing beyond the layout of
  the compiler (`Holds`) where no type is one of those (`NoTrap`, `C36_holds`), and never for less (`C36_held`).
  A program may have such types and even harmless values of them (`Props/TrapsEx`).
* Recursion that need not end is run with fuel. Theorems on results hold for
  every amount that is enough (`run_mono`); C33 says when there is enough, and
  the counterexamples say when none is.
* Struct field selection keeps the sharing of the `embedSeq` arrays: `append` to
  a slice with spare capacity writes to the shared array.
* Concurrency (Shared, Gen, Calls): a call is a program of atomic operations on
  the shared state (instruction caches, struct field cache, empty-function
  cache, pools, arrays). An execution is any interleaving. Every read of an
  array checks that the array is still owned by the call; a violation is `bad`,
  so that the theorems show that no pooled array is used after it is returned.

### Simplifications

* The placeholder variable of a recursive struct type is allocated at the
  `LoadOrStore` (the code allocates it just before).
* The entries of a map are read once before sorting. Fields `buf.B` and `mel.s`
  are stored after the loop in place of inside it.
* User methods may call the package: in their own goroutine (`MStep` of
  Model/Calls), also `Append` with the destination they were given, and in other
  goroutines they wait for (Model/Nested), also both at the same time. The calls
  are taken to be made where the instruction reads the destination for the method
  (`scratch`), which instructions without methods do as well: more executions than
  the code has. When such a call panics the method recovers, or panics as any
  other method may; no release of a pooled object is deferred, so what the call
  had taken is lost. A method may also leave bytes behind the end of the
  destination and fail.
* User methods are functions of receiver, context, destination and the step of
  the encoding at which they are called, so they may have a state (C61); they
  append, return an error or panic, and do not write memory the package reads.
  Model/Live drops the last restriction: there methods change memory and every read
  is of the memory of that moment (C67). `C68_frame` says that the two models agree
  where the encoded value is left alone.
* In Model/Live the iterators are functions of the state and of the number of entries
  delivered; a loop over a map is cut off after `lim` entries (`lim` is arbitrary).
* The runtime iterator `hiter` is the list of entries in the iteration order.
* The `dst` of `Append` is an array no other call uses, as the API demands.
* Instruction generation does not panic: it has no operation that can, and asks
  `reflect` only what the kind at hand allows. It may not end (C33).
* Memory is sequentially consistent at the level of the operations above.

### Not modelled

| /repo | |
|---|---|
| unsafe.go:20-26 `noescape`, `runtime.KeepAlive` | effects on the garbage collector and on escape analysis |
| map_1.17.go, map_1.18.go | differ in the declared signature of a runtime function; modelled as one |
| json.go:1-43 | interface declarations; they appear as the method kinds of Model/Types |
| `context.Context` | an opaque number passed on to the methods (C44) |
| `reflect` | the queries used by the code are fields of `Env` |
| *_test.go, tools, ci, images | not part of the package |

## 4. How the theorems are stated

A theorem about a call speaks of `marshal`, `marshalOpts` or `appendJSON`
(Model/Api), of a memory that holds a value (`ReprE`), and of a specification in
`Spec`. A theorem about a position inside a call speaks of `Stands W H t ca q i p
v`: the instruction `i` generated for type `t` (addressable, quoted) is run on
address `p`, which holds `v`. `Holds`-style hypotheses have checkers
(`Props/Check`, `Props/Universe`) used by the examples.

## 5. Findings: where the code does not meet the property

Each is a theorem about the model, on a concrete reachable value.

| | what happens | theorem |
|---|---|---|
| 1 | an `omitnil` first member dropped because its method wrote `null` leaves a comma: `{,"b":1}` | `C21_null_first_wrong` |
| 2 | the result of `MarshalText` is quoted but not escaped | `C46_text_wrong` |
| 3 | `string` tag on a string: the content is not the JSON text of the value, or is that of another string (exactly when: `C38_string_iff`) | `C38_string_wrong`, `C38_other_string_wrong` |
| 4 | a nil `[]byte` is `null` even with `NilSliceEmpty` | `C25_nil_bytes_wrong` |
| 5 | times in year 0 before 31 December are accepted and printed wrongly, except midnights from 1 March on | `C10_year_zero_wrong`, `C10_rfc3339_iff` |
| 6 | the `string` tag does nothing on `json.Number` and `time.Duration` | `C38_native_wrong` |
| 7 | a `json.RawMessage` is not checked; empty or malformed output | `C30_raw_wrong` |
| 8 | map keys coerced to the same text: order depends on the iteration order | `C23_coerced_keys_wrong` |
| 9 | map keys of type `time.Duration`, `time.Time`, or with both `MarshalText` and `AppendJSON`: malformed keys, or a panic | `C30_duration_key_wrong`, `C30_time_key_wrong`, `C30_time_key_panic`, `C26_text_key_wrong` |
| 10 | a nil value in a `sync.Map` panics | `C39_nil_value_wrong`, `C39_same_iff` |
| 11 | a type `[1]*T` directly in an interface is misread | `C36_array1_wrong` |
| 12 | a value method on a map or function type gets the wrong receiver | `C36_recv_wrong`, `C36_func_wrong` |
| 13 | a field of a non-empty interface type is misread | `C36_iface_wrong` |
| 14 | `type T []T`: instruction generation does not end | `C33_self_slice_wrong`, `C33_types_iff`, `C33_endless_wrong` |
| 15 | two structs embedded at depth 3 (5, 6, 7, ...) share a route array; a field is read at another's place | `C22_fork_wrong` |
| 16 | a struct embedded along two paths: fields Go hides are encoded | `C18_shared_wrong` |
| 17 | pointer methods of fields behind embedded pointers are not used | `C26_embedded_pointer_wrong` |
| 18 | options are not validated for the nil interface | `C29_nil_not_validated` |
| 19 | compaction of malformed text is not idempotent | `C15_malformed_not_idempotent` |
| 20 | cyclic data: the call does not end | `C33_cycle_wrong`, `C33_cyclic_wrong` |
| 21 | a nil pointer with `MarshalText` as `sync.Map` key gives the key `null` without quotes | `C39_nil_text_key_wrong` |
| 22 | a nil `encoding.TextMarshaler` as map key gives the key `null` without quotes | `C45_nil_iface_key_wrong` |
| 23 | map members are sorted by their escaped keys, those of encoding/json by the keys: `"a="` before `"a<"` | `C57_order_wrong` |
| 24 | a semicolon, which encoding/json allows in the name of a tag, makes the name be ignored | `C57_semicolon_wrong` |
| 25 | overlapping first calls undo each other's entries in the cache of instructions, which are then generated again | `C70_lost_wrong` |
| 26 | the result of formatting a time with a `TimeLayout` is quoted but not escaped: a quote in the layout gives malformed JSON | `C30_layout_wrong` |
| 27 | `*time.Time` and `*json.RawMessage` go through `MarshalJSON`: `UnixTime` and `TimeLayout` are of no effect on pointers to times, and a message that is not JSON is an error only behind a pointer | `C77_unix_wrong`, `C77_ignored`, `C77_raw_wrong` |

## 6. Per property

| id | modelled | proof |
|----|----------|-------|
| C01-C06 | `appendEscapedBytes`, `encodeString`, `utf8.DecodeRune` | loop invariant to a per-rune rewriting, then induction on the input; decoder and UTF-8 specification independent |
| C07 | `isValidNumber`, `encodeNumber` | iff with an inductive grammar |
| C08 | integer encoders | numeral/parse round trip, induction on the value |
| C09 | `appendFloat` | grammar and value of the cleaned text |
| C10-C11 | `encodeTime`, `appendRFC3339Time`, `rdnToYmd` in `UInt32` | calendar theorem by arithmetic |
| C12-C13 | `appendDuration`, `fmtFrac`, `fmtInt`, `encodeDuration` on a 32 byte buffer | round trip with an independent reader |
| C14-C15, C47 | `appendCompactJSON` | induction over the JSON grammar |
| C16 | `encodeByteSlice`, base64 | decode after encode, strong induction |
| C17-C19, C49 | `structFields`, `scanFields`, `filterByVisibility`, `dominantField`, sorts | invariants of the breadth-first search against all embedding paths |
| C20-C22 | `isDeniedField`, `encodeStruct`, `emptyFuncOf`, route arrays | induction on fields; heap model of slices |
| C23-C25, C39, C45 | `encodeMap` and its loops, `encodeSyncMap`, `encodeSlice` | permutation and sorting lemmas |
| C26, C46 | `newInstruction`, `newMarshalerTypeInstr`, marshaler encoders | case analysis; relay specification |
| C27, C28, C36, C37, C44 | all instructions | induction on execution; refinement to values |
| C29 | options | lists of options as folds |
| C30 | all | induction on the value; the text against `Denotes` |
| C31, C32, C34, C35 | caches and pools | invariants of an interleaving machine |
| C33 | generation, encoding | measure on finite types and values; fairness for many calls |
| C38, C42, C43, C50 | all instructions | relations between two runs |
| C40, C41 | tags, keys | decision logic |
| C48 | - | deterministic reader agrees with the grammar |
| C51 | all | induction on execution, each outcome against `Encodes`, `Fault` and `Trap` |
| C52, C53 | all | induction on execution, any property of texts closed under concatenation (`Letters`) |
| C54 | all | C51 with `Blames`; heads of the messages are pairwise prefix-free |
| C55 | values of `Carried`, options that keep the information | C30 and uniqueness of trees give one tree for both values; induction on the value: `Denotes` is injective up to `Alike` |
| C56 | all | induction on the depth, rule by rule; the leaves by the lemmas of Proofs/Writes; that the text is determined by induction on the size of the value; that a value with a text is not at fault by inversion of the rules along `Encodes`, then C51 |
| C57 | all, default options | C56, and both directions between `Writes` and `StdWrites`, rule by rule; keys are ordered alike because escaping keeps them |
| C58 | all; in each map at most one entry at fault, for uniqueness | induction on the depth with the judgement of C51 for what precedes the fault; uniqueness by induction on `First`, two splits of a list being the same if what precedes is blameless |
| C59 | all pairs of values that show the same | relational induction on the depth of the run: both runs make the same nested calls on parts that again show the same |
| C60 | all pairs of calls, and any position of the text in the second | compaction is the identity on compact texts with nothing to escape, by induction on the grammar; with C30, C52 and C56 |
| C61 | all instructions, as a conversation with the methods (Model/Talk) | every branch of the conversation against `Invoked`, by induction on the depth; no two calls at one step of the encoding, so a state can be read off the step |
| C62 | the operations of every call on byte arrays | the invariant of C34 with, for each array a call owns, the bytes that must stay at its start; writes are beyond them |
| C63 | the operations of every call | every operation about to run touches what its own call owns (C34), and what calls own is disjoint; the order of `setIns` and `done` in the program of a call |
| C64 | calls made in methods of calls (Model/Nested) | calls in the goroutine of the method are put in front of what is left of the outer call, which keeps its memory (`inner_meets`); who owes a placeholder is in no method; induction on the tree of calls |
| C65 | bound on the length of the text (Spec/Size) | induction on the size of the value over `Writes`; the paths of members are prefix-free (`members_apart`), so their weights add up to at most that of the struct (`fields_weight`) |
| C66 | relational spec of the bytes written before an error (`Cut`, Spec/Cut) | induction on the depth of the run (`cut_upto`); a cut is stopped by its error (`cut_first`), so the part that fails is the same in two cuts; first and last byte for `C66_no_text` |
| C67 | all instructions on memory that methods change (Model/Live) | induction on the depth: each variable holds data of its type at every moment (`Sane`), so each read succeeds, and variables stay (`safe_run`) |
| C68 | Model/Live against Model/Encode | induction on the depth: each read of changing memory gives what the read of the frozen part gives, each loop the same steps (`same_run`) |
| C69 | all instructions on memory that methods change (Model/Live) | induction on the depth: what each instruction adds is a JSON text, members and entries joined by the loops (`yields_entries`), whatever the state at each step (`text_run`) |
| C70 | all programs of goroutines (Model/Shared) | what every program made of operations may do to the caches is judged along its operations (`Judge`); each promised struct instruction is a debt of one goroutine (`Debt`), invariant over all steps |
| C71 | `scanFields` with the heap of route arrays | invariant of one level: entry `d` of a shared array is that of the last struct pushed into it (`MInv`); before a level: entries and sharing follow the rule (`LInv`); the structs waiting are the queued paths (`level_queued`) |
| C72 | the encoder in two programs | a call in a part of a program and of its memory misreads or gives the same (`BLe`, through `run_ble`); a program cut down to the types of the value meets the conditions of all theorems (`cut_ready`), so it does not misread; the specifications of the text and of the errors do not look at other types either (`Sharing`), so C30, C51, C56, C58, C66 and C73 hold for each value of `ReadyFor` types |
| C73 | the text of any value, method and option list | induction over the value with the grammar for a chosen set of whitespace: a value whose encoded parts have none of the causes of `Spoils` and `SpoilsMember` has a text of the grammar; uses the exact texts of C56, so it holds for Marshal and Append |
| C74 | two calls, with and without the lists | induction over the value with the exact texts of C56 for both option lists: leaf texts, methods and keys do not look at the lists; of a struct the same members are left out but for those hidden; sorted entries with the same keys are in the same order |
| C75 | two calls, with different options | induction over the value with the exact texts of C56 for both option lists; what is encoded, at fault or panics under one is under the other (C51), as the rules for them look at the options only where Concerned does; the error is that of the first fault (C58), which is the same under both |
| C76 | a call and the calls for its parts | cases of the type, with the exact text of C56 for the whole and for each part |
| C77 | a call on a pointer and a call on its target | the instruction of a natively handled type does not depend on where it stands, so both calls run it on the same value; with methods, the exact text of C56 |
| C78 | two calls, with options that differ in spelling | induction over the value with the exact texts of C56 for both option lists, building the two trees together: strings by the content of their spelling, JSON of methods and messages by compaction keeping the tree (C14), entries by permutations of one list of keys and pairs of trees |
| C79 | two calls, one with settings that are no stricter | the parts encoded, the faults and the traps of the one settings are among those of the other; a key too short to be unquoted is a digit or not JSON; success is freedom from these (C51) |
| C80 | two calls, with options that differ in spelling and form | induction over the value as for C78, the two trees related by `Recast`, which allows a difference only where an option about it differs |
| C81 | two calls, for types of the same form | induction over the text that is written, with the types and values replaced; members by the rule of C14 on declarations that correspond |
| C82 | two calls, for a struct and the map with its members | the rules of `Writes` for structs and maps taken apart and put together again, names and keys by induction over their characters |
| C83 | two calls, for a container of a type and of interfaces | by induction over `Generic`: the rules of `Writes` for slices, arrays and maps, and that addressability does not matter to values without methods on pointers |
| C84 | two calls, for structs that show the same members | the rule of `Writes` for structs, with what it asks of the members carried over one by one |
| C85 | one call, and the trees of two values | by induction over `Untyped`, with the rules of `Denotes` for the kinds taken apart; a tree of a struct is one of the map because entries may stand in any order, and the way back builds the tree of the value with the relation to the given one |

## 7. Partial theorems

The note of each claim in MANIFEST.json says what is missing. In all of them the
full statement is false of the code; the counterexample theorem is listed beside
the partial one, and the hypotheses exclude the shapes in section 5 and nothing
else that is known.

## 8. Wrong programs

`seeded/LOG.jsonl` has one line per wrong program: the definition edited, the
edit, the claim broken, the theorems that failed and those tightened.

## 9. Axioms per theorem

As printed by `#print axioms`, for the theorems of MANIFEST.json (without the prefix `Jettison.Props.`).

* `propext`: C07_no_validation, C20_no_lists, C32_finite, C33_self_slice_wrong, C36_held, C38_others, C48_compact_is_text

* `Quot.sound`, `propext`: C05_verbatim, C07_encodeNumber, C07_valid_iff_grammar, C10_layouts, C10_reading_exists, C10_year_zero_wrong, C15_malformed_not_idempotent, C16_nil, C20_denied_iff, C20_empty_allow, C25_map, C27_no_options, C28_bound_irrelevant, C28_error_stops, C28_method_error, C28_nil_bytes_iff_error, C29_accepted, C29_effect, C29_extensional, C29_nil_not_validated, C29_rejected_before_encoding, C29_rejected_iff, C29_same_result, C33_cycle_wrong, C33_endless_wrong, C36_array1_wrong, C36_func_wrong, C36_holds, C36_iface_wrong, C36_recv_wrong, C41_contains, C41_parse_tag, C42_stops, C42_unsupported, C43_needs_no_pointer_methods, C43_pointer, C44_context, C52_options_wrong, C54_duration_name, C54_duration_names, C54_option, C58_any_entry, C61_none, C61_stateless, C70_lost_wrong, C70_quiet, C72_frame, C72_other_types, C73_fine, C78_fine, C80_fine, C80_same, C81_declared, C81_members, C83_addr_wrong, C84_string_wrong, asks_parts, big_limits, blame_error, demo_alive, demo_fair, demo_results, demo_waits, markV_text, nan_issued, ring_fair, together_writes, unitsFmt_readsBack

* `Classical.choice`, `Quot.sound`, `propext`: C01_string_token, C02_string_decodes, C02_string_roundtrip, C03_html_safe, C04_no_coercion, C06_injective, C06_output_utf8, C08_integer_injective, C08_integer_literal, C08_integer_number, C09_exponent_form, C09_finite, C09_nonfinite, C09_thresholds, C10_no_panic, C10_reading_unique, C10_rfc3339_iff, C10_rfc3339_partial, C10_year_zero, C11_unix_time, C11_year_range, C12_canonical, C12_denotes, C13_format_known, C13_numeric, C14_compact_value, C15_idempotent, C16_base64, C16_reserve, C17_names_distinct, C18_chosen_iff_visible_partial, C18_chosen_wins, C18_shared_wrong, C18_visible_chosen, C19_declaration_order, C20_C21_C22_object_partial, C21_null_first_wrong, C21_object_exact, C22_fork_wrong, C22_route_partial, C23_C24_members, C23_coerced_keys_wrong, C23_order_partial, C23_order_plain, C23_text_partial, C24_reordered, C25_nil_bytes_wrong, C25_slice_exact, C25_slice_partial, C26_C46_relay_partial, C26_calls, C26_embedded_pointer_wrong, C26_text_key_wrong, C27_append, C30_document_partial, C30_duration_key_wrong, C30_layout_wrong, C30_raw_wrong, C30_time_key_panic, C30_time_key_wrong, C30_value_partial, C31_result, C32_fair, C32_generator, C32_no_deadlock, C32_waited, C33_call_partial, C33_concurrent_partial, C33_cyclic_concurrent_wrong, C33_cyclic_wrong, C33_endless_concurrent_wrong, C33_fair_partial, C33_fields_terminate, C33_types_iff, C33_types_partial, C33_visits_concurrent_partial, C33_visits_partial, C34_disjoint, C34_held, C34_stable, C35_history, C35_value, C36_reads_the_value_partial, C37_array, C37_as_string, C37_base64, C38_native_wrong, C38_other_string_wrong, C38_scalar, C38_string_iff, C38_string_partial, C38_string_wrong, C39_bad_key, C39_members, C39_nil_text_key_wrong, C39_nil_value_wrong, C39_same_iff, C39_same_partial, C40_field_name, C40_key, C41_field_options, C43_chain, C43_chain_nil, C43_interface, C43_transparent, C45_nil_iface_key_wrong, C45_nil_key, C45_nil_receiver, C46_text_iff, C46_text_wrong, C47_compact_html_safe, C48_denotes_one_tree, C49_exact_rule, C50_option_scope, C51_cause, C51_iff, C51_noticed, C51_panic, C51_plain, C51_success, C52_default, C52_embeddable, C52_markup, C53_utf8, C54_distinct, C54_message, C54_unwrap, C54_unwrap_none, C55_equal, C55_lossless, C56_bytes, C56_complete, C56_exact, C56_iff, C56_unique, C56_value, C57_complete_partial, C57_iff_partial, C57_order_wrong, C57_semicolon_wrong, C57_sound_partial, C58_error, C58_exact, C58_iff, C58_panic, C58_unique, C59_concurrent, C59_hidden, C59_result, C60_delegate, C60_html_needed, C60_method, C60_method_text, C60_raw, C60_raw_text, C60_result, C61_calls, C61_error_last, C61_same, C61_stateful, C62_kept, C62_reads, C62_spare, C63_arrays, C63_final, C63_objects, C63_placeholder, C64_ended, C64_ended_inner, C64_fair, C64_generator, C64_inner, C64_no_deadlock, C64_result, C65_base64, C65_call, C65_string, C65_text, C65_tight, C66_append, C66_cut, C66_exact, C66_iff, C66_no_text, C66_unique, C66_value, C67_no_wrong_access, C68_frame, C69_well_formed, C70_kept, C70_learnt, C70_once, C71_no_fork, C71_own_arrays, C71_route_exact, C71_route_iff, C71_three_levels, C71_type_iff, C72_bytes, C72_cut, C72_document, C72_error, C72_malformed, C72_part, C72_same_value, C72_success, C73_hidden, C73_leaf, C73_malformed, C73_spaced, C73_spoilt, C73_text, C74_calls, C74_error, C74_options, C74_success, C74_text, C75_calls, C75_error, C75_result, C75_same, C75_text, C76_error, C76_parts, C76_whole, C77_ignored, C77_nil, C77_pointer_partial, C77_raw_wrong, C77_time, C77_unix_wrong, C78_added_partial, C78_calls_partial, C78_dropped_wrong, C78_raw_wrong, C78_text_partial, C79_adding, C79_append, C79_error, C79_options, C79_success, C79_unix_wrong, C80_calls_partial, C80_keys_wrong, C80_text_partial, C81_calls, C81_iff, C81_text, C82_calls, C82_map, C82_struct, C83_calls, C83_held, C83_text, C84_calls, C84_held, C84_held_calls, C84_text, C85_back, C85_back_calls_partial, C85_calls_partial, C85_data, big_faultless, big_fine, deny_not_cyclic, node3_carried, ring_all_finite, self_cyclic, stdV_std, stock_carried, writes_iff_std
