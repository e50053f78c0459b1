import Verif.Model.Types
import Verif.Model.Tags

/-!
# Model of the field selection of struct types (/repo/struct.go)

`embedSeq` slices are kept in a heap of backing arrays, because
/repo/struct.go:307 appends to the parent's slice without a copy and two
siblings may share one array.
-/

namespace Jettison.Model

/-- `seq`, /repo/struct.go:17-20. -/
structure Seq where
  offset : Nat
  indir : Bool
  deriving DecidableEq, Repr

/-- `field`, /repo/struct.go:22-40, as recorded by `scanFields`. The keys are
functions of the name (`keyNonEsc`, `keyEscHTML` of Model/Tags); `instr`, `empty`
and `omitNullMarshaler` are added later (/repo/instruction.go:297-320).
`embedSeq` is the content of the slice, which is not changed after line 285. -/
structure Fld where
  typ : TId
  name : Bytes
  tag : Bool
  index : List Nat
  quoted : Bool
  omitEmpty : Bool
  omitNil : Bool
  embedSeq : List Seq
  deriving DecidableEq, Repr

/-- The slice `embedSeq` of a struct waiting to be scanned: the backing array and
the length. All these slices start at index 0 of their array (/repo/struct.go:36-39). -/
structure SeqSlice where
  arr : Nat
  len : Nat
  deriving DecidableEq, Repr

/-- Backing arrays; the length of an array is its capacity. Array 0 is the empty
one, standing for the nil slice (/repo/struct.go:283-286, 307). -/
abbrev SeqHeap := List (List Seq)

/-- The capacity chosen by the runtime when `append` grows a full slice. A
parameter; doubling for the sizes of interest (runtime.growslice) (/repo/struct.go:286, 307). -/
abbrev Grow := Nat → Nat

/-- The content of a slice (/repo/struct.go:283). -/
def SeqHeap.read (h : SeqHeap) (s : SeqSlice) : List Seq := (h.getD s.arr []).take s.len

/-- `append(s, x)`: in place when there is spare capacity, else into a new array (/repo/struct.go:307). -/
def SeqHeap.append (grow : Grow) (h : SeqHeap) (s : SeqSlice) (x : Seq) : SeqHeap × SeqSlice :=
  let a := h.getD s.arr []
  if s.len < a.length then (h.set s.arr (a.set s.len x), ⟨s.arr, s.len + 1⟩)
  else
    let n := max (grow a.length) (s.len + 1)
    (h ++ [a.take s.len ++ [x] ++ List.replicate (n - (s.len + 1)) ⟨0, false⟩], ⟨h.length, s.len + 1⟩)

/-- A struct waiting to be scanned: the fields of `field` used by the breadth
first search (/repo/struct.go:301-309). -/
structure Pend where
  typ : TId
  index : List Nat
  seqs : SeqSlice
  deriving DecidableEq, Repr

/-- `typeCount`, /repo/struct.go:42: a missing key reads 0. -/
abbrev TypeCount := TId → Nat

/-- `ncnt[typ]++` (/repo/struct.go:301). -/
def TypeCount.incr (c : TypeCount) (t : TId) : TypeCount := fun u => if u = t then c u + 1 else c u

/-- `shouldEncodeField`, /repo/struct.go:130-149. -/
def shouldEncodeField (E : Env) (sf : FieldDef) : Bool :=
  if sf.anonymous then
    let t := derefOnce E sf.typ
    if !sf.exported && !isStructK (E t).kind then false else true
  else if !sf.exported then false
  else true

/-- The variables threaded through `scanFields` (/repo/struct.go:230). -/
structure ScanSt where
  flds : List Fld
  next : List Pend
  ncnt : TypeCount
  heap : SeqHeap

/-- `typ` of /repo/struct.go:253-257: the field type, or the pointee of an
unnamed pointer type. -/
def scanTyp (E : Env) (sf : FieldDef) : TId :=
  if (E sf.typ).name = [] && isPtrK (E sf.typ).kind then derefOnce E sf.typ else sf.typ

/-- The record built at /repo/struct.go:273-286. `pre` is the content of the
embedding struct's `embedSeq`, cloned. -/
def mkFld (E : Env) (pre : List Seq) (index : List Nat) (sf : FieldDef) (name : Bytes) (tagged : Bool)
    (opts : List Bytes) : Fld :=
  let typ := scanTyp E sf
  { typ := typ, name := name, tag := tagged, index := index
    quoted := tagContains opts (b! "string") && isBasicK (E typ).kind
    omitEmpty := tagContains opts (b! "omitempty")
    omitNil := tagContains opts (b! "omitnil")
    embedSeq := pre ++ [⟨sf.offset, false⟩] }

/-- One iteration of the loop of /repo/struct.go:233-310. -/
def scanField (E : Env) (U : UnicodeTab) (grow : Grow) (f : Pend) (cnt : TypeCount) (i : Nat)
    (sf : FieldDef) (st : ScanSt) : ScanSt :=
  if !shouldEncodeField E sf then st
  else if sf.tag = b! "-" then st
  else
    let (name, opts) := parseTag sf.tag
    let name := if isValidFieldName U name then name else []
    let index := f.index ++ [i]
    let typ := scanTyp E sf
    if name ≠ [] || !sf.anonymous || !isStructK (E typ).kind then
      let tagged := decide (name ≠ [])
      let name := if name = [] then sf.name else name
      let nf := mkFld E (st.heap.read f.seqs) index sf name tagged opts
      let flds := st.flds ++ [nf]
      let flds := if cnt f.typ > 1 then flds ++ [nf] else flds
      { st with flds := flds }
    else
      let ncnt := st.ncnt.incr typ
      if ncnt typ = 1 then
        let (heap, seqs) := st.heap.append grow f.seqs ⟨sf.offset, isPtrK (E sf.typ).kind⟩
        { st with ncnt := ncnt, heap := heap, next := st.next ++ [⟨typ, index, seqs⟩] }
      else { st with ncnt := ncnt }

/-- The loop of `scanFields`, /repo/struct.go:230-312, from field `i` on. -/
def scanFrom (E : Env) (U : UnicodeTab) (grow : Grow) (f : Pend) (cnt : TypeCount) :
    Nat → List FieldDef → ScanSt → ScanSt
  | _, [], st => st
  | i, sf :: t, st => scanFrom E U grow f cnt (i + 1) t (scanField E U grow f cnt i sf st)

/-- `scanFields`, /repo/struct.go:230-312. -/
def scanFields (E : Env) (U : UnicodeTab) (grow : Grow) (f : Pend) (cnt : TypeCount) (st : ScanSt) : ScanSt :=
  scanFrom E U grow f cnt 0 (fieldsOfK (E f.typ).kind) st

/-- The inner loop of `structFields`, /repo/struct.go:89-96: one level of the
breadth first search. -/
def scanLevel (E : Env) (U : UnicodeTab) (grow : Grow) (cnt : TypeCount) :
    List Pend → List TId → ScanSt → List TId × ScanSt
  | [], seen, st => (seen, st)
  | f :: t, seen, st =>
    if seen.contains f.typ then scanLevel E U grow cnt t seen st
    else scanLevel E U grow cnt t (f.typ :: seen) (scanFields E U grow f cnt st)

/-- The outer loop of `structFields`, /repo/struct.go:85-97. `next`, `ncnt` and
`flds` are in the state. `none`: `fuel` was not enough
(`structFields_terminates` gives a bound for every finite universe). -/
def bfs (E : Env) (U : UnicodeTab) (grow : Grow) : Nat → List TId → ScanSt → Option (List Fld)
  | 0, _, _ => none
  | fuel + 1, seen, st =>
    if st.next = [] then some st.flds
    else
      let (seen, st') := scanLevel E U grow st.ncnt st.next seen
        { flds := st.flds, next := [], ncnt := fun _ => 0, heap := st.heap }
      bfs E U grow fuel seen st'

/-- `byIndex.Less`, /repo/struct.go:50-60, on the index sequences. -/
def indexLess : List Nat → List Nat → Bool
  | [], y => decide (0 < y.length)
  | _ :: _, [] => false
  | a :: x, b :: y => if a ≠ b then decide (a < b) else indexLess x y

/-- Go's `<` on strings: bytewise lexicographic (/repo/struct.go:116). -/
def bytesLess : Bytes → Bytes → Bool
  | [], [] => false
  | [], _ :: _ => true
  | _ :: _, [] => false
  | a :: x, b :: y => if a ≠ b then decide (a < b) else bytesLess x y

/-- The order of `sortFields`, /repo/struct.go:112-125. -/
def fldLess (x y : Fld) : Bool :=
  if x.name ≠ y.name then bytesLess x.name y.name
  else if x.index.length ≠ y.index.length then decide (x.index.length < y.index.length)
  else if x.tag ≠ y.tag then x.tag
  else indexLess x.index y.index

/-- `sort.Slice`/`sort.Sort` of the standard library: a parameter, which must
return a sorted permutation for any strict weak order (`SortOk`). It is not
assumed stable (/repo/struct.go:103, 112; /repo/encode.go:455). -/
abbrev SortAlg := {α : Type} → (α → α → Bool) → List α → List α

/-- `for adv = 1; i+adv < len(fields); adv++`, /repo/struct.go:184-189: the number of
fields after the first one that have its name. -/
def runLen (name : Bytes) : List Fld → Nat
  | [] => 0
  | fj :: t => if fj.name ≠ name then 0 else runLen name t + 1

/-- `dominantField`, /repo/struct.go:221-228. -/
def dominantField (fields : List Fld) : Option Fld :=
  match fields with
  | a :: b :: _ => if a.index.length = b.index.length && a.tag = b.tag then none else some a
  | [a] => some a
  | [] => none

/-- The loop of `filterByVisibility`, /repo/struct.go:179-201. `ret` is a slice of
the same array `arr` (`fields[:0]`), of length `w`; appending writes `arr[w]`.
The result is `ret`. `fuel` bounds the iterations: `len(fields)` suffices. -/
def filterLoop : Nat → List Fld → Nat → Nat → List Fld
  | 0, arr, w, _ => arr.take w
  | fuel + 1, arr, w, i =>
    match arr.drop i with
    | [] => arr.take w
    | fi :: t =>
      let adv := runLen fi.name t + 1
      if adv = 1 then filterLoop fuel (arr.set w fi) (w + 1) (i + adv)
      else match dominantField (slice' arr i (i + adv)) with
        | some dominant => filterLoop fuel (arr.set w dominant) (w + 1) (i + adv)
        | none => filterLoop fuel arr w (i + adv)
where
  /-- `fields[i : i+adv]`. -/
  slice' (arr : List Fld) (lo hi : Nat) : List Fld := (arr.take hi).drop lo

/-- `filterByVisibility`, /repo/struct.go:176-203. -/
def filterByVisibility (fields : List Fld) : List Fld := filterLoop fields.length fields 0 0

/-- `structFields`, /repo/struct.go:76-106. -/
def structFields (E : Env) (U : UnicodeTab) (grow : Grow) (sort : SortAlg) (fuel : Nat) (t : TId) :
    Option (List Fld) :=
  match bfs E U grow fuel [] { flds := [], next := [⟨t, [], ⟨0, 0⟩⟩], ncnt := fun _ => 0, heap := [[]] } with
  | none => none
  | some flds =>
    let flds := sort fldLess flds
    let flds := filterByVisibility flds
    some (sort (fun x y => indexLess x.index y.index) flds)

/-- `typeByIndex`, /repo/struct.go:205-213. -/
def typeByIndex (E : Env) : TId → List Nat → Option TId
  | t, [] => some t
  | t, i :: is =>
    match (fieldsOfK (E (derefOnce E t)).kind)[i]? with
    | some sf => typeByIndex E sf.typ is
    | none => none

end Jettison.Model
