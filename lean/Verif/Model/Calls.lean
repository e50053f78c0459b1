import Verif.Model.Gen

/-!
# Calls as programs on the shared state (/repo/encode.go, /repo/json.go, /repo/buffer.go, /repo/map.go)

The encoder of Model/Encode again, with destinations in memory, instructions from the
caches, and buffers from the pools. Instructions that call no others work on the
destination as in Model/Encode; what they write is one `write`.
-/

namespace Jettison.Model

/-- The result of an instruction: the slice it returns, with the error if there is one. The results
of an `instruction`, /repo/instruction.go:19. -/
inductive RS
  | ok (s : Sl)
  | fail (e : Err) (s : Sl)
  | panic
  | bad
  deriving DecidableEq, Repr

/-- An encoder over bytes, on a destination in memory. Encoders that call no other, as /repo/encode.go:24-63 and 76-183,
and those that call methods (631-729), which may leave something behind the end of the destination also when they fail. -/
def onBytes (f : Bytes → Res) (s : Sl) : Prog RS := do
  let d : Bytes ← (Op.scratch s).call
  match f d with
  | .ok b =>
    let s' ← (Op.write s b).call
    return .ok s'
  | .fail e _ => return .fail e s
  | .panic => return .panic
  | .bad => return .bad
  | .nofuel => .crash

/-- `append(dst, b...)`. As at /repo/encode.go:26. -/
def addBytes (s : Sl) (b : Bytes) : Prog Sl := do
  let d : Bytes ← (Op.read s.sub).call
  (Op.write s (d ++ b)).call

/-- `append(dst, b...)` as the last thing an instruction does. As at /repo/encode.go:259. -/
def addLast (s : Sl) (b : Bytes) : Prog RS := do
  let s' ← addBytes s b
  return .ok s'

/-- A comma if it is needed, /repo/encode.go:393-395, 460-462, 512-514 and 579-581. -/
def commaP (b : Bool) (s : Sl) : Prog Sl := if b then addBytes s (b! ",") else .ret s

/-- Going on with the value read, or reporting the misread. The unsafe reads, as at /repo/encode.go:25. -/
def withReadP {α : Type} (r : Option α) (f : α → Prog RS) : Prog RS :=
  match r with | some a => f a | none => .ret .bad

/-- The recursive call: step, instruction, location, destination. An `instruction`, /repo/instruction.go:19. -/
abbrev RecP := Path → CInstr → Loc → Sl → Prog RS

/-- The loop of `encodeStruct`, /repo/encode.go:195-260. -/
def structLoopP (H : Heap) (o : EncOpts) (rec : RecP) (path : Path) (p : Loc) : Nat → List CField → Bool → Sl → Prog RS
  | _, [], first, s => addLast s (if first then b! "{}" else b! "}")
  | i, f :: fs, first, s =>
    match fieldLoc H.mem o (f.with .iface) p with
    | none => .ret .bad
    | some none => structLoopP H o rec path p (i + 1) fs first s
    | some (some fp) => do
      let last := if first then s.len + 1 else s.len
      let s1 ← addBytes s ((if first then b! "{" else b! ",") ++ fieldKey o f.fld.name)
      match ← rec (i :: path) f.instr fp s1 with
      | .ok s2 =>
        let d : Bytes ← (Op.read s2.sub).call
        if f.omitNullMarshaler && endsNull d then structLoopP H o rec path p (i + 1) fs false ⟨s2.arr, last⟩
        else structLoopP H o rec path p (i + 1) fs false s2
      | r => return r

/-- The loop of `encodeArray`, /repo/encode.go:313-327. -/
def arrayLoopP (rec : RecP) (path : Path) (ins : CInstr) (es : Nat) (p : Loc) : Nat → Nat → Sl → Prog RS
  | i, 0, s => addLast s (if i = 0 then b! "[]" else b! "]")
  | i, n + 1, s => do
    let s1 ← addBytes s (if i = 0 then b! "[" else b! ",")
    match ← rec (i :: path) ins (p.add (i * es)) s1 with
    | .ok s2 => arrayLoopP rec path ins es p (i + 1) n s2
    | r => return r

/-- `encodeArray`, /repo/encode.go:307-328. -/
def encodeArrayP (H : Heap) (o : EncOpts) (rec : RecP) (path : Path) (ins : CInstr) (es len : Nat) (isba : Bool) (p : Loc) (s : Sl) : Prog RS :=
  if isba && bmHas o.flags .byteArrayAsString then
    withReadP (readBytesAt H.mem len p) fun b =>
      onBytes (fun dst => .ok (appendEscapedBytes (dst ++ b! "\"") b o.esc ++ b! "\"")) s
  else arrayLoopP rec path ins es p 0 len s

/-- The loops of `encodeUnsortedMap`, /repo/encode.go:392-407, and `encodeUnsortedSyncMap`, 511-527. -/
def unsortedLoopP {α : Type} (kf vf : Nat → α → Sl → Prog RS) : Nat → List α → Sl → Prog RS
  | _, [], s => .ret (.ok s)
  | n, e :: es, s => do
    let s0 ← commaP (n ≠ 0) s
    match ← kf n e s0 with
    | .ok s1 =>
      let s2 ← addBytes s1 (b! ":")
      match ← vf n e s2 with
      | .ok s3 => unsortedLoopP kf vf (n + 1) es s3
      | r => return r
    | r => return r

/-- How the collecting loop of a sorted map ends: with the buffer and the entries, with the buffer and
an error, or abnormally (/repo/encode.go:428-452). -/
inductive CollS
  | ok (sb : Sl) (l : List (Sub × Sub))
  | fail (e : Err) (sb : Sl)
  | panic
  | bad

/-- The loops of `encodeSortedMap`, /repo/encode.go:428-451, and `encodeSortedSyncMap`, 545-570. `sb` is
`buf.B` and `l` is `mel.s`; they are stored in their objects after the loop only. -/
def sortedLoopP {α : Type} (kf vf : Nat → α → Sl → Prog RS) : Nat → List α → Sl → List (Sub × Sub) → Prog CollS
  | _, [], sb, l => .ret (.ok sb l)
  | n, e :: es, sb, l => do
    match ← kf n e sb with
    | .ok s1 =>
      if s1.len < sb.len + 2 then return .panic
      else
        let s2 ← addBytes s1 (b! ":")
        match ← vf n e s2 with
        | .ok s3 =>
          if s3.len < sb.len then return .panic
          else sortedLoopP kf vf (n + 1) es s3 (l ++ [(⟨s1.arr, sb.len + 1, s1.len - 1⟩, ⟨s3.arr, sb.len, s3.len⟩)])
        | .fail e s3 => return .fail e s3
        | .panic => return .panic
        | .bad => return .bad
    | .fail e s1 => return .fail e s1
    | .panic => return .panic
    | .bad => return .bad

/-- Reading the entries. The sorting and the appending loop of the code read them many times (/repo/encode.go:455-464). -/
def readEntries : List (Sub × Sub) → Prog (List (Bytes × Bytes))
  | [] => .ret []
  | (k, kv) :: l => do
    let a ← (Op.read k).call
    let b ← (Op.read kv).call
    let t ← readEntries l
    return (a, b) :: t

/-- `for i, kv := range mel.s`, /repo/encode.go:459-464 and 578-583. -/
def joinEntriesP : Bool → List (Bytes × Bytes) → Sl → Prog Sl
  | _, [], s => .ret s
  | first, kv :: t, s => do
    let s0 ← commaP (!first) s
    let s1 ← addBytes s0 kv.2
    joinEntriesP false t s1

/-- `releaseMapElems`, /repo/map.go:25-31, and `bufferPool.Put`. -/
def releaseP (b m : Nat) (sb : Sl) : Prog Unit := do
  (Op.store b (.buf sb)).call
  (Op.store m (.elems [])).call
  (Op.put .elems m).call
  (Op.put .buf b).call

/-- `encodeSortedMap`, /repo/encode.go:414-474, `encodeSortedSyncMap`, 533-589, with `cachedBuffer`
(/repo/buffer.go:17-27). A panic passes without putting anything back. -/
def encodeSortedP {α : Type} (sort : SortAlg) (kf vf : Nat → α → Sl → Prog RS) (es : List α) (s : Sl) : Prog RS := do
  let b ← (Op.get .buf).call
  match ← (Op.load b).call with
  | .buf s0 =>
    (Op.store b (.buf ⟨s0.arr, 0⟩)).call
    let m ← (Op.get .elems).call
    match ← (Op.load m).call with
    | .elems l0 =>
      match ← sortedLoopP kf vf 0 es ⟨s0.arr, 0⟩ l0 with
      | .ok sb l =>
        let l' ← readEntries l
        let s' ← joinEntriesP true (sort kvLess l') s
        releaseP b m sb
        return .ok s'
      | .fail e sb =>
        releaseP b m sb
        return .fail e s
      | .panic => return .panic
      | .bad => return .bad
    | _ => return .panic
  | _ => return .panic

/-- Lines 370-379 of `encodeMap` and 494-501 of `encodeSyncMap` in /repo/encode.go, after the brace. -/
def encodeEntriesP {α : Type} (W : World) (o : EncOpts) (kf vf : Nat → α → Sl → Prog RS) (es : List α) (s : Sl) : Prog RS :=
  if bmHas o.flags .unsortedMap then unsortedLoopP kf vf 0 es s else encodeSortedP W.sort kf vf es s

/-- The closing brace (/repo/encode.go:376-379 and 498-501). -/
def closeP : RS → Prog RS
  | .ok s => addLast s (b! "}")
  | r => .ret r

/-- `encodeMap`, /repo/encode.go:349-380, with `newHiter` (/repo/map_1.18.go:7-18; /repo/map_1.17.go:7-16 is the same but for the signature of a runtime function). -/
def encodeMapP (W : World) (H : Heap) (o : EncOpts) (rec : RecP) (path : Path) (ki vi : CInstr) (p : Loc) (s : Sl) : Prog RS :=
  withReadP (readWord H.mem p) fun a =>
    if a = 0 then addLast s (if bmHas o.flags .nilMapEmpty then b! "{}" else b! "null")
    else withReadP (readMap H.mem a) fun es =>
      if es.length = 0 then addLast s (b! "{}")
      else do
        let s1 ← addBytes s (b! "{")
        let it ← (Op.get .iter).call
        (Op.store it (.iter (W.visit path es))).call
        match ← (Op.load it).call with
        | .iter l =>
          match ← encodeEntriesP W o (fun n e s => rec ((2 * n) :: path) ki (.heap e.1) s)
              (fun n e s => rec ((2 * n + 1) :: path) vi (.heap e.2) s) l s1 with
          | .panic => return .panic
          | .bad => return .bad
          | r =>
            (Op.put .iter it).call
            closeP r
        | _ => return .panic

/-- `appendJSON`, /repo/json.go:185-192. -/
def appendJSONP (W : World) (g : Nat) (rec : RecP) (path : Path) (v : Eface) (s : Sl) : Prog RS :=
  match v with
  | none => .ret .panic
  | some (t, w) => do
    let i ← cachedInstr W g t
    rec path i (.heap w) s

/-- `appendSyncMapKey`, /repo/encode.go:591-629. -/
def appendSyncMapKeyP (W : World) (H : Heap) (o : EncOpts) (g : Nat) (rec : RecP) (path : Path) (key : Eface) (s : Sl) : Prog RS :=
  match key with
  | none => .ret (.fail .syncMapNilKey s)
  | some (kt, w) =>
    let isStr := isStringK (W.E kt).kind
    let isInt := isInteger (W.E kt).kind
    let isTxt := (W.E kt).meths.text
    if !isStr && !isInt && !isTxt then .ret (.fail (.syncMapKey kt) s)
    else
      if isStr then withReadP (readStr H.mem (.heap w)) fun x => onBytes (fun dst => .ok (encodeString x dst o.esc)) s
      else if isTxt then appendJSONP W g rec path key s
      else do
        let s1 ← addBytes s (b! "\"")
        match ← appendJSONP W g rec path key s1 with
        | .ok s2 => addLast s2 (b! "\"")
        | r => return r

/-- `encodeSyncMap`, /repo/encode.go:481-502. -/
def encodeSyncMapP (W : World) (H : Heap) (o : EncOpts) (g : Nat) (rec : RecP) (path : Path) (p : Loc) (s : Sl) : Prog RS :=
  withReadP (readSyncMap H.mem p) fun es => do
    let s1 ← addBytes s (b! "{")
    let r ← encodeEntriesP W o (fun n e s => appendSyncMapKeyP W H o g rec ((2 * n) :: path) e.1 s)
      (fun n e s => appendJSONP W g rec ((2 * n + 1) :: path) e.2 s) (W.visit path es) s1
    closeP r

/-- Calling the function made by `newStructFieldsInstr`, /repo/instruction.go:289-291 and 321-323. -/
def callClosure (H : Heap) (o : EncOpts) (rec : RecP) (path : Path) (f : Nat) (p : Loc) (s : Sl) : Prog RS := do
  match ← (Op.captured f).call with
  | none => addLast s (b! "{}")
  | some flds => structLoopP H o rec path p 0 flds true s

/-- One instruction. The functions named at `exec` (Model/Encode), /repo/encode.go and /repo/instruction.go:213-432. -/
def execP (W : World) (H : Heap) (o : EncOpts) (g : Nat) (rec : RecP) (path : Path) (i : CInstr) (p : Loc) (s : Sl) : Prog RS :=
  match i with
  | .leaf (.goType .syncMap) => encodeSyncMapP W H o g rec path p s
  | .leaf i => onBytes (exec W H o (fun _ _ _ _ => .bad) path i p) s
  | .quoted i => do
    let s1 ← addBytes s (b! "\"")
    match ← rec path i p s1 with
    | .ok s2 => addLast s2 (b! "\"")
    | r => return r
  | .nilText i => withReadP (readWord H.mem p) fun a =>
      if a = 0 then addLast s (b! "\"\"") else rec path i p s
  | .inline i =>
    match p with
    | .heap w => rec path i (.tmp w) s
    | .tmp _ => .ret .bad
  | .iface => withReadP (readEface H.mem p) fun v =>
      match v with
      | none => addLast s (b! "null")
      | some x => appendJSONP W g rec path (some x) s
  | .struct (.closure f) => callClosure H o rec path f p s
  | .struct (.placeholder c) => do
    let f ← (Op.wait c).call
    callClosure H o rec path f p s
  | .map _ ki vi => encodeMapP W H o rec path ki vi p s
  | .slice ins es => withReadP (readSlice H.mem p) fun (d, n) =>
      if d = 0 then addLast s (if bmHas o.flags .nilSliceEmpty then b! "[]" else b! "null")
      else if n = 0 then addLast s (b! "[]")
      else encodeArrayP H o rec path ins es n false (.heap d) s
  | .array ins es n isba => encodeArrayP H o rec path ins es n isba p s
  | .ptr i => withReadP (readWord H.mem p) fun a =>
      if a ≠ 0 then rec path i (.heap a) s else addLast s (b! "null")

/-- Running an instruction; `fuel` bounds the nesting depth (/repo/encode.go: instructions calling instructions). -/
def runP (W : World) (H : Heap) (o : EncOpts) (g : Nat) : Nat → RecP
  | 0, _, _, _, _ => .crash
  | fuel + 1, path, i, p, s => execP W H o g (runP W H o g fuel) path i p s

/-! ## The entry points -/

/-- `marshalJSON`, /repo/json.go:162-183. -/
def marshalP (W : World) (H : Heap) (o : EncOpts) (g n : Nat) (t : TId) (w : Addr) : Prog Out := do
  let i ← cachedInstr W g t
  let b ← (Op.get .buf).call
  match ← (Op.load b).call with
  | .buf s0 =>
    (Op.store b (.buf ⟨s0.arr, 0⟩)).call
    match ← runP W H o g n [] i (.heap w) ⟨s0.arr, 0⟩ with
    | .ok s =>
      (Op.store b (.buf s)).call
      let d : Bytes ← (Op.read s.sub).call
      let r ← (Op.alloc d).call
      (Op.put .buf b).call
      return .ret (some r) none
    | .fail e s =>
      (Op.store b (.buf s)).call
      (Op.put .buf b).call
      return .ret none (some (.encoding e))
    | .panic => return .panic
    | .bad => return .bad
  | _ => return .panic

/-- The function `appendJSON`, /repo/json.go:185-192, as called by `Append` and `AppendOpts`. -/
def appendP (W : World) (H : Heap) (o : EncOpts) (g n : Nat) (t : TId) (w : Addr) (dst : Sl) : Prog Out := do
  match ← appendJSONP W g (runP W H o g n) [] (some (t, w)) dst with
  | .ok s => return .ret (some s) none
  | .fail e s => return .ret (some s) (some (.encoding e))
  | .panic => return .panic
  | .bad => return .bad

/-- The world of a call. No counterpart in /repo but the iteration orders of /repo/map.go:57-63. -/
def Call.world (W : World) (c : Call) : World := { W with order := c.order }

/-- `MarshalOpts`, /repo/json.go:130-143. -/
def Call.marshal (W : World) (g n : Nat) (c : Call) : Prog Out :=
  match c.value with
  | none => do
    let s ← (Op.alloc (b! "null")).call
    return .ret (some s) none
  | some (t, w) =>
    match prepare c.opts with
    | .error e => .ret (.ret none (some (.invalidOption e)))
    | .ok o => marshalP (c.world W) c.heap o g n t w

/-- `AppendOpts`, /repo/json.go:147-160, on the slice `dst`. -/
def Call.append (W : World) (g n : Nat) (c : Call) (dst : Sl) : Prog Out :=
  match c.value with
  | none => do
    let s ← addBytes dst (b! "null")
    return .ret (some s) none
  | some (t, w) =>
    match prepare c.opts with
    | .error e => .ret (.ret none (some (.invalidOption e)))
    | .ok o => appendP (c.world W) c.heap o g n t w dst

/-- What the call returns when it is alone and the first (/repo/json.go:111-160 in a fresh process). -/
def Call.alone (W : World) (n : Nat) (c : Call) : Ret :=
  match c.dst with
  | none => marshalOpts (c.world W) c.heap n c.value c.opts
  | some dst => appendOpts (c.world W) c.heap n dst c.value c.opts

/-! ## Executions -/

/-- A goroutine: its call, what is left of it, the pool objects it has taken and not put back, and the
calls made so far by methods during its call (the last two recorded for the statements only). A goroutine
calling /repo/json.go:130 or 147. -/
structure Thread where
  call : Call
  prog : Prog Out
  held : List Nat
  inner : List Call

/-- The shared state and all goroutines so far. The process: /repo/instruction.go:11-14,
/repo/struct.go:15, /repo/types.go:24, /repo/buffer.go:7, /repo/map.go:9-12 and its goroutines. -/
structure Conf where
  sh : Shared
  thr : List Thread

/-- The objects held after an operation. `Get` and `Put` of the pools, /repo/buffer.go:18,
/repo/map_1.18.go:8, /repo/encode.go:374, 423, 470-471. None of these is deferred: what a call had taken
in which there is a panic is lost, and what is held is what was when it began. -/
def heldAfter : (o : Op) → o.Res → List Nat → List Nat
  | .get _, x, l => x :: l
  | .put _ id, _, l => l.erase id
  | .back _ _ l0 .panic, _, _ => l0
  | _, _, l => l

/-- The goroutine numbered `i` does its next operation: an interleaving of calls of
/repo/json.go:111-160 chosen by the Go scheduler. -/
inductive OStep (i : Nat) : Conf → Conf → Prop
  | mk {C : Conf} {c o k held inner σ x} : C.thr[i]? = some ⟨c, .op o k, held, inner⟩ → o.step C.sh σ x →
      OStep i C ⟨σ, C.thr.set i ⟨c, k x, heldAfter o x held, inner⟩⟩

/-- A method makes a call, of the program `p`, and goes on when that has returned, or has panicked: then the
method goes on if it recovers, and panics otherwise, as other methods that panic. The instruction that
calls the method (/repo/encode.go:631-729) has come to its operation `scratch`. -/
def Thread.during (T : Thread) (n : Nat) (c : Call) (p : Prog Out) (s : Sl) (k : Bytes → Prog Out) : Thread :=
  { T with prog := p.bind fun out => .op (.back n c T.held out) fun _ => .op (.scratch s) k, inner := c :: T.inner }

/-- The memory of the call is as Go values are (the reads of /repo/encode.go:24-729 succeed). -/
def Call.sound (W : World) (n : Nat) (c : Call) : Prop := c.alone W n ≠ .bad

/-- A method that is being called by the goroutine `i` (/repo/encode.go:631-729) does something to the memory
it was given, or calls the library (/repo/json.go:111-160). -/
inductive MStep (W : World) (g n i : Nat) : Conf → Conf → Prop
  /-- A method that is being called leaves something behind the end of the destination. -/
  | scribble {C : Conf} {T : Thread} {s : Sl} {k : Bytes → Prog Out} {c c' : Bytes} : C.thr[i]? = some T → T.prog = .op (.scratch s) k → C.sh.arrs[s.arr]? = some c →
      c'.length = c.length → c'.take s.len = c.take s.len → MStep W g n i C ⟨{ C.sh with arrs := C.sh.arrs.set s.arr c' }, C.thr⟩
  /-- A method that is being called calls `MarshalOpts`. -/
  | innerMarshal {C : Conf} {T : Thread} {s : Sl} {k : Bytes → Prog Out} {c : Call} : C.thr[i]? = some T → T.prog = .op (.scratch s) k → c.dst = none → c.sound W n →
      MStep W g n i C ⟨C.sh, C.thr.set i (T.during n c (c.marshal W g n) s k)⟩
  /-- It calls `AppendOpts` with a slice of its own. -/
  | innerAppend {C : Conf} {T : Thread} {s : Sl} {k : Bytes → Prog Out} {c : Call} {dst : Bytes} (junk : Bytes) : C.thr[i]? = some T → T.prog = .op (.scratch s) k → c.dst = some dst → c.sound W n →
      MStep W g n i C ⟨{ C.sh with arrs := C.sh.arrs ++ [dst ++ junk] }, C.thr.set i (T.during n c (c.append W g n ⟨C.sh.arrs.length, dst.length⟩) s k)⟩
  /-- It calls `AppendOpts` with the destination it was given, after having appended to it in place. -/
  | innerDst {C : Conf} {T : Thread} {s : Sl} {k : Bytes → Prog Out} {c : Call} {b : Bytes} {m : Nat} : C.thr[i]? = some T → T.prog = .op (.scratch s) k → C.sh.arrs[s.arr]? = some b → s.len ≤ m → m ≤ b.length →
      c.dst = some (b.take m) → c.sound W n → MStep W g n i C ⟨C.sh, C.thr.set i (T.during n c (c.append W g n ⟨s.arr, m⟩) s k)⟩

/-- One step of an execution. `g` and `n` bound the recursion over types and values. An
interleaving of calls of /repo/json.go:111-160 chosen by the Go scheduler. -/
inductive CStep (W : World) (g n : Nat) : Conf → Conf → Prop
  /-- `MarshalOpts` is called. -/
  | marshal {C c} : c.dst = none → CStep W g n C ⟨C.sh, C.thr ++ [⟨c, c.marshal W g n, [], []⟩]⟩
  /-- `AppendOpts` is called with a slice whose array the caller leaves to it. -/
  | append {C : Conf} {c dst} (junk : Bytes) : c.dst = some dst →
      CStep W g n C ⟨{ C.sh with arrs := C.sh.arrs ++ [dst ++ junk] }, C.thr ++ [⟨c, c.append W g n ⟨C.sh.arrs.length, dst.length⟩, [], []⟩]⟩
  /-- A goroutine does its next operation. -/
  | op {C C' i} : OStep i C C' → CStep W g n C C'
  /-- A method that is being called does something. -/
  | method {C C' i} : MStep W g n i C C' → CStep W g n C C'
  /-- The garbage collector drops an object of a pool. -/
  | drop {C : Conf} {P id} : id ∈ C.sh.pool P →
      CStep W g n C ⟨{ C.sh with pool := fun Q => if Q = P then (C.sh.pool P).erase id else C.sh.pool Q }, C.thr⟩

/-- Executions: any number of calls of /repo/json.go:111-160, interleaved. -/
inductive CSteps (W : World) (g n : Nat) : Conf → Conf → Prop
  | refl {C} : CSteps W g n C C
  | step {C C' C''} : CSteps W g n C C' → CStep W g n C' C'' → CSteps W g n C C''

/-- The states reached from the start of the process, by calls of /repo/json.go:111-160. -/
def Reached (W : World) (g n : Nat) (C : Conf) : Prop := CSteps W g n ⟨.init, []⟩ C

/-- The content of a slice. Reading a `[]byte`, as the caller of /repo/json.go:111 does. -/
def Shared.bytes (σ : Shared) (s : Sl) : Option Bytes := (σ.arrs[s.arr]?).map (·.take s.len)

/-- What the caller sees of a result, the bytes read now. Reading what /repo/json.go:111-160 return. -/
def Out.view (σ : Shared) : Out → Option Ret
  | .ret none e => some (.ret none e)
  | .ret (some s) e => (σ.bytes s).map fun b => .ret (some b) e
  | .panic => some .panic
  | .bad => some .bad

end Jettison.Model
