import Verif.Model.Api

/-!
# State shared by all calls: caches and pools (/repo/instruction.go:11-14, /repo/buffer.go:7, /repo/map.go:9-12)

A call is a program (`Prog`) whose primitive operations (`Op`) are atomic accesses to
the shared state. Go memory that only one call can reach is also part of the state: the
model does not assume that it is private.
-/

namespace Jettison.Model

/-- The instruction of a struct as the code holds it: the function of
/repo/instruction.go:269-272, which waits (`placeholder`), or the function made by
`newStructFieldsInstr` (`closure`). Both are numbered in the order of creation. -/
inductive Ref | placeholder (c : Nat) | closure (f : Nat)
  deriving DecidableEq, Repr

/-- An instruction in memory: like `Instr`, but a struct instruction is a reference.
`leaf` is an instruction that calls no other and is not that of a struct (/repo/instruction.go:16-19, 213-432). -/
inductive CInstr
  | leaf (i : Instr)
  | quoted (i : CInstr)
  | nilText (i : CInstr)
  | inline (i : CInstr)
  | iface
  | struct (r : Ref)
  | map (t : TId) (ki vi : CInstr)
  | slice (i : CInstr) (size : Nat)
  | array (i : CInstr) (size len : Nat) (isba : Bool)
  | ptr (i : CInstr)
  deriving DecidableEq, Repr

/-- A field captured by the closure of /repo/instruction.go:321-323. -/
structure CField where
  fld : Fld
  omitNil : Bool
  omitNullMarshaler : Bool
  instr : CInstr
  empty : Option EmptyFn
  deriving DecidableEq, Repr

/-- The field with another kind of instruction (/repo/instruction.go:316). -/
def CField.with (f : CField) (i : Instr) : FInstr := ⟨f.fld, f.omitNil, f.omitNullMarshaler, i, f.empty⟩

/-- The variables `ins` and `wg` of a placeholder, /repo/instruction.go:263-266: the
instruction once it is set, and whether `wg.Done` was called. -/
structure Slot where
  ins : Option Nat
  done : Bool
  deriving DecidableEq, Repr

/-- A slice of bytes that starts at the beginning of its array. The capacity is the
length of the array. `dst` and `buf.B`, /repo/encode.go, /repo/buffer.go:9. -/
structure Sl where
  arr : Nat
  len : Nat
  deriving DecidableEq, Repr

/-- A slice of bytes that is only read: `buf.B[lo:hi]` (/repo/encode.go:437, 448, 554, 565). -/
structure Sub where
  arr : Nat
  lo : Nat
  hi : Nat
  deriving DecidableEq, Repr

/-- `buf.B[lo:hi]`, /repo/encode.go:437, 448, 554, 565. -/
def Sl.sub (s : Sl) : Sub := ⟨s.arr, 0, s.len⟩

/-- The objects kept in pools: `*buffer` (/repo/buffer.go:9), `*mapElems`
(/repo/map.go:14-20; the array of pairs is reached through the object only and is
modelled as a list) and `*hiter` (/repo/map.go:39-53; the entries still to visit). -/
inductive PObj
  | buf (s : Sl)
  | elems (l : List (Sub × Sub))
  | iter (l : List (Addr × Addr))
  deriving DecidableEq, Repr

/-- The three pools (/repo/buffer.go:7, /repo/map.go:9-12). -/
inductive PoolK | buf | elems | iter
  deriving DecidableEq, Repr

/-- What a call returns, the bytes as a slice (/repo/json.go:111-160). -/
inductive Out
  | ret (b : Option Sl) (e : Option ApiErr)
  | panic
  | bad
  deriving DecidableEq, Repr

/-- A call of `MarshalOpts` (`dst = none`) or `AppendOpts` with its arguments, the memory and the methods
it sees, and the orders in which the runtime visits maps in it. `Marshal` and `Append` are the same with
no options (`C27_no_options`) (/repo/json.go:130 and 147). -/
structure Call where
  heap : Heap
  order : Path → Nat → List Nat
  value : Eface
  opts : List (Option Opt)
  dst : Option Bytes

/-- The state shared by all calls (/repo/instruction.go:11-14, /repo/struct.go:15,
/repo/types.go:24, /repo/buffer.go:7, /repo/map.go:9-12). -/
structure Shared where
  /-- The map behind `instrCachePtr`, /repo/instruction.go:12. A stored map is never modified. -/
  cache : List (TId × CInstr)
  /-- `structInstrCache`, /repo/instruction.go:13; the first entry of a key counts. -/
  structs : List ((TId × Bool) × Ref)
  /-- The variables of the placeholders stored in `structInstrCache`. -/
  slots : List Slot
  /-- What the functions made by `newStructFieldsInstr` captured; `none` for the fast path. -/
  closures : List (Option (List CField))
  /-- `fieldsCache`, /repo/struct.go:15. -/
  fields : List (TId × List Fld)
  /-- `emptyFnCache`, /repo/types.go:24. -/
  empties : List (TId × EmptyFn)
  /-- The arrays of bytes: destinations, buffers and results. -/
  arrs : List Bytes
  /-- All objects made for the pools. -/
  objs : List PObj
  /-- The objects in each pool. -/
  pool : PoolK → List Nat

/-- Before the first call (/repo/instruction.go:11-14, /repo/buffer.go:7, /repo/map.go:9-12). -/
def Shared.init : Shared := ⟨[], [], [], [], [], [], [], [], fun _ => []⟩

/-- Looking up a key, the latest entry first. A lookup in a map or `sync.Map`, as /repo/instruction.go:61. -/
def assoc {κ α : Type} [DecidableEq κ] (k : κ) : List (κ × α) → Option α
  | [] => none
  | (k', a) :: l => if k' = k then some a else assoc k l

/-- The atomic operations, with the lines of /repo/instruction.go, /repo/struct.go, /repo/types.go,
/repo/buffer.go:18, /repo/map.go:30, /repo/encode.go:26, 631-729 and /repo/json.go:177 they stand for. -/
inductive Op
  | loadInstr (t : TId)                    -- loadInstr, instruction.go:59-63
  | loadCache                              -- loadCache, instruction.go:54-57
  | storeCache (m : List (TId × CInstr))   -- atomic.StorePointer, instruction.go:75-78
  | loadStruct (k : TId × Bool)            -- structInstrCache.Load, instruction.go:254
  | loadOrStore (k : TId × Bool)           -- structInstrCache.LoadOrStore, instruction.go:268-274
  | newClosure (c : Option (List CField))  -- the closure of instruction.go:289 or 321
  | setIns (c f : Nat)                     -- ins = …, instruction.go:279
  | done (c : Nat)                         -- wg.Done(), instruction.go:280
  | storeStruct (k : TId × Bool) (f : Nat) -- structInstrCache.Store, instruction.go:281
  | wait (c : Nat)                         -- wg.Wait() and reading ins, instruction.go:270-271
  | captured (f : Nat)                     -- reading what the closure captured
  | loadFields (t : TId)                   -- fieldsCache.Load, struct.go:65
  | addFields (t : TId) (l : List Fld)     -- fieldsCache.LoadOrStore, struct.go:68
  | loadEmpty (t : TId)                    -- emptyFnCache.Load, types.go:91
  | addEmpty (t : TId) (f : EmptyFn)       -- emptyFnCache.LoadOrStore, types.go:94
  | read (s : Sub)                         -- reading bytes
  | scratch (s : Sl)                       -- reading s, where something may be left in its spare capacity
  | write (s : Sl) (b : Bytes)             -- any mix of appends to s and writes to its spare capacity
  | alloc (b : Bytes)                      -- make and copy, json.go:177-178
  | get (P : PoolK)                        -- Pool.Get, and a new object if that is nil
  | load (id : Nat)                        -- reading the object
  | store (id : Nat) (v : PObj)            -- writing the object
  | put (P : PoolK) (id : Nat)             -- Pool.Put
  | back (n : Nat) (c : Call) (l : List Nat) (out : Out)  -- a call made by a method returns to it, or it recovers from the panic in it

/-- The type of the result of an operation. See `Op`, /repo/instruction.go, /repo/encode.go, /repo/buffer.go. -/
def Op.Res : Op → Type
  | .loadInstr _ => Option CInstr
  | .loadCache => List (TId × CInstr)
  | .loadStruct _ => Option Ref
  | .loadOrStore _ => Ref × Bool
  | .newClosure _ => Nat
  | .wait _ => Nat
  | .captured _ => Option (List CField)
  | .loadFields _ => Option (List Fld)
  | .addFields _ _ => List Fld
  | .loadEmpty _ => Option EmptyFn
  | .addEmpty _ _ => EmptyFn
  | .read _ | .scratch _ => Bytes
  | .write _ _ => Sl
  | .alloc _ => Sl
  | .get _ => Nat
  | .load _ => PObj
  | .storeCache _ | .setIns _ _ | .done _ | .storeStruct _ _ | .store _ _ | .put _ _ | .back _ _ _ _ => Unit

/-- The new object made when a pool is empty and the arrays after that:
/repo/buffer.go:24-26, /repo/encode.go:426 and 543, /repo/map_1.18.go:10. The capacity of a
new buffer and the content of its array are arbitrary. -/
inductive Fresh (σ : Shared) : PoolK → PObj → List Bytes → Prop
  | buf (junk : Bytes) : Fresh σ .buf (.buf ⟨σ.arrs.length, 0⟩) (σ.arrs ++ [junk])
  | elems : Fresh σ .elems (.elems []) σ.arrs
  | iter : Fresh σ .iter (.iter []) σ.arrs

/-- What an operation does: the state before, the state after and the result. An
operation without a possible outcome blocks; for `wait` this is meant, for the others it
would be an access to memory that does not exist. See `Op`, /repo/instruction.go, /repo/encode.go, /repo/buffer.go. -/
def Op.step : (o : Op) → Shared → Shared → o.Res → Prop
  | .loadInstr t, σ, σ', x => σ' = σ ∧ x = assoc t σ.cache
  | .loadCache, σ, σ', x => σ' = σ ∧ x = σ.cache
  | .storeCache m, σ, σ', _ => σ' = { σ with cache := m }
  | .loadStruct k, σ, σ', x => σ' = σ ∧ x = assoc k σ.structs
  -- the variables of the placeholder are made when it is stored: they cannot be reached otherwise
  | .loadOrStore k, σ, σ', x =>
    match assoc k σ.structs with
    | some r => σ' = σ ∧ x = (r, true)
    | none => σ' = { σ with structs := (k, .placeholder σ.slots.length) :: σ.structs, slots := σ.slots ++ [⟨none, false⟩] } ∧
        x = (.placeholder σ.slots.length, false)
  | .newClosure c, σ, σ', x => σ' = { σ with closures := σ.closures ++ [c] } ∧ x = σ.closures.length
  | .setIns c f, σ, σ', _ => ∃ s, σ.slots[c]? = some s ∧ σ' = { σ with slots := σ.slots.set c { s with ins := some f } }
  | .done c, σ, σ', _ => ∃ s, σ.slots[c]? = some s ∧ σ' = { σ with slots := σ.slots.set c { s with done := true } }
  | .storeStruct k f, σ, σ', _ => σ' = { σ with structs := (k, .closure f) :: σ.structs }
  | .wait c, σ, σ', x => σ' = σ ∧ σ.slots[c]? = some ⟨some x, true⟩
  | .captured f, σ, σ', x => σ' = σ ∧ σ.closures[f]? = some x
  | .loadFields t, σ, σ', x => σ' = σ ∧ x = assoc t σ.fields
  | .addFields t l, σ, σ', x =>
    match assoc t σ.fields with
    | some l' => σ' = σ ∧ x = l'
    | none => σ' = { σ with fields := (t, l) :: σ.fields } ∧ x = l
  | .loadEmpty t, σ, σ', x => σ' = σ ∧ x = assoc t σ.empties
  | .addEmpty t f, σ, σ', x =>
    match assoc t σ.empties with
    | some f' => σ' = σ ∧ x = f'
    | none => σ' = { σ with empties := (t, f) :: σ.empties } ∧ x = f
  | .read s, σ, σ', x => σ' = σ ∧ ∃ c, σ.arrs[s.arr]? = some c ∧ s.hi ≤ c.length ∧ x = slice c s.lo s.hi
  -- what a method that fails has appended stays behind the end of the slice
  | .scratch s, σ, σ', x => ∃ c c', σ.arrs[s.arr]? = some c ∧ s.len ≤ c.length ∧ c'.length = c.length ∧ c'.take s.len = c.take s.len ∧
      σ' = { σ with arrs := σ.arrs.set s.arr c' } ∧ x = c.take s.len
  -- in place, or in a new array after having used the spare capacity of the old one
  | .write s b, σ, σ', x => ∃ c, σ.arrs[s.arr]? = some c ∧
      ((∃ c', c'.length = c.length ∧ b.length ≤ c.length ∧ c'.take b.length = b ∧ x = ⟨s.arr, b.length⟩ ∧
          σ' = { σ with arrs := σ.arrs.set s.arr c' }) ∨
       (∃ c1 c', c1.length = c.length ∧ c1.take s.len = c.take s.len ∧ b.length ≤ c'.length ∧ c'.take b.length = b ∧
          x = ⟨σ.arrs.length, b.length⟩ ∧ σ' = { σ with arrs := σ.arrs.set s.arr c1 ++ [c'] }))
  | .alloc b, σ, σ', x => ∃ junk, σ' = { σ with arrs := σ.arrs ++ [b ++ junk] } ∧ x = ⟨σ.arrs.length, b.length⟩
  | .get P, σ, σ', x =>
      (x ∈ σ.pool P ∧ σ' = { σ with pool := fun Q => if Q = P then (σ.pool P).erase x else σ.pool Q }) ∨
      (∃ v arrs, Fresh σ P v arrs ∧ σ' = { σ with objs := σ.objs ++ [v], arrs := arrs } ∧ x = σ.objs.length)
  | .load id, σ, σ', x => σ' = σ ∧ σ.objs[id]? = some x
  | .store id v, σ, σ', _ => id < σ.objs.length ∧ σ' = { σ with objs := σ.objs.set id v }
  | .put P id, σ, σ', _ => σ' = { σ with pool := fun Q => if Q = P then id :: σ.pool P else σ.pool Q }
  | .back _ _ _ _, σ, σ', _ => σ' = σ

/-- A program: a tree of operations, branching on their results. `crash` is the end
of the process by stack overflow (unbounded recursion). The code of one goroutine, /repo/json.go:111-160. -/
inductive Prog (α : Type) : Type
  | ret (a : α)
  | crash
  | op (o : Op) (k : o.Res → Prog α)

/-- Sequencing: statements one after the other, as in /repo/json.go:163-182. -/
def Prog.bind {α β : Type} : Prog α → (α → Prog β) → Prog β
  | .ret a, f => f a
  | .crash, _ => .crash
  | .op o k, f => .op o fun x => (k x).bind f

instance : Monad Prog where
  pure := .ret
  bind := Prog.bind

/-- One operation as a program, as /repo/instruction.go:254. -/
def Op.call (o : Op) : Prog o.Res := .op o .ret

end Jettison.Model
