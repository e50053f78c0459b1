import Verif.Spec.Faults
import Verif.Model.Talk

/-!
# Specification: which methods are called, how often and in which order

`Invoked W o t ca v fin evs`: encoding the value `v` of type `t` calls the methods `evs`, one after
the other; `fin` says whether the encoding comes to its end. A value that a method encodes calls that
method, once, and nothing else. Other values call what their parts call, in the order of the parts:
elements by index, members in declaration order, entries of a map in any order but each once, a key
before its value.
-/

namespace Jettison.Spec
open Jettison Jettison.Model

/-- A method call: the method, the type and value of its receiver, and its result. -/
structure Invoke where
  kind : MethKind
  typ : TId
  recv : Val
  got : MethRes

/-- A value to be encoded, of a type, addressable or not. -/
structure Job where
  t : TId
  ca : Bool
  v : Val

/-- What encoding a key of a map asks for: nothing for strings and for nil pointers with a text. -/
inductive KeyJobs (W : World) (k : TId) : Val → List Job → Prop
  | string {x} : (W.E k).kind = .string → KeyJobs W k x []
  | nil : (W.E k).kind ≠ .string → (W.E k).meths.text = true → IsPtr W.E k → KeyJobs W k .nil []
  | key {x} : (W.E k).kind ≠ .string → ((W.E k).meths.text = true → IsPtr W.E k → x ≠ .nil) → KeyJobs W k x [⟨k, false, x⟩]

/-- What encoding a key of a `sync.Map` asks for: nothing for strings and for keys that are no keys. -/
inductive SyncKeyJobs (W : World) : Val → List Job → Prop
  | nil : SyncKeyJobs W .nil []
  | bad {d v} : ¬ KeyType W.E d → SyncKeyJobs W (.iface d v) []
  | string {d v} : (W.E d).kind = .string → SyncKeyJobs W (.iface d v) []
  | key {d v} : KeyType W.E d → (W.E d).kind ≠ .string → SyncKeyJobs W (.iface d v) [⟨d, isPtrK (W.E d).kind, v⟩]

/-- What encoding a value of a `sync.Map` asks for. -/
inductive SyncElemJobs (W : World) : Val → List Job → Prop
  | nil : SyncElemJobs W .nil []
  | elem {d v} : SyncElemJobs W (.iface d v) [⟨d, isPtrK (W.E d).kind, v⟩]

/-- What encoding a value that no method encodes asks for, in order. -/
inductive Asks (W : World) (o : EncOpts) : TId → Bool → Val → List Job → Prop
  | leaf {t ca v} : (∀ t' ca' v', ¬ Encodes1 W o t ca v t' ca' v') → Asks W o t ca v []
  | ptr {t ca e v} : ByKind W.E t ca → (W.E t).kind = .ptr e → Asks W o t ca (.ptr v) [⟨e, true, v⟩]
  | iface {t ca n d v} : ByKind W.E t ca → (W.E t).kind = .iface n → Asks W o t ca (.iface d v) [⟨d, isPtrK (W.E d).kind, v⟩]
  | slice {t ca e vs} : ByKind W.E t ca → (W.E t).kind = .slice e → ¬ ByteElem W.E e → Asks W o t ca (.slice vs) (vs.map fun v => ⟨e, true, v⟩)
  | array {t ca n e vs} : ByKind W.E t ca → (W.E t).kind = .array n e → ¬ (ByteElem W.E e ∧ bmHas o.flags .byteArrayAsString = true) →
      Asks W o t ca (.array vs) (vs.map fun v => ⟨e, ca, v⟩)
  | struct {t ca v} {l kept : List MField} {x : MField → Val} : ByKind W.E t ca → IsStruct W.E t → MembersOf W.U.isLetter W.U.isDigit W.E t l →
      kept.Sublist l → (∀ m ∈ l, m ∈ kept ↔ ¬ LeftOut o v m) → (∀ m ∈ kept, FieldAt v m.path (x m)) →
      Asks W o t ca v (kept.map fun m => ⟨m.decl.typ, ca, x m⟩)
  | map {t ca k e} {kvs perm : List (Val × Val)} {f : Val → List Job} : ByKind W.E t ca → (W.E t).kind = .map k e → KeyType W.E k → perm.Perm kvs →
      (∀ kv ∈ kvs, KeyJobs W k kv.1 (f kv.1)) → Asks W o t ca (.map kvs) (perm.flatMap fun kv => f kv.1 ++ [⟨e, false, kv.2⟩])
  | smap {t ca} {kvs perm : List (Val × Val)} {f g : Val → List Job} : (W.E t).special = some .syncMap → perm.Perm kvs → (∀ kv ∈ kvs, SyncKeyJobs W kv.1 (f kv.1)) →
      (∀ kv ∈ kvs, SyncElemJobs W kv.2 (g kv.2)) → Asks W o t ca (.smap kvs) (perm.flatMap fun kv => f kv.1 ++ g kv.2)

/-- The method `m` of the value `x` of type `rt` encodes the value. -/
def MethodFor (W : World) (t : TId) (ca : Bool) (v : Val) (m : MethKind) (rt : TId) (x : Val) : Prop :=
  (W.E t).special = none ∧ Picks W.E t ca m ∧ ∃ u, Receives W.E W.ptrTo t m v rt x u

mutual
/-- The calls that encoding a value makes. -/
inductive Invoked (W : World) (o : EncOpts) : Job → Bool → List Invoke → Prop
  | method {t ca v m rt x r fin} : MethodFor W t ca v m rt x → (fin = true → ∃ b, r = .ok b) → Invoked W o ⟨t, ca, v⟩ fin [⟨m, rt, x, r⟩]
  | parts {t ca v js fin evs} : (∀ m rt x, ¬ MethodFor W t ca v m rt x) → Asks W o t ca v js → InvokedAll W o js fin evs → Invoked W o ⟨t, ca, v⟩ fin evs
  | stop {j} : Invoked W o j false []

/-- The calls that encoding values one after the other makes. -/
inductive InvokedAll (W : World) (o : EncOpts) : List Job → Bool → List Invoke → Prop
  | nil : InvokedAll W o [] true []
  | stop {js} : InvokedAll W o js false []
  | last {j js evs} : Invoked W o j false evs → InvokedAll W o (j :: js) false evs
  | cons {j js fin evs evs'} : Invoked W o j true evs → InvokedAll W o js fin evs' → InvokedAll W o (j :: js) fin (evs ++ evs')
end

/-- A way a conversation can go: the methods called with the results they give, and the outcome. -/
inductive Course {α : Type} : Talk α → List (Ask × MethRes) → α → Prop
  | done {a} : Course (.done a) [] a
  | ask {q k r l a} : Course (k r) l a → Course (.ask q k) ((q, r) :: l) a

/-- The call of the code is the call meant: on the value in memory, with the context, and with no
destination for the methods that take none. -/
structure SameCall (W : World) (m : Mem) (o : EncOpts) (c : Ask × MethRes) (e : Invoke) : Prop where
  kind : c.1.kind = e.kind
  ctx : c.1.ctx = argCtx o e.kind
  typ : c.1.typ = e.typ
  recv : Recv W.E m e.typ c.1.recv e.recv
  got : c.2 = e.got
  dst : e.kind = .json ∨ e.kind = .text → c.1.dst = []

/-- As many calls as are meant, in the same order. -/
inductive SameCalls (W : World) (m : Mem) (o : EncOpts) : List (Ask × MethRes) → List Invoke → Prop
  | nil : SameCalls W m o [] []
  | cons {c e l l'} : SameCall W m o c e → SameCalls W m o l l' → SameCalls W m o (c :: l) (e :: l')

end Jettison.Spec
