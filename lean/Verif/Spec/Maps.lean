import Verif.Spec.Part
import Verif.Spec.Select
import Verif.Spec.Methods
import Verif.Spec.Utf8
import Verif.Spec.Ints
import Verif.Spec.Text

/-!
# Specification: iteration orders and keys

Go visits the entries of a map in an order it chooses anew each time.
-/

namespace Jettison.Spec
open Jettison Jettison.Model

/-- Each visit of a map meets each entry once. -/
def OrderOk (order : Path → Nat → List Nat) : Prop := ∀ path n, (order path n).Perm (List.range n)

/-- What a key text is sorted by: what is between its quotes. -/
def keyBody (k : Bytes) : Bytes := (k.drop 1).dropLast

/-- Bytewise order. -/
def ByteLe : Bytes → Bytes → Prop
  | [], _ => True
  | _ :: _, [] => False
  | a :: x, b :: y => a < b ∨ (a = b ∧ ByteLe x y)

/-- The text of a key of type `kt`: a string as the string is encoded on its own; an integer
between quotes; otherwise what encoding the key gives, and the empty string for a nil
pointer. `n` bounds the depth of the encoding. -/
inductive KeyText (W : World) (H : Heap) (o : EncOpts) (n : Nat) (kt : TId) : Val → Bytes → Prop
  | str {s} : (W.E kt).kind = .string → KeyText W H o n kt (.str s) (encodeString s [] o.esc)
  | nilText : (W.E kt).meths.text = true → IsPtr W.E kt → KeyText W H o n kt .nil (b! "\"\"")
  | text {x j p path m b} : (W.E kt).kind ≠ .string → (W.E kt).meths.text = true → (IsPtr W.E kt → x ≠ .nil) → Stands W H kt false false j p x →
      m ≤ n → run W H o m path j p [] = .ok b → KeyText W H o n kt x b
  | quoted {x j p path m b} : (W.E kt).kind ≠ .string → (W.E kt).meths.text = false → Stands W H kt false false j p x →
      m ≤ n → run W H o m path j p [] = .ok b → KeyText W H o n kt x (b! "\"" ++ b ++ b! "\"")

/-- The text of a key of a `sync.Map`. A nil pointer is encoded like any other value of its type. -/
inductive SyncKeyText (W : World) (H : Heap) (o : EncOpts) (n : Nat) : Val → Bytes → Prop
  | str {kt s} : (W.E kt).kind = .string → SyncKeyText W H o n (.iface kt (.str s)) (encodeString s [] o.esc)
  | text {kt x j p path m b} : (W.E kt).kind ≠ .string → (W.E kt).meths.text = true → Stands W H kt (isPtrK (W.E kt).kind) false j p x →
      m ≤ n → run W H o m path j p [] = .ok b → SyncKeyText W H o n (.iface kt x) b
  | quoted {kt k x j p path m b} : (W.E kt).kind = .int k → (W.E kt).meths.text = false → Stands W H kt (isPtrK (W.E kt).kind) false j p x →
      m ≤ n → run W H o m path j p [] = .ok b → SyncKeyText W H o n (.iface kt x) (b! "\"" ++ b ++ b! "\"")

/-- The keys of a map are strings, or all integers without methods, and are different; strings are
valid UTF-8 (others may be coerced to the same text). -/
def PlainKeys (E : Env) (kvs : List (Val × Val)) (typ : Val → TId → Val → Prop) : Prop :=
  (∃ ss : List Bytes, ss.Pairwise (· ≠ ·) ∧ (∀ s ∈ ss, ValidUtf8 s) ∧ ss.length = kvs.length ∧
    ∀ (i : Nat) kv s, kvs[i]? = some kv → ss[i]? = some s → ∃ kt, typ kv.1 kt (.str s) ∧ (E kt).kind = .string) ∨
  (∃ is : List IntVal, is.Pairwise (fun a b => intOf a ≠ intOf b) ∧ is.length = kvs.length ∧
    ∀ (i : Nat) kv x, kvs[i]? = some kv → is[i]? = some x → ∃ kt k, typ kv.1 kt (.int x) ∧ (E kt).kind = .int k ∧ ByKind E kt false)

/-- All maps and `sync.Map`s in the value have plain keys. -/
structure AllPlain (E : Env) (t : TId) (v : Val) : Prop where
  map : ∀ t' k e kvs, Within E t v t' (.map kvs) → (E t').kind = .map k e → PlainKeys E kvs fun key kt x => kt = k ∧ x = key
  smap : ∀ t' kvs, Within E t v t' (.smap kvs) → PlainKeys E kvs fun key kt x => key = .iface kt x

/-- The text of an object with these members. -/
def objectOf (ms : List (Bytes × Bytes)) : Bytes := b! "{" ++ commas (ms.map fun m => m.1 ++ b! ":" ++ m.2) ++ b! "}"

/-- Texts that differ in the order of the members of some objects. -/
inductive Reordered : Bytes → Bytes → Prop
  | same (b) : Reordered b b
  | cat {a a' b b'} : Reordered a a' → Reordered b b' → Reordered (a ++ b) (a' ++ b')
  | object {ms ms' ns ns' : List (Bytes × Bytes)} : ms.Perm ns → ns'.Perm ms' → ns.length = ns'.length →
      (∀ (i : Nat) m m', ns[i]? = some m → ns'[i]? = some m' → Reordered m.1 m'.1) →
      (∀ (i : Nat) m m', ns[i]? = some m → ns'[i]? = some m' → Reordered m.2 m'.2) → Reordered (objectOf ms) (objectOf ms')

end Jettison.Spec
