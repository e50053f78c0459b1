import Verif.Spec.Writes

/-!
# Specification: the size of a value

A value counts as the tree it is: what two pointers point to counts twice. `Val.nodes` counts the values it
is made of, itself included, a byte of a `[]byte` being one; `Val.chars` counts the bytes of its strings.
-/

namespace Jettison.Spec
open Jettison Jettison.Model

mutual
/-- The number of values a value is made of, itself included. -/
def Val.nodes : Val → Nat
  | .ptr v => v.nodes + 1
  | .slice vs => nodesOf vs + 1
  | .array vs => nodesOf vs + 1
  | .struct vs => nodesOf vs + 1
  | .map kvs => nodesOfEntries kvs + 1
  | .iface _ v => v.nodes + 1
  | .smap kvs => nodesOfEntries kvs + 1
  | _ => 1
/-- That of a list of values. -/
def nodesOf : List Val → Nat
  | [] => 0
  | v :: vs => v.nodes + nodesOf vs
/-- That of the keys and values of a map. -/
def nodesOfEntries : List (Val × Val) → Nat
  | [] => 0
  | (k, v) :: kvs => k.nodes + v.nodes + nodesOfEntries kvs
end

mutual
/-- The number of bytes of the strings in a value. -/
def Val.chars : Val → Nat
  | .str s => s.length
  | .ptr v => v.chars
  | .slice vs => charsOf vs
  | .array vs => charsOf vs
  | .struct vs => charsOf vs
  | .map kvs => charsOfEntries kvs
  | .iface _ v => v.chars
  | .smap kvs => charsOfEntries kvs
  | _ => 0
/-- That of a list of values. -/
def charsOf : List Val → Nat
  | [] => 0
  | v :: vs => v.chars + charsOf vs
/-- That of the keys and values of a map. -/
def charsOfEntries : List (Val × Val) → Nat
  | [] => 0
  | (k, v) :: kvs => k.chars + v.chars + charsOfEntries kvs
end

/-- Bounds on what is not in the value itself: the names of the members of its structs are at most `N` bytes
long, the results of its methods `B`, the texts of its floats, and of its durations as floats, `F`, and those
of its times in a layout of the user `T`. -/
structure Limits (W : World) (M : MethV) (o : EncOpts) (t : TId) (v : Val) (N B F T : Nat) : Prop where
  name : ∀ t' v' m, Within W.E t v t' v' → ChosenField W.U.isLetter W.U.isDigit W.E t' m → m.name.length ≤ N
  meth : ∀ t' v' m rt x u path c b, Within W.E t v t' v' → Receives W.E W.ptrTo t' m v' rt x u → M path m c rt x [] = .ok b → b.length ≤ B
  float : ∀ t' w bits b, Within W.E t v t' (.float w bits) → FloatText W.fmt w bits b → b.length ≤ F
  duration : ∀ t' d b, Within W.E t v t' (.int (.int64 d)) → (W.E t').special = some .duration →
    FloatText W.fmt .f64 (W.df.seconds d) b ∨ FloatText W.fmt .f64 (W.df.minutes d) b → b.length ≤ F
  layout : ∀ t' x l, Within W.E t v t' (.time x) → o.layout = .other l → (W.appendFormat x l).length ≤ T

end Jettison.Spec
