import Verif.Model.Types
import Verif.Spec.Tags

/-!
# Specification: which fields of a struct are members of its JSON object

Stated over all embedding paths of the type graph, without any search order.
Only the type definitions of Model/Types are shared with the model.
-/

namespace Jettison.Spec
open Jettison.Model (TId Env FieldDef Kind)

/-- The type is a struct with these fields. -/
def HasFields (E : Env) (t : TId) (fs : List FieldDef) : Prop := (E t).kind = .struct fs

/-- The type is a struct. -/
def IsStruct (E : Env) (t : TId) : Prop := ∃ fs, HasFields E t fs

/-- The type is a struct or points to one. -/
def StructOrPtr (E : Env) (t : TId) : Prop := IsStruct E t ∨ ∃ e, (E t).kind = .ptr e ∧ IsStruct E e

/-- The first type is the element or key type of the second. -/
inductive PartOf (E : Env) (u t : TId) : Prop
  | ptr (h : (E t).kind = .ptr u)
  | slice (h : (E t).kind = .slice u)
  | array {n : Nat} (h : (E t).kind = .array n u)
  | key {e : TId} (h : (E t).kind = .map u e)
  | val {k : TId} (h : (E t).kind = .map k u)

/-- A field takes part in encoding: it is exported, or embedded with a struct
inside; and its tag is not "-". -/
def Encodable (E : Env) (sf : FieldDef) : Prop :=
  (sf.exported = true ∨ (sf.anonymous = true ∧ StructOrPtr E sf.typ)) ∧ sf.tag ≠ b! "-"

/-- The JSON name given by the tag, if it gives a legal one. -/
def TagGives (letter digit : Nat → Bool) (tag name : Bytes) : Prop :=
  ∃ opts, TagReading tag name opts ∧ TagName letter digit name

/-- The field is an embedded struct whose fields are promoted: embedded, not named
by its tag, of a struct type (`ptr = false`) or of an unnamed pointer to a struct. -/
def Promotes (letter digit : Nat → Bool) (E : Env) (sf : FieldDef) (v : TId) (ptr : Bool) : Prop :=
  Encodable E sf ∧ sf.anonymous = true ∧ (∀ n, ¬ TagGives letter digit sf.tag n) ∧ IsStruct E v ∧
    ((ptr = false ∧ v = sf.typ) ∨ (ptr = true ∧ (E sf.typ).kind = .ptr v ∧ (E sf.typ).name = []))

/-- The field is a member of its own under the JSON name `name`; `tagged` tells
whether the name comes from the tag. -/
def Member (letter digit : Nat → Bool) (E : Env) (sf : FieldDef) (name : Bytes) (tagged : Bool) : Prop :=
  Encodable E sf ∧ (∀ v ptr, ¬ Promotes letter digit E sf v ptr) ∧
    ((tagged = true ∧ TagGives letter digit sf.tag name) ∨
      (tagged = false ∧ (∀ n, ¬ TagGives letter digit sf.tag n) ∧ name = sf.name))

/-- Struct type `u` is reached from `t` through promoting embedded fields along the
index path `p`; `q` lists the offsets and pointer indirections on the way. -/
inductive Reaches (letter digit : Nat → Bool) (E : Env) (t : TId) : List Nat → TId → List (Nat × Bool) → Prop
  | here : Reaches letter digit E t [] t []
  | step {p u q fs i sf v ptr} : Reaches letter digit E t p u q → HasFields E u fs → fs[i]? = some sf →
      Promotes letter digit E sf v ptr → Reaches letter digit E t (p ++ [i]) v (q ++ [(sf.offset, ptr)])

/-- A field reachable from `t` by promotion: its path, declaration (struct type and
position), name and tag status, and the route of offsets to it. -/
structure Promoted (letter digit : Nat → Bool) (E : Env) (t : TId) (path : List Nat) (u : TId) (i : Nat)
    (sf : FieldDef) (name : Bytes) (tagged : Bool) (route : List (Nat × Bool)) : Prop where
  reach : ∃ p q, Reaches letter digit E t p u q ∧ path = p ++ [i] ∧ route = q ++ [(sf.offset, false)]
  decl : ∃ fs, HasFields E u fs ∧ fs[i]? = some sf
  member : Member letter digit E sf name tagged

/-- `a` wins over `b`: less deep, or as deep but tagged when the other is not. -/
def Wins (pa : List Nat) (ta : Bool) (pb : List Nat) (tb : Bool) : Prop :=
  pa.length < pb.length ∨ (pa.length = pb.length ∧ ta = true ∧ tb = false)

/-- Go's rule, with JSON tags: the field at this path wins over every other
reachable field of its name. -/
def Visible (letter digit : Nat → Bool) (E : Env) (t : TId) (path : List Nat) (name : Bytes) (tagged : Bool) : Prop :=
  (∃ u i sf r, Promoted letter digit E t path u i sf name tagged r) ∧
    ∀ path' u' i' sf' tagged' r', Promoted letter digit E t path' u' i' sf' name tagged' r' → path' ≠ path →
      Wins path tagged path' tagged'

/-- Lexicographic order of index paths: declaration order. -/
def PathLt : List Nat → List Nat → Prop
  | _, [] => False
  | [], _ :: _ => True
  | a :: x, b :: y => a < b ∨ (a = b ∧ PathLt x y)

/-- No struct type is reachable by two different shortest paths and promotes
further structs itself. -/
def NoSharedEmbedding (letter digit : Nat → Bool) (E : Env) (t : TId) : Prop :=
  ∀ u p p' q q', Reaches letter digit E t p u q → Reaches letter digit E t p' u q' → p ≠ p' →
    (∀ r s, Reaches letter digit E t r u s → p.length ≤ r.length ∧ p'.length ≤ r.length) →
    ∀ fs sf v ptr, HasFields E u fs → sf ∈ fs → ¬ Promotes letter digit E sf v ptr

/-- The first path to the struct type: shortest, then first in declaration order. -/
def Canonical (letter digit : Nat → Bool) (E : Env) (t : TId) (p : List Nat) (u : TId) : Prop :=
  (∃ q, Reaches letter digit E t p u q) ∧
    ∀ p' q', Reaches letter digit E t p' u q' → p' = p ∨ p.length < p'.length ∨ (p.length = p'.length ∧ PathLt p p')

/-- The path `a` leads to `u` by one step from the first path of a struct. -/
def CanonicalPush (letter digit : Nat → Bool) (E : Env) (t : TId) (a : List Nat) (u : TId) : Prop :=
  ∃ p w fs i sf ptr, a = p ++ [i] ∧ Canonical letter digit E t p w ∧ HasFields E w fs ∧ fs[i]? = some sf ∧
    Promotes letter digit E sf u ptr

/-- Two structs, each at its first path, or two fields of one, embed `u` at depth `k`. -/
def PushedTwice (letter digit : Nat → Bool) (E : Env) (t : TId) (k : Nat) (u : TId) : Prop :=
  ∃ a b, a ≠ b ∧ (CanonicalPush letter digit E t a u ∧ a.length = k) ∧ (CanonicalPush letter digit E t b u ∧ b.length = k)

/-- A member of the object of a struct type: the index path of the field, its
declaration and its JSON name. -/
structure MField where
  path : List Nat
  decl : FieldDef
  name : Bytes

/-- The rule of C49: the struct declaring the field stands at its first path, is not
embedded twice there, and the field wins over all others of its name. -/
def ChosenField (letter digit : Nat → Bool) (E : Env) (t : TId) (m : MField) : Prop :=
  ∃ p u i r tagged, m.path = p ++ [i] ∧ Promoted letter digit E t m.path u i m.decl m.name tagged r ∧
    Canonical letter digit E t p u ∧ ¬ PushedTwice letter digit E t p.length u ∧
    ∀ p' u' i' sf' tg' r', Promoted letter digit E t (p' ++ [i']) u' i' sf' m.name tg' r' →
      Canonical letter digit E t p' u' → p' ++ [i'] ≠ m.path → Wins m.path tagged (p' ++ [i']) tg'

end Jettison.Spec
