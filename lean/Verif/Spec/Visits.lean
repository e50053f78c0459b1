import Verif.Spec.Maps
import Verif.Spec.Select

/-!
# Specification: the data a call visits

A call visits its value, and from each place in memory the places the encoding of the value there
refers to: the target of a pointer, the elements, the entries, the value in an interface, the members
that the options do not hide. Data behind a method, in a native type or in a hidden member is not visited.
Data with an endless chain of visits is `Cyclic`.
-/

namespace Jettison.Spec
open Jettison Jettison.Model

/-- A value in memory: its type, whether it is addressable, and where it is. -/
structure Spot where
  t : TId
  ca : Bool
  l : Loc

/-- Where the value in an interface is looked for: its data word is the value itself for pointers, maps and
structs wrapping one of them, and is taken for its address for others. -/
inductive Held (E : Env) : TId → Addr → Spot → Prop
  | direct {t w} : Inlined E t → Held E t w ⟨t, isPtrK (E t).kind, .tmp w⟩
  | indirect {t w} : ¬ Inlined E t → Held E t w ⟨t, isPtrK (E t).kind, .heap w⟩

/-- From one location the other is reached by offsets, and through pointers that are not nil where the
step asks for one. -/
inductive Follows (m : Mem) : List (Nat × Bool) → Loc → Loc → Prop
  | nil {l} : Follows m [] l l
  | inside {off r l l'} : Follows m r (l.add off) l' → Follows m ((off, false) :: r) l l'
  | through {off r l l' a} : m.at (l.add off) = some (.word a) → a ≠ 0 → Follows m r (.heap a) l' →
      Follows m ((off, true) :: r) l l'

/-- Encoding the value at the first place asks for encoding the value at the second. -/
inductive Visits (letter digit : Nat → Bool) (E : Env) (m : Mem) (o : EncOpts) : Spot → Spot → Prop
  | ptr {t ca l e a} : ByKind E t ca → (E t).kind = .ptr e → m.at l = some (.word a) → a ≠ 0 →
      Visits letter digit E m o ⟨t, ca, l⟩ ⟨e, true, .heap a⟩
  | slice {t ca l e d n i} : ByKind E t ca → (E t).kind = .slice e → ¬ ByteElem E e → m.at l = some (.slice d n) → d ≠ 0 → i < n →
      Visits letter digit E m o ⟨t, ca, l⟩ ⟨e, true, .heap (d + i * (E e).size)⟩
  | array {t ca l e n i} : ByKind E t ca → (E t).kind = .array n e → i < n →
      Visits letter digit E m o ⟨t, ca, l⟩ ⟨e, ca, l.add (i * (E e).size)⟩
  | key {t ca l k e a es x} : ByKind E t ca → (E t).kind = .map k e → KeyType E k → m.at l = some (.word a) → a ≠ 0 →
      m.at (.heap a) = some (.hmap es) → x ∈ es → Visits letter digit E m o ⟨t, ca, l⟩ ⟨k, false, .heap x.1⟩
  | value {t ca l k e a es x} : ByKind E t ca → (E t).kind = .map k e → KeyType E k → m.at l = some (.word a) → a ≠ 0 →
      m.at (.heap a) = some (.hmap es) → x ∈ es → Visits letter digit E m o ⟨t, ca, l⟩ ⟨e, false, .heap x.2⟩
  | iface {t ca l n u w p} : ByKind E t ca → (E t).kind = .iface n → m.at l = some (.eface (some (u, w))) → Held E u w p →
      Visits letter digit E m o ⟨t, ca, l⟩ p
  | syncKey {t ca l es x u w p} : (E t).special = some .syncMap → m.at l = some (.smap es) → x ∈ es → x.1 = some (u, w) → Held E u w p →
      Visits letter digit E m o ⟨t, ca, l⟩ p
  | syncValue {t ca l es x u w p} : (E t).special = some .syncMap → m.at l = some (.smap es) → x ∈ es → x.2 = some (u, w) → Held E u w p →
      Visits letter digit E m o ⟨t, ca, l⟩ p
  | member {t ca l l' f u i tagged r} : ByKind E t ca → IsStruct E t → ChosenField letter digit E t f →
      Promoted letter digit E t f.path u i f.decl f.name tagged r → ¬ Hidden o.allowList o.denyList f.name → Follows m r l l' →
      Visits letter digit E m o ⟨t, ca, l⟩ ⟨f.decl.typ, ca, l'⟩

/-- An endless chain of visits starts there. -/
def Cyclic (letter digit : Nat → Bool) (E : Env) (m : Mem) (o : EncOpts) (p : Spot) : Prop :=
  ∃ f : Nat → Spot, f 0 = p ∧ ∀ n, Visits letter digit E m o (f n) (f (n + 1))

end Jettison.Spec
