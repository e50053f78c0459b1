import Verif.Spec.Safe
import Verif.Spec.Json
import Verif.Spec.Select

/-!
# Specification: which method encodes a value, and what becomes of its result

From the documentation of the package (/repo/json.go:10-34, /repo/README.md).
-/

namespace Jettison.Spec
open Jettison Jettison.Model

/-- The type is a pointer type. -/
def IsPtr (E : Env) (t : TId) : Prop := ∃ e, (E t).kind = .ptr e

/-- The type is an interface type. -/
def IsIface (E : Env) (t : TId) : Prop := ∃ n, (E t).kind = .iface n

/-- The method can be called on a value of type `t`: it has a value receiver (or the type
is a pointer or interface having it), or it has a pointer receiver and the value is
addressable (`ca`). -/
def Available (E : Env) (t : TId) (ca : Bool) (m : MethKind) : Prop :=
  MethSet.Has (E t).meths m ∨ (ca = true ∧ ¬ IsPtr E t ∧ MethSet.Has (E t).pmeths m)

/-- The precedence of the four methods. -/
def precedence : MethKind → Nat
  | .appendCtx => 0
  | .append => 1
  | .json => 2
  | .text => 3

/-- `m` is the first method available. -/
def Picks (E : Env) (t : TId) (ca : Bool) (m : MethKind) : Prop :=
  Available E t ca m ∧ ∀ m', precedence m' < precedence m → ¬ Available E t ca m'

/-- What method `m` is called on, for the value `v` of type `t`: the receiver's type and
value, and the type named in errors. Nothing is called on a nil pointer or interface. -/
inductive Receives (E : Env) (ptrTo : TId → TId) (t : TId) (m : MethKind) : Val → TId → Val → TId → Prop
  | own {v} : MethSet.Has (E t).meths m → ¬ IsIface E t → (IsPtr E t → v ≠ .nil) → Receives E ptrTo t m v t v t
  | dyn {d x} : MethSet.Has (E t).meths m → IsIface E t → Receives E ptrTo t m (.iface d x) d x t
  | addr {v} : ¬ MethSet.Has (E t).meths m → MethSet.Has (E t).pmeths m → Receives E ptrTo t m v (ptrTo t) (.ptr v) (ptrTo t)

/-- What becomes of the result of the method: `call` is the method applied to its receiver,
to be given a context and a destination; `u` is the type named in errors. -/
inductive Relays (o : EncOpts) (u : TId) (call : Option Ctx → Bytes → MethRes) (dst : Bytes) : MethKind → Res → Prop
  | ctxErr {e} : call o.ctx dst = .err e → Relays o u call dst .appendCtx (.fail (.marshaler u .appendCtx (.user e)) dst)
  | ctx {d} : call o.ctx dst = .ok d → Relays o u call dst .appendCtx (.ok d)
  | appErr {e} : call none dst = .err e → Relays o u call dst .append (.fail (.marshaler u .append (.user e)) dst)
  | app {d} : call none dst = .ok d → Relays o u call dst .append (.ok d)
  | jsonErr {e} : call none [] = .err e → Relays o u call dst .json (.fail (.marshaler u .json (.user e)) dst)
  | verbatim {b} : call none [] = .ok b → bmHas o.flags .noCompact = true → Relays o u call dst .json (.ok (dst ++ b))
  | malformed {b} : call none [] = .ok b → bmHas o.flags .noCompact = false → (∀ j, ¬ JsonText j b) →
      Relays o u call dst .json (.fail (.marshaler u .json .syntax) dst)
  | compacted {b j c} : call none [] = .ok b → bmHas o.flags .noCompact = false → JsonText j b → CompactText j c →
      (bmHas o.flags .noHTMLEscaping = false → ∀ x ∈ c, x ≠ c! '<' ∧ x ≠ c! '>' ∧ x ≠ c! '&') →
      Relays o u call dst .json (.ok (dst ++ c))
  | textErr {e} : call none [] = .err e → Relays o u call dst .text (.fail (.marshaler u .text (.user e)) dst)
  | text {b} : call none [] = .ok b → Relays o u call dst .text (.ok (dst ++ strToken b))
  | ctxPanic : call o.ctx dst = .panic → Relays o u call dst .appendCtx .panic
  | appPanic : call none dst = .panic → Relays o u call dst .append .panic
  | jsonPanic : call none [] = .panic → Relays o u call dst .json .panic
  | textPanic : call none [] = .panic → Relays o u call dst .text .panic

/-- The validity test of the standard library is the grammar's (contract). -/
def ValidContract (valid : Bytes → Bool) : Prop := ∀ b, valid b = true ↔ ∃ j, JsonText j b

end Jettison.Spec
