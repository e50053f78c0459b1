import Verif.Spec.Utf8

/-!
# Specification: JSON string bodies (RFC 8259, section 7)

`unescape body` is `none` when `body` is not a legal JSON string body (the text
between the quotes) and otherwise the byte content it denotes. Escapes follow
the RFC; a `\u` escape contributes the UTF-8 encoding of its code point, a
surrogate pair one code point, and a lone surrogate U+FFFD as Go decodes it.
Bytes from 0x80 up stand for themselves.
-/

namespace Jettison.Spec

/-- Value of a hexadecimal digit. -/
def hexVal (b : UInt8) : Option Nat :=
  if 48 ≤ b ∧ b ≤ 57 then some (b.toNat - 48)
  else if 97 ≤ b ∧ b ≤ 102 then some (b.toNat - 87)
  else if 65 ≤ b ∧ b ≤ 70 then some (b.toNat - 55)
  else none

/-- Value of four hexadecimal digits. -/
def hex4 (a b c d : UInt8) : Option Nat := do
  let a ← hexVal a; let b ← hexVal b; let c ← hexVal c; let d ← hexVal d
  return ((a * 16 + b) * 16 + c) * 16 + d

/-- Content of a two-character escape `\e`. -/
def simpleEscape (e : UInt8) : Option UInt8 :=
  if e = c! '"' then some (c! '"')
  else if e = c! '\\' then some (c! '\\')
  else if e = c! '/' then some (c! '/')
  else if e = c! 'b' then some 8
  else if e = c! 'f' then some 12
  else if e = c! 'n' then some 10
  else if e = c! 'r' then some 13
  else if e = c! 't' then some 9
  else none

/-- One item at the front of a string body: its content and the number of body
bytes it takes; `none` if the front is not legal (or the body is empty). -/
def nextItem (body : Bytes) : Option (Bytes × Nat) :=
  match body with
  | [] => none
  | c :: t =>
    if c < 0x20 ∨ c = c! '"' then none
    else if c = c! '\\' then
      match t with
      | [] => none
      | e :: t =>
        if e = c! 'u' then
          match t with
          | h1 :: h2 :: h3 :: h4 :: t =>
            match hex4 h1 h2 h3 h4 with
            | none => none
            | some u =>
              if 0xD800 ≤ u ∧ u < 0xDC00 then
                -- high surrogate: look for a low one
                match t with
                | x :: y :: l1 :: l2 :: l3 :: l4 :: _ =>
                  if x = c! '\\' ∧ y = c! 'u' then
                    match hex4 l1 l2 l3 l4 with
                    | some v =>
                      if 0xDC00 ≤ v ∧ v < 0xE000 then
                        some (utf8Encode (0x10000 + (u - 0xD800) * 1024 + (v - 0xDC00)), 12)
                      else some (replacement, 6)
                    | none => some (replacement, 6)
                  else some (replacement, 6)
                | _ => some (replacement, 6)
              else if 0xDC00 ≤ u ∧ u < 0xE000 then some (replacement, 6)
              else some (utf8Encode u, 6)
          | _ => none
        else (simpleEscape e).map fun b => ([b], 2)
    else some ([c], 1)

/-- Decode a whole body, item by item (`fuel` bounds the number of items). -/
def unescapeAux : Nat → Bytes → Option Bytes
  | _, [] => some []
  | 0, _ :: _ => none
  | fuel + 1, body@(_ :: _) =>
    match nextItem body with
    | none => none
    | some (content, n) => (unescapeAux fuel (body.drop n)).map (content ++ ·)

/-- The content denoted by a JSON string body, `none` if it is not legal. Each
item takes at least one byte, so the length of the body is enough fuel. -/
def unescape (body : Bytes) : Option Bytes := unescapeAux body.length body

example : unescape (b! "a\\u003cb\\n\\ud83d\\ude00\\ud800x") =
    some (b! "a<b\n😀\uFFFDx") := by decide +kernel
example : unescape (b! "a\"b") = none := by decide +kernel
example : unescape (b! "a\\qb") = none := by decide +kernel

end Jettison.Spec
