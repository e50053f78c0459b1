import Verif.Spec.Json
import Verif.Model.Number

/-!
# A deterministic reader for JSON texts

Used to show that the grammar is unambiguous and that well-formedness is decidable
(Proofs/Parser.lean proves the reader sound and complete for the grammar). `fuel` bounds
the nesting and the number of elements; too little fuel only makes the reader give up.
Number literals are recognised by the model of the code's own test, which C07 proves to
be the RFC 8259 production.
-/

namespace Jettison.Spec

def isNumB (c : UInt8) : Bool :=
  (c! '0' ≤ c && c ≤ c! '9') || c = c! '-' || c = c! '+' || c = c! '.' || c = c! 'e' || c = c! 'E'

def isWsB (c : UInt8) : Bool := c = 0x20 || c = 0x09 || c = 0x0A || c = 0x0D

def skipWs (s : Bytes) : Bytes := s.dropWhile isWsB

/-- Split at the closing quote of a string body. -/
def spanStr : Bytes → Option (Bytes × Bytes)
  | [] => none
  | c :: t =>
    if c = c! '"' then some ([], t)
    else if c = c! '\\' then
      match t with
      | [] => none
      | e :: t => (spanStr t).map fun p => (c :: e :: p.1, p.2)
    else (spanStr t).map fun p => (c :: p.1, p.2)

mutual
/-- Read a value (no whitespace in front). -/
def readVal : Nat → Bytes → Option (Json × Bytes)
  | 0, _ => none
  | fuel + 1, s =>
    match s with
    | [] => none
    | c :: t =>
      if c = c! 'n' then if t.take 3 = b! "ull" then some (.null, t.drop 3) else none
      else if c = c! 't' then if t.take 3 = b! "rue" then some (.bool true, t.drop 3) else none
      else if c = c! 'f' then if t.take 4 = b! "alse" then some (.bool false, t.drop 4) else none
      else if c = c! '"' then do
        let (body, rest) ← spanStr t
        let content ← unescape body
        return (.str content, rest)
      else if c = c! '[' then
        match skipWs t with
        | [] => none
        | x :: r =>
          if x = c! ']' then some (.arr [], r)
          else do
            let (js, rest) ← readElems fuel t
            if rest.take 1 = b! "]" then return (.arr js, rest.drop 1) else none
      else if c = c! '{' then
        match skipWs t with
        | [] => none
        | x :: r =>
          if x = c! '}' then some (.obj [], r)
          else do
            let (ms, rest) ← readMembers fuel t
            if rest.take 1 = b! "}" then return (.obj ms, rest.drop 1) else none
      else if Model.isValidNumber (s.takeWhile isNumB) then some (.num (s.takeWhile isNumB), s.dropWhile isNumB)
      else none

/-- Read comma separated values up to (not including) the closing bracket. -/
def readElems : Nat → Bytes → Option (List Json × Bytes)
  | 0, _ => none
  | fuel + 1, s => do
    let (j, r) ← readVal fuel (skipWs s)
    match skipWs r with
    | [] => none
    | c :: t =>
      if c = c! ',' then do
        let (js, r) ← readElems fuel t
        return (j :: js, r)
      else return ([j], c :: t)

/-- Read comma separated members up to (not including) the closing brace. -/
def readMembers : Nat → Bytes → Option (List (Bytes × Json) × Bytes)
  | 0, _ => none
  | fuel + 1, s => do
    let (body, r) ← if (skipWs s).take 1 = b! "\"" then spanStr ((skipWs s).drop 1) else none
    let k ← unescape body
    let (j, r) ← if (skipWs r).take 1 = b! ":" then readVal fuel (skipWs ((skipWs r).drop 1)) else none
    match skipWs r with
    | [] => none
    | c :: t =>
      if c = c! ',' then do
        let (ms, r) ← readMembers fuel t
        return ((k, j) :: ms, r)
      else return ([(k, j)], c :: t)
end

/-- Whether the text is a JSON text. -/
def validText (b : Bytes) : Bool :=
  match readVal (2 * b.length) (skipWs b) with
  | some (_, r) => r.all isWsB
  | none => false

end Jettison.Spec
