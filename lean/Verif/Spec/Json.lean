import Verif.Spec.JsonString
import Verif.Spec.JsonNumber

/-!
# Specification: JSON texts (RFC 8259) and the values they denote

`Gr W (.val j) s`: the text `s` is a JSON value denoting the tree `j`, where `W`
says which byte sequences may stand between tokens. `Ws` is the RFC's whitespace;
with `NoWs` the grammar is that of texts without insignificant whitespace.
Numbers are kept as literals, strings as their decoded content.
-/

namespace Jettison.Spec

/-- JSON trees. Object members keep their order and multiplicity. -/
inductive Json
  | null
  | bool (b : Bool)
  | num (lit : Bytes)
  | str (content : Bytes)
  | arr (elems : List Json)
  | obj (members : List (Bytes × Json))

/-- RFC 8259 whitespace. -/
def IsWs (c : UInt8) : Prop := c = 0x20 ∨ c = 0x09 ∨ c = 0x0A ∨ c = 0x0D

instance (c : UInt8) : Decidable (IsWs c) := inferInstanceAs (Decidable (_ ∨ _))

/-- Any run of whitespace. -/
def Ws (w : Bytes) : Prop := ∀ c ∈ w, IsWs c

instance (w : Bytes) : Decidable (Ws w) := inferInstanceAs (Decidable (∀ c ∈ w, IsWs c))

/-- No whitespace. -/
def NoWs (w : Bytes) : Prop := w = []

/-- What a text can be read as: a value, a comma separated non-empty list of
values, or of members. -/
inductive Nt
  | val (j : Json)
  | elems (js : List Json)
  | members (ms : List (Bytes × Json))

/-- A string token. -/
def strToken (body : Bytes) : Bytes := c! '"' :: (body ++ [c! '"'])

inductive Gr (W : Bytes → Prop) : Nt → Bytes → Prop
  | null : Gr W (.val .null) (b! "null")
  | true : Gr W (.val (.bool true)) (b! "true")
  | false : Gr W (.val (.bool false)) (b! "false")
  | num (s : Bytes) : IsNumber s → Gr W (.val (.num s)) s
  | str (body c : Bytes) : unescape body = some c → Gr W (.val (.str c)) (strToken body)
  | arr0 (w : Bytes) : W w → Gr W (.val (.arr [])) (c! '[' :: (w ++ [c! ']']))
  | arr (js : List Json) (s : Bytes) : Gr W (.elems js) s →
      Gr W (.val (.arr js)) (c! '[' :: (s ++ [c! ']']))
  | obj0 (w : Bytes) : W w → Gr W (.val (.obj [])) (c! '{' :: (w ++ [c! '}']))
  | obj (ms : List (Bytes × Json)) (s : Bytes) : Gr W (.members ms) s →
      Gr W (.val (.obj ms)) (c! '{' :: (s ++ [c! '}']))
  | elem (w1 s w2 : Bytes) (j : Json) : W w1 → Gr W (.val j) s → W w2 →
      Gr W (.elems [j]) (w1 ++ (s ++ w2))
  | elemCons (w1 s w2 t : Bytes) (j : Json) (js : List Json) : W w1 → Gr W (.val j) s → W w2 →
      Gr W (.elems js) t → Gr W (.elems (j :: js)) (w1 ++ (s ++ (w2 ++ c! ',' :: t)))
  | member (w1 kb w2 w3 s w4 k : Bytes) (j : Json) : W w1 → unescape kb = some k → W w2 → W w3 →
      Gr W (.val j) s → W w4 →
      Gr W (.members [(k, j)]) (w1 ++ (strToken kb ++ (w2 ++ c! ':' :: (w3 ++ (s ++ w4)))))
  | memberCons (w1 kb w2 w3 s w4 t k : Bytes) (j : Json) (ms : List (Bytes × Json)) :
      W w1 → unescape kb = some k → W w2 → W w3 → Gr W (.val j) s → W w4 → Gr W (.members ms) t →
      Gr W (.members ((k, j) :: ms))
        (w1 ++ (strToken kb ++ (w2 ++ c! ':' :: (w3 ++ (s ++ (w4 ++ c! ',' :: t))))))

/-- A JSON text: a value with optional whitespace around it. -/
def JsonText (j : Json) (b : Bytes) : Prop :=
  ∃ w1 s w2, Ws w1 ∧ Ws w2 ∧ Gr Ws (.val j) s ∧ b = w1 ++ (s ++ w2)

/-- A JSON text without insignificant whitespace. -/
def CompactText (j : Json) (b : Bytes) : Prop := Gr NoWs (.val j) b

end Jettison.Spec
