import Verif.Spec.Writes

/-!
# Specification: a text without the members that the lists hide

`Trimmed o b b'`: `b'` is `b` without the members of structs that `AllowList` and `DenyList` hide,
at any depth. The rest is as it is and where it is: elements of lists, entries of maps with their
keys, members that are not hidden with their names. Before the first member there may be a comma too
much (finding 1), in either text.
-/

namespace Jettison.Spec
open Jettison Jettison.Model

/-- The options without the lists. -/
def unlisted (o : EncOpts) : EncOpts := { o with allowList := none, denyList := none }

/-- The option is `AllowList` or `DenyList`. -/
def isListOpt : Option Opt → Bool
  | some (.allowList _) | some (.denyList _) => true
  | _ => false

/-- The options of a call without `AllowList` and `DenyList`. -/
def withoutLists (opts : List (Option Opt)) : List (Option Opt) := opts.filter fun x => !isListOpt x

/-- The second text is the first without the members that are hidden. -/
inductive Trimmed (o : EncOpts) : Bytes → Bytes → Prop
  | same (b) : Trimmed o b b
  | list {bs bs' : List Bytes} : bs'.length = bs.length → (∀ (i : Nat) b b', bs[i]? = some b → bs'[i]? = some b' → Trimmed o b b') →
      Trimmed o (b! "[" ++ commas bs ++ b! "]") (b! "[" ++ commas bs' ++ b! "]")
  | entries {ms ms' : List (Bytes × Bytes)} : ms'.length = ms.length →
      (∀ (i : Nat) m m', ms[i]? = some m → ms'[i]? = some m' → m'.1 = m.1) →
      (∀ (i : Nat) m m', ms[i]? = some m → ms'[i]? = some m' → Trimmed o m.2 m'.2) → Trimmed o (objectOf ms) (objectOf ms')
  | members {l kept : List MField} {key b b' : MField → Bytes} {c c' : Bytes} : (l.map (·.name)).Nodup → kept.Sublist l →
      (∀ m ∈ l, m ∈ kept ↔ ¬ Hidden o.allowList o.denyList m.name) → (∀ m ∈ l, NamedAs o m.name (key m)) →
      (∀ m, m ∈ kept → Trimmed o (b m) (b' m)) → c = [] ∨ c = b! "," → c' = [] ∨ c' = b! "," →
      Trimmed o (b! "{" ++ c ++ commas (l.map fun m => b! "\"" ++ key m ++ b! "\":" ++ b m) ++ b! "}")
        (b! "{" ++ c' ++ commas (kept.map fun m => b! "\"" ++ key m ++ b! "\":" ++ b' m) ++ b! "}")

end Jettison.Spec
