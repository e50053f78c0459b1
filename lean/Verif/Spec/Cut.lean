import Verif.Spec.Writes

/-!
# Specification: what is left of the text when encoding fails

`Cut W M o t ca q v e c`: encoding the value `v` of type `t` fails with the error `e`, and `c` is
what `Append` has written for it by then (`ca`, `q` as for `Writes`). Nothing is written of the part
that fails. Before it stand the texts of the parts that come first, the names of the members and the
keys of the entries that lead to it, and the brackets that are not closed. A map whose entries are
sorted leaves nothing but its brace.
-/

namespace Jettison.Spec
open Jettison Jettison.Model

mutual
/-- What is written of a value that fails with an error. -/
inductive Cut (W : World) (M : MethV) (o : EncOpts) : TId → Bool → Bool → Val → Err → Bytes → Prop
  -- the value itself
  | fault {t ca q v e} : (W.E t).special ≠ some .syncMap → (q = true → ¬ ByKind W.E t ca) → Fault W M o t ca v e → Cut W M o t ca q v e []
  | quoted {t ca v e} : ByKind W.E t ca → isBasicK (W.E t).kind = true → Fault W M o t ca v e → Cut W M o t ca true v e (b! "\"")
  -- the only part
  | ptr {t ca q u v e c} : ByKind W.E t ca → (W.E t).kind = .ptr u → Cut W M o u true q v e c → Cut W M o t ca q (.ptr v) e c
  | iface {t ca k d v e c} : ByKind W.E t ca → (W.E t).kind = .iface k → Cut W M o d (isPtrK (W.E d).kind) false v e c →
      Cut W M o t ca false (.iface d v) e c
  -- one of the parts, after those before it
  | slice {t ca u vs pre v post bs e c} : ByKind W.E t ca → (W.E t).kind = .slice u → ¬ ByteElem W.E u → vs = pre ++ v :: post →
      bs.length = pre.length → (∀ (i : Nat) x b, pre[i]? = some x → bs[i]? = some b → Writes W M o u true false x b) →
      Cut W M o u true false v e c → Cut W M o t ca false (.slice vs) e (b! "[" ++ commas (bs ++ [c]))
  | array {t ca n u vs pre v post bs e c} : ByKind W.E t ca → (W.E t).kind = .array n u →
      (ByteElem W.E u → bmHas o.flags .byteArrayAsString = false) → vs = pre ++ v :: post →
      bs.length = pre.length → (∀ (i : Nat) x b, pre[i]? = some x → bs[i]? = some b → Writes W M o u ca false x b) →
      Cut W M o u ca false v e c → Cut W M o t ca false (.array vs) e (b! "[" ++ commas (bs ++ [c]))
  | field {t ca v} {l pre post tried kept : List MField} {m : MField} {q' : MField → Bool} {x : MField → Val} {b key : MField → Bytes}
      {lead : Bytes} {e c} : ByKind W.E t ca → IsStruct W.E t → MembersOf W.U.isLetter W.U.isDigit W.E t l → l = pre ++ m :: post →
      tried.Sublist pre → (∀ m' ∈ pre, m' ∈ tried ↔ ¬ LeftOut o v m') → ¬ LeftOut o v m →
      (∀ m', m' ∈ tried ∨ m' = m → FieldAt v m'.path (x m')) →
      (∀ m', m' ∈ tried ∨ m' = m → (q' m' = true ↔ HasOpt m'.decl (b! "string") ∧ BasicOrPtr W.E m'.decl.typ)) →
      (∀ m', m' ∈ tried → Writes W M o m'.decl.typ ca (q' m') (x m') (b m')) →
      kept.Sublist tried → (∀ m' ∈ tried, m' ∈ kept ↔ ¬ NullDropped W.E m' (b m')) → (∀ m', m' ∈ kept ∨ m' = m → NamedAs o m'.name (key m')) →
      Lead (tried ++ [m]) (kept ++ [m]) lead → Cut W M o m.decl.typ ca (q' m) (x m) e c →
      Cut W M o t ca false v e (b! "{" ++ lead ++
        commas ((kept.map fun m' => b! "\"" ++ key m' ++ b! "\":" ++ b m') ++ [b! "\"" ++ key m ++ b! "\":" ++ c]))
  -- one of the entries; those before it are lost if the entries are to be sorted
  | sorted {t ca k u kvs kv e c} : ByKind W.E t ca → (W.E t).kind = .map k u → KeyType W.E k → bmHas o.flags .unsortedMap = false →
      kv ∈ kvs → EntryCut W M o k u kv e c → Cut W M o t ca false (.map kvs) e (b! "{")
  | unsorted {t ca k u kvs pre kv post} {ms : List (Bytes × Bytes)} {e c} : ByKind W.E t ca → (W.E t).kind = .map k u → KeyType W.E k →
      bmHas o.flags .unsortedMap = true → kvs.Perm (pre ++ kv :: post) → ms.length = pre.length →
      (∀ (i : Nat) x m, pre[i]? = some x → ms[i]? = some m → KeyWrites W M o k x.1 m.1) →
      (∀ (i : Nat) x m, pre[i]? = some x → ms[i]? = some m → Writes W M o u false false x.2 m.2) →
      EntryCut W M o k u kv e c → Cut W M o t ca false (.map kvs) e (b! "{" ++ commas ((ms.map fun m => m.1 ++ b! ":" ++ m.2) ++ [c]))
  | ssorted {t ca q kvs kv e c} : (W.E t).special = some .syncMap → bmHas o.flags .unsortedMap = false →
      kv ∈ kvs → SyncEntryCut W M o kv e c → Cut W M o t ca q (.smap kvs) e (b! "{")
  | sunsorted {t ca q kvs pre kv post} {ms : List (Bytes × Bytes)} {e c} : (W.E t).special = some .syncMap →
      bmHas o.flags .unsortedMap = true → kvs.Perm (pre ++ kv :: post) → ms.length = pre.length →
      (∀ (i : Nat) x m, pre[i]? = some x → ms[i]? = some m → SyncKeyWrites W M o x.1 m.1) →
      (∀ (i : Nat) x m, pre[i]? = some x → ms[i]? = some m → ∃ d y, x.2 = .iface d y) →
      (∀ (i : Nat) x m d y, pre[i]? = some x → ms[i]? = some m → x.2 = .iface d y → Writes W M o d (isPtrK (W.E d).kind) false y m.2) →
      SyncEntryCut W M o kv e c → Cut W M o t ca q (.smap kvs) e (b! "{" ++ commas ((ms.map fun m => m.1 ++ b! ":" ++ m.2) ++ [c]))

/-- What is written of an entry of a map with keys of type `k` and values of type `u`. -/
inductive EntryCut (W : World) (M : MethV) (o : EncOpts) : TId → TId → Val × Val → Err → Bytes → Prop
  | text {k u kv e c} : (W.E k).kind ≠ .string → (W.E k).meths.text = true → (IsPtr W.E k → kv.1 ≠ .nil) → Cut W M o k false false kv.1 e c →
      EntryCut W M o k u kv e c
  | quoted {k u kv e c} : (W.E k).kind ≠ .string → (W.E k).meths.text = false → Cut W M o k false false kv.1 e c →
      EntryCut W M o k u kv e (b! "\"" ++ c)
  | elem {k u kv kb e c} : KeyWrites W M o k kv.1 kb → (bmHas o.flags .unsortedMap = false → 2 ≤ kb.length) → Cut W M o u false false kv.2 e c →
      EntryCut W M o k u kv e (kb ++ b! ":" ++ c)

/-- What is written of an entry of a `sync.Map`. -/
inductive SyncEntryCut (W : World) (M : MethV) (o : EncOpts) : Val × Val → Err → Bytes → Prop
  | nilKey {kv} : kv.1 = .nil → SyncEntryCut W M o kv .syncMapNilKey []
  | badKey {kv d x} : kv.1 = .iface d x → ¬ KeyType W.E d → SyncEntryCut W M o kv (.syncMapKey d) []
  | text {kv d x e c} : kv.1 = .iface d x → (W.E d).kind ≠ .string → (W.E d).meths.text = true →
      Cut W M o d (isPtrK (W.E d).kind) false x e c → SyncEntryCut W M o kv e c
  | quoted {kv d x k e c} : kv.1 = .iface d x → (W.E d).kind = .int k → (W.E d).meths.text = false →
      Cut W M o d (isPtrK (W.E d).kind) false x e c → SyncEntryCut W M o kv e (b! "\"" ++ c)
  | elem {kv kb d x e c} : SyncKeyWrites W M o kv.1 kb → (bmHas o.flags .unsortedMap = false → 2 ≤ kb.length) → kv.2 = .iface d x →
      Cut W M o d (isPtrK (W.E d).kind) false x e c → SyncEntryCut W M o kv e (kb ++ b! ":" ++ c)
end

end Jettison.Spec
