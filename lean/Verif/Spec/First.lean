import Verif.Spec.Faults

/-!
# Specification: which of several faults a call reports

`First W M o t ca v r`: encoding stops on the value `v` of type `t` because of `r`, an error or, if
`r` is `none`, a panic. A value with several faulty parts is stopped by the first of them: elements
come in their order, fields in the order of their declaration, the key of an entry before its
value. The entries of a map come in an order that Go does not define, so any of them may be the first.
-/

namespace Jettison.Spec
open Jettison Jettison.Model

/-- Neither the value nor what is encoded with it is at fault. -/
def Blameless (W : World) (M : MethV) (o : EncOpts) (t : TId) (ca : Bool) (v : Val) : Prop :=
  ∀ t' ca' v', Encodes W o t ca v t' ca' v' → (∀ e, ¬ Fault W M o t' ca' v' e) ∧ ¬ Trap W M o t' ca' v'

/-- The key of a map is passed without a fault: it is a string, a nil pointer as a text key, or
blameless; and it is not too short to be sorted. -/
def KeyPasses (W : World) (M : MethV) (o : EncOpts) (k : TId) (v : Val) : Prop :=
  (W.E k).kind ≠ .string → (((W.E k).meths.text = true → IsPtr W.E k → v ≠ .nil) → Blameless W M o k false v) ∧
    (bmHas o.flags .unsortedMap = false → ¬ ShortKey W M o k false v)

/-- The key of a `sync.Map` is passed without a fault. -/
def SyncKeyPasses (W : World) (M : MethV) (o : EncOpts) (x : Val) : Prop :=
  ∃ d v, x = .iface d v ∧ KeyType W.E d ∧ ((W.E d).kind ≠ .string → Blameless W M o d (isPtrK (W.E d).kind) v ∧
    (bmHas o.flags .unsortedMap = false → ¬ ShortKey W M o d (isPtrK (W.E d).kind) v))

/-- What stops the encoding of a value. -/
inductive First (W : World) (M : MethV) (o : EncOpts) : TId → Bool → Val → Option Err → Prop
  -- the value itself
  | fault {t ca v e} : (W.E t).special ≠ some .syncMap → Fault W M o t ca v e → First W M o t ca v (some e)
  | method {t ca m v rt x u path} : (W.E t).special = none → Picks W.E t ca m → Receives W.E W.ptrTo t m v rt x u →
      M path m (argCtx o m) rt x [] = .panic → First W M o t ca v none
  -- the only part
  | ptr {t ca e v r} : ByKind W.E t ca → (W.E t).kind = .ptr e → First W M o e true v r → First W M o t ca (.ptr v) r
  | iface {t ca n d v r} : ByKind W.E t ca → (W.E t).kind = .iface n → First W M o d (isPtrK (W.E d).kind) v r → First W M o t ca (.iface d v) r
  -- the first of the parts in their order
  | slice {t ca e vs pre v post r} : ByKind W.E t ca → (W.E t).kind = .slice e → ¬ ByteElem W.E e → vs = pre ++ v :: post →
      (∀ u ∈ pre, Blameless W M o e true u) → First W M o e true v r → First W M o t ca (.slice vs) r
  | array {t ca n e vs pre v post r} : ByKind W.E t ca → (W.E t).kind = .array n e → ¬ (ByteElem W.E e ∧ bmHas o.flags .byteArrayAsString = true) →
      vs = pre ++ v :: post → (∀ u ∈ pre, Blameless W M o e ca u) → First W M o e ca v r → First W M o t ca (.array vs) r
  | field {t ca v l pre m post x r} : ByKind W.E t ca → IsStruct W.E t → MembersOf W.U.isLetter W.U.isDigit W.E t l → l = pre ++ m :: post →
      (∀ m' ∈ pre, ¬ LeftOut o v m' → ∀ y, FieldAt v m'.path y → Blameless W M o m'.decl.typ ca y) →
      ¬ LeftOut o v m → FieldAt v m.path x → First W M o m.decl.typ ca x r → First W M o t ca v r
  -- one of the entries, the key before the value
  | key {t ca k e kvs kv r} : ByKind W.E t ca → (W.E t).kind = .map k e → KeyType W.E k → (W.E k).kind ≠ .string →
      ((W.E k).meths.text = true → IsPtr W.E k → kv.1 ≠ .nil) → kv ∈ kvs → First W M o k false kv.1 r → First W M o t ca (.map kvs) r
  | short {t ca k e kvs kv} : ByKind W.E t ca → (W.E t).kind = .map k e → (W.E k).kind ≠ .string → bmHas o.flags .unsortedMap = false →
      kv ∈ kvs → (((W.E k).meths.text = true → IsPtr W.E k → kv.1 ≠ .nil) → Blameless W M o k false kv.1) → ShortKey W M o k false kv.1 →
      First W M o t ca (.map kvs) none
  | elem {t ca k e kvs kv r} : ByKind W.E t ca → (W.E t).kind = .map k e → KeyType W.E k → kv ∈ kvs → KeyPasses W M o k kv.1 →
      First W M o e false kv.2 r → First W M o t ca (.map kvs) r
  | nilKey {t ca kvs kv} : (W.E t).special = some .syncMap → kv ∈ kvs → kv.1 = .nil → First W M o t ca (.smap kvs) (some .syncMapNilKey)
  | badKey {t ca kvs kv d v} : (W.E t).special = some .syncMap → kv ∈ kvs → kv.1 = .iface d v → ¬ KeyType W.E d →
      First W M o t ca (.smap kvs) (some (.syncMapKey d))
  | skey {t ca kvs kv d v r} : (W.E t).special = some .syncMap → kv ∈ kvs → kv.1 = .iface d v → KeyType W.E d → (W.E d).kind ≠ .string →
      First W M o d (isPtrK (W.E d).kind) v r → First W M o t ca (.smap kvs) r
  | sshort {t ca kvs kv d v} : (W.E t).special = some .syncMap → bmHas o.flags .unsortedMap = false → kv ∈ kvs → kv.1 = .iface d v →
      (W.E d).kind ≠ .string → Blameless W M o d (isPtrK (W.E d).kind) v → ShortKey W M o d (isPtrK (W.E d).kind) v →
      First W M o t ca (.smap kvs) none
  | nilElem {t ca kvs kv} : (W.E t).special = some .syncMap → kv ∈ kvs → SyncKeyPasses W M o kv.1 → kv.2 = .nil →
      First W M o t ca (.smap kvs) none
  | selem {t ca kvs kv d v r} : (W.E t).special = some .syncMap → kv ∈ kvs → SyncKeyPasses W M o kv.1 → kv.2 = .iface d v →
      First W M o d (isPtrK (W.E d).kind) v r → First W M o t ca (.smap kvs) r

end Jettison.Spec
