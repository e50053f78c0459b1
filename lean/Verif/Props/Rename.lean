import Verif.Spec.Rename
import Verif.Props.WritesExact
import Verif.Props.Respell

/-!
# C81: the names of types do not matter

Types of the same form, whose methods answer alike, are encoded alike, whatever they are called.
-/

namespace Jettison.Props
open Jettison Jettison.Model Jettison.Spec Jettison.Proofs

variable {W : World} {M : MethV} {o : EncOpts} {R : TId → TId → Prop} {t t' : TId} {ca q : Bool} {v v' : Val} {b : Bytes}

/-! ## The relations are symmetric -/

def Flip (R : TId → TId → Prop) : TId → TId → Prop := fun a b => R b a

theorem sameVal_flip (h : SameVal R v v') : SameVal (Flip R) v' v := by
  induction h with
  | bool => exact .bool
  | int => exact .int
  | float => exact .float
  | str => exact .str
  | time => exact .time
  | nil => exact .nil
  | «opaque» => exact .opaque
  | ptr _ ih => exact .ptr ih
  | slice hl _ ih => exact .slice hl.symm fun i x y hx hy => ih i y x hy hx
  | array hl _ ih => exact .array hl.symm fun i x y hx hy => ih i y x hy hx
  | struct hl _ ih => exact .struct hl.symm fun i x y hx hy => ih i y x hy hx
  | map hl _ _ ih ih' => exact .map hl.symm (fun i x y hx hy => ih i y x hy hx) fun i x y hx hy => ih' i y x hy hx
  | smap hl _ _ ih ih' => exact .smap hl.symm (fun i x y hx hy => ih i y x hy hx) fun i x y hx hy => ih' i y x hy hx
  | iface hd _ ih => exact .iface hd ih

theorem kindAlike_flip {k k' : Kind} (h : KindAlike R k k') : KindAlike (Flip R) k' k := by
  cases h with
  | bool => exact .bool
  | int => exact .int
  | float => exact .float
  | string => exact .string
  | iface => exact .iface
  | struct => exact .struct
  | map h1 h2 => exact .map h1 h2
  | slice h => exact .slice h
  | array h => exact .array h
  | ptr h => exact .ptr h
  | other => exact .other

section
variable (A : Renaming W M R) (h : R t t')
include A h

theorem ren_ptr {e : TId} (hk : (W.E t).kind = .ptr e) : ∃ e', (W.E t').kind = .ptr e' ∧ R e e' := by
  have := A.kind _ _ h
  rw [hk] at this
  generalize (W.E t').kind = k at this ⊢
  cases this with
  | ptr h => exact ⟨_, rfl, h⟩

theorem ren_slice {e : TId} (hk : (W.E t).kind = .slice e) : ∃ e', (W.E t').kind = .slice e' ∧ R e e' := by
  have := A.kind _ _ h
  rw [hk] at this
  generalize (W.E t').kind = k at this ⊢
  cases this with
  | slice h => exact ⟨_, rfl, h⟩

theorem ren_array {n : Nat} {e : TId} (hk : (W.E t).kind = .array n e) : ∃ e', (W.E t').kind = .array n e' ∧ R e e' := by
  have := A.kind _ _ h
  rw [hk] at this
  generalize (W.E t').kind = k at this ⊢
  cases this with
  | array h => exact ⟨_, rfl, h⟩

theorem ren_map {k e : TId} (hk : (W.E t).kind = .map k e) : ∃ k' e', (W.E t').kind = .map k' e' ∧ R k k' ∧ R e e' := by
  have := A.kind _ _ h
  rw [hk] at this
  generalize (W.E t').kind = k at this ⊢
  cases this with
  | map h1 h2 => exact ⟨_, _, rfl, h1, h2⟩

theorem ren_iface {n : Nat} (hk : (W.E t).kind = .iface n) : ∃ n', (W.E t').kind = .iface n' := by
  have := A.kind _ _ h
  rw [hk] at this
  generalize (W.E t').kind = k at this ⊢
  cases this with
  | iface => exact ⟨_, rfl⟩

theorem ren_struct (hk : IsStruct W.E t) : IsStruct W.E t' := by
  obtain ⟨fs, hk⟩ := hk
  unfold HasFields at hk
  have := A.kind _ _ h
  rw [hk] at this
  generalize hk' : (W.E t').kind = k at this
  cases this with
  | struct => exact ⟨_, hk'⟩

theorem ren_basic {k : Kind} (hb : isBasicK k = true) : (W.E t').kind = k ↔ (W.E t).kind = k := by
  have := A.kind _ _ h
  generalize (W.E t).kind = k1 at this ⊢
  generalize (W.E t').kind = k2 at this ⊢
  cases this with
  | bool | int | float | string | other => rfl
  | iface | struct | map | slice | array | ptr => constructor <;> rintro rfl <;> cases hb

theorem ren_isBasic : isBasicK (W.E t').kind = isBasicK (W.E t).kind := by
  have := A.kind _ _ h
  generalize (W.E t).kind = k1 at this ⊢
  generalize (W.E t').kind = k2 at this ⊢
  cases this <;> rfl

theorem ren_isPtrK : isPtrK (W.E t').kind = isPtrK (W.E t).kind := by
  have := A.kind _ _ h
  generalize (W.E t).kind = k1 at this ⊢
  generalize (W.E t').kind = k2 at this ⊢
  cases this <;> rfl

theorem ren_byKind (hb : ByKind W.E t ca) : ByKind W.E t' ca :=
  ⟨by rw [A.special _ _ h]; exact hb.special, by rw [A.meths _ _ h]; exact hb.meths, by rw [A.pmeths _ _ h, ren_isPtrK A h]; exact hb.pmeths⟩

theorem ren_isPtr : IsPtr W.E t' ↔ IsPtr W.E t := by
  unfold IsPtr
  have := A.kind _ _ h
  generalize (W.E t).kind = k1 at this ⊢
  generalize (W.E t').kind = k2 at this ⊢
  cases this <;> simp

theorem ren_isIface : IsIface W.E t' ↔ IsIface W.E t := by
  unfold IsIface
  have := A.kind _ _ h
  generalize (W.E t).kind = k1 at this ⊢
  generalize (W.E t').kind = k2 at this ⊢
  cases this <;> simp

theorem ren_keyType : KeyType W.E t' ↔ KeyType W.E t := by
  unfold KeyType
  rw [ren_basic A h rfl, A.meths _ _ h]
  simp only [ren_basic A h (k := .int _) rfl]

theorem ren_byteElem : ByteElem W.E t' ↔ ByteElem W.E t := by
  unfold ByteElem
  rw [ren_basic A h rfl, A.pmeths _ _ h]

theorem ren_picks {m : MethKind} (hp : Picks W.E t ca m) : Picks W.E t' ca m := by
  unfold Picks Available at hp ⊢
  simp only [ren_isPtr A h, A.meths _ _ h, A.pmeths _ _ h]
  exact hp

theorem ren_hasJSON : HasMarshalJSON W.E t' ↔ HasMarshalJSON W.E t := by unfold HasMarshalJSON; rw [A.meths _ _ h, A.pmeths _ _ h]

theorem ren_basicOrPtr : BasicOrPtr W.E t' ↔ BasicOrPtr W.E t := by
  unfold BasicOrPtr
  rw [ren_isBasic A h]
  have hk := A.kind _ _ h
  have hn := A.ptrName _ _ h
  unfold IsPtr at hn
  generalize (W.E t).kind = k1 at hk hn ⊢
  generalize (W.E t').kind = k2 at hk ⊢
  cases hk with
  | @ptr e e' he =>
    rw [hn ⟨_, rfl⟩]
    have := ren_isBasic A he
    constructor
    · rintro (h | ⟨x, h1, h2, h3⟩)
      · exact .inl h
      · cases h1; exact .inr ⟨_, rfl, h2, by rw [← this]; exact h3⟩
    · rintro (h | ⟨x, h1, h2, h3⟩)
      · exact .inl h
      · cases h1; exact .inr ⟨_, rfl, h2, by rw [this]; exact h3⟩
  | _ => simp

theorem ren_receives {m : MethKind} {x : Val} {rt u : TId} (hv : SameVal R v v') (hr : Receives W.E W.ptrTo t m v rt x u) :
    ∃ rt' x' u', Receives W.E W.ptrTo t' m v' rt' x' u' ∧ R rt rt' ∧ SameVal R x x' := by
  cases hr with
  | own h1 h2 h3 =>
    refine ⟨_, _, _, .own (by rw [A.meths _ _ h]; exact h1) (by rw [ren_isIface A h]; exact h2) ?_, h, hv⟩
    rw [ren_isPtr A h]
    rintro hp rfl
    cases hv
    exact h3 hp rfl
  | dyn h1 h2 =>
    cases hv with
    | iface hd hx => exact ⟨_, _, _, .dyn (by rw [A.meths _ _ h]; exact h1) (by rw [ren_isIface A h]; exact h2), hd, hx⟩
  | addr h1 h2 => exact ⟨_, _, _, .addr (by rw [A.meths _ _ h]; exact h1) (by rw [A.pmeths _ _ h]; exact h2), A.ptrTo _ _ h, .ptr hv⟩

theorem ren_methText {m : MethKind} (hv : SameVal R v v') (ht : MethText M o t v m b) : MethText M o t' v' m b := by
  cases ht with
  | ctx h1 => exact .ctx (by rw [A.answers _ _ _ _ _ _ _ _ h hv]; exact h1)
  | app h1 => exact .app (by rw [A.answers _ _ _ _ _ _ _ _ h hv]; exact h1)
  | json h1 h2 h3 => exact .json (by rw [A.answers _ _ _ _ _ _ _ _ h hv]; exact h1) h2 h3
  | text h1 => exact .text (by rw [A.answers _ _ _ _ _ _ _ _ h hv]; exact h1)

end

theorem renaming_flip (A : Renaming W M R) : Renaming W M (Flip R) where
  kind _ _ h := kindAlike_flip (A.kind _ _ h)
  special _ _ h := (A.special _ _ h).symm
  meths _ _ h := (A.meths _ _ h).symm
  pmeths _ _ h := (A.pmeths _ _ h).symm
  ptrName _ _ h hp := (A.ptrName _ _ h ((ren_isPtr A h).mp hp)).symm
  members t t' h hs m hm := by
    have hs' : IsStruct W.E t' := by
      obtain ⟨fs, hk⟩ := hs
      unfold HasFields at hk
      have := A.kind _ _ h
      rw [hk] at this
      generalize hk' : (W.E t').kind = k at this
      cases this with
      | struct => exact ⟨_, hk'⟩
    obtain ⟨m', h1, h2⟩ := A.members' _ _ h hs' m hm
    exact ⟨m', h1, h2.path.symm, h2.name.symm, h2.tag.symm, h2.typ⟩
  members' t t' h hs m hm := by
    have hs' : IsStruct W.E t' := by
      obtain ⟨fs, hk⟩ := hs
      unfold HasFields at hk
      have := A.kind _ _ h
      rw [hk] at this
      generalize hk' : (W.E t').kind = k at this
      cases this with
      | struct => exact ⟨_, hk'⟩
    obtain ⟨m', h1, h2⟩ := A.members _ _ h hs' m hm
    exact ⟨m', h1, h2.path.symm, h2.name.symm, h2.tag.symm, h2.typ⟩
  ptrTo _ _ h := A.ptrTo _ _ h
  answers _ _ _ _ _ _ _ _ h hv := (A.answers _ _ _ _ _ _ _ _ h (by have := sameVal_flip hv; exact this)).symm

/-! ## Fields -/

theorem get_other {α β : Type _} {l : List α} {l' : List β} (hl : l'.length = l.length) {i : Nat} {x : α} (h : l[i]? = some x) : ∃ y, l'[i]? = some y :=
  ⟨_, List.getElem?_eq_getElem (by have := (List.getElem?_eq_some_iff.mp h).1; omega)⟩

theorem fieldAt_same {p : List Nat} {x : Val} (h : FieldAt v p x) : ∀ {v'}, SameVal R v v' → ∃ x', FieldAt v' p x' ∧ SameVal R x x' := by
  induction h with
  | last h =>
    intro v' hv
    cases hv with
    | struct hl hs =>
      obtain ⟨y, hy⟩ := get_other hl h
      exact ⟨y, .last hy, hs _ _ _ h hy⟩
  | embed h _ ih =>
    intro v' hv
    cases hv with
    | struct hl hs =>
      obtain ⟨y, hy⟩ := get_other hl h
      have := hs _ _ _ h hy
      obtain ⟨x', h1, h2⟩ := ih this
      cases this with
      | struct => exact ⟨x', .embed hy h1, h2⟩
  | deref h _ ih =>
    intro v' hv
    cases hv with
    | struct hl hs =>
      obtain ⟨y, hy⟩ := get_other hl h
      have := hs _ _ _ h hy
      cases this with
      | ptr this =>
        obtain ⟨x', h1, h2⟩ := ih this
        exact ⟨x', .deref hy h1, h2⟩

theorem behindNil_same {p : List Nat} (h : BehindNil v p) : ∀ {v'}, SameVal R v v' → BehindNil v' p := by
  induction h with
  | here h =>
    intro v' hv
    cases hv with
    | struct hl hs =>
      obtain ⟨y, hy⟩ := get_other hl h
      have := hs _ _ _ h hy
      cases this
      exact .here hy
  | embed h _ ih =>
    intro v' hv
    cases hv with
    | struct hl hs =>
      obtain ⟨y, hy⟩ := get_other hl h
      have := hs _ _ _ h hy
      have h1 := ih this
      cases this with
      | struct => exact .embed hy h1
  | deref h _ ih =>
    intro v' hv
    cases hv with
    | struct hl hs =>
      obtain ⟨y, hy⟩ := get_other hl h
      have := hs _ _ _ h hy
      cases this with
      | ptr this => exact .deref hy (ih this)

theorem emptyVal_same (hv : SameVal R v v') (h : EmptyVal v) : EmptyVal v' := by
  unfold EmptyVal at h ⊢
  cases hv with
  | slice hl => rcases h with h | ⟨_, h, _⟩ | ⟨_, _, h, _⟩ | h | h | h | h | h <;> cases h; simp [List.length_eq_zero_iff.mp hl]
  | array hl => rcases h with h | ⟨_, h, _⟩ | ⟨_, _, h, _⟩ | h | h | h | h | h <;> cases h; simp [List.length_eq_zero_iff.mp hl]
  | map hl => rcases h with h | ⟨_, h, _⟩ | ⟨_, _, h, _⟩ | h | h | h | h | h <;> cases h; simp [List.length_eq_zero_iff.mp hl]
  | bool | int | float | str | time | nil | «opaque» => exact h
  | ptr | struct | smap | iface => rcases h with h | ⟨_, h, _⟩ | ⟨_, _, h, _⟩ | h | h | h | h | h <;> cases h

theorem twins_opt {m m' : MField} (h : Twins R m m') (s : Bytes) : HasOpt m'.decl s ↔ HasOpt m.decl s := by unfold HasOpt; rw [h.tag]

theorem leftOut_twins {m m' : MField} (h : Twins R m m') (hv : SameVal R v v') (hl : LeftOut o v m) : LeftOut o v' m' := by
  unfold LeftOut at hl ⊢
  rw [h.name, h.path, twins_opt h, twins_opt h]
  rcases hl with hl | hl | ⟨x, h1, h2⟩
  · exact .inl hl
  · exact .inr (.inl (behindNil_same hl hv))
  · obtain ⟨x', h3, h4⟩ := fieldAt_same h1 hv
    refine .inr (.inr ⟨x', h3, h2.imp (fun g => ⟨g.1, ?_⟩) fun g => ⟨g.1, emptyVal_same h4 g.2⟩⟩)
    rw [g.2] at h4
    cases h4
    rfl

theorem twins_flip {m m' : MField} (h : Twins R m m') : Twins (Flip R) m' m := ⟨h.path.symm, h.name.symm, h.tag.symm, h.typ⟩

theorem asBytes_same {vs vs' : List Val} {x : Bytes} (hl : vs'.length = vs.length) (hs : ∀ (i : Nat) x y, vs[i]? = some x → vs'[i]? = some y → SameVal R x y)
    (h : AsBytes vs x) : AsBytes vs' x := by
  unfold AsBytes at h ⊢
  subst h
  refine List.ext_getElem? fun i => ?_
  cases h1 : vs'[i]? with
  | none =>
    have := List.getElem?_eq_none_iff.mp h1
    exact (List.getElem?_eq_none_iff.mpr (by omega)).symm
  | some y =>
    obtain ⟨z, hz⟩ := get_other hl.symm h1
    have := hs i z y hz h1
    rw [hz]
    simp only [List.getElem?_map, Option.map_eq_some_iff] at hz
    obtain ⟨c, -, rfl⟩ := hz
    cases this
    rfl

/-! ## The text -/

set_option maxHeartbeats 1000000 in
/-- C81: what is written for a value is written for one of types of other names. -/
theorem C81_text (A : Renaming W M R) (h : Writes W M o t ca q v b) (ht : R t t') (hv : SameVal R v v') : Writes W M o t' ca q v' b := by
  revert t' v'
  refine Spec.Writes.rec (motive_1 := fun t ca q v b _ => ∀ {t' v'}, R t t' → SameVal R v v' → Writes W M o t' ca q v' b)
    (motive_2 := fun k v b _ => ∀ {k' v'}, R k k' → SameVal R v v' → KeyWrites W M o k' v' b)
    (motive_3 := fun v b _ => ∀ {v'}, SameVal R v v' → SyncKeyWrites W M o v' b)
    ?methNil ?meth ?time ?duration ?number0 ?number ?rawNil ?raw ?smap ?yes ?no ?int ?float ?str ?quoted ?quotedStr ?ptrNil ?ptr
    ?ifaceNil ?iface ?bytesNil ?bytes ?rawBytes ?sliceNil ?sliceNil0 ?slice ?byteArray ?array ?mapNil ?mapNil0 ?map ?struct
    ?kstr ?knil ?ktext ?kquoted ?sstr ?stext ?squoted h
  all_goals clear h t ca q v b
  case methNil =>
    intro t ca q m h1 h2 h3 h4 t' v' ht hv
    cases hv
    exact .methNil (by rw [A.special _ _ ht]; exact h1) (ren_picks A ht h2) (by rw [A.meths _ _ ht]; exact h3) (by rw [ren_isPtr A ht, ren_isIface A ht]; exact h4)
  case meth =>
    intro t ca q m v rt x u b h1 h2 h3 h4 t' v' ht hv
    obtain ⟨rt', x', u', h3', hr, hx⟩ := ren_receives A ht hv h3
    exact .meth (by rw [A.special _ _ ht]; exact h1) (ren_picks A ht h2) h3' (ren_methText A hr hx h4)
  case time => intro t ca q x b h1 h2 h3 t' v' ht hv; cases hv; exact .time (by rw [A.special _ _ ht]; exact h1) h2 h3
  case duration => intro t ca q x b h1 h3 t' v' ht hv; cases hv; exact .duration (by rw [A.special _ _ ht]; exact h1) h3
  case number0 => intro t ca q h1 t' v' ht hv; cases hv; exact .number0 (by rw [A.special _ _ ht]; exact h1)
  case number => intro t ca q s h1 h2 h3 t' v' ht hv; cases hv; exact .number (by rw [A.special _ _ ht]; exact h1) h2 h3
  case rawNil => intro t ca q h1 t' v' ht hv; cases hv; exact .rawNil (by rw [A.special _ _ ht]; exact h1)
  case raw =>
    intro t ca q vs b c h1 h2 h3 t' v' ht hv
    cases hv with
    | slice hl hs => exact .raw (by rw [A.special _ _ ht]; exact h1) (asBytes_same hl hs h2) h3
  case smap =>
    intro t ca q kvs ms ms' h1 h2 h3 h4 h5 h6 ih1 ih2 t' v' ht hv
    cases hv with
    | @smap _ kvs' hl hs hs' =>
      refine .smap (by rw [A.special _ _ ht]; exact h1) (by rw [hl]; exact h2) ?_ ?_ ?_ h6
      · intro i kv m hk hi
        obtain ⟨kv0, hk0⟩ := get_other hl.symm hk
        exact ih1 i kv0 m hk0 hi (hs _ _ _ hk0 hk)
      · intro i kv m d x hk hi hx
        obtain ⟨kv0, hk0⟩ := get_other hl.symm hk
        have := hs' _ _ _ hk0 hk
        rw [hx] at this
        generalize hz : kv0.2 = z at this
        cases this with
        | iface hd hx0 => rw [ren_isPtrK A hd]; exact ih2 i kv0 m _ _ hk0 hi hz hd hx0
      · intro kv hkv hz
        obtain ⟨i, hk⟩ := List.getElem?_of_mem hkv
        obtain ⟨kv0, hk0⟩ := get_other hl.symm hk
        have := hs' _ _ _ hk0 hk
        rw [hz] at this
        generalize hz0 : kv0.2 = z at this
        cases this
        exact h5 kv0 (List.mem_of_getElem? hk0) hz0
  case yes => intro t ca h1 h2 t' v' ht hv; cases hv; exact .yes (ren_byKind A ht h1) ((ren_basic A ht rfl).mpr h2)
  case no => intro t ca h1 h2 t' v' ht hv; cases hv; exact .no (ren_byKind A ht h1) ((ren_basic A ht rfl).mpr h2)
  case int => intro t ca k x b h1 h2 h3 t' v' ht hv; cases hv; exact .int (ren_byKind A ht h1) ((ren_basic A ht rfl).mpr h2) h3
  case float => intro t ca k x b h1 h2 h3 t' v' ht hv; cases hv; exact .float (ren_byKind A ht h1) ((ren_basic A ht rfl).mpr h2) h3
  case str => intro t ca s b h1 h2 h3 t' v' ht hv; cases hv; exact .str (ren_byKind A ht h1) ((ren_basic A ht rfl).mpr h2) h3
  case quoted =>
    intro t ca v b h1 h2 h3 _ ih t' v' ht hv
    exact .quoted (ren_byKind A ht h1) (by rw [ren_isBasic A ht]; exact h2) (mt (ren_basic A ht rfl).mp h3) (ih ht hv)
  case quotedStr => intro t ca s b h1 h2 h3 t' v' ht hv; cases hv; exact .quotedStr (ren_byKind A ht h1) ((ren_basic A ht rfl).mpr h2) h3
  case ptrNil =>
    intro t ca q e h1 h2 t' v' ht hv
    cases hv
    obtain ⟨e', hk, -⟩ := ren_ptr A ht h2
    exact .ptrNil (ren_byKind A ht h1) hk
  case ptr =>
    intro t ca q e v b h1 h2 _ ih t' v' ht hv
    obtain ⟨e', hk, he⟩ := ren_ptr A ht h2
    cases hv with
    | ptr hv => exact .ptr (ren_byKind A ht h1) hk (ih he hv)
  case ifaceNil =>
    intro t ca k h1 h2 t' v' ht hv
    cases hv
    obtain ⟨n', hk⟩ := ren_iface A ht h2
    exact .ifaceNil (ren_byKind A ht h1) hk
  case iface =>
    intro t ca k d x b h1 h2 _ ih t' v' ht hv
    obtain ⟨n', hk⟩ := ren_iface A ht h2
    cases hv with
    | iface hd hx => exact .iface (ren_byKind A ht h1) hk (by rw [ren_isPtrK A hd]; exact ih hd hx)
  case bytesNil =>
    intro t ca e h1 h2 h3 t' v' ht hv
    cases hv
    obtain ⟨e', hk, he⟩ := ren_slice A ht h2
    exact .bytesNil (ren_byKind A ht h1) hk ((ren_byteElem A he).mpr h3)
  case bytes =>
    intro t ca e vs x b h1 h2 h3 h4 h5 h6 t' v' ht hv
    obtain ⟨e', hk, he⟩ := ren_slice A ht h2
    cases hv with
    | slice hl hs => exact .bytes (ren_byKind A ht h1) hk ((ren_byteElem A he).mpr h3) h4 (asBytes_same hl hs h5) h6
  case rawBytes =>
    intro t ca e vs x b h1 h2 h3 h4 h5 h6 t' v' ht hv
    obtain ⟨e', hk, he⟩ := ren_slice A ht h2
    cases hv with
    | slice hl hs => exact .rawBytes (ren_byKind A ht h1) hk ((ren_byteElem A he).mpr h3) h4 (asBytes_same hl hs h5) h6
  case sliceNil =>
    intro t ca e h1 h2 h3 h4 t' v' ht hv
    cases hv
    obtain ⟨e', hk, he⟩ := ren_slice A ht h2
    exact .sliceNil (ren_byKind A ht h1) hk (mt (ren_byteElem A he).mp h3) h4
  case sliceNil0 =>
    intro t ca e h1 h2 h3 h4 t' v' ht hv
    cases hv
    obtain ⟨e', hk, he⟩ := ren_slice A ht h2
    exact .sliceNil0 (ren_byKind A ht h1) hk (mt (ren_byteElem A he).mp h3) h4
  case slice =>
    intro t ca e vs bs h1 h2 h3 h4 _ ih t' v' ht hv
    obtain ⟨e', hk, he⟩ := ren_slice A ht h2
    cases hv with
    | slice hl hs =>
      refine .slice (ren_byKind A ht h1) hk (mt (ren_byteElem A he).mp h3) (by rw [hl]; exact h4) fun i y b hi hb => ?_
      obtain ⟨x, hx⟩ := get_other hl.symm hi
      exact ih i x b hx hb he (hs _ _ _ hx hi)
  case byteArray =>
    intro t ca n e vs x b h1 h2 h3 h4 h5 h6 t' v' ht hv
    obtain ⟨e', hk, he⟩ := ren_array A ht h2
    cases hv with
    | array hl hs => exact .byteArray (ren_byKind A ht h1) hk ((ren_byteElem A he).mpr h3) h4 (asBytes_same hl hs h5) h6
  case array =>
    intro t ca n e vs bs h1 h2 h3 h4 _ ih t' v' ht hv
    obtain ⟨e', hk, he⟩ := ren_array A ht h2
    cases hv with
    | array hl hs =>
      refine .array (ren_byKind A ht h1) hk (fun h => h3 ((ren_byteElem A he).mp h)) (by rw [hl]; exact h4) fun i y b hi hb => ?_
      obtain ⟨x, hx⟩ := get_other hl.symm hi
      exact ih i x b hx hb he (hs _ _ _ hx hi)
  case mapNil =>
    intro t ca k e h1 h2 h3 h4 t' v' ht hv
    cases hv
    obtain ⟨k', e', hk, hkr, he⟩ := ren_map A ht h2
    exact .mapNil (ren_byKind A ht h1) hk ((ren_keyType A hkr).mpr h3) h4
  case mapNil0 =>
    intro t ca k e h1 h2 h3 h4 t' v' ht hv
    cases hv
    obtain ⟨k', e', hk, hkr, he⟩ := ren_map A ht h2
    exact .mapNil0 (ren_byKind A ht h1) hk ((ren_keyType A hkr).mpr h3) h4
  case map =>
    intro t ca k e kvs ms ms' h1 h2 h3 h4 _ _ h7 ih1 ih2 t' v' ht hv
    obtain ⟨k', e', hk, hkr, he⟩ := ren_map A ht h2
    cases hv with
    | map hl hs hs' =>
      refine .map (ren_byKind A ht h1) hk ((ren_keyType A hkr).mpr h3) (by rw [hl]; exact h4) ?_ ?_ h7
      · intro i kv m hi hm
        obtain ⟨x, hx⟩ := get_other hl.symm hi
        exact ih1 i x m hx hm hkr (hs _ _ _ hx hi)
      · intro i kv m hi hm
        obtain ⟨x, hx⟩ := get_other hl.symm hi
        exact ih2 i x m hx hm he (hs' _ _ _ hx hi)
  case struct =>
    intro t ca v l tried kept q' x b key c h1 h2 h3 h4 h5 h6 h7 _ h9 h10 h11 h12 ih t' v' ht hv
    have hs' := ren_struct A ht h2
    obtain ⟨f, hf⟩ : ∃ f : MField → MField, ∀ m ∈ l, ChosenField W.U.isLetter W.U.isDigit W.E t' (f m) ∧ Twins R m (f m) :=
      exists_fun ⟨[], ⟨[], false, false, [], 0, 0⟩, []⟩ fun m hm => A.members _ _ ht h2 m ((h3.2 m).mp hm)
    have inj : ∀ m ∈ l, ∀ n ∈ l, f m = f n → m = n := fun m hm n hn e =>
      chosen_eq h2 ((h3.2 m).mp hm) ((h3.2 n).mp hn) (by rw [← (hf m hm).2.name, ← (hf n hn).2.name, e])
    obtain ⟨g, hg⟩ : ∃ g : MField → MField, ∀ m' ∈ l.map f, g m' ∈ l ∧ f (g m') = m' :=
      exists_fun (R := fun m' m => m ∈ l ∧ f m = m') ⟨[], ⟨[], false, false, [], 0, 0⟩, []⟩ fun m' hm' => by
        obtain ⟨m, h1, h2⟩ := List.mem_map.mp hm'
        exact ⟨m, h1, h2⟩
    have gf : ∀ m ∈ l, g (f m) = m := fun m hm => inj _ (hg _ (List.mem_map_of_mem hm)).1 _ hm (hg _ (List.mem_map_of_mem hm)).2
    have tl : ∀ {m}, m ∈ tried → m ∈ l := fun hm => h4.subset hm
    have kl : ∀ {m}, m ∈ kept → m ∈ l := fun hm => tl (h9.subset hm)
    have hx : ∀ m ∈ tried, ∃ y, FieldAt v' (f m).path y ∧ SameVal R (x m) y := fun m hm => by
      obtain ⟨y, h1, h2⟩ := fieldAt_same (h6 m hm) hv
      exact ⟨y, by rw [(hf m (tl hm)).2.path]; exact h1, h2⟩
    obtain ⟨y, hy⟩ := exists_fun Val.nil hx
    have hmem : MembersOf W.U.isLetter W.U.isDigit W.E t' (l.map f) := by
      constructor
      · refine List.pairwise_map.mpr (h3.1.imp_of_mem fun {a b} ha hb h => ?_)
        rw [(hf a ha).2.path, (hf b hb).2.path]
        exact h
      · intro m'
        constructor
        · intro hm'
          obtain ⟨m, hm, rfl⟩ := List.mem_map.mp hm'
          exact (hf m hm).1
        · intro hm'
          obtain ⟨m, g1, g2⟩ := A.members' _ _ ht h2 m' hm'
          have hm := (h3.2 m).mpr g1
          rw [chosen_eq hs' hm' (hf m hm).1 (by rw [g2.name, (hf m hm).2.name])]
          exact List.mem_map_of_mem hm
    have main := Writes.struct (W := W) (M := M) (o := o) (t := t') (ca := ca) (v := v') (l := l.map f) (tried := tried.map f) (kept := kept.map f)
      (q' := fun m => q' (g m)) (x := fun m => y (g m)) (b := fun m => b (g m)) (key := fun m => key (g m)) (c := c)
      (ren_byKind A ht h1) hs' hmem (h4.map f) ?_ ?_ ?_ ?_ (h9.map f) ?_ ?_ ?_
    · have e : (kept.map f).map (fun m => b! "\"" ++ key (g m) ++ b! "\":" ++ b (g m)) = kept.map fun m => b! "\"" ++ key m ++ b! "\":" ++ b m := by
        rw [List.map_map]
        exact List.map_congr_left fun m hm => by simp only [Function.comp_apply, gf m (kl hm)]
      rw [e] at main
      exact main
    · intro m' hm'
      obtain ⟨m, hm, rfl⟩ := List.mem_map.mp hm'
      have e : f m ∈ tried.map f ↔ m ∈ tried := ⟨fun h => by
        obtain ⟨n, hn, en⟩ := List.mem_map.mp h
        rw [← inj n (tl hn) m hm en]; exact hn, fun h => List.mem_map_of_mem h⟩
      rw [e, h5 m hm]
      refine not_congr ⟨leftOut_twins (hf m hm).2 hv, leftOut_twins (twins_flip (hf m hm).2) (sameVal_flip hv)⟩
    · intro m' hm'
      obtain ⟨m, hm, rfl⟩ := List.mem_map.mp hm'
      simp only [gf m (tl hm)]
      exact (hy m hm).1
    · intro m' hm'
      obtain ⟨m, hm, rfl⟩ := List.mem_map.mp hm'
      simp only [gf m (tl hm)]
      rw [twins_opt (hf m (tl hm)).2, ren_basicOrPtr A (hf m (tl hm)).2.typ]
      exact h7 m hm
    · intro m' hm'
      obtain ⟨m, hm, rfl⟩ := List.mem_map.mp hm'
      simp only [gf m (tl hm)]
      exact ih m hm (hf m (tl hm)).2.typ (hy m hm).2
    · intro m' hm'
      obtain ⟨m, hm, rfl⟩ := List.mem_map.mp hm'
      have e : f m ∈ kept.map f ↔ m ∈ kept := ⟨fun h => by
        obtain ⟨n, hn, en⟩ := List.mem_map.mp h
        rw [← inj n (kl hn) m (tl hm) en]; exact hn, fun h => List.mem_map_of_mem h⟩
      rw [e, h10 m hm]
      simp only [gf m (tl hm)]
      unfold NullDropped
      rw [twins_opt (hf m (tl hm)).2, ren_hasJSON A (hf m (tl hm)).2.typ]
    · intro m' hm'
      obtain ⟨m, hm, rfl⟩ := List.mem_map.mp hm'
      simp only [gf m (kl hm)]
      rw [(hf m (kl hm)).2.name]
      exact h11 m hm
    · cases h12 with
      | none h =>
        refine .none (h.imp (fun h => by rw [h]; rfl) fun h => ?_)
        rw [List.head?_map, List.head?_map, h]
      | comma e1 e2 =>
        refine .comma (by simpa using e1) fun e => e2 ?_
        cases htr : tried with
        | nil =>
          rw [htr] at h9
          exact absurd (List.sublist_nil.mp h9) e1
        | cons a tr =>
          cases hke : kept with
          | nil => exact absurd hke e1
          | cons a' ke =>
            rw [htr, hke] at e
            simp only [List.map_cons, List.head?_cons, Option.some.injEq] at e ⊢
            exact inj a (tl (by rw [htr]; simp)) a' (kl (by rw [hke]; simp)) e
  case kstr => intro kt s b h1 h2 t' v' ht hv; cases hv; exact .str ((ren_basic A ht rfl).mpr h1) h2
  case knil =>
    intro kt h1 h2 h3 t' v' ht hv
    cases hv
    exact .nilText (mt (ren_basic A ht rfl).mp h1) (by rw [A.meths _ _ ht]; exact h2) ((ren_isPtr A ht).mpr h3)
  case ktext =>
    intro kt x b h1 h2 h3 _ ih t' v' ht hv
    refine .text (mt (ren_basic A ht rfl).mp h1) (by rw [A.meths _ _ ht]; exact h2) ?_ (ih ht hv)
    rw [ren_isPtr A ht]
    rintro hp rfl
    cases hv
    exact h3 hp rfl
  case kquoted =>
    intro kt x b h1 h2 _ ih t' v' ht hv
    exact .quoted (mt (ren_basic A ht rfl).mp h1) (by rw [A.meths _ _ ht]; exact h2) (ih ht hv)
  case sstr =>
    intro kt s b h1 h2 v' hv
    cases hv with
    | iface hd hx => cases hx; exact .str ((ren_basic A hd rfl).mpr h1) h2
  case stext =>
    intro kt x b h1 h2 _ ih v' hv
    cases hv with
    | iface hd hx => exact .text (mt (ren_basic A hd rfl).mp h1) (by rw [A.meths _ _ hd]; exact h2) (by rw [ren_isPtrK A hd]; exact ih hd hx)
  case squoted =>
    intro kt k x b h1 h2 _ ih v' hv
    cases hv with
    | iface hd hx => exact .quoted ((ren_basic A hd rfl).mpr h1) (by rw [A.meths _ _ hd]; exact h2) (by rw [ren_isPtrK A hd]; exact ih hd hx)

/-- C81: the text is the same. -/
theorem C81_iff (A : Renaming W M R) (ht : R t t') (hv : SameVal R v v') : Writes W M o t ca q v b ↔ Writes W M o t' ca q v' b :=
  ⟨fun h => C81_text A h ht hv, fun h => C81_text (renaming_flip A) h ht (sameVal_flip hv)⟩

/-- C81: calls for values that differ in the names of types only both succeed or both fail; if maps are sorted and the texts of the keys of a map
differ, they return the same. -/
theorem C81_calls {H : Heap} (D : FaultReady W H M) (DW : WriteReady W H M) (hP : PathFree M) (A : Renaming W M R) (ht : R t t') (hv : SameVal R v v')
    {w w' : Addr} (hx : ReprE W.E H.mem (some (t, w)) (.iface t v)) (hx' : ReprE W.E H.mem (some (t', w')) (.iface t' v')) (hf : TimesFine W t v)
    (hf' : TimesFine W t' v') {opts : List (Option Opt)} (ho : prepare opts = .ok o) {n n' : Nat} (hn : marshalOpts W H n (some (t, w)) opts ≠ .nofuel)
    (hn' : marshalOpts W H n' (some (t', w')) opts ≠ .nofuel) (dst : Bytes) :
    ((∃ b, marshalOpts W H n (some (t, w)) opts = .ret (some b) none) ↔ ∃ b, marshalOpts W H n' (some (t', w')) opts = .ret (some b) none) ∧
    (bmHas o.flags .unsortedMap = false → KeysTold W M o t' v' → ∀ b, marshalOpts W H n (some (t, w)) opts = .ret (some b) none →
      marshalOpts W H n' (some (t', w')) opts = .ret (some b) none ∧ appendOpts W H n' dst (some (t', w')) opts = .ret (some (dst ++ b)) none) := by
  have key : ∀ b, marshalOpts W H n (some (t, w)) opts = .ret (some b) none → Writes W M o t' (isPtrK (W.E t').kind) false v' b := fun b h => by
    rw [ren_isPtrK A ht]
    exact C81_text A ((C56_bytes DW hx hf ho).1 b h) ht hv
  refine ⟨⟨?_, ?_⟩, fun hu hd b h => (C56_complete D DW hP hx' hf' ho (key b h) n' dst hn').2 hu hd⟩
  · rintro ⟨b, h⟩
    obtain ⟨c, hc, -⟩ := (C56_complete D DW hP hx' hf' ho (key b h) n' dst hn').1
    exact ⟨c, hc⟩
  · rintro ⟨b, h⟩
    have := (C56_bytes DW hx' hf' ho).1 b h
    rw [ren_isPtrK A ht] at this
    obtain ⟨c, hc, -⟩ := (C56_complete D DW hP hx hf ho ((C81_iff A ht hv).mpr this) n dst hn).1
    exact ⟨c, hc⟩

end Jettison.Props
