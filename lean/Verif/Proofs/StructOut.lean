import Verif.Proofs.Closed
import Verif.Proofs.NoBad
import Verif.Proofs.Flags
import Verif.Spec.Select
import Verif.Props.Fields
import Verif.Props.Options

/-! # The members of an encoded struct -/

namespace Jettison.Proofs
open Jettison Jettison.Model Jettison.Spec

/-! ## Values at index paths -/

theorem routeV_last (vs : List Val) (i : Nat) : routeV (.struct vs) [i] = vs[i]?.map some := by
  simp only [routeV, List.dropLast, List.getLast?_singleton, follow]
  cases vs[i]? <;> rfl

theorem routeV_cons (vs : List Val) (i j : Nat) (is : List Nat) : routeV (.struct vs) (i :: j :: is) =
    match vs[i]? with
    | some .nil => some none
    | some (.ptr y) => routeV y (j :: is)
    | some y => routeV y (j :: is)
    | none => none := by
  have e1 : (i :: j :: is).dropLast = i :: (j :: is).dropLast := rfl
  have e2 : (i :: j :: is).getLast? = (j :: is).getLast? := by simp [List.getLast?_cons]
  simp only [routeV, e1, e2, follow]
  cases vs[i]? with
  | none => rfl
  | some y => cases y <;> rfl

theorem routeV_struct {v : Val} {path : List Nat} {x : Option Val} (h : routeV v path = some x) :
    ∃ vs i is, v = .struct vs ∧ path = i :: is := by
  cases path with
  | nil =>
    simp only [routeV, List.dropLast, follow, List.getLast?_nil] at h
    split at h <;> simp at h
    next h2 => simp at h2
  | cons i is =>
    cases v with
    | struct vs => exact ⟨vs, i, is, rfl, rfl⟩
    | _ =>
      simp only [routeV] at h
      cases is <;> simp [follow] at h

theorem fieldAt_iff : ∀ {path : List Nat} {v x : Val}, FieldAt v path x ↔ routeV v path = some (some x)
  | [], v, x => by
    constructor
    · intro h; cases h
    · intro h; obtain ⟨_, _, _, _, h⟩ := routeV_struct h; simp at h
  | [i], v, x => by
    constructor
    · intro h; cases h with | last h => rw [routeV_last, h]; rfl
    · intro h
      obtain ⟨vs, _, _, rfl, _⟩ := routeV_struct h
      rw [routeV_last] at h
      simp at h
      exact .last h
  | i :: j :: is, v, x => by
    have ih := fun v x => fieldAt_iff (path := j :: is) (v := v) (x := x)
    constructor
    · intro h
      cases h with
      | embed h1 h2 => rw [routeV_cons, h1]; exact (ih _ _).mp h2
      | deref h1 h2 => rw [routeV_cons, h1]; exact (ih _ _).mp h2
    · intro h
      obtain ⟨vs, _, _, rfl, _⟩ := routeV_struct h
      rw [routeV_cons] at h
      split at h
      · simp at h
      · next y hy => exact .deref hy ((ih _ _).mpr h)
      · next y h1 h2 hy =>
        obtain ⟨ws, _, _, rfl, _⟩ := routeV_struct h
        exact .embed hy ((ih _ _).mpr h)
      · simp at h

theorem behindNil_iff : ∀ {path : List Nat} {v : Val}, BehindNil v path ↔ routeV v path = some none
  | [], v => by
    constructor
    · intro h; cases h
    · intro h; obtain ⟨_, _, _, _, h⟩ := routeV_struct h; simp at h
  | [i], v => by
    constructor
    · intro h; cases h
    · intro h
      obtain ⟨vs, _, _, rfl, _⟩ := routeV_struct h
      rw [routeV_last] at h
      simp at h
  | i :: j :: is, v => by
    have ih := fun v => behindNil_iff (path := j :: is) (v := v)
    constructor
    · intro h
      cases h with
      | here h1 => rw [routeV_cons, h1]
      | embed h1 h2 => rw [routeV_cons, h1]; exact (ih _).mp h2
      | deref h1 h2 => rw [routeV_cons, h1]; exact (ih _).mp h2
    · intro h
      obtain ⟨vs, _, _, rfl, _⟩ := routeV_struct h
      rw [routeV_cons] at h
      split at h
      · next hy => exact .here hy
      · next y hy => exact .deref hy ((ih _).mpr h)
      · next y h1 h2 hy =>
        obtain ⟨ws, _, _, rfl, _⟩ := routeV_struct h
        exact .embed hy ((ih _).mpr h)
      · simp at h

theorem isNilV_true {x : Val} : isNilV x = some true ↔ x = .nil := by
  cases x <;> simp [isNilV]

theorem isZero_iff (v : IntVal) : v.isZero = true ↔ IntZero v := by
  cases v <;> simp [IntVal.isZero, IntZero]

theorem fabs_zero (w : FWidth) (b : Nat) : (fabs w b == 0) = true ↔ expField w b = 0 ∧ mantField w b = 0 := by
  simp only [fabs, expField, mantField, beq_iff_eq]
  cases w <;> simp only [FWidth.mant, FWidth.exp] <;> omega

theorem emptyV_true {E : Env} {m : Mem} {pt : TId → TId} {t : TId} {p : Loc} {x : Val} (G : GoTypes E pt) (h : Repr E m t p x) :
    emptyV (emptyFuncOf (E t).kind) x = some true ↔ EmptyVal x := by
  have hn := fun k => isZero_iff k
  cases h with
  | @bool _ _ b hk _ => cases b <;> simp [hk, emptyFuncOf, emptyV, EmptyVal]
  | int hk _ => simp [hk, emptyFuncOf, emptyV, EmptyVal, hn]
  | @float _ _ w b hk _ =>
    have hz := fabs_zero w b
    simp only [beq_iff_eq] at hz
    simp only [hk, emptyFuncOf, emptyV, if_true, Option.some.injEq, beq_iff_eq, hz]
    constructor
    · intro h; exact .inr (.inr (.inl ⟨w, b, rfl, h⟩))
    · rintro (h | ⟨_, h, _⟩ | ⟨w', b', h, h'⟩ | h | h | h | h | h) <;> simp at h
      obtain ⟨rfl, rfl⟩ := h; exact h'
  | str hk _ => simp [hk, emptyFuncOf, emptyV, EmptyVal]
  | time hs _ => obtain ⟨fs, hk, _⟩ := G.time _ hs; simp [hk, emptyFuncOf, emptyV, EmptyVal]
  | smap hs => obtain ⟨fs, hk, _⟩ := G.syncMap _ hs; simp [hk, emptyFuncOf, emptyV, EmptyVal]
  | nilPtr hk _ => simp [hk, emptyFuncOf, emptyV, EmptyVal]
  | ptr hk _ _ _ => simp [hk, emptyFuncOf, emptyV, EmptyVal]
  | nilMap hk _ => simp [hk, emptyFuncOf, emptyV, EmptyVal]
  | map hk => simp [hk, emptyFuncOf, emptyV, EmptyVal]
  | nilSlice hk _ => simp [hk, emptyFuncOf, emptyV, EmptyVal]
  | slice hk => simp [hk, emptyFuncOf, emptyV, EmptyVal]
  | @array _ _ _ vs hk _ =>
    cases vs <;> simp [hk, emptyFuncOf, emptyV, EmptyVal]
  | struct hk _ _ _ => simp [hk, emptyFuncOf, emptyV, EmptyVal]
  | eface hk _ hx => cases hx <;> simp [hk, emptyFuncOf, emptyV, EmptyVal]
  | iface hk _ _ hx => cases hx <;> simp [hk, emptyFuncOf, emptyV, EmptyVal]
  | «opaque» hk => simp [hk, emptyFuncOf, emptyV, EmptyVal]

/-! ## Fields of the type -/

theorem hasOpt_iff (sf : FieldDef) (opt : Bytes) : HasOpt sf opt ↔ tagContains (parseTag sf.tag).2 opt = true := by
  rw [tagContains_iff]
  constructor
  · rintro ⟨nm, opts, h, ho⟩
    have := tagReading_unique h (parseTag_reading sf.tag)
    rw [← this.2]; exact ho
  · intro h; exact ⟨_, _, parseTag_reading sf.tag, h⟩

/-- The declaration behind a recorded field. -/
structure Behind (E : Env) (f : Fld) (m : MField) : Prop where
  path : m.path = f.index
  name : m.name = f.name
  omitNil : f.omitNil = true ↔ HasOpt m.decl (b! "omitnil")
  omitEmpty : f.omitEmpty = true ↔ HasOpt m.decl (b! "omitempty")
  quoted : f.quoted = true ↔ HasOpt m.decl (b! "string") ∧ BasicOrPtr E m.decl.typ

theorem basicOrPtr_iff (E : Env) (sf : FieldDef) : isBasicK (E (scanTyp E sf)).kind = true ↔ BasicOrPtr E sf.typ := by
  unfold scanTyp BasicOrPtr
  split
  · next h =>
    simp only [Bool.and_eq_true, decide_eq_true_eq] at h
    obtain ⟨e, he⟩ := (isPtrK_iff _).mp h.2
    simp only [derefOnce, he, h.1]
    simp [isBasicK, isInteger]
  · next h =>
    simp only [Bool.and_eq_true, decide_eq_true_eq, not_and] at h
    constructor
    · exact .inl
    · rintro (h1 | ⟨e, he, hn, hb⟩)
      · exact h1
      · have := h hn; rw [he] at this; simp [isPtrK] at this

theorem members_of {E : Env} {U : UnicodeTab} {grow : Grow} {sort : SortAlg} {fuel : Nat} {t : TId} {fl : List Fld}
    (hU : TablesOk U.isLetter U.isDigit) (hsort : SortOk sort) (hsafe : RoutesApart U.isLetter U.isDigit grow E t)
    (h : structFields E U grow sort fuel t = some fl) :
    ∃ g : Fld → MField, MembersOf U.isLetter U.isDigit E t (fl.map g) ∧ ∀ f ∈ fl, Behind E f (g f) ∧
      ∃ u i, Promoted U.isLetter U.isDigit E t f.index u i (g f).decl f.name f.tag (f.embedSeq.map Seq.pair) := by
  have h1 : ∀ f : Fld, ∃ sf : FieldDef, f ∈ fl → ∃ u i, Promoted U.isLetter U.isDigit E t f.index u i sf f.name f.tag
      (f.embedSeq.map Seq.pair) ∧ f = mkFld E f.embedSeq.dropLast f.index sf f.name f.tag (parseTag sf.tag).2 := by
    intro f
    by_cases hf : f ∈ fl
    · obtain ⟨u, i, sf, a, b⟩ := structFields_route hU hsafe hsort h f hf
      exact ⟨sf, fun _ => ⟨u, i, a, b⟩⟩
    · exact ⟨⟨[], false, false, [], 0, 0⟩, fun h => absurd h hf⟩
  obtain ⟨d, hd⟩ := Classical.axiomOfChoice h1
  have hbeh : ∀ f ∈ fl, Behind E f ⟨f.index, d f, f.name⟩ := by
    intro f hf
    obtain ⟨u, i, a, b⟩ := hd f hf
    refine ⟨rfl, rfl, ?_, ?_, ?_⟩
    · have b1 := congrArg Fld.omitNil b
      simp only [mkFld] at b1
      rw [hasOpt_iff, b1]
    · have b1 := congrArg Fld.omitEmpty b
      simp only [mkFld] at b1
      rw [hasOpt_iff, b1]
    · have b1 := congrArg Fld.quoted b
      simp only [mkFld] at b1
      rw [hasOpt_iff, ← basicOrPtr_iff, b1, Bool.and_eq_true]
  refine ⟨fun f => ⟨f.index, d f, f.name⟩, ⟨?_, ?_⟩, ?_⟩
  · have := Props.C19_declaration_order hsort h
    rw [List.pairwise_map]
    exact this
  · intro m
    rw [List.mem_map]
    constructor
    · rintro ⟨f, hf, rfl⟩
      obtain ⟨u, i, a, b⟩ := hd f hf
      obtain ⟨p, u', i', sf', r', e1, hp', hc, hn, hw⟩ := (Props.C49_exact_rule hU hsort h f.index f.name f.tag).mp ⟨f, hf, rfl, rfl, rfl⟩
      have := promoted_functional hU a hp'
      obtain ⟨rfl, rfl, rfl, -, -⟩ := this
      exact ⟨p, u, i, _, f.tag, e1, a, hc, hn, hw⟩
    · rintro ⟨p, u, i, r, tg, e1, hp, hc, hn, hw⟩
      obtain ⟨f, hf, e2, e3, e4⟩ := (Props.C49_exact_rule hU hsort h m.path m.name tg).mpr ⟨p, u, i, m.decl, r, e1, hp, hc, hn, hw⟩
      refine ⟨f, hf, ?_⟩
      obtain ⟨u', i', a, b⟩ := hd f hf
      rw [e2] at a
      have := promoted_functional hU a hp
      obtain ⟨-, -, h3, -, -⟩ := this
      obtain ⟨mp, md, mn⟩ := m
      rw [MField.mk.injEq]
      exact ⟨e2, h3, e3⟩
  · intro f hf
    obtain ⟨u, i, a, b⟩ := hd f hf
    exact ⟨hbeh f hf, u, i, a⟩

variable {W : World} {H : Heap} {M : MethV} {o : EncOpts}

theorem newFieldInstr_inv {E : Env} {k : Nat} {t : TId} {ca : Bool} {f : Fld} {g : FInstr} (h : newFieldInstr E k t ca f = some g) :
    ∃ ftyp, typeByIndex E t f.index = some ftyp ∧ g.fld = f ∧ g.omitNil = (f.omitNil && isNilable (E ftyp).kind) ∧
      g.omitNullMarshaler = (f.omitNil && ((E ftyp).meths.json || (E ftyp).pmeths.json)) ∧
      g.empty = (if f.omitEmpty then some (emptyFuncOf (E ftyp).kind) else none) ∧
      newInstruction E k ftyp ca (f.quoted && isBasicK (E (derefOnce E ftyp)).kind) = some g.instr := by
  unfold newFieldInstr at h
  split at h
  · simp at h
  · next ftyp hf =>
    simp only at h
    split at h
    · simp at h
    · next i hi => cases h; exact ⟨ftyp, hf, rfl, rfl, rfl, rfl, hi⟩

/-- Leaving a field out, in terms of the specification. -/
theorem fieldLoc_spec (R : Ready W H M) {t : TId} {ca : Bool} {l : Loc} {v : Val} (hv : Repr W.E H.mem t l v)
    (ht : IsStruct W.E t) {k : Nat} {f : Fld} {g : FInstr} {m : MField} (hb : Behind W.E f m)
    (hg : newFieldInstr W.E k t ca f = some g) (hr : RouteOk W.E W.U t f) {u : TId} {i : Nat}
    (hp : Promoted W.U.isLetter W.U.isDigit W.E t f.index u i m.decl f.name f.tag (f.embedSeq.map Seq.pair)) :
    (fieldLoc H.mem o g l = some none ∧ LeftOut o v m) ∨ ∃ l' x, fieldLoc H.mem o g l = some (some l') ∧ ¬ LeftOut o v m ∧
      FieldAt v m.path x ∧ Repr W.E H.mem m.decl.typ l' x ∧ (InHeap l → InHeap l') := by
  obtain ⟨ftyp, h1, h2, h3, h4, h5, h6⟩ := newFieldInstr_inv hg
  have hty : m.decl.typ = ftyp := by have := promoted_type ht hp; rw [h1] at this; simpa using this.symm
  have hok : FieldOk W.E t ca g ftyp := by
    obtain ⟨e1, ft, hft⟩ := newFieldInstr_ok hg
    have e2 := hft.typ
    rw [e1, h1] at e2
    simp only [Option.some.injEq] at e2
    subst e2; exact hft
  have hr' : RouteOk W.E W.U t g.fld := by rw [h2]; exact hr
  have hden : o.isDeniedField g.fld.name = true ↔ Hidden o.allowList o.denyList m.name := by
    rw [h2, hb.name]; exact Props.C20_denied_iff o f.name
  have hw := walk_route R.types hv hp
  rcases fieldLoc_eq (o := o) R hv ht hok hr' with ⟨-, hbad⟩ | ⟨e1, e2⟩ | ⟨l', x, e1, e2, hrep, hheap⟩
  · exact absurd hbad (fieldV_some (o := o) R hv ht hok hr')
  · left
    refine ⟨e1, ?_⟩
    simp only [fieldV] at e2
    split at e2
    · next hd => exact .inl (hden.mp hd)
    · rw [h2, ← hb.path] at e2
      split at e2
      · simp at e2
      · next hn => exact .inr (.inl (behindNil_iff.mpr hn))
      · next x hx =>
        refine .inr (.inr ⟨x, fieldAt_iff.mpr hx, ?_⟩)
        have hx' : routeV v f.index = some (some x) := by rw [← hb.path]; exact hx
        rw [hx'] at hw
        generalize walk H.mem f.embedSeq l = A at hw
        cases hw with
        | found hrep _ =>
          rw [hty] at hrep
          split at e2
          · simp at e2
          · next hn =>
            split at hn
            · next ho =>
              rw [h3, Bool.and_eq_true] at ho
              exact .inl ⟨hb.omitNil.mp ho.1, isNilV_true.mp hn⟩
            · simp at hn
          · next hn =>
            rw [h5] at e2
            cases hoe : f.omitEmpty with
            | false => simp [hoe] at e2
            | true =>
              rw [hoe] at e2
              simp only [if_true] at e2
              split at e2
              · simp at e2
              · next he => exact .inr ⟨hb.omitEmpty.mp hoe, (emptyV_true R.types hrep).mp he⟩
              · simp at e2
  · right
    have key : o.isDeniedField g.fld.name = false ∧ routeV v m.path = some (some x) ∧
        (if g.omitNil = true then isNilV x else some false) = some false ∧
        (match g.empty with | some e => emptyV e x | none => some false) = some false := by
      simp only [fieldV] at e2
      split at e2
      · simp at e2
      · next hd =>
        rw [h2, ← hb.path] at e2
        split at e2
        · simp at e2
        · simp at e2
        · next y hy =>
          split at e2
          · simp at e2
          · simp at e2
          · next hn =>
            split at e2
            · simp at e2
            · simp at e2
            · next hem =>
              simp only [Option.some.injEq] at e2
              subst e2
              exact ⟨by simpa using hd, hy, hn, hem⟩
    obtain ⟨hd, hy, hn, hem⟩ := key
    refine ⟨l', x, e1, ?_, ?_, by rw [hty]; exact hrep, hheap⟩
    · rintro (h | h | ⟨z, hz, h⟩)
      · rw [hden.mpr h] at hd; simp at hd
      · rw [behindNil_iff, hy] at h; simp at h
      · rw [fieldAt_iff, hy] at hz
        simp only [Option.some.injEq] at hz
        subst hz
        rcases h with ⟨h, rfl⟩ | ⟨h, hx⟩
        · have hon := hb.omitNil.mpr h
          have hnil : isNilable (W.E ftyp).kind = true := by
            cases hrep <;> simp_all [isNilable]
          rw [h3, hon, hnil] at hn
          simp [isNilV] at hn
        · have hoe := hb.omitEmpty.mpr h
          rw [h5, hoe] at hem
          simp only [if_true] at hem
          rw [(emptyV_true R.types hrep).mpr hx] at hem
          simp at hem
    · exact fieldAt_iff.mpr hy

end Jettison.Proofs
