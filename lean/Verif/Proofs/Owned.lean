import Verif.Model.Calls

/-!
# Reasoning about one call among many

`Meets` says that a program, owning part of the memory and owing some placeholders, does
only what is allowed to it and ends as stated, whatever the other calls do.
-/

namespace Jettison.Proofs
open Jettison Jettison.Model

/-- Part of the memory, with its content, and what has to stay at the start of each array. -/
structure Frag where
  arr : Nat → Option Bytes
  obj : Nat → Option PObj
  keep : Nat → Bytes

def Frag.empty : Frag := ⟨fun _ => none, fun _ => none, fun _ => []⟩
def Frag.setArr (h : Frag) (a : Nat) (c : Bytes) : Frag := { h with arr := fun x => if x = a then some c else h.arr x }
def Frag.setObj (h : Frag) (i : Nat) (v : PObj) : Frag := { h with obj := fun x => if x = i then some v else h.obj x }
def Frag.delArr (h : Frag) (a : Nat) : Frag := { h with arr := fun x => if x = a then none else h.arr x }
def Frag.delObj (h : Frag) (i : Nat) : Frag := { h with obj := fun x => if x = i then none else h.obj x }

/-- For which type, in which position, each placeholder and closure was made. -/
structure Known where
  slots : List (TId × Bool)
  closures : List (TId × Bool)

/-- Later knowledge. -/
structure Known.Le (K K' : Known) : Prop where
  slots : K.slots <+: K'.slots
  closures : K.closures <+: K'.closures

theorem Known.Le.refl (K : Known) : K.Le K := ⟨List.prefix_refl _, List.prefix_refl _⟩
theorem Known.Le.trans {K K' K'' : Known} (h : K.Le K') (h' : K'.Le K'') : K.Le K'' := ⟨h.slots.trans h'.slots, h.closures.trans h'.closures⟩

theorem prefix_get {α : Type} {l l' : List α} (h : l <+: l') {i : Nat} {a : α} (ha : l[i]? = some a) : l'[i]? = some a := by
  obtain ⟨t, rfl⟩ := h
  obtain ⟨hi, rfl⟩ := List.getElem?_eq_some_iff.mp ha
  rw [List.getElem?_append_left hi]; exact ha

/-- What a reference was made for. -/
def RefKey (K : Known) : Ref → TId × Bool → Prop
  | .placeholder c, k => K.slots[c]? = some k
  | .closure f, k => K.closures[f]? = some k

theorem refKey_le {K K' : Known} (h : K.Le K') {r : Ref} {k : TId × Bool} (hr : RefKey K r k) : RefKey K' r k := by
  cases r with
  | placeholder c => exact prefix_get h.slots hr
  | closure f => exact prefix_get h.closures hr

/-- The instructions that call no others. -/
def isLeafI : Instr → Bool
  | .goType _ | .marshaler _ _ _ | .bool | .int _ | .float _ | .string | .quotedString | .byteSlice | .unsupported _ => true
  | _ => false

/-- The instruction in memory is the instruction of the model. -/
def Den (K : Known) : CInstr → Instr → Prop
  | .leaf i, j => j = i ∧ isLeafI i = true
  | .quoted c, j => ∃ i, j = .quoted i ∧ Den K c i
  | .nilText c, j => ∃ i, j = .nilText i ∧ Den K c i
  | .inline c, j => ∃ i, j = .inline i ∧ Den K c i
  | .iface, j => j = .iface
  | .struct r, j => ∃ t ca, RefKey K r (t, ca) ∧ j = .struct t ca
  | .map t ck cv, j => ∃ ik iv, j = .map t ik iv ∧ Den K ck ik ∧ Den K cv iv
  | .slice c sz, j => ∃ i, j = .slice i sz ∧ Den K c i
  | .array c sz n b, j => ∃ i, j = .array i sz n b ∧ Den K c i
  | .ptr c, j => ∃ i, j = .ptr i ∧ Den K c i

theorem den_le {K K' : Known} (h : K.Le K') : ∀ {c : CInstr} {i : Instr}, Den K c i → Den K' c i
  | .leaf _, _, hd => hd
  | .quoted _, _, ⟨i, e, hd⟩ => ⟨i, e, den_le h hd⟩
  | .nilText _, _, ⟨i, e, hd⟩ => ⟨i, e, den_le h hd⟩
  | .inline _, _, ⟨i, e, hd⟩ => ⟨i, e, den_le h hd⟩
  | .iface, _, hd => hd
  | .struct _, _, ⟨t, ca, hr, e⟩ => ⟨t, ca, refKey_le h hr, e⟩
  | .map _ _ _, _, ⟨ik, iv, e, hk, hv⟩ => ⟨ik, iv, e, den_le h hk, den_le h hv⟩
  | .slice _ _, _, ⟨i, e, hd⟩ => ⟨i, e, den_le h hd⟩
  | .array _ _ _ _, _, ⟨i, e, hd⟩ => ⟨i, e, den_le h hd⟩
  | .ptr _, _, ⟨i, e, hd⟩ => ⟨i, e, den_le h hd⟩

/-- The same for the fields of a struct. -/
def DenFs (K : Known) : List CField → List FInstr → Prop
  | [], l => l = []
  | f :: fs, l => ∃ i l', l = f.with i :: l' ∧ Den K f.instr i ∧ DenFs K fs l'

theorem denFs_le {K K' : Known} (h : K.Le K') : ∀ {l : List CField} {l' : List FInstr}, DenFs K l l' → DenFs K' l l'
  | [], _, hd => hd
  | _ :: _, _, ⟨i, l', e, hd, ht⟩ => ⟨i, l', e, den_le h hd, denFs_le h ht⟩

/-- What the closure of a struct type captured is what the model says. -/
def DenC (W : World) (K : Known) (k : TId × Bool) (c : Option (List CField)) : Prop :=
  if (fieldsOfK (W.E k.1).kind).length = 0 then c = none
  else ∃ l l', c = some l ∧ structFieldsInstr W.E W.U W.grow W.sort W.tfuel k.1 k.2 = some l' ∧ DenFs K l l'

theorem denC_le {W : World} {K K' : Known} (h : K.Le K') {k : TId × Bool} {c : Option (List CField)} (hd : DenC W K k c) : DenC W K' k c := by
  unfold DenC at hd ⊢
  split
  · next h0 => rw [if_pos h0] at hd; exact hd
  · next h0 =>
    rw [if_neg h0] at hd
    obtain ⟨l, l', e, e', hf⟩ := hd
    exact ⟨l, l', e, e', denFs_le h hf⟩

/-- Each entry of the instruction cache is right. -/
def GoodCache (W : World) (K : Known) (m : List (TId × CInstr)) : Prop :=
  ∀ t c, (t, c) ∈ m → ∃ i, instrFor W.E W.tfuel t = some i ∧ Den K c i

/-- The placeholders a call has to complete, innermost first, with the instruction once it is set. -/
abbrev Owed := List (Nat × Option Nat)

/-- What holds of the content of an object in a pool. -/
def InPool (P : PoolK) (v : PObj) (arr : Nat → Option Bytes) : Prop :=
  match P with
  | .buf => ∃ s c, v = .buf s ∧ arr s.arr = some c
  | .elems => v = .elems []
  | .iter => ∃ l, v = .iter l

/-- Postconditions. -/
abbrev PostC (α : Type) := Known → Frag → Owed → α → Prop

/-- The slice is owned and has this content. -/
def SliceIs (h : Frag) (s : Sl) (d : Bytes) : Prop := (∃ c, h.arr s.arr = some c ∧ s.len ≤ c.length ∧ c.take s.len = d) ∧ (h.keep s.arr).length ≤ s.len

/-- What has to stay is there. -/
def KeepOk (h : Frag) : Prop := ∀ a, h.keep a <+: (h.arr a).getD []

/-- The result in memory is the result of the model. -/
def OutIs (h : Frag) (out : Out) (R : Ret) : Prop :=
  match out, R with
  | .ret none e, .ret none e' => e = e'
  | .ret (some s) e, .ret (some b) e' => e = e' ∧ SliceIs h s b
  | .panic, .panic => True
  | .bad, .bad => True
  | _, _ => False

/-- Part of a part. -/
structure Frag.Sub (h' h : Frag) : Prop where
  arr : ∀ a c, h'.arr a = some c → h.arr a = some c
  obj : ∀ id v, h'.obj id = some v → h.obj id = some v
  keep : h'.keep = h.keep

/-- The goroutine has taken these objects and not put back. -/
def HeldOk (held : List Nat) (h : Frag) : Prop := held.Nodup ∧ ∀ id, id ∈ held ↔ h.obj id ≠ none

/-- What an operation needs, and what is known after it whatever its outcome. -/
def OpGood (W : World) (K : Known) (h : Frag) (w : Owed) : (o : Op) → PostC o.Res → Prop
  | .loadInstr t, Q => Q K h w none ∧ ∀ c i, instrFor W.E W.tfuel t = some i → Den K c i → Q K h w (some c)
  | .loadCache, Q => ∀ m, GoodCache W K m → Q K h w m
  | .storeCache m, Q => GoodCache W K m ∧ Q K h w ()
  | .loadStruct k, Q => Q K h w none ∧ ∀ r, RefKey K r k → Q K h w (some r)
  | .loadOrStore k, Q => (∀ r, RefKey K r k → Q K h w (r, true)) ∧
      (k ∉ K.slots → Q { K with slots := K.slots ++ [k] } h ((K.slots.length, none) :: w) (.placeholder K.slots.length, false))
  | .newClosure c, Q => ∃ k, DenC W K k c ∧ Q { K with closures := K.closures ++ [k] } h w K.closures.length
  | .setIns c f, Q => ∃ x w' k, w = (c, x) :: w' ∧ K.slots[c]? = some k ∧ K.closures[f]? = some k ∧ Q K h ((c, some f) :: w') ()
  | .done c, Q => ∃ f w', w = (c, some f) :: w' ∧ Q K h w' ()
  | .storeStruct k f, Q => K.closures[f]? = some k ∧ Q K h w ()
  | .wait c, Q => w = [] ∧ ∃ k, K.slots[c]? = some k ∧ ∀ f : Nat, K.closures[f]? = some k → Q K h w f
  | .captured f, Q => ∃ k, K.closures[f]? = some k ∧ ∀ c, DenC W K k c → Q K h w c
  | .loadFields t, Q => Q K h w none ∧ ∀ l, structFields W.E W.U W.grow W.sort W.tfuel t = some l → Q K h w (some l)
  | .addFields t l, Q => structFields W.E W.U W.grow W.sort W.tfuel t = some l ∧ Q K h w l
  | .loadEmpty t, Q => Q K h w none ∧ Q K h w (some (emptyFuncOf (W.E t).kind))
  | .addEmpty t f, Q => f = emptyFuncOf (W.E t).kind ∧ Q K h w f
  | .read s, Q => w = [] ∧ ∃ c, h.arr s.arr = some c ∧ s.hi ≤ c.length ∧ Q K h w (slice c s.lo s.hi)
  | .scratch s, Q => w = [] ∧ (h.keep s.arr).length ≤ s.len ∧ ∃ c, h.arr s.arr = some c ∧ s.len ≤ c.length ∧
      ∀ c', c'.length = c.length → c'.take s.len = c.take s.len → Q K (h.setArr s.arr c') w (c.take s.len)
  | .write s b, Q => ∃ c, h.arr s.arr = some c ∧ ((h.keep s.arr).length ≤ s.len ∧ s.len ≤ c.length ∧ c.take s.len <+: b) ∧
      (∀ c', c'.length = c.length → b.length ≤ c.length → c'.take b.length = b → Q K (h.setArr s.arr c') w ⟨s.arr, b.length⟩) ∧
      (∀ a c1 c', h.arr a = none → h.keep a = [] → c1.length = c.length → c1.take s.len = c.take s.len → b.length ≤ c'.length → c'.take b.length = b →
        Q K ((h.setArr s.arr c1).setArr a c') w ⟨a, b.length⟩)
  | .alloc b, Q => ∀ a junk, h.arr a = none → h.keep a = [] → Q K (h.setArr a (b ++ junk)) w ⟨a, b.length⟩
  | .get .buf, Q => ∀ id s c, h.obj id = none → h.arr s.arr = none → h.keep s.arr = [] → Q K ((h.setObj id (.buf s)).setArr s.arr c) w id
  | .get .elems, Q => ∀ id, h.obj id = none → Q K (h.setObj id (.elems [])) w id
  | .get .iter, Q => ∀ id l, h.obj id = none → Q K (h.setObj id (.iter l)) w id
  | .load id, Q => ∃ v, h.obj id = some v ∧ Q K h w v
  | .store id v, Q => h.obj id ≠ none ∧ Q K (h.setObj id v) w ()
  | .put .buf id, Q => ∃ s, h.obj id = some (.buf s) ∧ h.arr s.arr ≠ none ∧ h.keep s.arr = [] ∧ Q K ((h.delObj id).delArr s.arr) w ()
  | .put .elems id, Q => h.obj id = some (.elems []) ∧ Q K (h.delObj id) w ()
  | .put .iter id, Q => ∃ l, h.obj id = some (.iter l) ∧ Q K (h.delObj id) w ()
  | .back n c l out, Q => w = [] ∧ OutIs h out (c.alone W n) ∧ ∃ h', h'.Sub h ∧ (out = .panic ∧ HeldOk l h' ∨ out ≠ .panic ∧ h'.obj = h.obj) ∧ KeepOk h' ∧ Q K h' w ()

/-- The program does only what is allowed and ends as stated; it runs out of the bounds of the model only if `D`. -/
def Meets (W : World) (D : Prop) {α : Type} (Post : PostC α) : Prog α → Known → Frag → Owed → Prop
  | .ret a, K, h, w => ∀ K', K.Le K' → Post K' h w a
  | .crash, _, _, _ => D
  | .op o k, K, h, w => ∀ K', K.Le K' → OpGood W K' h w o fun K'' h' w' x => Meets W D Post (k x) K'' h' w'

variable {W : World} {D : Prop} {α β : Type}

theorem le_slot (K : Known) (k : TId × Bool) : K.Le { K with slots := K.slots ++ [k] } := ⟨⟨[k], rfl⟩, List.prefix_refl _⟩
theorem le_closure (K : Known) (k : TId × Bool) : K.Le { K with closures := K.closures ++ [k] } := ⟨List.prefix_refl _, ⟨[k], rfl⟩⟩

theorem opGood_mono {K : Known} {h : Frag} {w : Owed} {o : Op} {Q Q' : PostC o.Res} (hq : ∀ K' h' w' x, K.Le K' → Q K' h' w' x → Q' K' h' w' x)
    (hg : OpGood W K h w o Q) : OpGood W K h w o Q' := by
  have hr := Known.Le.refl K
  cases o with
  | loadInstr t => exact ⟨hq _ _ _ _ hr hg.1, fun c i hi hd => hq _ _ _ _ hr (hg.2 c i hi hd)⟩
  | loadCache => exact fun m hm => hq _ _ _ _ hr (hg m hm)
  | storeCache m => exact ⟨hg.1, hq _ _ _ _ hr hg.2⟩
  | loadStruct k => exact ⟨hq _ _ _ _ hr hg.1, fun r hk => hq _ _ _ _ hr (hg.2 r hk)⟩
  | loadOrStore k => exact ⟨fun r hk => hq _ _ _ _ hr (hg.1 r hk), fun hn => hq _ _ _ _ (le_slot K k) (hg.2 hn)⟩
  | newClosure c => obtain ⟨k, hd, h1⟩ := hg; exact ⟨k, hd, hq _ _ _ _ (le_closure K k) h1⟩
  | setIns c f => obtain ⟨x, w', k, e, h1, h2, h3⟩ := hg; exact ⟨x, w', k, e, h1, h2, hq _ _ _ _ hr h3⟩
  | done c => obtain ⟨f, w', e, h1⟩ := hg; exact ⟨f, w', e, hq _ _ _ _ hr h1⟩
  | storeStruct k f => exact ⟨hg.1, hq _ _ _ _ hr hg.2⟩
  | wait c => obtain ⟨e, k, h1, h2⟩ := hg; exact ⟨e, k, h1, fun f hf => hq _ _ _ _ hr (h2 f hf)⟩
  | captured f => obtain ⟨k, h1, h2⟩ := hg; exact ⟨k, h1, fun c hc => hq _ _ _ _ hr (h2 c hc)⟩
  | loadFields t => exact ⟨hq _ _ _ _ hr hg.1, fun l hl => hq _ _ _ _ hr (hg.2 l hl)⟩
  | addFields t l => exact ⟨hg.1, hq _ _ _ _ hr hg.2⟩
  | loadEmpty t => exact ⟨hq _ _ _ _ hr hg.1, hq _ _ _ _ hr hg.2⟩
  | addEmpty t f => exact ⟨hg.1, hq _ _ _ _ hr hg.2⟩
  | read s => obtain ⟨h0, c, h1, h2, h3⟩ := hg; exact ⟨h0, c, h1, h2, hq _ _ _ _ hr h3⟩
  | scratch s => obtain ⟨h0, hk, c, h1, h2, h3⟩ := hg; exact ⟨h0, hk, c, h1, h2, fun c' a1 a2 => hq _ _ _ _ hr (h3 c' a1 a2)⟩
  | write s b =>
    obtain ⟨c, h1, h0, h2, h3⟩ := hg
    exact ⟨c, h1, h0, fun c' a1 a2 a3 => hq _ _ _ _ hr (h2 c' a1 a2 a3), fun a c1 c' a0 a1 a2 a3 a4 a5 => hq _ _ _ _ hr (h3 a c1 c' a0 a1 a2 a3 a4 a5)⟩
  | alloc b => exact fun a j ha hk => hq _ _ _ _ hr (hg a j ha hk)
  | get P =>
    cases P with
    | buf => exact fun id s c a1 a2 a3 => hq _ _ _ _ hr (hg id s c a1 a2 a3)
    | elems => exact fun id a1 => hq _ _ _ _ hr (hg id a1)
    | iter => exact fun id l a1 => hq _ _ _ _ hr (hg id l a1)
  | load id => obtain ⟨v, h1, h2⟩ := hg; exact ⟨v, h1, hq _ _ _ _ hr h2⟩
  | store id v => exact ⟨hg.1, hq _ _ _ _ hr hg.2⟩
  | put P id =>
    cases P with
    | buf => obtain ⟨s, h1, h2, h0, h3⟩ := hg; exact ⟨s, h1, h2, h0, hq _ _ _ _ hr h3⟩
    | elems => exact ⟨hg.1, hq _ _ _ _ hr hg.2⟩
    | iter => obtain ⟨l, h1, h2⟩ := hg; exact ⟨l, h1, hq _ _ _ _ hr h2⟩
  | back n c l out => obtain ⟨h0, h1, h', h2, hh, h3, h4⟩ := hg; exact ⟨h0, h1, h', h2, hh, h3, hq _ _ _ _ hr h4⟩

theorem good_le {Post : PostC α} {p : Prog α} {K K' : Known} {h : Frag} {w : Owed} (hk : K.Le K') (hg : Meets W D Post p K h w) : Meets W D Post p K' h w := by
  cases p with
  | ret a => exact fun K'' h'' => hg K'' (hk.trans h'')
  | crash => exact hg
  | op o k => exact fun K'' h'' => hg K'' (hk.trans h'')

theorem good_mono {Post Post' : PostC α} : ∀ {p : Prog α} {K : Known} {h : Frag} {w : Owed},
    (∀ K' h' w' a, K.Le K' → Post K' h' w' a → Post' K' h' w' a) → Meets W D Post p K h w → Meets W D Post' p K h w
  | .ret a, _, _, _, hp, hg => fun K' h' => hp _ _ _ _ h' (hg K' h')
  | .crash, _, _, _, _, hg => hg
  | .op o k, K, h, w, hp, hg => fun K' h' => opGood_mono (fun K'' _ _ x h'' hx => good_mono (fun K3 h3 w3 a hl => hp K3 h3 w3 a (h'.trans (h''.trans hl))) hx) (hg K' h')

theorem good_dead {D' : Prop} {Post : PostC α} (hd : D → D') : ∀ {p : Prog α} {K : Known} {h : Frag} {w : Owed}, Meets W D Post p K h w → Meets W D' Post p K h w
  | .ret _, _, _, _, hg => hg
  | .crash, _, _, _, hg => hd hg
  | .op _ _, _, _, _, hg => fun K' h' => opGood_mono (fun _ _ _ _ _ hx => good_dead hd hx) (hg K' h')

theorem good_bind {Post : PostC β} {f : α → Prog β} : ∀ {p : Prog α} {K : Known} {h : Frag} {w : Owed},
    Meets W D (fun K' h' w' a => K.Le K' → Meets W D Post (f a) K' h' w') p K h w → Meets W D Post (p >>= f) K h w
  | .ret a, K, h, w, hg => hg K (.refl K) (.refl K)
  | .crash, _, _, _, hg => hg
  | .op o k, K, h, w, hg => fun K' h' => opGood_mono (fun K'' _ _ x h'' hx =>
      good_bind (f := f) (p := k x) (good_mono (fun K3 h3 w3 a hl hp h4 => hp (h'.trans (h''.trans hl))) hx)) (hg K' h')

theorem good_call {Post : PostC β} {o : Op} {f : o.Res → Prog β} {K : Known} {h : Frag} {w : Owed}
    (hg : ∀ K', K.Le K' → OpGood W K' h w o fun K'' h' w' x => Meets W D Post (f x) K'' h' w') : Meets W D Post (o.call >>= f) K h w := hg

theorem good_callLast {o : Op} {Post : PostC o.Res} {K : Known} {h : Frag} {w : Owed}
    (hg : ∀ K', K.Le K' → OpGood W K' h w o fun K'' h' w' x => ∀ K3, K''.Le K3 → Post K3 h' w' x) : Meets W D Post o.call K h w := hg

theorem good_ret {Post : PostC α} {a : α} {K : Known} {h : Frag} {w : Owed} (hp : ∀ K', K.Le K' → Post K' h w a) : Meets W D Post (.ret a) K h w := hp

theorem good_pure {Post : PostC α} {a : α} {K : Known} {h : Frag} {w : Owed} (hp : ∀ K', K.Le K' → Post K' h w a) : Meets W D Post (pure a) K h w := hp

end Jettison.Proofs
