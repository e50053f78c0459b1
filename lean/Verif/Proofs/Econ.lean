import Verif.Proofs.GenOk

/-!
# What the calls do to the caches

`Judge` collects what is needed to see that something holds of the programs of all calls.
-/

namespace Jettison.Proofs
open Jettison Jettison.Model Jettison.Spec

/-- The operations outside of the generation of instructions. -/
def outside : Op → Bool
  | .read _ | .scratch _ | .write _ _ | .alloc _ | .get _ | .load _ | .store _ _ | .put _ _ | .wait _ | .captured _ => true
  | _ => false

/-- A property of programs that calls inherit from looking up instructions. -/
structure Judge (W : World) (g : Nat) (J : {α : Type} → Prog α → Prop) : Prop where
  ret : ∀ {α : Type} (a : α), J (.ret a)
  crash : ∀ {α : Type}, J (.crash : Prog α)
  op : ∀ {α : Type} {o : Op} {k : o.Res → Prog α}, outside o = true → (∀ x, J (k x)) → J (.op o k)
  bind : ∀ {α β : Type} {p : Prog α} {f : α → Prog β}, J p → (∀ a, J (f a)) → J (p >>= f)
  cached : ∀ t, J (cachedInstr W g t)

variable {W : World} {g : Nat} {J : {α : Type} → Prog α → Prop}

namespace Judge

theorem pure (h : Judge W g J) {α : Type} (a : α) : J (Pure.pure a : Prog α) := h.ret a

theorem call (h : Judge W g J) {o : Op} (ho : outside o = true) : J o.call := h.op ho fun x => h.ret x

theorem onBytes (h : Judge W g J) (f : Bytes → Res) (s : Sl) : J (onBytes f s) := by
  refine h.bind (h.call rfl) fun d => ?_
  split
  · exact h.bind (h.call rfl) fun s' => h.pure _
  all_goals first | exact h.pure _ | exact h.crash

theorem addBytes (h : Judge W g J) (s : Sl) (b : Bytes) : J (addBytes s b) := h.bind (h.call rfl) fun _ => h.call rfl

theorem addLast (h : Judge W g J) (s : Sl) (b : Bytes) : J (addLast s b) := h.bind (h.addBytes s b) fun _ => h.pure _

theorem comma (h : Judge W g J) (b : Bool) (s : Sl) : J (commaP b s) := by
  unfold commaP
  split
  · exact h.addBytes _ _
  · exact h.ret _

theorem withRead (h : Judge W g J) {α : Type} {r : Option α} {f : α → Prog RS} (hf : ∀ a, J (f a)) : J (withReadP r f) := by
  unfold withReadP
  split
  · exact hf _
  · exact h.ret _

theorem structLoop (h : Judge W g J) {H : Heap} {o : EncOpts} {rec : RecP} (hr : ∀ path i p s, J (rec path i p s)) {path : Path} {p : Loc} :
    ∀ (fs : List CField) (i : Nat) (first : Bool) (s : Sl), J (structLoopP H o rec path p i fs first s)
  | [], _, _, _ => h.addLast _ _
  | f :: fs, i, first, s => by
    unfold structLoopP
    split
    · exact h.ret _
    · exact structLoop h hr fs _ _ _
    · refine h.bind (h.addBytes _ _) fun s1 => h.bind (hr _ _ _ _) fun r => ?_
      split
      · refine h.bind (h.call rfl) fun d => ?_
        split
        · exact structLoop h hr fs _ _ _
        · exact structLoop h hr fs _ _ _
      · exact h.pure _

theorem arrayLoop (h : Judge W g J) {rec : RecP} (hr : ∀ path i p s, J (rec path i p s)) {path : Path} {ins : CInstr} {es : Nat} {p : Loc} :
    ∀ (n i : Nat) (s : Sl), J (arrayLoopP rec path ins es p i n s)
  | 0, _, _ => h.addLast _ _
  | n + 1, i, s => by
    unfold arrayLoopP
    refine h.bind (h.addBytes _ _) fun s1 => h.bind (hr _ _ _ _) fun r => ?_
    split
    · exact arrayLoop h hr n _ _
    · exact h.pure _

theorem array (h : Judge W g J) {H : Heap} {o : EncOpts} {rec : RecP} (hr : ∀ path i p s, J (rec path i p s)) {path : Path} {ins : CInstr} {es len : Nat} {isba : Bool} {p : Loc} {s : Sl} :
    J (encodeArrayP H o rec path ins es len isba p s) := by
  unfold encodeArrayP
  split
  · exact h.withRead fun b => h.onBytes _ _
  · exact h.arrayLoop hr _ _ _

theorem unsorted (h : Judge W g J) {α : Type} {kf vf : Nat → α → Sl → Prog RS} (hk : ∀ n e s, J (kf n e s)) (hv : ∀ n e s, J (vf n e s)) :
    ∀ (es : List α) (n : Nat) (s : Sl), J (unsortedLoopP kf vf n es s)
  | [], _, _ => h.ret _
  | e :: es, n, s => by
    unfold unsortedLoopP
    refine h.bind (h.comma _ _) fun s0 => h.bind (hk _ _ _) fun r => ?_
    split
    · refine h.bind (h.addBytes _ _) fun s2 => h.bind (hv _ _ _) fun r => ?_
      split
      · exact unsorted h hk hv es _ _
      · exact h.pure _
    · exact h.pure _

theorem sorted (h : Judge W g J) {α : Type} {kf vf : Nat → α → Sl → Prog RS} (hk : ∀ n e s, J (kf n e s)) (hv : ∀ n e s, J (vf n e s)) :
    ∀ (es : List α) (n : Nat) (sb : Sl) (l : List (Sub × Sub)), J (sortedLoopP kf vf n es sb l)
  | [], _, _, _ => h.ret _
  | e :: es, n, sb, l => by
    unfold sortedLoopP
    refine h.bind (hk _ _ _) fun r => ?_
    split
    · split
      · exact h.pure _
      · refine h.bind (h.addBytes _ _) fun s2 => h.bind (hv _ _ _) fun r => ?_
        split
        · split
          · exact h.pure _
          · exact sorted h hk hv es _ _ _
        all_goals exact h.pure _
    all_goals exact h.pure _

theorem readEntries (h : Judge W g J) : ∀ l, J (readEntries l)
  | [] => h.ret _
  | _ :: l => h.bind (h.call rfl) fun _ => h.bind (h.call rfl) fun _ => h.bind (readEntries h l) fun _ => h.pure _

theorem joinEntries (h : Judge W g J) : ∀ (l : List (Bytes × Bytes)) first s, J (joinEntriesP first l s)
  | [], _, _ => h.ret _
  | _ :: t, _, _ => h.bind (h.comma _ _) fun _ => h.bind (h.addBytes _ _) fun _ => joinEntries h t _ _

theorem release (h : Judge W g J) (b m : Nat) (sb : Sl) : J (releaseP b m sb) :=
  h.bind (h.call rfl) fun _ => h.bind (h.call rfl) fun _ => h.bind (h.call rfl) fun _ => h.call rfl

theorem encodeSorted (h : Judge W g J) {sort : SortAlg} {α : Type} {kf vf : Nat → α → Sl → Prog RS} (hk : ∀ n e s, J (kf n e s)) (hv : ∀ n e s, J (vf n e s))
    (es : List α) (s : Sl) : J (encodeSortedP sort kf vf es s) := by
  refine h.bind (h.call rfl) fun b => h.bind (h.call rfl) fun x => ?_
  split
  · refine h.bind (h.call rfl) fun _ => h.bind (h.call rfl) fun m => h.bind (h.call rfl) fun y => ?_
    split
    · refine h.bind (h.sorted hk hv _ _ _ _) fun r => ?_
      split
      · exact h.bind (h.readEntries _) fun l' => h.bind (h.joinEntries _ _ _) fun s' => h.bind (h.release _ _ _) fun _ => h.pure _
      · exact h.bind (h.release _ _ _) fun _ => h.pure _
      all_goals exact h.pure _
    · exact h.pure _
  · exact h.pure _

theorem entries (h : Judge W g J) {W' : World} {o : EncOpts} {α : Type} {kf vf : Nat → α → Sl → Prog RS} (hk : ∀ n e s, J (kf n e s)) (hv : ∀ n e s, J (vf n e s))
    (es : List α) (s : Sl) : J (encodeEntriesP W' o kf vf es s) := by
  unfold encodeEntriesP
  split
  · exact h.unsorted hk hv _ _ _
  · exact h.encodeSorted hk hv _ _

theorem close (h : Judge W g J) (r : RS) : J (closeP r) := by
  unfold closeP
  split
  · exact h.addLast _ _
  · exact h.ret _

theorem map (h : Judge W g J) {W' : World} {H : Heap} {o : EncOpts} {rec : RecP} (hr : ∀ path i p s, J (rec path i p s)) {path : Path} {ki vi : CInstr} {p : Loc} {s : Sl} :
    J (encodeMapP W' H o rec path ki vi p s) := by
  refine h.withRead fun a => ?_
  split
  · exact h.addLast _ _
  · refine h.withRead fun es => ?_
    split
    · exact h.addLast _ _
    · refine h.bind (h.addBytes _ _) fun s1 => h.bind (h.call rfl) fun it => h.bind (h.call rfl) fun _ => h.bind (h.call rfl) fun x => ?_
      split
      · refine h.bind (h.entries (fun _ _ _ => hr _ _ _ _) (fun _ _ _ => hr _ _ _ _) _ _) fun r => ?_
        split
        · exact h.pure _
        · exact h.pure _
        · exact h.bind (h.call rfl) fun _ => h.close _
      · exact h.pure _

theorem appendJSON (h : Judge W g J) {rec : RecP} (hr : ∀ path i p s, J (rec path i p s)) (path : Path) (v : Eface) (s : Sl) : J (appendJSONP W g rec path v s) := by
  unfold appendJSONP
  split
  · exact h.ret _
  · exact h.bind (h.cached _) fun i => hr _ _ _ _

theorem syncKey (h : Judge W g J) {H : Heap} {o : EncOpts} {rec : RecP} (hr : ∀ path i p s, J (rec path i p s)) (path : Path) (v : Eface) (s : Sl) :
    J (appendSyncMapKeyP W H o g rec path v s) := by
  unfold appendSyncMapKeyP
  split
  · exact h.ret _
  · simp only
    split
    · exact h.ret _
    · split
      · exact h.withRead fun x => h.onBytes _ _
      · split
        · exact h.appendJSON hr _ _ _
        · refine h.bind (h.addBytes _ _) fun s1 => h.bind (h.appendJSON hr _ _ _) fun r => ?_
          split
          · exact h.addLast _ _
          · exact h.pure _

theorem syncMap (h : Judge W g J) {H : Heap} {o : EncOpts} {rec : RecP} (hr : ∀ path i p s, J (rec path i p s)) {path : Path} {p : Loc} {s : Sl} :
    J (encodeSyncMapP W H o g rec path p s) :=
  h.withRead fun _ => h.bind (h.addBytes _ _) fun _ => h.bind (h.entries (fun _ _ _ => h.syncKey hr _ _ _) (fun _ _ _ => h.appendJSON hr _ _ _) _ _) fun _ => h.close _

theorem closure (h : Judge W g J) {H : Heap} {o : EncOpts} {rec : RecP} (hr : ∀ path i p s, J (rec path i p s)) {path : Path} {f : Nat} {p : Loc} {s : Sl} :
    J (callClosure H o rec path f p s) := by
  refine h.bind (h.call rfl) fun x => ?_
  split
  · exact h.addLast _ _
  · exact h.structLoop hr _ _ _ _

theorem exec (h : Judge W g J) {H : Heap} {o : EncOpts} {rec : RecP} (hr : ∀ path i p s, J (rec path i p s)) (path : Path) (i : CInstr) (p : Loc) (s : Sl) :
    J (execP W H o g rec path i p s) := by
  unfold execP
  split
  · exact h.syncMap hr
  · exact h.onBytes _ _
  · refine h.bind (h.addBytes _ _) fun s1 => h.bind (hr _ _ _ _) fun r => ?_
    split
    · exact h.addLast _ _
    · exact h.pure _
  · refine h.withRead fun a => ?_
    split
    · exact h.addLast _ _
    · exact hr _ _ _ _
  · split
    · exact hr _ _ _ _
    · exact h.ret _
  · refine h.withRead fun v => ?_
    split
    · exact h.addLast _ _
    · exact h.appendJSON hr _ _ _
  · exact h.closure hr
  · exact h.bind (h.call rfl) fun f => h.closure hr
  · exact h.map hr
  · refine h.withRead fun x => ?_
    obtain ⟨d, l⟩ := x
    simp only
    split
    · exact h.addLast _ _
    · split
      · exact h.addLast _ _
      · exact h.array hr
  · exact h.array hr
  · refine h.withRead fun a => ?_
    split
    · exact hr _ _ _ _
    · exact h.addLast _ _

theorem run (h : Judge W g J) {H : Heap} {o : EncOpts} : ∀ (n : Nat) (path : Path) (i : CInstr) (p : Loc) (s : Sl), J (runP W H o g n path i p s)
  | 0, _, _, _, _ => h.crash
  | n + 1, path, i, p, s => h.exec (h.run n) path i p s

end Judge

/-- All calls are judged alike. -/
theorem judge_marshal {c : Call} (h : Judge (c.world W) g J) (n : Nat) : J (c.marshal W g n) := by
  unfold Call.marshal
  split
  · exact h.bind (h.call rfl) fun s => h.pure _
  · split
    · exact h.ret _
    · refine h.bind (h.cached _) fun i => h.bind (h.call rfl) fun b => h.bind (h.call rfl) fun x => ?_
      split
      · refine h.bind (h.call rfl) fun _ => h.bind (h.run _ _ _ _ _) fun r => ?_
        split
        · exact h.bind (h.call rfl) fun _ => h.bind (h.call rfl) fun _ => h.bind (h.call rfl) fun _ => h.bind (h.call rfl) fun _ => h.pure _
        · exact h.bind (h.call rfl) fun _ => h.bind (h.call rfl) fun _ => h.pure _
        all_goals exact h.pure _
      · exact h.pure _

theorem judge_append {c : Call} (h : Judge (c.world W) g J) (n : Nat) (dst : Sl) : J (c.append W g n dst) := by
  unfold Call.append
  split
  · exact h.bind (h.addBytes _ _) fun s => h.pure _
  · split
    · exact h.ret _
    · refine h.bind (h.appendJSON (h.run _) _ _ _) fun r => ?_
      split <;> exact h.pure _

/-! ## Programs in which all types are known -/

/-- As long as all types looked up are found, no instruction is generated. -/
def OpIdle : (o : Op) → (o.Res → Prop) → Prop
  | .loadInstr _, Q => ∀ i, Q (some i)
  | .loadCache, _ | .storeCache _, _ | .loadStruct _, _ | .loadOrStore _, _ | .newClosure _, _ | .setIns _ _, _ | .done _, _ | .storeStruct _ _, _
  | .loadFields _, _ | .addFields _ _, _ | .loadEmpty _, _ | .addEmpty _ _, _ => False
  | _, Q => ∀ x, Q x

def Idle {α : Type} : Prog α → Prop
  | .ret _ => True
  | .crash => True
  | .op o k => OpIdle o fun x => Idle (k x)

theorem opIdle_mono {o : Op} {Q Q' : o.Res → Prop} (hq : ∀ x, Q x → Q' x) (h : OpIdle o Q) : OpIdle o Q' := by
  cases o <;> first | exact h.elim | exact fun x => hq _ (h x)

theorem idle_bind {α β : Type} {f : α → Prog β} (hf : ∀ a, Idle (f a)) : ∀ {p : Prog α}, Idle p → Idle (p >>= f)
  | .ret a, _ => hf a
  | .crash, _ => trivial
  | .op o k, h => opIdle_mono (fun x hx => idle_bind hf (p := k x) hx) (show OpIdle o _ from h)

theorem idle_judge (W : World) (g : Nat) : Judge W g Idle where
  ret _ := trivial
  crash := trivial
  op ho hk := by
    rename_i o k
    show OpIdle o _
    cases o <;> first | exact fun x => hk x | cases ho
  bind hp hf := idle_bind hf hp
  cached _ := fun _ => trivial

/-! ## Programs that make a type known -/

/-- The type is known after the operation. -/
def learnt (t : TId) (b : Bool) : (o : Op) → o.Res → Bool
  | .loadInstr t', x => b || (t' == t && x.isSome)
  | .storeCache m, _ => b || m.any (·.1 == t)
  | _, _ => b

/-- The type is known in the end. -/
def Learns {α : Type} (t : TId) : Bool → Prog α → Prop
  | b, .ret _ => b = true
  | _, .crash => True
  | b, .op o k => ∀ x, Learns t (learnt t b o x) (k x)

theorem learnt_true (t : TId) (o : Op) (x : o.Res) : learnt t true o x = true := by cases o <;> rfl

theorem learns_true {α : Type} (t : TId) : ∀ p : Prog α, Learns t true p
  | .ret _ => rfl
  | .crash => trivial
  | .op o k => fun x => by rw [learnt_true]; exact learns_true t (k x)

theorem learns_any {α : Type} {t : TId} {p : Prog α} (h : Learns t false p) : ∀ b, Learns t b p
  | false => h
  | true => learns_true t p

theorem learns_bind {α β : Type} {t : TId} {f : α → Prog β} (hf : ∀ a, Learns t false (f a)) : ∀ (b : Bool) (p : Prog α), Learns t b (p >>= f)
  | b, .ret a => learns_any (hf a) b
  | _, .crash => trivial
  | b, .op o k => fun x => learns_bind hf (learnt t b o x) (k x)

theorem learns_first {α β : Type} {t : TId} {f : α → Prog β} : ∀ {b : Bool} {p : Prog α}, Learns t b p → Learns t b (p >>= f)
  | b, .ret a, h => by rw [show b = true from h]; exact learns_true t _
  | _, .crash, _ => trivial
  | _, .op _ k, h => fun x => learns_first (p := k x) (h x)

theorem learns_cached (W : World) (g : Nat) (t : TId) : Learns t false (cachedInstr W g t) := by
  intro x
  cases x with
  | some i => simp only [learnt, beq_self_eq_true, Option.isSome_some, Bool.and_true, Bool.or_true]; exact learns_true t _
  | none =>
    show Learns t _ (newInstructionP W g t (isPtrK (W.E t).kind) false >>= _)
    refine learns_bind (fun i => ?_) _ _
    intro m x
    have e : learnt t false (.storeCache ((t, if isInlined W.E W.tfuel t then CInstr.inline i else i) :: m)) x = true := by simp [learnt]; exact ⟨_, List.mem_cons_self⟩
    have : Learns t (learnt t false (.storeCache ((t, if isInlined W.E W.tfuel t then CInstr.inline i else i) :: m)) x)
        (Prog.ret (if isInlined W.E W.tfuel t then CInstr.inline i else i)) := by rw [e]; exact learns_true t _
    exact this

/-! ## Programs that owe instructions -/

/-- The placeholders for which no instruction has been made yet, and the copy of the instruction cache that will be stored. -/
structure Debt where
  owed : Nat
  copy : Option (List (TId × CInstr))

/-- What an operation needs and what is owed after it. -/
def OpNeat (E : Env) (d : Debt) : (o : Op) → (Debt → o.Res → Prop) → Prop
  | .loadCache, Q => d.copy = none ∧ ∀ m, Q ⟨d.owed, some m⟩ m
  | .storeCache m', Q => (∃ m e, d.copy = some m ∧ m' = e :: m) ∧ Q ⟨d.owed, none⟩ ()
  | .loadOrStore k, Q => d.copy = none ∧ IsStruct E k.1 ∧ (∀ r, Q d (r, true)) ∧ ∀ c, Q ⟨d.owed + 1, none⟩ (.placeholder c, false)
  | .newClosure _, Q => d.copy = none ∧ ∃ n, d.owed = n + 1 ∧ ∀ f, Q ⟨n, none⟩ f
  | _, Q => d.copy = none ∧ ∀ x, Q d x

/-- The program starts with one debt and ends with the other. -/
def Neat {α : Type} (E : Env) (d' : Debt) : Debt → Prog α → Prop
  | d, .ret _ => d = d'
  | _, .crash => True
  | d, .op o k => OpNeat E d o fun d x => Neat E d' d (k x)

variable {E : Env}

theorem opNeat_mono {d : Debt} {o : Op} {Q Q' : Debt → o.Res → Prop} (hq : ∀ d x, Q d x → Q' d x) (h : OpNeat E d o Q) : OpNeat E d o Q' := by
  cases o with
  | loadCache => exact ⟨h.1, fun m => hq _ _ (h.2 m)⟩
  | storeCache m => exact ⟨h.1, hq _ _ h.2⟩
  | loadOrStore k => exact ⟨h.1, h.2.1, fun r => hq _ _ (h.2.2.1 r), fun c => hq _ _ (h.2.2.2 c)⟩
  | newClosure c => obtain ⟨h0, n, h1, h2⟩ := h; exact ⟨h0, n, h1, fun f => hq _ _ (h2 f)⟩
  | _ => exact ⟨h.1, fun x => hq _ _ (h.2 x)⟩

theorem neat_bind {α β : Type} {d' d2 : Debt} {f : α → Prog β} (hf : ∀ a, Neat E d2 d' (f a)) : ∀ {d : Debt} {p : Prog α}, Neat E d' d p → Neat E d2 d (p >>= f)
  | d, .ret a, h => by rw [show d = d' from h]; exact hf a
  | _, .crash, _ => trivial
  | d, .op o k, h => opNeat_mono (fun d x hx => neat_bind hf (p := k x) hx) (show OpNeat E d o _ from h)

theorem neat_more {α : Type} {j : Nat} : ∀ {d d' : Debt} {p : Prog α}, Neat E d' d p → Neat E ⟨d'.owed + j, d'.copy⟩ ⟨d.owed + j, d.copy⟩ p
  | d, d', .ret a, h => by rw [show d = d' from h]; rfl
  | _, _, .crash, _ => trivial
  | d, d', .op o k, h => by
    have h : OpNeat E d o _ := h
    show OpNeat E _ o _
    have ih : ∀ {d : Debt} {x : o.Res}, Neat E d' d (k x) → Neat E ⟨d'.owed + j, d'.copy⟩ ⟨d.owed + j, d.copy⟩ (k x) := fun h => neat_more h
    cases o with
    | loadCache => exact ⟨h.1, fun m => ih (h.2 m)⟩
    | storeCache m => exact ⟨h.1, ih h.2⟩
    | loadOrStore key => exact ⟨h.1, h.2.1, fun r => ih (h.2.2.1 r), fun c => by have := ih (h.2.2.2 c); rw [Nat.add_right_comm] at this; exact this⟩
    | newClosure c => obtain ⟨h0, n, h1, h2⟩ := h; exact ⟨h0, n + j, by show d.owed + j = _; omega, fun f => ih (h2 f)⟩
    | _ => exact ⟨h.1, fun x => ih (h.2 x)⟩

/-- Nothing is owed but what was. -/
def Even {α : Type} (E : Env) (p : Prog α) : Prop := ∀ n, Neat E ⟨n, none⟩ ⟨n, none⟩ p

theorem even_call {o : Op} (ho : match o with | .loadCache | .storeCache _ | .loadOrStore _ | .newClosure _ => False | _ => True) : Even E o.call := by
  intro n
  show OpNeat E _ o _
  cases o <;> first | exact ho.elim | exact ⟨rfl, fun x => rfl⟩

theorem even_bind {α β : Type} {p : Prog α} {f : α → Prog β} (hp : Even E p) (hf : ∀ a, Even E (f a)) : Even E (p >>= f) :=
  fun n => neat_bind (fun a => hf a n) (hp n)

theorem even_ret {α : Type} (a : α) : Even E (.ret a) := fun _ => rfl

theorem even_crash {α : Type} : Even E (.crash : Prog α) := fun _ => trivial

theorem even_fields (W : World) (t : TId) : Even E (cachedFields W t) := by
  refine even_bind (even_call trivial) fun x => ?_
  split
  · exact even_ret _
  · split
    · exact even_crash
    · exact even_call trivial

theorem even_empty (W : World) (t : TId) : Even E (cachedEmptyFuncOf W t) := by
  refine even_bind (even_call trivial) fun x => ?_
  split
  · exact even_ret _
  · exact even_call trivial

theorem even_newField {W : World} {gen : TId → Bool → Bool → Prog CInstr} (hg : ∀ t ca q, Even E (gen t ca q)) (t : TId) (ca : Bool) (f : Fld) :
    Even E (newFieldInstrP W gen t ca f) := by
  unfold newFieldInstrP
  split
  · exact even_crash
  · refine even_bind (hg _ _ _) fun i => ?_
    split
    · exact even_bind (even_empty _ _) fun e => even_ret _
    · exact even_ret _

theorem even_newFields {W : World} {gen : TId → Bool → Bool → Prog CInstr} (hg : ∀ t ca q, Even E (gen t ca q)) (t : TId) (ca : Bool) :
    ∀ fs, Even E (newFieldInstrsP W gen t ca fs)
  | [] => even_ret _
  | f :: fs => even_bind (even_newField hg t ca f) fun _ => even_bind (even_newFields hg t ca fs) fun _ => even_ret _

theorem even_structFields {W : World} {gen : TId → Bool → Bool → Prog CInstr} (hg : ∀ t ca q, Even E (gen t ca q)) (t : TId) (ca : Bool) :
    Even E (newStructFieldsP W gen t ca) := by
  unfold newStructFieldsP
  split
  · exact even_ret _
  · exact even_bind (even_fields _ _) fun fs => even_bind (even_newFields hg t ca fs) fun _ => even_ret _

theorem even_struct {W : World} {gen : TId → Bool → Bool → Prog CInstr} (hg : ∀ t ca q, Even E (gen t ca q)) {t : TId} (ht : IsStruct E t) (ca : Bool) :
    Even E (newStructInstrP W gen t ca) := by
  refine even_bind (even_call trivial) fun x => ?_
  split
  · exact even_ret _
  · intro n
    refine ⟨rfl, ht, fun r => ?_, fun c => ?_⟩
    · cases r <;> rfl
    · show Neat E _ _ (newStructFieldsP W gen t ca >>= _)
      refine neat_bind (fun l => ?_) (even_structFields hg t ca (n + 1))
      refine ⟨rfl, n, rfl, fun f => ?_⟩
      exact even_bind (even_call trivial) (fun _ => even_bind (even_call trivial) fun _ => even_bind (even_call trivial) fun _ => even_ret _) n

theorem even_instructionK {W : World} (hE : W.E = E) {mk : TId → Bool → Prog CInstr} (hm : ∀ t ca, IsStruct E t → Even E (mk t ca)) :
    ∀ k t ca q, Even E (newInstructionK W mk k t ca q)
  | 0, _, _, _ => even_crash
  | k + 1, t, ca, q => by
    have ih := even_instructionK hE hm k
    unfold newInstructionK
    split
    · exact even_ret _
    split
    · exact even_ret _
    split
    · exact even_ret _
    split
    · exact even_ret _
    · next fs hk => exact hm _ _ ⟨fs, by rw [← hE]; exact hk⟩
    · split
      · exact even_ret _
      · refine even_bind ?_ fun ki => even_bind (ih _ _ _) fun vi => even_ret _
        unfold keyInstrP
        split
        · exact even_ret _
        · exact ih _ _ _
    · split
      · exact even_ret _
      · exact even_bind (ih _ _ _) fun i => even_ret _
    · exact even_bind (ih _ _ _) fun i => even_ret _
    · exact even_bind (ih _ _ _) fun i => even_ret _
    · exact even_ret _

theorem even_instruction {W : World} (hE : W.E = E) : ∀ g t ca q, Even E (newInstructionP W g t ca q)
  | 0 => even_instructionK hE (fun _ _ _ => even_crash) _
  | g + 1 => even_instructionK hE (fun _ ca ht => even_struct (even_instruction hE g) ht ca) _

theorem even_judge {W : World} (hE : W.E = E) (g : Nat) : Judge W g (Even E) where
  ret a := even_ret a
  crash := even_crash
  op ho hk := by
    rename_i o k
    intro n
    show OpNeat E _ o _
    cases o <;> first | (exact (Bool.false_ne_true ho).elim) | exact ⟨rfl, fun x => hk x n⟩
  bind hp hf := even_bind hp hf
  cached t := by
    refine even_bind (even_call trivial) fun x => ?_
    split
    · exact even_ret _
    · refine even_bind (even_instruction hE _ _ _ _) fun i n => ?_
      exact ⟨rfl, fun m => ⟨⟨m, _, rfl, rfl⟩, rfl⟩⟩

end Jettison.Proofs
