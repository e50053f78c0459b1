import Verif.Proofs.Kinds
import Verif.Proofs.Entry
import Verif.Proofs.Closed
import Verif.Props.Structs
import Verif.Props.Base64
import Verif.Props.Integer

/-!
# Pointers, interfaces, containers and unsupported kinds (C25, C42, C43)

Each theorem is about a value standing anywhere in a data structure (`Stands`): at the
top, in an interface, behind pointers, in a container or a field.
-/

namespace Jettison.Props
open Jettison Jettison.Spec Jettison.Model Jettison.Proofs

variable {W : World} {H : Heap} {M : MethV} {o : EncOpts} {t : TId} {ca q : Bool} {i : Instr} {p : Loc} {v : Val}

/-- A pointer is encoded as what it points to, a nil pointer as `null`. -/
theorem C43_pointer (R : Ready W H M) (S : Stands W H t ca q i p v) (hb : ByKind W.E t ca) {e : TId} (hk : (W.E t).kind = .ptr e) :
    (v = .nil ∧ ∀ n path dst, run W H o (n + 1) path i p dst = .ok (dst ++ b! "null")) ∨
    ∃ x j a, v = .ptr x ∧ Stands W H e true q j (.heap a) x ∧
      ∀ n path dst, run W H o (n + 1) path i p dst = run W H o n path j (.heap a) dst := by
  obtain ⟨k, hm⟩ := S.made
  obtain ⟨k', j, hj, rfl⟩ := byKind_ptr hb hk hm
  rcases repr_ptr R.types hk S.holds with ⟨rfl, hat⟩ | ⟨a, x, rfl, hat, ha, hx⟩
  · exact .inl ⟨rfl, fun n path dst => by simp [run, exec, readWord, hat, withRead]⟩
  · exact .inr ⟨x, j, a, rfl, ⟨⟨k', hj⟩, hx, fun _ => .inr ⟨a, ha, rfl⟩⟩,
      fun n path dst => by simp [run, exec, readWord, hat, withRead, ha]⟩

/-- An interface is encoded as the value it holds, a nil interface as `null`. -/
theorem C43_interface (R : Ready W H M) (S : Stands W H t ca q i p v) (hb : ByKind W.E t ca) {k : Nat} (hk : (W.E t).kind = .iface k) :
    (v = .nil ∧ ∀ n path dst, run W H o (n + 1) path i p dst = .ok (dst ++ b! "null")) ∨
    ∃ d x, v = .iface d x ∧ ∀ n,
      (∀ path dst, run W H o (n + 1) path i p dst = .nofuel) ∨
      ∃ j p' m, Stands W H d (isPtrK (W.E d).kind) false j p' x ∧ m ≤ n ∧
        ∀ path dst, run W H o (n + 1) path i p dst = run W H o m path j p' dst := by
  obtain ⟨k', hm⟩ := S.made
  have hi := byKind_iface hb hk hm
  subst hi
  obtain ⟨x, hat, -, hx⟩ := repr_eface R.types hk hb.meths S.holds
  have key : ∀ d w x, ReprE W.E H.mem (some (d, w)) (.iface d x) → readEface H.mem p = some (some (d, w)) →
      ∀ n, (∀ path dst, run W H o (n + 1) path .iface p dst = .nofuel) ∨
        ∃ j p' m, Stands W H d (isPtrK (W.E d).kind) false j p' x ∧ m ≤ n ∧
          ∀ path dst, run W H o (n + 1) path .iface p dst = run W H o m path j p' dst := by
    intro d w x hx hat n
    have hrun : ∀ path dst, run W H o (n + 1) path .iface p dst = appendJSON W (run W H o n) path (some (d, w)) dst := by
      intro path dst; simp [run, exec, hat, withRead]
    rcases entry (o := o) R hx n with ⟨-, h⟩ | ⟨j, p', m, h1, h2, h3⟩
    · exact .inl fun path dst => by rw [hrun, h]
    · exact .inr ⟨j, p', m, h1, h2, fun path dst => by rw [hrun, h3]⟩
  cases hx with
  | nil => exact .inl ⟨rfl, fun n path dst => by simp [run, exec, hat, withRead]⟩
  | @direct d w y hd hr => exact .inr ⟨d, y, rfl, key d w y (.direct hd hr) hat⟩
  | @indirect d w y hd hr => exact .inr ⟨d, y, rfl, key d w y (.indirect hd hr) hat⟩

theorem mapKeyOk_iff (E : Env) (kt : TId) : mapKeyOk E kt = true ↔ KeyType E kt := by
  simp only [mapKeyOk, KeyType, Bool.or_eq_true, or_assoc]
  cases hk : (E kt).kind <;> simp [isStringK, isInteger]

/-- A kind that is not supported: encoding it fails, naming the type, and appends
nothing. -/
theorem C42_unsupported (S : Stands W H t ca q i p v) (hb : ByKind W.E t ca)
    (hk : (W.E t).kind = .other ∨ ∃ kt et, (W.E t).kind = .map kt et ∧ ¬ KeyType W.E kt) (n : Nat) (path : Path) (dst : Bytes) :
    run W H o (n + 1) path i p dst = .fail (.unsupportedType t) dst := by
  obtain ⟨k, hm⟩ := S.made
  have hi : i = .unsupported t := by
    rcases hk with hk | ⟨kt, et, hk, hkey⟩
    · exact byKind_other hb hk hm
    · refine byKind_badMap hb hk ?_ hm
      cases h : mapKeyOk W.E kt with
      | false => rfl
      | true => exact absurd ((mapKeyOk_iff _ _).mp h) hkey
  subst hi; rfl

/-- C42: wherever a value of an unsupported type `t` is reached, at any depth, the whole
call fails naming `t`: either a call fails so (or another element before did and decides
the outcome alike with or without), or it never depended on such values, as replacing
whatever encoding them gives (`f`) shows. -/
theorem C42_stops (t : TId) (f : Path → Bytes → Res) (n : Nat) (path : Path) (i : Instr) (p : Loc) (dst : Bytes) :
    run W H o n path i p dst = .nofuel ∨ (∃ b, run W H o n path i p dst = .fail (.unsupportedType t) b) ∨
      run W H o n path i p dst = runWith W H o (fun path i _ dst => if i = .unsupported t then some (f path dst) else none) n path i p dst := by
  refine C28_error_stops o (.unsupportedType t) _ (fun path i p dst r h n => ?_) n path i p dst
  split at h
  · next hi =>
    subst hi
    cases n with
    | zero => exact .inl rfl
    | succ n => exact .inr ⟨dst, rfl⟩
  · simp at h

/-- Nil and empty maps. -/
theorem C25_map (R : Ready W H M) (S : Stands W H t ca q i p v) (hb : ByKind W.E t ca) {kt et : TId} (hk : (W.E t).kind = .map kt et)
    (hkey : KeyType W.E kt) (n : Nat) (path : Path) (dst : Bytes) :
    (v = .nil → run W H o (n + 1) path i p dst = .ok (dst ++ if bmHas o.flags .nilMapEmpty then b! "{}" else b! "null")) ∧
    (v = .map [] → run W H o (n + 1) path i p dst = .ok (dst ++ b! "{}")) := by
  obtain ⟨k, hm⟩ := S.made
  obtain ⟨k', ki, vi, hki, hvi, rfl⟩ := byKind_map hb hk ((mapKeyOk_iff _ _).mpr hkey) hm
  rcases repr_map R.types hk S.holds with ⟨rfl, hat⟩ | ⟨a, es, kvs, rfl, hat, ha, hm, hl, -, -⟩
  · refine ⟨fun _ => ?_, by simp⟩
    simp only [run, exec, encodeMap, readWord, hat, withRead, if_true]
    split <;> rfl
  · refine ⟨by simp, fun h => ?_⟩
    simp only [Val.map.injEq] at h
    subst h
    simp [run, exec, encodeMap, readWord, hat, withRead, ha, readMap, hm, hl]

theorem isByteElem_iff (E : Env) (e : TId) : isByteElem E e = true ↔ ByteElem E e := by
  simp [isByteElem, ByteElem, and_assoc]

theorem stands_runV (R : Ready W H M) (S : Stands W H t ca q i p v) (n : Nat) (path : Path) (dst : Bytes) :
    run W H o n path i p dst = runV W M o n path i v dst := by
  obtain ⟨k, hm⟩ := S.made
  refine (run_agrees R n).1 (newInstruction_typed _ hm) S.holds (fun hc => ?_) path dst
  rcases S.addr hc with h | h
  · exact .inl h
  · exact .inr h

/-- Nil and empty slices whose elements are not bytes. -/
theorem C25_slice_partial (R : Ready W H M) (S : Stands W H t ca q i p v) (hb : ByKind W.E t ca) {e : TId} (hk : (W.E t).kind = .slice e)
    (he : ¬ ByteElem W.E e) (n : Nat) (path : Path) (dst : Bytes) :
    (v = .nil → run W H o (n + 1) path i p dst = .ok (dst ++ if bmHas o.flags .nilSliceEmpty then b! "[]" else b! "null")) ∧
    (v = .slice [] → run W H o (n + 1) path i p dst = .ok (dst ++ b! "[]")) := by
  obtain ⟨k, hm⟩ := S.made
  obtain ⟨k', j, hj, rfl⟩ := byKind_slice hb hk (by rw [← isByteElem_iff] at he; simpa using he) hm
  rw [stands_runV R S]
  constructor
  · rintro rfl
    simp only [runV, execV]
    split <;> rfl
  · rintro rfl; rfl

theorem bytesOf_asBytes : ∀ b : Bytes, bytesOf (b.map fun c => .int (.uint8 c)) = some b
  | [] => rfl
  | c :: b => by simp [bytesOf, bytesOf_asBytes b]

/-- C37: with RawByteSlice a byte slice, and with ByteArrayAsString a byte array, is
encoded exactly as a string of the same bytes is, anywhere. -/
theorem C37_as_string (R : Ready W H M) (S : Stands W H t ca q i p v) (hb : ByKind W.E t ca) {e : TId} (he : ByteElem W.E e) {vs : List Val}
    {b : Bytes} (hvs : AsBytes vs b)
    (h : ((W.E t).kind = .slice e ∧ v = .slice vs ∧ bmHas o.flags .rawByteSlice = true) ∨
      ((∃ k, (W.E t).kind = .array k e) ∧ v = .array vs ∧ bmHas o.flags .byteArrayAsString = true))
    {H' : Heap} {t' : TId} {ca' : Bool} {i' : Instr} {p' : Loc} (R' : Ready W H' M) (S' : Stands W H' t' ca' false i' p' (.str b)) (hb' : ByKind W.E t' ca')
    (hk' : (W.E t').kind = .string) (n : Nat) (path path' : Path) (dst : Bytes) :
    run W H o (n + 1) path i p dst = run W H' o (n + 1) path' i' p' dst := by
  rw [stands_runV R S, stands_runV R' S']
  obtain ⟨k, hm⟩ := S.made
  obtain ⟨k', hm'⟩ := S'.made
  have hi' := byKind_basic hb' (by rw [hk']; rfl) hm'
  rw [hk'] at hi'
  simp only [newBasicTypeInstr, Bool.false_eq_true, if_false, Option.some.injEq] at hi'
  subst hi'
  have he' := (isByteElem_iff _ _).mpr he
  subst hvs
  rcases h with ⟨hk, rfl, hf⟩ | ⟨⟨m, hk⟩, rfl, hf⟩
  · have := byKind_byteSlice hb hk he' hm
    subst this
    simp [runV, execV, byteSliceOf, bytesOf_asBytes, withRead, encodeByteSlice, hf, encodeString]
  · obtain ⟨_, j, -, rfl⟩ := byKind_array hb hk hm
    simp [runV, execV, encodeArrayV, he', hf, bytesOf_asBytes, withRead, encodeString]

/-- C37: without RawByteSlice a byte slice is encoded as the base64 text of its bytes,
between quotes, and a nil one as `null`, whatever the options. -/
theorem C37_base64 (R : Ready W H M) (S : Stands W H t ca q i p v) (hb : ByKind W.E t ca) {e : TId} (hk : (W.E t).kind = .slice e)
    (he : ByteElem W.E e) (n : Nat) (path : Path) (dst : Bytes) :
    (v = .nil → run W H o (n + 1) path i p dst = .ok (dst ++ b! "null")) ∧
    (∀ vs b, v = .slice vs → AsBytes vs b → bmHas o.flags .rawByteSlice = false →
      ∃ txt, run W H o (n + 1) path i p dst = .ok (dst ++ c! '"' :: (txt ++ [c! '"'])) ∧ IsBase64 b txt) := by
  rw [stands_runV R S]
  obtain ⟨k, hm⟩ := S.made
  have := byKind_byteSlice hb hk ((isByteElem_iff _ _).mpr he) hm
  subst this
  constructor
  · rintro rfl; rfl
  · rintro vs b rfl rfl hf
    obtain ⟨txt, h1, h2, -⟩ := C16_base64 b dst o.esc
    exact ⟨txt, by simp only [runV, execV, byteSliceOf, bytesOf_asBytes, hf, Option.map_some, withRead, h1], h2⟩

theorem byte_ok {ca : Bool} {j : Instr} {k : Nat} {e : TId} (he : ByteElem W.E e) (hb : ByKind W.E e ca)
    (hj : newInstruction W.E k e ca false = some j) : j = .int .uint8 := by
  have := byKind_basic hb (by rw [he.1]; rfl) hj
  rw [he.1] at this
  simpa [newBasicTypeInstr] using this.symm

/-- C37: without ByteArrayAsString a byte array is the array of the decimal numbers of
its bytes. -/
theorem C37_array (R : Ready W H M) (hl : FormatContract W.fmt) (hM : HonestAppend M) (S : Stands W H t ca q i p v) (hb : ByKind W.E t ca) {e : TId}
    {k : Nat} (hk : (W.E t).kind = .array k e) (he : ByteElem W.E e) (hbe : ByKind W.E e ca) {vs : List Val} {b : Bytes} (hv : v = .array vs)
    (hvs : AsBytes vs b) (hf : bmHas o.flags .byteArrayAsString = false) (n : Nat) (path : Path) (dst : Bytes) :
    ∃ ts : List Bytes, run W H o (n + 2) path i p dst = .ok (dst ++ (b! "[" ++ commas ts ++ b! "]")) ∧ ts.length = b.length ∧
      ∀ (j : Nat) c txt, b[j]? = some c → ts[j]? = some txt → IntLiteral txt (c.toNat : Int) := by
  rw [stands_runV R S]
  subst hv; subst hvs
  obtain ⟨k', hm⟩ := S.made
  obtain ⟨_, j, hj, rfl⟩ := byKind_array hb hk hm
  have := byte_ok he hbe hj
  subst this
  let lit : UInt8 → Bytes := fun c => encodeIntVal (.uint8 c) []
  have hlit : ∀ c, IntLiteral (lit c) (c.toNat : Int) := by
    intro c
    obtain ⟨out, h1, h2⟩ := C08_integer_literal (.uint8 c) []
    simp only [List.nil_append] at h1
    simp only [lit, h1]
    exact h2
  refine ⟨b.map lit, ?_, by simp, ?_⟩
  · have key := (arrayV_ok (rec := runV W M o (n + 1)) (pre_runV (contract_long hl) hM (n + 1)) path (.int .uint8)
      (b.map fun c => .int (.uint8 c)) 0 dst (dst ++ (b! "[" ++ commas (b.map lit) ++ b! "]"))).mpr
      ⟨b.map lit, by simp, fun j v t hv ht => ?_, by simp⟩
    · rw [runV]
      simp only [execV, encodeArrayV, hf, Bool.and_false, Bool.false_eq_true, if_false]
      exact key
    · simp only [List.getElem?_map, Option.map_eq_some_iff] at hv ht
      obtain ⟨c, hc, rfl⟩ := hv
      obtain ⟨c', hc', rfl⟩ := ht
      rw [hc] at hc'
      cases hc'
      rfl
  · intro j c txt hc ht
    simp only [List.getElem?_map, hc, Option.map_some, Option.some.injEq] at ht
    rw [← ht]; exact hlit c

end Jettison.Props

namespace Jettison.Props
open Jettison Jettison.Spec Jettison.Model Jettison.Proofs

/-! ## Examples -/

/-- A pointer to an interface holding 6, nil and non-nil maps and slices, bytes, a channel. -/
def levelCells : List (Addr × Cell) :=
  [(100, .eface (some (0, 108))), (108, .int (.int 6)), (200, .word 0), (204, .word 208), (208, .hmap []), (220, .slice 0 0), (240, .slice 300 0),
   (300, .int (.uint8 7)), (301, .int (.uint8 250)), (302, .int (.uint8 0)), (320, .slice 300 3), (400, .str [7, 250, 0]), (500, .word 12),
   (520, .word 0)]

theorem shop_honestM : HonestAppend (univM shopMeth) := by
  rintro path m ctx t w (rfl | rfl)
  · exact .inr <| .inr ⟨b! "7", fun dst => rfl⟩
  · exact .inr <| .inr ⟨b! "8", fun dst => rfl⟩

example : ∃ i p j a, Stands shopW (shopH levelCells) 21 true false i p (.ptr (.iface 0 (.int (.int 6)))) ∧ ByKind shopW.E 21 true ∧
    Stands shopW (shopH levelCells) 10 true false j (.heap a) (.iface 0 (.int (.int 6))) ∧ ByKind shopW.E 10 true ∧
    (∀ path dst, run shopW (shopH levelCells) defaultEncOpts 5 path i p dst = run shopW (shopH levelCells) defaultEncOpts 4 path j (.heap a) dst) ∧
    run shopW (shopH levelCells) defaultEncOpts 4 [] j (.heap a) [] = .ok (b! "6") := by
  obtain ⟨p, S⟩ : ∃ p, Stands shopW (shopH levelCells) 21 true false (.ptr .iface) p (.ptr (.iface 0 (.int (.int 6)))) :=
    shop_stands (w := 100) 6 (by decide +kernel) (by decide +kernel)
  have hb : ByKind shopW.E 21 true := byKind_of (by decide +kernel)
  rcases C43_pointer (o := defaultEncOpts) (shop_ready _) S hb (e := 10) rfl with ⟨h, _⟩ | ⟨x, j, a, hx, S', hr⟩
  · cases h
  · cases hx
    have hb' : ByKind shopW.E 10 true := byKind_of (by decide +kernel)
    refine ⟨_, _, j, a, S, hb, S', hb', fun path dst => hr 4 path dst, ?_⟩
    rw [stands_runV (shop_ready _) S']
    obtain ⟨k, hm⟩ := S'.made
    have := byKind_iface hb' (n := 0) rfl hm
    subst this
    decide +kernel

example : ∃ i p, Stands shopW (shopH levelCells) 34 false false i p .opaque ∧ ByKind shopW.E 34 false ∧ (shopW.E 34).kind = .other :=
  ⟨.unsupported 34, .heap 500, ⟨⟨10, by decide +kernel⟩, .opaque rfl (bareB_sound (by decide +kernel)), fun h => .inl h⟩, byKind_of (by decide +kernel), rfl⟩

example : ∃ i p, Stands shopW (shopH levelCells) 38 false false i p .nil ∧ ByKind shopW.E 38 false ∧ ¬ KeyType shopW.E 34 :=
  ⟨.unsupported 38, _, ⟨⟨10, by decide +kernel⟩, (shop_stands (cells := levelCells) (w := 0) (t := 38) (v := .nil) 3 (by decide +kernel) (i := .unsupported 38) (by decide +kernel)).choose_spec.holds,
    fun h => .inl h⟩, byKind_of (by decide +kernel), by rw [← mapKeyOk_iff]; decide +kernel⟩

example : (∃ i p, Stands shopW (shopH levelCells) 58 false false i p .nil) ∧ (∃ i p, Stands shopW (shopH levelCells) 58 false false i p (.map [])) ∧
    ByKind shopW.E 58 false ∧ KeyType shopW.E 2 :=
  ⟨⟨.map 58 .string (.int .int), shop_stands (w := 0) 3 (by decide +kernel) (by decide +kernel)⟩,
    ⟨.map 58 .string (.int .int), shop_stands (w := 208) 3 (by decide +kernel) (by decide +kernel)⟩, byKind_of (by decide +kernel), .inl rfl⟩

example : (∃ i p, Stands shopW (shopH levelCells) 56 false false i p .nil) ∧ (∃ i p, Stands shopW (shopH levelCells) 56 false false i p (.slice [])) ∧
    ByKind shopW.E 56 false ∧ ¬ ByteElem shopW.E 0 :=
  ⟨⟨.slice (.int .int) 8, shop_stands (w := 220) 3 (by decide +kernel) (by decide +kernel)⟩,
    ⟨.slice (.int .int) 8, shop_stands (w := 240) 3 (by decide +kernel) (by decide +kernel)⟩, byKind_of (by decide +kernel),
    by rw [← isByteElem_iff]; decide +kernel⟩

/-- The bytes 7, 250, 0 as a slice, an array and a string. -/
example : ∃ is ps ia pa it pt, Stands shopW (shopH levelCells) 20 false false is ps (.slice [.int (.uint8 7), .int (.uint8 250), .int (.uint8 0)]) ∧
    Stands shopW (shopH levelCells) 18 false false ia pa (.array [.int (.uint8 7), .int (.uint8 250), .int (.uint8 0)]) ∧
    Stands shopW (shopH levelCells) 2 false false it pt (.str [7, 250, 0]) ∧ ByKind shopW.E 20 false ∧ ByKind shopW.E 18 false ∧
    ByKind shopW.E 2 false ∧ ByKind shopW.E 16 false ∧ ByteElem shopW.E 16 ∧ AsBytes [.int (.uint8 7), .int (.uint8 250), .int (.uint8 0)] [7, 250, 0] ∧
    Ready shopW (shopH levelCells) (univM shopMeth) ∧ FormatContract shopW.fmt ∧ HonestAppend (univM shopMeth) := by
  obtain ⟨ps, h1⟩ : ∃ p, Stands shopW (shopH levelCells) 20 false false .byteSlice p _ :=
    shop_stands (w := 320) (v := .slice [.int (.uint8 7), .int (.uint8 250), .int (.uint8 0)]) 6 (by decide +kernel) (by decide +kernel)
  obtain ⟨pa, h2⟩ : ∃ p, Stands shopW (shopH levelCells) 18 false false (.array (.int .uint8) 1 3 true) p _ :=
    shop_stands (w := 300) (v := .array [.int (.uint8 7), .int (.uint8 250), .int (.uint8 0)]) 6 (by decide +kernel) (by decide +kernel)
  obtain ⟨pt, h3⟩ : ∃ p, Stands shopW (shopH levelCells) 2 false false .string p _ :=
    shop_stands (w := 400) (v := .str [7, 250, 0]) 6 (by decide +kernel) (by decide +kernel)
  exact ⟨_, ps, _, pa, _, pt, h1, h2, h3, byKind_of (by decide +kernel), byKind_of (by decide +kernel), byKind_of (by decide +kernel),
    byKind_of (by decide +kernel), (isByteElem_iff _ _).mp (by decide +kernel), rfl, shop_ready _, toyFmt_contract, shop_honestM⟩

end Jettison.Props
