import Verif.Props.WritesExact

/-!
# C23: the text is determined by the value

The text of a value depends on nothing but the value, its type, the options, what the methods
return, and the texts of the standard library: not on the orders in which maps are visited, nor
on how they are sorted, nor on the memory the value is in, as long as the entries of a map that
are written with the same key are written with the same value.
-/

namespace Jettison.Props
open Jettison Jettison.Model Jettison.Spec Jettison.Proofs

/-- Two runs of one program: the types, the texts of the standard library and the classes of
characters are the same; the orders in which maps are visited and the sorting algorithm need not be. -/
structure SameProgram (W W' : World) : Prop where
  E : W'.E = W.E
  ptrTo : W'.ptrTo = W.ptrTo
  U : W'.U = W.U
  fmt : W'.fmt = W.fmt
  df : W'.df = W.df
  appendFormat : W'.appendFormat = W.appendFormat

variable {W W' : World} {M : MethV} {o : EncOpts}

theorem timeText_same (hs : SameProgram W W') {x : GoTime} {b : Bytes} (h : TimeText W o x b) : TimeText W' o x b := by
  cases h with
  | unix h1 h2 => exact .unix h1 h2
  | rfc3339 h1 h2 h3 => exact .rfc3339 h1 h2 h3
  | nano h1 h2 h3 => exact .nano h1 h2 h3
  | layout h1 h2 => rw [← hs.appendFormat]; exact .layout h1 h2

theorem durationText_same (hs : SameProgram W W') {d : Int64} {b : Bytes} (h : DurationText W o d b) : DurationText W' o d b := by
  cases h with
  | str h1 h2 h3 => exact .str h1 h2 h3
  | neg h1 h2 h3 => exact .neg h1 h2 h3
  | ns h1 h2 => exact .ns h1 h2
  | us h1 h2 => exact .us h1 h2
  | ms h1 h2 => exact .ms h1 h2
  | sec h1 h2 => rw [← hs.fmt, ← hs.df] at h2; exact .sec h1 h2
  | min h1 h2 => rw [← hs.fmt, ← hs.df] at h2; exact .min h1 h2

set_option maxHeartbeats 1000000 in
mutual
theorem writes_same (hs : SameProgram W W') {t : TId} {ca q : Bool} {v : Val} {b : Bytes} : Writes W M o t ca q v b → Writes W' M o t ca q v b
  | .methNil h1 h2 h3 h4 => .methNil (hs.E ▸ h1) (hs.E ▸ h2) (hs.E ▸ h3) (hs.E ▸ h4)
  | .meth h1 h2 h3 h4 => .meth (hs.E ▸ h1) (hs.E ▸ h2) (hs.E ▸ hs.ptrTo ▸ h3) h4
  | .time h1 h2 h3 => .time (hs.E ▸ h1) h2 (timeText_same hs h3)
  | .duration h1 h2 => .duration (hs.E ▸ h1) (durationText_same hs h2)
  | .number0 h1 => .number0 (hs.E ▸ h1)
  | .number h1 h2 h3 => .number (hs.E ▸ h1) h2 h3
  | .rawNil h1 => .rawNil (hs.E ▸ h1)
  | .raw h1 h2 h3 => .raw (hs.E ▸ h1) h2 h3
  | .smap h1 h2 h3 h4 h5 h6 => .smap (hs.E ▸ h1) h2 (fun i kv m a b => skeyWrites_same hs (h3 i kv m a b))
      (fun i kv m d x a b c => by have := writes_same hs (h4 i kv m d x a b c); rw [← hs.E] at this; exact this) h5 h6
  | .yes h1 h2 => .yes (hs.E ▸ h1) (hs.E ▸ h2)
  | .no h1 h2 => .no (hs.E ▸ h1) (hs.E ▸ h2)
  | .int h1 h2 h3 => .int (hs.E ▸ h1) (by rw [hs.E]; exact h2) h3
  | .float h1 h2 h3 => .float (hs.E ▸ h1) (by rw [hs.E]; exact h2) (hs.fmt ▸ h3)
  | .str h1 h2 h3 => .str (hs.E ▸ h1) (by rw [hs.E]; exact h2) h3
  | .quoted h1 h2 h3 h4 => .quoted (hs.E ▸ h1) (by rw [hs.E]; exact h2) (by rw [hs.E]; exact h3) (writes_same hs h4)
  | .quotedStr h1 h2 h3 => .quotedStr (hs.E ▸ h1) (by rw [hs.E]; exact h2) h3
  | .ptrNil h1 h2 => .ptrNil (hs.E ▸ h1) (by rw [hs.E]; exact h2)
  | .ptr h1 h2 h3 => .ptr (hs.E ▸ h1) (by rw [hs.E]; exact h2) (writes_same hs h3)
  | .ifaceNil h1 h2 => .ifaceNil (hs.E ▸ h1) (by rw [hs.E]; exact h2)
  | .iface h1 h2 h3 => .iface (hs.E ▸ h1) (by rw [hs.E]; exact h2) (by have := writes_same hs h3; rw [← hs.E] at this; exact this)
  | .bytesNil h1 h2 h3 => .bytesNil (hs.E ▸ h1) (by rw [hs.E]; exact h2) (by rw [hs.E]; exact h3)
  | .bytes h1 h2 h3 h4 h5 h6 => .bytes (hs.E ▸ h1) (by rw [hs.E]; exact h2) (by rw [hs.E]; exact h3) h4 h5 h6
  | .rawBytes h1 h2 h3 h4 h5 h6 => .rawBytes (hs.E ▸ h1) (by rw [hs.E]; exact h2) (by rw [hs.E]; exact h3) h4 h5 h6
  | .sliceNil h1 h2 h3 h4 => .sliceNil (hs.E ▸ h1) (by rw [hs.E]; exact h2) (by rw [hs.E]; exact h3) h4
  | .sliceNil0 h1 h2 h3 h4 => .sliceNil0 (hs.E ▸ h1) (by rw [hs.E]; exact h2) (by rw [hs.E]; exact h3) h4
  | .slice h1 h2 h3 h4 h5 => .slice (hs.E ▸ h1) (by rw [hs.E]; exact h2) (by rw [hs.E]; exact h3) h4 (fun i v b x y => writes_same hs (h5 i v b x y))
  | .byteArray h1 h2 h3 h4 h5 h6 => .byteArray (hs.E ▸ h1) (by rw [hs.E]; exact h2) (by rw [hs.E]; exact h3) h4 h5 h6
  | .array h1 h2 h3 h4 h5 => .array (hs.E ▸ h1) (by rw [hs.E]; exact h2) (by rw [hs.E]; exact h3) h4 (fun i v b x y => writes_same hs (h5 i v b x y))
  | .mapNil h1 h2 h3 h4 => .mapNil (hs.E ▸ h1) (by rw [hs.E]; exact h2) (by rw [hs.E]; exact h3) h4
  | .mapNil0 h1 h2 h3 h4 => .mapNil0 (hs.E ▸ h1) (by rw [hs.E]; exact h2) (by rw [hs.E]; exact h3) h4
  | .map h1 h2 h3 h4 h5 h6 h7 => .map (hs.E ▸ h1) (by rw [hs.E]; exact h2) (by rw [hs.E]; exact h3) h4
      (fun i kv m a b => keyWrites_same hs (h5 i kv m a b)) (fun i kv m a b => writes_same hs (h6 i kv m a b)) h7
  | .struct h1 h2 h3 h4 h5 h6 h7 h8 h9 h10 h11 h12 => .struct (hs.E ▸ h1) (hs.E ▸ h2) (by rw [hs.E, hs.U]; exact h3) h4 h5 h6
      (by rw [hs.E]; exact h7) (fun m hm => writes_same hs (h8 m hm)) h9 (by rw [hs.E]; exact h10) h11 h12

theorem keyWrites_same (hs : SameProgram W W') {kt : TId} {x : Val} {b : Bytes} : KeyWrites W M o kt x b → KeyWrites W' M o kt x b
  | .str h1 h2 => .str (hs.E ▸ h1) h2
  | .nilText h1 h2 h3 => .nilText (hs.E ▸ h1) (hs.E ▸ h2) (hs.E ▸ h3)
  | .text h1 h2 h3 h4 => .text (hs.E ▸ h1) (hs.E ▸ h2) (hs.E ▸ h3) (writes_same hs h4)
  | .quoted h1 h2 h3 => .quoted (hs.E ▸ h1) (hs.E ▸ h2) (writes_same hs h3)

theorem skeyWrites_same (hs : SameProgram W W') {x : Val} {b : Bytes} : SyncKeyWrites W M o x b → SyncKeyWrites W' M o x b
  | .str h1 h2 => .str (hs.E ▸ h1) h2
  | .text h1 h2 h3 => .text (hs.E ▸ h1) (hs.E ▸ h2) (by have := writes_same hs h3; rw [← hs.E] at this; exact this)
  | .quoted h1 h2 h3 => .quoted (by rw [hs.E]; exact h1) (hs.E ▸ h2) (by have := writes_same hs h3; rw [← hs.E] at this; exact this)
end

theorem SameProgram.symm (hs : SameProgram W W') : SameProgram W' W :=
  ⟨hs.E.symm, hs.ptrTo.symm, hs.U.symm, hs.fmt.symm, hs.df.symm, hs.appendFormat.symm⟩

/-- C23: a call that ends returns the same text for the same value in any run of the program: whatever
the orders in which maps are visited, the sorting algorithm and the memory. Entries of a map that
are written with the same key must be written with the same value (`C23_coerced_keys_wrong`). -/
theorem C23_text_partial {H H' : Heap} (DW : WriteReady W H M) (D' : FaultReady W' H' M) (DW' : WriteReady W' H' M) (hs : SameProgram W W') (hP : PathFree M)
    {t : TId} {v : Val} {w w' : Addr} (hx : ReprE W.E H.mem (some (t, w)) (.iface t v)) (hx' : ReprE W.E H'.mem (some (t, w')) (.iface t v))
    (hf : TimesFine W t v) {opts : List (Option Opt)} (ho : prepare opts = .ok o) (hu : bmHas o.flags .unsortedMap = false) (hd : KeysTold W M o t v)
    {n n' : Nat} {b : Bytes} (h : marshalOpts W H n (some (t, w)) opts = .ret (some b) none)
    (hn : marshalOpts W' H' n' (some (t, w')) opts ≠ .nofuel) (dst : Bytes) :
    marshalOpts W' H' n' (some (t, w')) opts = .ret (some b) none ∧ appendOpts W' H' n' dst (some (t, w')) opts = .ret (some (dst ++ b)) none := by
  have hw := (C56_bytes DW hx hf ho).1 b h
  have hf' : TimesFine W' t v := by
    simp only [TimesFine, hs.E]; exact hf
  rw [← hs.E] at hx'
  obtain ⟨c, h1, h2⟩ := (C56_complete D' DW' hP hx' hf' ho (by rw [hs.E]; exact writes_same hs hw) n' dst hn).1
  have hw' := writes_same hs.symm ((C56_bytes DW' hx' hf' ho).1 c h1)
  rw [hs.E] at hw'
  have ht : HasType W.E t v := by
    cases repr_inIface hx with
    | val h => exact h
  have := C56_unique DW.ready.types hP hu ht hd hw hw'
  subst this
  exact ⟨h1, h2⟩

/-! ## Example -/

/-- `map[string]int{"\xff": 1, "\xfe": 1}`: both keys are written as the replacement character. -/
def twinCells : List (Addr × Cell) :=
  [(100, .hmap [(110, 120), (130, 140)]), (110, .str [0xff]), (120, .int (.int 1)), (130, .str [0xfe]), (140, .int (.int 1))]

/-- The same value elsewhere in memory. -/
def twinCells' : List (Addr × Cell) :=
  [(500, .hmap [(530, 540), (510, 540)]), (510, .str [0xfe]), (530, .str [0xff]), (540, .int (.int 1))]

def twinV : Val := .map [(.str [0xff], .int (.int 1)), (.str [0xfe], .int (.int 1))]

/-- Another order, and another sorting algorithm. -/
def backW : World := { shopW with order := forwards, sort := fun lt l => shopW.sort lt l.reverse }

theorem back_same : SameProgram shopW backW := ⟨rfl, rfl, rfl, rfl, rfl, rfl⟩

theorem back_sort : SortOk backW.sort :=
  ⟨fun lt l => ((shop_ready []).sort.perm lt l.reverse).trans l.reverse_perm, fun lt l h => (shop_ready []).sort.sorted lt l.reverse h⟩

theorem back_ready (cells : List (Addr × Cell)) : Ready backW (shopH cells) (univM shopMeth) :=
  have R := shop_ready cells
  ⟨R.types, R.apart, R.nest, R.tab, back_sort, R.meth⟩

theorem twin_within {t' : TId} {v' : Val} (h : Within shopW.E 58 twinV t' v') : (t', v') ∈
    [(58, twinV), (2, .str [0xff]), (2, .str [0xfe]), (0, .int (.int 1)), (0, .int (.int 1))] :=
  within_mem (n := 5) (by decide +kernel) h

theorem w_one {b b' : Bytes} (h : Writes shopW (univM shopMeth) defaultEncOpts 0 false false (.int (.int 1)) b)
    (h' : Writes shopW (univM shopMeth) defaultEncOpts 0 false false (.int (.int 1)) b') : b = b' :=
  intLiteral_unique (w_int (byKind_of (by decide +kernel)) (by decide +kernel : (shopW.E 0).kind = .int .int) h)
    (w_int (byKind_of (by decide +kernel)) (by decide +kernel : (shopW.E 0).kind = .int .int) h')

theorem twin_told : KeysTold shopW (univM shopMeth) defaultEncOpts 58 twinV := by
  constructor
  · intro t' k e kvs hw hk
    have := twin_within hw
    simp only [twinV, List.mem_cons, Prod.mk.injEq, reduceCtorEq, and_false, List.not_mem_nil, or_false, Val.map.injEq] at this
    obtain ⟨rfl, rfl⟩ := this
    have hk' : (shopW.E 58).kind = .map 2 0 := by decide +kernel
    rw [hk'] at hk
    cases hk
    refine List.pairwise_pair.mpr fun x y p q hx hy hp hq he => ?_
    have key : ∀ {s x}, KeyWrites shopW (univM shopMeth) defaultEncOpts 2 (.str s) x → ∃ r, x = b! "\"" ++ r ++ b! "\"" := by
      intro s x hx
      generalize hv : Val.str s = v at hx
      cases hx with
      | str _ hr => exact ⟨_, rfl⟩
      | nilText h | text h | quoted h => exact absurd (by decide +kernel) h
    obtain ⟨r, rfl⟩ := key hx
    obtain ⟨r', rfl⟩ := key hy
    rw [keyBody_quotes, keyBody_quotes] at he
    exact ⟨by rw [he], w_one hp hq⟩
  · intro t' kvs hw
    have := twin_within hw
    simp [twinV] at this

/-- The hypotheses of `C23_text_partial`, on keys with the same text. -/
example (dst : Bytes) : append backW (shopH twinCells') 9 dst (some (58, 500)) = .ret (some (dst ++ b! "{\"\\ufffd\":1,\"\\ufffd\":1}")) none :=
  (C23_text_partial (opts := []) (n := 9) (W' := backW) (shop_writes twinCells)
    ⟨back_ready twinCells', toyFmt_contract, shop_honestM, fun _ _ => List.Perm.refl _, shop_valid, shop_std⟩
    ⟨back_ready twinCells', toyFmt_contract, shop_honest _, shop_honestM, fun _ _ => List.Perm.refl _, shop_valid⟩ back_same shop_pathFree
    (w := 100) (shop_holds 6 (by decide +kernel)) (shop_holds 6 (by decide +kernel)) (timesB_fine (n := 6) (by decide +kernel)) rfl rfl twin_told
    (by decide +kernel) (by decide +kernel) dst).2

end Jettison.Props
