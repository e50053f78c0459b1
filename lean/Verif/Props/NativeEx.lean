import Verif.Props.Native
import Verif.Props.SpoilsEx

/-!
# C77: examples and counterexamples
-/

namespace Jettison.Props
open Jettison Jettison.Spec Jettison.Model Jettison.Proofs

def natDefs : List TypeDef :=
  [ -- 0: time.Time
    { kind := .struct [], name := b! "Time", special := some .time, meths := { json := true, text := true },
      pmeths := { json := true, text := true }, size := 24 },
    -- 2: uint8
    { kind := .int .uint8, name := b! "uint8", size := 1 },
    -- 4: json.RawMessage
    { kind := .slice 2, name := b! "RawMessage", special := some .rawMessage, meths := { json := true }, pmeths := { json := true }, size := 24 },
    -- 6: time.Duration
    { kind := .int .int64, name := b! "Duration", special := some .duration, size := 8 },
    -- 8: json.Number
    { kind := .string, name := b! "Number", special := some .number, size := 16 } ]

/-- What `MarshalJSON` returns for the time and the message below. -/
def natMethods : MethKind → Option Ctx → TId → Option Bytes → Bytes → MethRes
  | .json, _, 1, _, _ => .ok (b! "\"2000-02-29T01:00:00.0000005+01:00\"")
  | .json, _, _, _, _ => .ok (b! "[1")
  | _, _, _, _, dst => .ok (dst ++ b! "t")

theorem nat_ok : univOk natDefs = true := by decide +kernel

def natTime : GoTime := { unix := 951782400, nsec := 500, offset := 3600 }

/-- The time, the message `[1`, a duration, a number that is none. -/
def natCells : List (Addr × Cell) :=
  [(100, .time natTime), (200, .slice 300 2), (300, .int (.uint8 91)), (301, .int (.uint8 49)), (400, .int (.int64 1500)), (500, .str (b! "0x"))]

def natH : Heap := univHeap natDefs natMethods natCells

def natW : World := univW natDefs

def natM : MethV := univM natMethods

theorem nat_ready : Ready natW natH natM := univ_ready nat_ok natMethods natCells

theorem nat_honestM : HonestAppend natM := by
  rintro path m ctx t w (rfl | rfl)
  · exact .inr <| .inr ⟨b! "t", fun dst => rfl⟩
  · exact .inr <| .inr ⟨b! "t", fun dst => rfl⟩

theorem nat_writes : WriteReady natW natH natM :=
  ⟨nat_ready, toyFmt_contract, by
    rintro path m ctx t w (rfl | rfl)
    · exact .inr <| .inr ⟨b! "t", fun dst => rfl⟩
    · exact .inr <| .inr ⟨b! "t", fun dst => rfl⟩, nat_honestM, fun _ _ => List.reverse_perm _, validText_iff⟩

theorem nat_std : StdText natW.E := by
  intro t s hs ht
  have h : ∀ t, (natW.E t).special = none ∨ (natW.E t).meths.text = false ∨ (natW.E t).special = some .time := by
    intro t
    exact univ_all (defs := natDefs) (P := fun _ d => d.special = none ∨ d.meths.text = false ∨ d.special = some .time)
      (by simp) (by simp) (by decide +kernel) t
  rcases h t with h | h | h
  · rw [h] at hs; cases hs
  · rw [h] at ht; cases ht
  · rw [h] at hs; cases hs; rfl

theorem nat_faults : FaultReady natW natH natM :=
  ⟨nat_ready, toyFmt_contract, nat_honestM, fun _ _ => List.reverse_perm _, validText_iff, nat_std⟩

theorem nat_pathFree : PathFree natM := fun _ _ _ _ _ _ _ => rfl

theorem nat_holds {x : Eface} {v : Val} (n : Nat) (h : checkE (univE natDefs) (isInlined (univE natDefs) 10) natH.mem n x v = true) :
    ReprE natW.E natH.mem x v := univ_repr n h

/-- `*time.Time` and `*json.RawMessage`. -/
theorem nat_time : JsonPointer natW.E 1 0 := ⟨rfl, rfl, by decide +kernel⟩

theorem nat_raw : JsonPointer natW.E 9 4 := ⟨rfl, rfl, by decide +kernel⟩

theorem nat_fine : TimesFine natW 1 (.ptr (.time natTime)) := timesB_fine (n := 3) (by decide +kernel)

theorem nat_timePtr : ReprE natW.E natH.mem (some (1, 100)) (.iface 1 (.ptr (.time natTime))) := nat_holds 4 (by decide +kernel)

theorem nat_timeVal : ReprE natW.E natH.mem (some (0, 100)) (.iface 0 (.time natTime)) := nat_holds 4 (by decide +kernel)

/-- A pointer to a duration, and the duration. -/
example : marshalOpts natW natH 9 (some (13, 400)) [some (.durationFormat 0)] = marshalOpts natW natH 7 (some (6, 400)) [some (.durationFormat 0)] :=
  C77_pointer_partial (v := .int (.int64 1500)) nat_ready rfl (byKind_of (by decide +kernel)) rfl (nat_holds 4 (by decide +kernel)) (nat_holds 4 (by decide +kernel)) _
    (by decide +kernel) (by decide +kernel)

example : marshalOpts natW natH 9 (some (13, 400)) [some (.durationFormat 0)] = .ret (some (b! "\"1.5µs\"")) none := by decide +kernel

/-- The same error for a pointer to a number that is none, and for the number. -/
example : marshal natW natH 9 (some (17, 500)) = marshal natW natH 7 (some (8, 500)) :=
  C77_pointer_partial (v := .str (b! "0x")) nat_ready rfl (byKind_of (by decide +kernel)) rfl (nat_holds 4 (by decide +kernel)) (nat_holds 4 (by decide +kernel)) []
    (by decide +kernel) (by decide +kernel)

example : marshal natW natH 9 (some (17, 500)) = .ret none (some (.encoding (.numberLiteral (b! "0x")))) := by decide +kernel

/-- A nil pointer to a time. -/
example : marshalOpts natW natH 9 (some (1, 0)) [some (.flag .unixTime)] = .ret (some (b! "null")) none :=
  (C77_nil nat_faults nat_writes nat_pathFree (e := 0) rfl rfl (.inr ⟨_, nat_time.picks⟩) (nat_holds 4 (by decide +kernel)) rfl 9 [] (by decide +kernel)).1

theorem nat_rfc3339 : IsRFC3339 natTime true (b! "2000-02-29T01:00:00.0000005+01:00") := by
  have h : marshal natW natH 9 (some (0, 100)) = .ret (some (b! "\"2000-02-29T01:00:00.0000005+01:00\"")) none := by decide +kernel
  have hw := (C56_bytes (opts := []) nat_writes nat_timeVal (timesB_fine (n := 3) (by decide +kernel)) rfl).1 _ h
  obtain ⟨y, hy, -, ht⟩ := w_time (t := 0) rfl hw
  cases hy
  obtain ⟨c, hc, he⟩ := default_time (show FromDec31 natTime from by unfold FromDec31; decide +kernel) ht
  have : b! "2000-02-29T01:00:00.0000005+01:00" = c :=
    List.append_cancel_left (as := b! "\"") (List.append_cancel_right (bs := b! "\"") (Eq.trans (by rfl) he))
  exact this ▸ hc

/-- The pointer and the time, without options. -/
example (dst : Bytes) : append natW natH 9 dst (some (1, 100)) = append natW natH 9 dst (some (0, 100)) :=
  (C77_time (opts := []) (path := []) nat_faults nat_writes nat_pathFree nat_time rfl nat_timePtr nat_timeVal nat_fine (by unfold FromDec31; decide +kernel) nat_rfc3339 rfl
    rfl (by decide) (by decide) 9 dst (by decide +kernel) (by decide +kernel)).2

/-- `UnixTime` and `TimeLayout` are of no effect on the pointer. -/
example : marshalOpts natW natH 9 (some (1, 100)) [some (.flag .unixTime), some (.timeLayout (b! "2006"))] =
    .ret (some (b! "\"2000-02-29T01:00:00.0000005+01:00\"")) none :=
  C77_ignored (opts := []) nat_faults nat_writes nat_pathFree nat_time nat_timePtr nat_fine rfl rfl (by decide) (by decide) 9 (by decide +kernel) (by decide +kernel)

/-- With `UnixTime`, the pointer and the time. -/
example : b! "\"2000-02-29T01:00:00.0000005+01:00\"" ≠ b! "951782400" :=
  (C77_unix_wrong (opts := [some (.flag .unixTime)]) (path := []) (n := 9) (n' := 9) nat_writes nat_pathFree nat_time rfl nat_timePtr nat_timeVal nat_fine rfl rfl
    (by decide) (by decide +kernel) (by decide +kernel)).2.2

/-- The message, and the pointer to it. -/
example : (∃ c, marshal natW natH 9 (some (4, 200)) = .ret (some c) none) ∧ ¬ ∃ r, marshal natW natH 9 (some (9, 200)) = .ret r none :=
  C77_raw_wrong (opts := []) (path := []) (b := b! "[1") (vs := [.int (.uint8 91), .int (.uint8 49)]) nat_faults nat_writes nat_pathFree nat_raw rfl rfl
    (nat_holds 4 (by decide +kernel)) (nat_holds 4 (by decide +kernel)) (timesB_fine (n := 3) (by decide +kernel)) rfl (not_jsonText (by decide +kernel)) rfl
    (by decide) (by decide +kernel)

end Jettison.Props
