import Verif.Proofs.Base64
import Verif.Spec.JsonString

/-! # Byte slices (C16) -/

namespace Jettison.Props
open Jettison.Spec Jettison.Model Jettison.Proofs

/-- C16: without RawByteSlice a non-nil byte slice is the quoted RFC 4648 base64
text of its bytes; the text between the quotes determines the bytes. -/
theorem C16_base64 (b dst : Bytes) (o : EscOpts) :
    ∃ t, encodeByteSlice (some b) dst o false = dst ++ c! '"' :: (t ++ [c! '"']) ∧ IsBase64 b t ∧
      (∀ b', IsBase64 b' t → b' = b) ∧ (∀ c ∈ t, c ≠ c! '"' ∧ c ≠ c! '\\' ∧ 0x20 ≤ c) :=
  ⟨stdEncode b, by simp [encodeByteSlice], stdEncode_spec b, fun _ h => isBase64_inj h (stdEncode_spec b),
    fun c hc => let h := base64_plain (stdEncode_spec b) c hc; ⟨h.2.2.1, h.2.2.2.1, h.1⟩⟩

/-- C16: reserving room never panics, whatever the length and spare capacity of
the destination: the result is the old content followed by the base64 text, and
the bytes of the backing array before the text are those of the old slice. -/
theorem C16_reserve (dst : GoBuf) (b : Bytes) :
    ∃ r : GoBuf, appendBase64 dst b = some r ∧
      r.bytes = dst.bytes ++ (stdEncode b) ∧ r.arr.take dst.len = dst.bytes ∧ dst.arr.length ≤ r.arr.length := by
  have hl := stdEncode_length b
  have hok := dst.ok
  unfold appendBase64
  simp only
  generalize harr : (if dst.arr.length - dst.len < encodedLen b.length then
    dst.bytes ++ List.replicate (dst.arr.length + (encodedLen b.length - (dst.arr.length - dst.len)) - dst.len) 0
    else dst.arr) = arr
  have hb : dst.bytes.length = dst.len := by simp [GoBuf.bytes, Nat.min_eq_left hok]
  have h1 : dst.len + encodedLen b.length ≤ arr.length ∧ dst.arr.length ≤ arr.length := by
    rw [← harr]; split
    · simp only [List.length_append, List.length_replicate, hb]; omega
    · omega
  have h2 : arr.take dst.len = dst.bytes := by
    rw [← harr]; split
    · rw [List.take_append_of_le_length (by omega), ← hb, List.take_length]
    · rfl
  have hs : store (slice arr dst.len (dst.len + encodedLen b.length)) 0 (stdEncode b) = some (stdEncode b) := by
    have hsl : (slice arr dst.len (dst.len + encodedLen b.length)).length = encodedLen b.length := by
      simp only [slice, List.length_drop, List.length_take]; omega
    unfold store
    rw [if_pos (by omega)]
    simp only [List.take_zero, List.nil_append, Nat.zero_add]
    rw [List.drop_of_length_le (by omega), List.append_nil]
  rw [if_pos h1.1, hs]
  simp only
  rw [dif_pos (by simp only [List.length_append, List.length_take, List.length_drop]; omega)]
  refine ⟨_, rfl, ?_, ?_, ?_⟩
  · simp only [GoBuf.bytes] at h2 ⊢
    rw [h2, List.take_append_of_le_length
      (by simp only [List.length_append, List.length_take]; omega), List.take_of_length_le
      (by simp only [List.length_append, List.length_take]; omega)]
  · simp only
    rw [h2, List.append_assoc, List.take_append_of_le_length (by omega), ← hb, List.take_length]
  · simp only [List.length_append, List.length_take, List.length_drop]; omega

/-- The nil slice is `null` whatever RawByteSlice says. -/
theorem C16_nil (dst : Bytes) (o : EscOpts) (raw : Bool) :
    encodeByteSlice none dst o raw = dst ++ b! "null" := rfl

example : encodeByteSlice (some [0xFF, 0x00, 0x7F, 0x3E]) (b! "[") ⟨false, false, false⟩ false =
    b! "[\"/wB/Pg==\"" := by decide
example : (appendBase64 ⟨b! "ab", 1, by decide⟩ (b! "xyz")).map GoBuf.bytes = some (b! "aeHl6") := by decide

end Jettison.Props
