import Verif.Props.Traps
import Verif.Props.Universe

/-!
# Values beside the traps

The conditions of `Repr` are about the values, not about all types of a program: a program may have the types
of findings 11 to 13, and even values of them, where they do no harm.
-/

namespace Jettison.Props
open Jettison Jettison.Spec Jettison.Model Jettison.Proofs

def besideDefs : List TypeDef :=
  [ -- 0: int
    { kind := .int .int, name := b! "int", size := 8 },
    -- 2: string
    { kind := .string, name := b! "string", size := 16 },
    -- 4: error
    { kind := .iface 1, name := b! "error", size := 16 },
    -- 6: [1]*int
    { kind := .array 1 1, size := 8 },
    -- 8: type Set map[string]int, with MarshalText on Set
    { kind := .map 2 0, name := b! "Set", meths := { text := true }, pmeths := { text := true }, size := 8 },
    -- 10: interface{}
    { kind := .iface 0, size := 16 },
    -- 12: type Job struct { Err error; Ptrs [1]*int; Any interface{}; Set *Set; Done []chan int }
    { kind := .struct [fld (b! "Err") 4 0, fld (b! "Ptrs") 6 16, fld (b! "Any") 10 24, fld (b! "Set") 17 40, fld (b! "Done") 16 48], name := b! "Job", size := 72 },
    -- 14: chan int
    { kind := .other, word := true, size := 8 },
    -- 16: []chan int
    { kind := .slice 14, size := 24 } ]

theorem beside_ok : univOk besideDefs = true := by decide +kernel

/-- The universe has each of the traps. -/
theorem beside_traps : ¬ NoTrap (univE besideDefs) := fun N => by
  obtain ⟨e, he⟩ := N.recv 8 (.inr (.inr (.inr rfl))) (.map (k := 2) (e := 0) rfl)
  simp [univE, besideDefs] at he

def besideCells : List (Addr × Cell) :=
  [(100, .iface none), (116, .word 500), (124, .eface (some (0, 500))), (140, .word 0), (148, .slice 600 0), (500, .int (.int 5))]

def besideMeth : MethKind → Option Ctx → TId → Option Bytes → Bytes → MethRes := fun _ _ _ _ dst => .ok (dst ++ b! "never")

theorem beside_repr : ReprE (univE besideDefs) (univHeap besideDefs besideMeth besideCells).mem (some (12, 100))
    (.iface 12 (.struct [.nil, .array [.ptr (.int (.int 5))], .iface 0 (.int (.int 5)), .nil, .slice []])) :=
  univ_repr 6 (by decide +kernel)

/-- A nil error, an array of one pointer in a struct, a nil pointer to a map with a method, a slice of channels: the
theorems about the values of memory apply. -/
example : Ready (univW besideDefs) (univHeap besideDefs besideMeth besideCells) (univM besideMeth) ∧
    marshal (univW besideDefs) (univHeap besideDefs besideMeth besideCells) 12 (some (12, 100)) =
      .ret (some (b! "{\"Err\":null,\"Ptrs\":[5],\"Any\":5,\"Set\":null,\"Done\":[]}")) none :=
  ⟨univ_ready beside_ok _ _, by decide +kernel⟩

/-- A channel in an interface can be read: its word is not followed, and encoding it fails. -/
example : ReprE (univE besideDefs) (univHeap besideDefs besideMeth besideCells).mem (some (14, 500)) (.iface 14 .opaque) ∧ Direct (univE besideDefs) 14 :=
  ⟨.indirect (.inr (.word rfl rfl)) (.opaque rfl (fun h => by rcases h with h | h | h | h <;> cases h)), .word rfl rfl⟩

/-- The types of the sample are without traps, and its library types are not direct. -/
theorem sample_notrap : NoTrap sampleE ∧ ∀ t, (sampleE t).special ≠ none → ¬ Direct sampleE t := by
  refine ⟨⟨fun t e h => ?_, fun t n h => ?_, fun t h hd => ?_⟩, fun t hs hd => ?_⟩
  · have := sample_all (P := fun _ d => (match d.kind with | .array 1 _ => false | _ => true) = true) (by simp) (by simp) (by decide +kernel) t
    simp [h] at this
  · have := sample_all (P := fun _ d => (match d.kind with | .iface (_ + 1) => false | _ => true) = true) (by simp) (by simp) (by decide +kernel) t
    simp [h] at this
  · have h0 := sample_all (P := fun _ d => isPtrK d.kind = true ∨ d.meths = {} ∨ d.kind = .string ∨ d.kind = .struct [])
      (by simp [isPtrK]) (by simp) (by decide +kernel) t
    rcases h0 with h0 | h0 | h0 | h0
    · exact (isPtrK_iff _).mp h0
    · rw [h0] at h; simp [MethSet.any] at h
    · cases hd <;> simp_all
    · cases hd <;> simp_all
  · have h0 := sample_all (P := fun _ d => d.special = none ∨ (match d.kind with | .struct [] | .string | .int _ | .slice _ => true | _ => false) = true)
      (by simp) (by simp) (by decide +kernel) t
    rcases h0 with h0 | h0
    · exact hs h0
    · cases hd <;> simp_all

end Jettison.Props
