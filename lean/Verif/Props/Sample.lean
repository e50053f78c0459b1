import Verif.Props.Fields
import Verif.Props.Float
import Verif.Model.Api
import Verif.Spec.Safe

/-!
# A universe of types with a value in memory

Used to show that the hypotheses of the theorems about the encoder are met.
Odd identifiers are pointers: `2 * t + 1` is `*t`.
-/

namespace Jettison.Props
open Jettison Jettison.Spec Jettison.Model Jettison.Proofs

/-- The types that are not pointers, in order: the first has identifier 0, the
second 2, and so on. -/
def sampleDefs : List TypeDef :=
  [ -- 0: int
    { kind := .int .int, name := b! "int", size := 8 },
    -- 2: string
    { kind := .string, name := b! "string", size := 16 },
    -- 4: type Point struct { X int "x"; Y int "y,omitempty" }
    { kind := .struct [fld (b! "X") 0 0 (b! "x"), fld (b! "Y") 0 8 (b! "y,omitempty")], name := b! "Point", size := 16 },
    -- 6: type Doc struct { *Point; Name string "name"; Tags map[string]int; L []Point; I interface{}; P *int ",omitnil"; C Temp; }
    { kind := .struct [emb (b! "Point") 9 0, fld (b! "Name") 2 8 (b! "name"), fld (b! "Tags") 8 24, fld (b! "L") 10 32,
        fld (b! "I") 12 56, fld (b! "P") 1 72 (b! ",omitnil"), fld (b! "C") 14 80], name := b! "Doc", size := 96 },
    -- 8: map[string]int
    { kind := .map 2 0, size := 8 },
    -- 10: []Point
    { kind := .slice 4, size := 24 },
    -- 12: interface{}
    { kind := .iface 0, size := 16 },
    -- 14: type Temp string, with AppendJSONContext
    { kind := .string, name := b! "Temp", meths := { appendCtx := true }, pmeths := { appendCtx := true }, size := 16 },
    -- 16: chan int
    { kind := .other, size := 8 },
    -- 18: float64
    { kind := .float .f64, name := b! "float64", size := 8 },
    -- 20: type Box struct { P *int }
    { kind := .struct [fld (b! "P") 1 0], name := b! "Box", size := 8 },
    -- 22: uint8
    { kind := .int .uint8, name := b! "uint8", size := 1 },
    -- 24: [2]uint8
    { kind := .array 2 22, size := 2 },
    -- 26: []uint8
    { kind := .slice 22, size := 24 },
    -- 28: time.Time
    { kind := .struct [], name := b! "Time", special := some .time, meths := { json := true, text := true },
      pmeths := { json := true, text := true }, size := 24 },
    -- 30: sync.Map
    { kind := .struct [], name := b! "Map", special := some .syncMap, size := 48 },
    -- 32: map[int]interface{}
    { kind := .map 0 12, size := 8 },
    -- 34: []chan int
    { kind := .slice 16, size := 24 },
    -- 36: type Blob struct { N int }, with MarshalJSON on *Blob
    { kind := .struct [fld (b! "N") 0 0], name := b! "Blob", pmeths := { json := true }, size := 8 },
    -- 38: []Blob
    { kind := .slice 36, size := 24 },
    -- 40: type Opt struct { A *Blob ",omitnil"; B bool ",omitempty"; C float64; D interface{} }
    { kind := .struct [fld (b! "A") 73 0 (b! ",omitnil"), fld (b! "B") 42 8 (b! ",omitempty"), fld (b! "C") 18 16 (b! "c,string"),
        fld (b! "D") 12 24], name := b! "Opt", size := 40 },
    -- 42: bool
    { kind := .bool, name := b! "bool", size := 1 },
    -- 44: type Tree struct { V int; Kids []*Tree }
    { kind := .struct [fld (b! "V") 0 0, fld (b! "Kids") 46 8], name := b! "Tree", size := 32 },
    -- 46: []*Tree
    { kind := .slice 89, size := 24 } ]

/-- The type with identifier `t`. -/
def sampleE : Env := fun t =>
  if t % 2 = 1 then
    { kind := .ptr (t / 2), meths := if t / 2 % 2 = 1 then {} else (sampleDefs.getD (t / 4) { kind := .other }).pmeths, size := 8 }
  else sampleDefs.getD (t / 2) { kind := .other, size := 8 }

/-- The world of the examples: the runtime visits map entries backwards. -/
def sampleW : World where
  E := sampleE
  ptrTo t := 2 * t + 1
  U := asciiTab
  grow := growDouble
  sort := isort
  fmt := toyFmt
  df := ⟨fun _ => 0, fun _ => 0⟩
  appendFormat _ l := l
  jsonValid := validText
  order _ n := (List.range n).reverse
  tfuel := 10

/-- What the sample methods return: `AppendJSONContext` appends the context and the
value in quotes and fails on an empty value; `MarshalJSON` returns a fixed text. -/
def sampleMeth : MethKind → Option Ctx → Option Bytes → Bytes → MethRes
  | .appendCtx, some ctx, some s, dst => if s = [] then .err 7 else .ok (dst ++ b! "\"" ++ appendUint [] (UInt64.ofNat ctx) ++ s ++ b! "\"")
  | .json, _, _, _ => .ok (b! "{ \"blob\" : 1 }")
  | .append, _, _, dst => .ok (dst ++ b! "0")
  | .appendCtx, _, _, dst => .ok (dst ++ b! "1")
  | _, _, _, _ => .ok (b! "t")

/-- The text of a string value. -/
def strOf : Val → Option Bytes
  | .str s => some s
  | _ => none

/-- The text of the receiver. -/
def recvStr (m : Mem) (t : TId) (w : Loc) : Option Bytes := if (sampleE t).kind = .string then readStr m w else none

/-- The same methods on values. -/
def sampleM : MethV := fun _ m ctx _ v dst => sampleMeth m ctx (strOf v) dst

/-- A heap with these cells and the sample methods. -/
def sampleHeap (cells : List (Addr × Cell)) : Heap where
  mem a := (cells.find? (·.1 = a)).map (·.2)
  meth _ m ctx t w dst := sampleMeth m ctx (recvStr (fun a => (cells.find? (·.1 = a)).map (·.2)) t w) dst

theorem sample_cases {P : TId → TypeDef → Prop}
    (hp : ∀ t ms, P t { kind := .ptr (t / 2), meths := ms, size := 8 })
    (hd : ∀ i d, sampleDefs[i]? = some d → P (2 * i) d) (ho : ∀ t, P t { kind := .other, size := 8 }) (t : Nat) : P t (sampleE t) := by
  unfold sampleE
  split
  · exact hp _ _
  · next h =>
    cases hg : sampleDefs[t / 2]? with
    | none => rw [List.getD_eq_getElem?_getD, hg]; exact ho t
    | some d =>
      rw [List.getD_eq_getElem?_getD, hg]
      have := hd _ _ hg
      have h2 : t % 2 = 0 := by
        rcases Nat.mod_two_eq_zero_or_one t with h' | h'
        · exact h'
        · exact absurd h' h
      have e : 2 * (t / 2) = t := by omega
      rwa [e] at this

/-- The same by testing the definitions one by one. -/
theorem sample_all {P : TId → TypeDef → Prop} [∀ t d, Decidable (P t d)]
    (hp : ∀ t ms, P t { kind := .ptr (t / 2), meths := ms, size := 8 }) (ho : ∀ t, P t { kind := .other, size := 8 })
    (hd : ((List.range sampleDefs.length).all fun i => decide (∀ d ∈ sampleDefs[i]?, P (2 * i) d)) = true) (t : TId) : P t (sampleE t) := by
  refine sample_cases hp ?_ ho t
  intro i d hi
  rw [List.all_eq_true] at hd
  have hlt : i < sampleDefs.length := by
    obtain ⟨h, _⟩ := List.getElem?_eq_some_iff.mp hi; exact h
  have := hd i (by simpa using hlt)
  exact of_decide_eq_true this d hi

theorem sample_types : GoTypes sampleE (fun t => 2 * t + 1) where
  ptrTo_kind t := by
    have h1 : (2 * t + 1) % 2 = 1 := Nat.mul_add_mod ..
    have h2 : (2 * t + 1) / 2 = t := by rw [Nat.mul_add_div (by decide)]; rfl
    simp only [sampleE, if_pos h1, h2]
  duration t := by
    refine sample_all (P := fun _ d => d.special = some .duration → d.kind = .int .int64) ?_ ?_ ?_ t
    · simp
    · simp
    · decide +kernel
  number t := by
    refine sample_all (P := fun _ d => d.special = some .number → d.kind = .string) ?_ ?_ ?_ t
    · simp
    · simp
    · decide +kernel
  rawMessage t h := by
    have := sample_all (P := fun _ d => d.special ≠ some .rawMessage) (by simp) (by simp) (by decide +kernel) t
    exact absurd h this
  time t h := by
    have := sample_all (P := fun _ d => d.special = some .time → d.kind = .struct []) (by simp) (by simp) (by decide +kernel) t
    exact ⟨[], this h, by simp⟩
  syncMap t h := by
    have := sample_all (P := fun _ d => d.special = some .syncMap → d.kind = .struct []) (by simp) (by simp) (by decide +kernel) t
    exact ⟨[], this h, by simp⟩
  byteSize t := by
    refine sample_all (P := fun _ d => d.kind = .int .uint8 → d.size = 1) ?_ ?_ ?_ t
    · simp
    · simp
    · decide +kernel

/-- A universe in which embedding nests at most twice has no fork with spare capacity. -/
theorem noFork_of_rank {E : Env} {letter digit : Nat → Bool} (rank : TId → Nat) (hb : ∀ t, rank t ≤ 2)
    (hr : ∀ u fs sf v ptr, HasFields E u fs → sf ∈ fs → Promotes letter digit E sf v ptr → rank v < rank u) (t : TId) :
    NoSpareFork letter digit growDouble E t := by
  intro p u ⟨⟨q, hq⟩, _⟩ hlt
  exfalso
  have key : ∀ {p u q}, Reaches letter digit E t p u q → p.length + rank u ≤ rank t := by
    intro p u q h
    induction h with
    | here => simp
    | step h hf hi hp ih =>
      have := hr _ _ _ _ _ hf (List.mem_of_getElem? hi) hp
      simp; omega
  have h1 := key hq
  have h2 := hb t
  have : p.length = 0 ∨ p.length = 1 ∨ p.length = 2 := by omega
  rcases this with h | h | h <;> rw [h] at hlt <;> revert hlt <;> decide

/-- Whether every struct of the definition promotes only structs of lower rank; the
only embedding is `*Point` in `Doc`. -/
theorem sample_noFork (t : TId) : NoSpareFork asciiTab.isLetter asciiTab.isDigit growDouble sampleE t := by
  refine noFork_of_rank (fun t => if t = 6 then 1 else 0) (by intro t; split <;> omega) ?_ t
  intro u fs sf v ptr hf hs hp
  have hanon := hp.2.1
  have h1 := sample_all (P := fun t d => ∀ sf ∈ fieldsOfK d.kind, sf.anonymous = true → t = 6 ∧ sf.typ = 9)
    (by simp [fieldsOfK]) (by simp [fieldsOfK]) (by decide +kernel) u
  simp only [HasFields] at hf
  rw [hf] at h1
  obtain ⟨rfl, ht⟩ := h1 sf hs hanon
  have hv : v = 9 ∨ v = 4 := by
    rcases hp.2.2.2.2 with ⟨_, rfl⟩ | ⟨_, hk, _⟩
    · exact .inl ht
    · rw [ht] at hk
      have : (sampleE 9).kind = .ptr 4 := by decide +kernel
      rw [this] at hk; right; simpa using hk.symm
  rcases hv with rfl | rfl <;> simp

theorem sample_apart (t : TId) : RoutesApart asciiTab.isLetter asciiTab.isDigit growDouble sampleE t := apart_of_noFork asciiOk (sample_noFork t)

theorem sample_nest : NestBound sampleE 10 := by
  refine ⟨fun t => if t = 20 ∨ t = 36 then 1 else 0, ?_, by intro t; show (if _ then 1 else 0) < 10; split <;> omega⟩
  intro t f h
  have := sample_all (P := fun t d => ∀ f ∈ fieldsOfK d.kind, (fieldsOfK d.kind).length = 1 → (t = 20 ∨ t = 36) ∧ f.typ ≠ 20 ∧ f.typ ≠ 36)
    (by simp [fieldsOfK]) (by simp [fieldsOfK]) (by decide +kernel) t
  obtain ⟨h1, h2, h3⟩ := this f (by simp [h, fieldsOfK]) (by simp [h, fieldsOfK])
  simp [h1, h2, h3]

theorem sample_recv_str {m : Mem} {t : TId} {w : Loc} {v : Val} (h : Recv sampleE m t w v) : recvStr m t w = strOf v := by
  have key : ∀ {w}, Repr sampleE m t w v → recvStr m t w = strOf v := by
    intro w hr
    cases hr with
    | time hs _ => obtain ⟨fs, hk, _⟩ := sample_types.time _ hs; simp [recvStr, hk, strOf]
    | smap hs _ _ _ _ => obtain ⟨fs, hk, _⟩ := sample_types.syncMap _ hs; simp [recvStr, hk, strOf]
    | eface hk _ h => cases h <;> simp [recvStr, hk, strOf]
    | iface hk _ _ h => cases h <;> simp [recvStr, hk, strOf]
    | _ => simp_all [readStr, recvStr, strOf]
  cases h with
  | direct hd hr =>
    rw [← key hr]
    cases hd <;> simp_all [recvStr]
  | indirect hd hr => exact key hr

theorem sample_ready (cells : List (Addr × Cell)) : Ready sampleW (sampleHeap cells) sampleM where
  types := sample_types
  apart := sample_apart
  nest := sample_nest
  tab := asciiOk
  sort := isort_ok
  meth path m ctx t w v dst h := by
    simp only [sampleHeap, sampleM]
    rw [← sample_recv_str h]
    rfl

end Jettison.Props
