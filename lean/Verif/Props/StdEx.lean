import Verif.Props.Std

/-!
# C57: examples and counterexamples
-/

namespace Jettison.Props
open Jettison Jettison.Spec Jettison.Model Jettison.Proofs

/-! ## A universe -/

def stdDefs : List TypeDef :=
  [ -- 0: int
    { kind := .int .int, name := b! "int", size := 8 },
    -- 2: string
    { kind := .string, name := b! "string", size := 16 },
    -- 4: bool
    { kind := .bool, name := b! "bool", size := 1 },
    -- 6: uint8
    { kind := .int .uint8, name := b! "uint8", size := 1 },
    -- 8: []uint8
    { kind := .slice 6, size := 24 },
    -- 10: interface{}
    { kind := .iface 0, size := 16 },
    -- 12: time.Time
    { kind := .struct [], name := b! "Time", special := some .time, meths := { json := true, text := true },
      pmeths := { json := true, text := true }, size := 24 },
    -- 14: time.Duration
    { kind := .int .int64, name := b! "Duration", special := some .duration, size := 8 },
    -- 16: type Base struct { ID int "id,string"; When time.Time "when"; Name string ",omitempty" }
    { kind := .struct [fld (b! "ID") 0 0 (b! "id,string"), fld (b! "When") 12 8 (b! "when"), fld (b! "Name") 2 32 (b! ",omitempty")],
      name := b! "Base", size := 48 },
    -- 18: type Loud string, with MarshalJSON
    { kind := .string, name := b! "Loud", meths := { json := true }, pmeths := { json := true }, size := 16 },
    -- 20: type Soft string, with MarshalText
    { kind := .string, name := b! "Soft", meths := { text := true }, pmeths := { text := true }, size := 16 },
    -- 22: []Loud
    { kind := .slice 18, size := 24 },
    -- 24: map[string]interface{}
    { kind := .map 2 10, size := 8 },
    -- 26: type PLoud struct { N int }, with MarshalJSON on *PLoud
    { kind := .struct [fld (b! "N") 0 0], name := b! "PLoud", pmeths := { json := true }, size := 8 },
    -- 28: []PLoud
    { kind := .slice 26, size := 24 },
    -- 30: map[int]PLoud
    { kind := .map 0 26, size := 8 },
    -- 32: json.RawMessage
    { kind := .slice 6, name := b! "RawMessage", special := some .rawMessage, size := 24 },
    -- 34: json.Number
    { kind := .string, name := b! "Number", special := some .number, size := 16 },
    -- 36: type Out struct { *Base; L []Loud; T Soft; R json.RawMessage "<r>"; N json.Number; D time.Duration; B []uint8; S string "s,string" }
    { kind := .struct [emb (b! "Base") 33 0, fld (b! "L") 22 8, fld (b! "T") 20 32, fld (b! "R") 32 48 (b! "<r>"), fld (b! "N") 34 72, fld (b! "D") 14 88,
        fld (b! "B") 8 96, fld (b! "S") 2 120 (b! "s,string")], name := b! "Out", size := 136 } ]

/-- `MarshalJSON` returns an array with a space, `MarshalText` the receiver's text. -/
def stdMethods : MethKind → Option Ctx → TId → Option Bytes → Bytes → MethRes
  | .text, _, _, s, _ => .ok (s.getD (b! "t"))
  | _, _, _, _, dst => .ok (dst ++ b! "[1, 2]")

theorem std_ok : univOk stdDefs = true := by decide +kernel

def stdH (cells : List (Addr × Cell)) : Heap := univHeap stdDefs stdMethods cells

def stdW : World := univW stdDefs

def stdM : MethV := univM stdMethods

theorem std_ready (cells : List (Addr × Cell)) : Ready stdW (stdH cells) stdM := univ_ready std_ok stdMethods cells

theorem std_honestM : HonestAppend stdM := by
  rintro path m ctx t w (rfl | rfl)
  · exact .inr <| .inr ⟨b! "[1, 2]", fun dst => rfl⟩
  · exact .inr <| .inr ⟨b! "[1, 2]", fun dst => rfl⟩

theorem std_writes (cells : List (Addr × Cell)) : WriteReady stdW (stdH cells) stdM :=
  ⟨std_ready _, toyFmt_contract, by
    rintro path m ctx t w (rfl | rfl)
    · exact .inr <| .inr ⟨b! "[1, 2]", fun dst => rfl⟩
    · exact .inr <| .inr ⟨b! "[1, 2]", fun dst => rfl⟩, std_honestM, fun _ _ => List.reverse_perm _, validText_iff⟩

theorem std_std : StdText stdW.E := by
  intro t s hs ht
  have h : ∀ t, (stdW.E t).special = none ∨ (stdW.E t).meths.text = false ∨ (stdW.E t).special = some .time := by
    intro t
    exact univ_all (defs := stdDefs) (P := fun _ d => d.special = none ∨ d.meths.text = false ∨ d.special = some .time)
      (by simp) (by simp) (by decide +kernel) t
  rcases h t with h | h | h
  · rw [h] at hs; cases hs
  · rw [h] at ht; cases ht
  · rw [h] at hs; cases hs; rfl

theorem std_faults (cells : List (Addr × Cell)) : FaultReady stdW (stdH cells) stdM :=
  ⟨std_ready _, toyFmt_contract, std_honestM, fun _ _ => List.reverse_perm _, validText_iff, std_std⟩

theorem std_pathFree : PathFree stdM := fun _ _ _ _ _ _ _ => rfl

theorem std_holds {cells : List (Addr × Cell)} {x : Eface} {v : Val} (n : Nat)
    (h : checkE (univE stdDefs) (isInlined (univE stdDefs) 10) (stdH cells).mem n x v = true) :
    ReprE stdW.E (stdH cells).mem x v := univ_repr n h

/-! ## A test for `StdAlike` -/

/-- What is asked of the fields of the universe. -/
def fieldStdB (sf : FieldDef) : Bool :=
  !sf.tag.contains (c! ';') && !tagContains (parseTag sf.tag).2 (b! "omitnil") &&
    (!tagContains (parseTag sf.tag).2 (b! "string") || ((stdW.E sf.typ).special.isNone && !isPtrK (stdW.E sf.typ).kind))

theorem std_fields {u : TId} {fs : List FieldDef} {sf : FieldDef} (hf : HasFields stdW.E u fs) (hs : sf ∈ fs) : fieldStdB sf = true := by
  have : (fieldsOfK (stdW.E u).kind).all fieldStdB = true :=
    univ_all (defs := stdDefs) (P := fun _ d => (fieldsOfK d.kind).all fieldStdB = true) (by simp [fieldsOfK]) (by simp [fieldsOfK]) (by decide +kernel) u
  replace hf : (stdW.E u).kind = .struct fs := hf
  rw [hf] at this
  exact List.all_eq_true.mp this sf hs

theorem std_semicolons : NoSemicolons stdW.E := by
  intro u fs sf nm opts hf hs ht hc
  have := std_fields hf hs
  simp only [fieldStdB, Bool.and_eq_true, Bool.not_eq_true'] at this
  have h1 := this.1.1
  rw [← Bool.not_eq_true, List.contains_iff_mem] at h1
  rcases ht.2.2 with ⟨-, e⟩ | ⟨-, e⟩
  · exact h1 (e ▸ hc)
  · exact h1 (e ▸ List.mem_append_left _ hc)

/-- The bytes of a slice. -/
def rawOf (vs : List Val) : Bytes := vs.map fun | .int (.uint8 c) => c | _ => 0

theorem rawOf_as {vs : List Val} {b : Bytes} (h : AsBytes vs b) : rawOf vs = b := by
  rw [AsBytes] at h
  subst h
  simp [rawOf, Function.comp_def]

/-- No character of the text is escaped. -/
def clearB (s : Bytes) : Bool := s.all fun c => decide (ClearByte c)

theorem clearB_spelling {s : Bytes} (h : clearB s = true) : Spelling true true s s :=
  spelling_clear fun c hc => of_decide_eq_true (List.all_eq_true.mp h c hc)

/-- The strings in front. -/
def clearV : Val → Bool
  | .str s => clearB s
  | .ptr (.str s) => clearB s
  | .iface _ (.str s) => clearB s
  | .map kvs => kvs.all fun kv => match kv.1 with | .str s => clearB s | _ => true
  | _ => true

/-- A sufficient test for `KeyFine`. -/
def keyStdB (kt : TId) : Bool :=
  isStringK (stdW.E kt).kind || ((stdW.E kt).special.isNone && !anyMeth (stdW.E kt).meths)

theorem keyStdB_fine {kt : TId} {x : Val} (h : keyStdB kt = true) : KeyFine stdW defaultEncOpts kt x := by
  simp only [keyStdB, Bool.or_eq_true, Bool.and_eq_true, Bool.not_eq_true', Option.isNone_iff_eq_none] at h
  constructor
  · intro h1 h2
    rcases h with h | ⟨h4, h5⟩
    · exact absurd (by cases hk : (stdW.E kt).kind <;> simp_all [isStringK]) h1
    · exact .inl ⟨h4, fun h => by (rw [(anyMeth_iff _).mpr h] at h5; cases h5), fun h => nomatch h⟩
  · intro h1 h2
    rcases h with h | ⟨h4, h5⟩
    · exact absurd (by cases hk : (stdW.E kt).kind <;> simp_all [isStringK]) h1
    · simp [anyMeth, h2] at h5

/-- No methods of pointers only. -/
def noPtrB (t : TId) (_ : Val) : Bool := (stdW.E t).pmeths == (stdW.E t).meths

theorem reaches_struct {letter digit : Nat → Bool} {E : Env} {t u : TId} {p : List Nat} {q : List (Nat × Bool)} (h : Reaches letter digit E t p u q) :
    u = t ∨ IsStruct E t := by
  induction h with
  | here => exact .inl rfl
  | step _ hf _ _ ih =>
    rcases ih with rfl | ih
    · exact .inr ⟨_, hf⟩
    · exact .inr ih

theorem promoted_struct {letter digit : Nat → Bool} {E : Env} {t u : TId} {path : List Nat} {i : Nat} {sf : FieldDef} {n : Bytes} {tg : Bool} {r : List (Nat × Bool)}
    (h : Promoted letter digit E t path u i sf n tg r) : IsStruct E t := by
  obtain ⟨p, q, hr, -⟩ := h.reach
  obtain ⟨fs, hf, -⟩ := h.decl
  rcases reaches_struct hr with rfl | h
  · exact ⟨fs, hf⟩
  · exact h

/-- A test for `StdAlikeAt`, together with the one on the fields. -/
def stdB (t : TId) (v : Val) : Bool :=
  !((stdW.E t).special == some .syncMap) && !((stdW.E t).meths.append || (stdW.E t).meths.appendCtx || (stdW.E t).pmeths.append || (stdW.E t).pmeths.appendCtx) &&
  clearV v &&
  (match v with | .slice vs => !((stdW.E t).special == some .rawMessage) || stdW.jsonValid (rawOf vs) | _ => true) &&
  (match v with | .time x => decide ((dayNumber 0 12 31 * 86400 : Nat) ≤ x.unix + x.offset + epochSeconds ∧ -86400 < x.offset ∧ x.offset < 86400) | _ => true) &&
  (match (stdW.E t).kind, v with | .map k _, .map _ => keyStdB k | _, _ => true) &&
  (match v with | .struct vs => (vs.all fun | .ptr _ => false | .struct _ => false | _ => true) || allParts stdW.E noPtrB 9 t v | _ => true)

theorem stdB_alike {t : TId} {v : Val} (ht : HasType stdW.E t v) {n : Nat} (h : allParts stdW.E stdB n t v = true) : StdAlike stdW stdM t v := by
  intro t' v' hw
  have G := (std_ready []).types
  have ht' : HasType stdW.E t' v' := within_type G ht hw
  have hb := allParts_within h hw
  simp only [stdB, Bool.and_eq_true, Bool.not_eq_true', Bool.or_eq_false_iff, beq_eq_false_iff_ne] at hb
  obtain ⟨⟨⟨⟨⟨⟨h1, h2⟩, h3⟩, h4⟩, h5⟩, h6⟩, h7⟩ := hb
  have hfield : ∀ m, ChosenField stdW.U.isLetter stdW.U.isDigit stdW.E t' m → fieldStdB m.decl = true ∧ IsStruct stdW.E t' := by
    rintro m ⟨_, u, i, r, tg, -, hp, -⟩
    obtain ⟨fs, hf, hi⟩ := hp.decl
    exact ⟨std_fields hf (List.mem_of_getElem? hi), promoted_struct hp⟩
  refine ⟨h1, ?_, ?_, ?_, ?_, ?_, ?_, ?_, ?_, ?_, ?_⟩
  · rintro m (rfl | rfl) <;> simp [MethSet.Has, h2]
  · intro m hm ho
    have := (hfield m hm).1
    simp only [fieldStdB, Bool.and_eq_true, Bool.not_eq_true'] at this
    rw [hasOpt_iff, this.1.2] at ho
    cases ho
  · intro rt x u path b hr hM
    have key : ∀ x, (∀ s, x = .str s → clearB s = true) → stdM path .text none rt x [] = .ok b → Spelling true true b b := by
      intro x hx h
      have h : MethRes.ok ((strOf x).getD (b! "t")) = .ok b := h
      cases h
      cases x with
      | str s => exact clearB_spelling (hx s rfl)
      | _ => exact clearB_spelling (show clearB (b! "t") = true by decide)
    cases hr with
    | own => exact key _ (fun s e => by subst e; exact h3) hM
    | dyn => exact key _ (fun s e => by subst e; exact h3) hM
    | addr => exact key _ (fun s e => by cases e) hM
  · rintro vs b hs rfl hv
    have h4 : (!((stdW.E t').special == some .rawMessage) || stdW.jsonValid (rawOf vs)) = true := h4
    rw [hs, rawOf_as hv] at h4
    exact (validText_iff b).mp (by simpa [stdW, univW, sampleW] using h4)
  · rintro x rfl
    exact (of_decide_eq_true h5).1
  · rintro x rfl
    exact (of_decide_eq_true h5).2
  · rintro k e kvs kv hk rfl hm
    rw [hk] at h6
    exact keyStdB_fine h6
  · rintro k e kvs kv kv' s s' r r' hk rfl hm hm' e1 e2 g1 g2
    simp only [clearV, List.all_eq_true] at h3
    have c1 := h3 _ hm
    have c2 := h3 _ hm'
    rw [e1] at c1
    rw [e2] at c2
    rw [spelling_unique g1 (clearB_spelling c1), spelling_unique g2 (clearB_spelling c2)]
  · intro m x hc hx ho hb
    obtain ⟨hf, hst⟩ := hfield m hc
    simp only [fieldStdB, Bool.and_eq_true, Bool.not_eq_true', Bool.or_eq_true] at hf
    rw [hasOpt_iff] at ho
    have hs := hf.2.resolve_left (by rw [ho]; simp)
    have hwx := allParts_within h (within_trans hw (members_part G ht' hst hc hx).2)
    simp only [stdB, Bool.and_eq_true] at hwx
    refine ⟨⟨by simpa using hs.1, fun e he => by rw [he] at hs; simp [isPtrK] at hs⟩, ?_⟩
    rintro s (rfl | rfl)
    · exact clearB_spelling hwx.1.1.1.1.2
    · exact clearB_spelling hwx.1.1.1.1.2
  · intro m x hc hx hthr
    obtain ⟨hf, hst⟩ := hfield m hc
    have hwx := (members_part G ht' hst hc hx).2
    have : allParts stdW.E noPtrB 9 t' v' = true := by
      generalize m.path = path at hthr
      cases hthr with
      | @here vs i j is y hi =>
        simp only [Bool.or_eq_true, List.all_eq_true] at h7
        exact h7.resolve_left fun h => by have := h _ (List.mem_of_getElem? hi); simp at this
      | @embed vs i j is ws hi _ =>
        simp only [Bool.or_eq_true, List.all_eq_true] at h7
        exact h7.resolve_left fun h => by have := h _ (List.mem_of_getElem? hi); simp at this
    intro t2 v2 hw2
    have := allParts_within this (within_trans hwx hw2)
    simpa [noPtrB] using this

/-! ## Keys that differ -/

/-- Different string keys without escapes. -/
def keysStdB (t : TId) (v : Val) : Bool :=
  match v, (stdW.E t).kind with
  | .map kvs, .map k _ => isStringK (stdW.E k).kind && (kvs.all fun kv => match kv.1 with | .str s => clearB s | _ => false) &&
      decide ((kvs.map fun kv => strOf kv.1).Pairwise (· ≠ ·))
  | .smap _, _ => false
  | _, _ => true

theorem keysStdB_differ {t : TId} {v : Val} {n : Nat} (h : allParts stdW.E keysStdB n t v = true) : KeysDiffer stdW stdM defaultEncOpts t v := by
  constructor
  · intro t' k e kvs hw hk
    have := allParts_within h hw
    simp only [keysStdB, hk, Bool.and_eq_true, decide_eq_true_eq, List.all_eq_true] at this
    obtain ⟨⟨h1, h2⟩, h3⟩ := this
    have hks : (stdW.E k).kind = .string := by cases hk : (stdW.E k).kind <;> simp_all [isStringK]
    rw [List.pairwise_map] at h3
    refine h3.imp_of_mem fun {a b} ha hb hab x y hx hy => ?_
    have key : ∀ {a : Val × Val} {x}, a ∈ kvs → KeyWrites stdW stdM defaultEncOpts k a.1 x → ∃ s, a.1 = .str s ∧ x = b! "\"" ++ s ++ b! "\"" := by
      intro a x ha hx
      have hc := h2 a ha
      generalize a.1 = z at hx hc
      cases hx with
      | str _ h => exact ⟨_, rfl, by rw [spelling_unique (default_spelled h) (clearB_spelling hc)]⟩
      | nilText h => exact absurd hks h
      | text h => exact absurd hks h
      | quoted h => exact absurd hks h
    obtain ⟨s, e1, rfl⟩ := key ha hx
    obtain ⟨s', e2, rfl⟩ := key hb hy
    rw [keyBody_quotes, keyBody_quotes]
    rintro rfl
    exact hab (by rw [e1, e2])
  · intro t' kvs hw
    have := allParts_within h hw
    simp [keysStdB] at this

/-! ## Examples -/

/-- A `map[string]interface{}` with an `Out`, a `[]PLoud`, and a nested map holding a `map[string]interface{}`. -/
def stdCells : List (Addr × Cell) :=
  [(100, .hmap [(110, 130), (150, 170), (190, 210)]), (110, .str (b! "ps")), (130, .eface (some (28, 300))), (150, .str (b! "out")), (170, .eface (some (36, 1000))),
   (190, .str (b! "m")), (210, .eface (some (24, 400))),
   (300, .slice 320 1), (320, .int (.int 5)),
   (400, .hmap [(420, 440)]), (420, .str (b! "k")), (440, .eface (some (53, 320))),
   (1000, .word 2000), (1008, .slice 1200 2), (1032, .str (b! "soft")), (1048, .slice 1300 4), (1072, .str (b! "1.50")), (1088, .int (.int64 7)),
   (1096, .slice 1300 4), (1120, .str (b! "plain")), (1200, .str (b! "a")), (1216, .str (b! "b")),
   (1300, .int (.uint8 91)), (1301, .int (.uint8 32)), (1302, .int (.uint8 49)), (1303, .int (.uint8 93)),
   (2000, .int (.int 12)), (2008, .time { unix := 951782400, nsec := 500, offset := 3600 }), (2032, .str [])]

def stdBase : Val := .struct [.int (.int 12), .time { unix := 951782400, nsec := 500, offset := 3600 }, .str []]

def stdOut : Val :=
  .struct [.ptr stdBase, .slice [.str (b! "a"), .str (b! "b")], .str (b! "soft"),
    .slice [.int (.uint8 91), .int (.uint8 32), .int (.uint8 49), .int (.uint8 93)], .str (b! "1.50"), .int (.int64 7),
    .slice [.int (.uint8 91), .int (.uint8 32), .int (.uint8 49), .int (.uint8 93)], .str (b! "plain")]

def stdV : Val :=
  .map [(.str (b! "ps"), .iface 28 (.slice [.struct [.int (.int 5)]])), (.str (b! "out"), .iface 36 stdOut),
    (.str (b! "m"), .iface 24 (.map [(.str (b! "k"), .iface 53 (.ptr (.struct [.int (.int 5)])))]))]

theorem stdV_holds : ReprE stdW.E (stdH stdCells).mem (some (24, 100)) (.iface 24 stdV) := std_holds 14 (by decide +kernel)

theorem stdV_alike : StdAlike stdW stdM 24 stdV := by
  refine stdB_alike (n := 9) ?_ (by decide +kernel)
  cases repr_inIface stdV_holds with
  | val h => exact h

theorem stdV_text : marshal stdW (stdH stdCells) 19 (some (24, 100)) = .ret (some (b!
    "{\"m\":{\"k\":[1,2]},\"out\":{\"id\":\"12\",\"when\":\"2000-02-29T01:00:00.0000005+01:00\",\"L\":[[1,2],[1,2]],\"T\":\"soft\",\"\\u003cr\\u003e\":[1],\"N\":1.50,\"D\":7,\"B\":\"WyAxXQ==\",\"s\":\"\\\"plain\\\"\"},\"ps\":[[1,2]]}")) none := by
  decide +kernel

/-- The hypotheses of `C57_sound_partial`. -/
theorem stdV_std : StdWrites stdW stdM 24 false false stdV (b!
    "{\"m\":{\"k\":[1,2]},\"out\":{\"id\":\"12\",\"when\":\"2000-02-29T01:00:00.0000005+01:00\",\"L\":[[1,2],[1,2]],\"T\":\"soft\",\"\\u003cr\\u003e\":[1],\"N\":1.50,\"D\":7,\"B\":\"WyAxXQ==\",\"s\":\"\\\"plain\\\"\"},\"ps\":[[1,2]]}") :=
  (C57_sound_partial (std_writes _) std_semicolons stdV_holds (timesB_fine (n := 9) (by decide +kernel)) stdV_alike 19).1 _ stdV_text

/-- The hypotheses of `C57_complete_partial`. -/
example (dst : Bytes) : append stdW (stdH stdCells) 19 dst (some (24, 100)) = .ret (some (dst ++ b!
    "{\"m\":{\"k\":[1,2]},\"out\":{\"id\":\"12\",\"when\":\"2000-02-29T01:00:00.0000005+01:00\",\"L\":[[1,2],[1,2]],\"T\":\"soft\",\"\\u003cr\\u003e\":[1],\"N\":1.50,\"D\":7,\"B\":\"WyAxXQ==\",\"s\":\"\\\"plain\\\"\"},\"ps\":[[1,2]]}")) none :=
  (C57_complete_partial (std_faults _) (std_writes _) std_pathFree std_semicolons stdV_holds (timesB_fine (n := 9) (by decide +kernel)) stdV_alike
    (keysStdB_differ (n := 9) (by decide +kernel)).told stdV_std 19 dst (by rw [stdV_text]; simp)).2

def baseTypes : List TId := [16, 0, 12, 2]

theorem base_parts {u t : TId} (ht : t ∈ baseTypes) : ¬ PartOf stdW.E u t := by
  have key : ∀ t ∈ baseTypes, (match (stdW.E t).kind with | .struct _ | .int _ | .string => true | _ => false) = true := by decide +kernel
  have := key t ht
  intro h
  cases h <;> simp_all

theorem base_inside {u t : TId} (ht : t ∈ baseTypes) : ¬ Inside stdW.E u t := by
  intro h
  induction h with
  | one h => exact base_parts ht h
  | step _ _ ih => exact ih ht

/-- `Marshal` of a `Base`. -/
def baseCall : Call := ⟨stdH (stdCells.drop 26), stdW.order, some (16, 2000), [], none⟩

theorem base_finite : FiniteCall stdW 20 200 baseCall baseTypes stdM where
  types :=
    { parts := fun t ht u h => absurd h (base_parts ht)
      fields := fun t ht fs sf h hsf => by
        have k : ∀ t ∈ baseTypes, ∀ sf ∈ fieldsOfK (stdW.E t).kind, sf.typ ∈ baseTypes := by decide +kernel
        refine k t ht sf ?_
        have : (stdW.E t).kind = .struct fs := h
        rw [this]; exact hsf
      grounded := fun t ht h => base_inside ht h }
  tfuel := by decide
  room := by decide
  ready := std_ready _
  heap := by
    have key : ∀ p c, (stdH (stdCells.drop 26)).mem.at p = some c → c ∈ (stdCells.drop 26).map (·.2) ∨ ∃ a, c = .word a := by
      intro p c h
      cases p with
      | heap a =>
        simp only [Mem.at] at h
        split at h
        · cases h
        simp only [stdH, univHeap, Option.map_eq_some_iff] at h
        obtain ⟨x, h1, rfl⟩ := h
        exact .inl (List.mem_map.mpr ⟨x, List.mem_of_find?_eq_some h1, rfl⟩)
      | tmp a => exact .inr ⟨a, (Option.some.inj h).symm⟩
    refine ⟨fun p x h => ?_, fun p x h => ?_, fun p es h => ?_⟩ <;>
    · rcases key p _ h with h | ⟨a, h⟩
      · simp [stdCells] at h
      · cases h
  value := fun x hx => by
    cases hx
    exact ⟨by decide, stdBase, std_holds 9 (by decide +kernel), by decide +kernel⟩

/-- The hypotheses of `C57_iff_partial`. -/
example (b : Bytes) : marshal (baseCall.world stdW) baseCall.heap 200 (some (16, 2000)) = .ret (some b) none ↔ StdWrites stdW stdM 16 false false stdBase b := by
  have hx : ReprE stdW.E (stdH (stdCells.drop 26)).mem (some (16, 2000)) (.iface 16 stdBase) := std_holds 9 (by decide +kernel)
  refine C57_iff_partial base_finite (std_faults _) (std_writes _) std_pathFree std_semicolons rfl hx (timesB_fine (n := 9) (by decide +kernel)) ?_
    (keysStdB_differ (n := 9) (by decide +kernel)).told
  refine stdB_alike (n := 9) ?_ (by decide +kernel)
  cases repr_inIface hx with
  | val h => exact h

/-! ## Counterexamples -/

/-- Finding 23: map members are in the order of the escaped keys, those of encoding/json in the
order of the keys. -/
theorem C57_order_wrong : ∃ H v out out', WriteReady shopW H (univM shopMeth) ∧ ReprE shopW.E H.mem (some (58, 100)) (.iface 58 v) ∧
    v = .map [(.str (b! "a<"), .int (.int 1)), (.str (b! "a="), .int (.int 2))] ∧ marshal shopW H 9 (some (58, 100)) = .ret (some out) none ∧
    StdWrites shopW (univM shopMeth) 58 false false v out' ∧ out = b! "{\"a=\":2,\"a\\u003c\":1}" ∧ out' = b! "{\"a\\u003c\":1,\"a=\":2}" := by
  refine ⟨_, _, _, _, shop_writes [(100, .hmap [(110, 130), (150, 170)]), (110, .str (b! "a<")), (130, .int (.int 1)), (150, .str (b! "a=")), (170, .int (.int 2))],
    shop_holds 9 (by decide +kernel), rfl, by decide +kernel, ?_, rfl, rfl⟩
  have hk : ∀ {t}, (shopW.E t).special = none → (shopW.E t).meths = {} → (shopW.E t).pmeths = {} → StdKind shopW.E t false := by
    intro t h1 h2 h3
    exact ⟨h1, by simp [Available, MethSet.Has, h2], by simp [Available, MethSet.Has, h2]⟩
  have hi : ∀ n : Nat, n = 1 ∨ n = 2 → StdWrites shopW (univM shopMeth) 0 false false (.int (.int (Int64.ofNat n))) [UInt8.ofNat (48 + n)] := by
    rintro n (rfl | rfl)
    · exact .int (hk rfl rfl rfl) rfl (.nonneg (b! "1") (.inr ⟨c! '1', [], rfl, by decide, by simp⟩))
    · exact .int (hk rfl rfl rfl) rfl (.nonneg (b! "2") (.inr ⟨c! '2', [], rfl, by decide, by simp⟩))
  have hs1 : Spelling true true (b! "a<") (b! "a\\u003c") := by
    exact .ascii (by decide) (by decide) (by decide) (by decide) (fun _ h => by simp [IsHtml] at h)
      (Spelling.html rfl (.inl rfl) .nil)
  have := StdWrites.map (W := shopW) (M := univM shopMeth) (t := 58) (ca := false) (k := 2) (e := 0)
    (kvs := [(.str (b! "a<"), .int (.int 1)), (.str (b! "a="), .int (.int 2))]) (ms := [(b! "a<", b! "1"), (b! "a=", b! "2")])
    (ms' := [(b! "a<", b! "1"), (b! "a=", b! "2")]) (names := [b! "\"a\\u003c\"", b! "\"a=\""]) (hk rfl rfl rfl) rfl (.inl rfl) rfl ?_ ?_ ⟨.refl _, by simp [ByteLe]⟩ rfl ?_
  · exact this
  · intro i kv m h1 h2
    match i, h1, h2 with
    | 0, h1, h2 => cases h1; cases h2; exact .str rfl
    | 1, h1, h2 => cases h1; cases h2; exact .str rfl
    | _ + 2, h1, _ => cases h1
  · intro i kv m h1 h2
    match i, h1, h2 with
    | 0, h1, h2 => cases h1; cases h2; exact hi 1 (.inl rfl)
    | 1, h1, h2 => cases h1; cases h2; exact hi 2 (.inr rfl)
    | _ + 2, h1, _ => cases h1
  · intro i m s h1 h2
    match i, h1, h2 with
    | 0, h1, h2 => cases h1; cases h2; exact ⟨_, hs1, rfl⟩
    | 1, h1, h2 => cases h1; cases h2; exact ⟨_, clearB_spelling (by decide), rfl⟩
    | _ + 2, h1, _ => cases h1

/-- `type Semi struct { A int "a;b" }`. -/
def semiDefs : List TypeDef :=
  [ { kind := .int .int, name := b! "int", size := 8 },
    { kind := .struct [fld (b! "A") 0 0 (b! "a;b")], name := b! "Semi", size := 8 } ]

theorem semi_ok : univOk semiDefs = true := by decide +kernel

theorem semi_members : MembersOf (stdLetter asciiTab.isLetter) asciiTab.isDigit (univE semiDefs) 2 [⟨[0], fld (b! "A") 0 0 (b! "a;b"), b! "a;b"⟩] := by
  have hf : HasFields (univE semiDefs) 2 [fld (b! "A") 0 0 (b! "a;b")] := rfl
  have htag : ∀ n, TagGives (stdLetter asciiTab.isLetter) asciiTab.isDigit (b! "a;b") n ↔ n = b! "a;b" := by
    intro n
    constructor
    · rintro ⟨opts, hr, -⟩
      exact (tagReading_unique hr (o' := []) ⟨by decide, by simp, .inl ⟨rfl, rfl⟩⟩).1
    · rintro rfl
      exact ⟨[], ⟨by decide, by simp, .inl ⟨rfl, rfl⟩⟩, by decide, [0x61, 0x3B, 0x62], fun c hc => by
        simp only [List.mem_cons, List.not_mem_nil, or_false] at hc
        rcases hc with rfl | rfl | rfl <;> exact ⟨by simp [IsScalar], .inr (.inl (by decide))⟩, by decide +kernel⟩
  have hreach : ∀ {p u q}, Reaches (stdLetter asciiTab.isLetter) asciiTab.isDigit (univE semiDefs) 2 p u q → u = 2 ∧ p = [] := by
    intro p u q h
    induction h with
    | here => exact ⟨rfl, rfl⟩
    | step h h1 h2 h3 ih =>
      obtain ⟨rfl, rfl⟩ := ih
      replace h1 : (univE semiDefs 2).kind = .struct _ := h1
      replace hf : (univE semiDefs 2).kind = .struct _ := hf
      rw [hf] at h1
      cases h1
      have := List.mem_of_getElem? h2
      rw [List.mem_singleton] at this
      subst this
      have := h3.2.1
      cases this
  have hno : ∀ v ptr, ¬ Promotes (stdLetter asciiTab.isLetter) asciiTab.isDigit (univE semiDefs) (fld (b! "A") 0 0 (b! "a;b")) v ptr :=
    fun v ptr h => by have := h.2.1; cases this
  have hprom : ∀ {path u i sf n tg r}, Promoted (stdLetter asciiTab.isLetter) asciiTab.isDigit (univE semiDefs) 2 path u i sf n tg r →
      path = [0] ∧ sf = fld (b! "A") 0 0 (b! "a;b") ∧ n = b! "a;b" := by
    rintro path u i sf n tg r ⟨⟨p, q, h1, h2, -⟩, ⟨fs, h3, h4⟩, h5⟩
    obtain ⟨rfl, rfl⟩ := hreach h1
    replace h3 : (univE semiDefs 2).kind = .struct _ := h3
    replace hf : (univE semiDefs 2).kind = .struct _ := hf
    rw [hf] at h3
    cases h3
    match i, h4 with
    | 0, h4 =>
      cases h4
      refine ⟨h2, rfl, ?_⟩
      rcases h5.2.2 with ⟨-, h⟩ | ⟨-, h, -⟩
      · exact (htag _).mp h
      · exact absurd ((htag _).mpr rfl) (h _)
    | _ + 1, h4 => cases h4
  refine ⟨List.pairwise_singleton _ _, fun m => ?_⟩
  rw [List.mem_singleton]
  constructor
  · rintro rfl
    refine ⟨[], 2, 0, _, true, rfl, ⟨⟨[], [], .here, rfl, rfl⟩, ⟨_, hf, rfl⟩, ⟨.inl rfl, by decide⟩, hno, .inl ⟨rfl, (htag _).mpr rfl⟩⟩, ⟨⟨_, .here⟩, ?_⟩, ?_, ?_⟩
    · intro p' q' h
      exact .inl (hreach h).2
    · rintro ⟨a, b, hab, ⟨-, ha⟩, ⟨-, hb⟩⟩
      rw [List.length_eq_zero_iff.mp ha, List.length_eq_zero_iff.mp hb] at hab
      exact hab rfl
    · intro p' u' i' sf' tg' r' h _ hne
      exact absurd (hprom h).1 hne
  · rintro ⟨p, u, i, r, tg, -, hp, -⟩
    obtain ⟨h1, h2, h3⟩ := hprom hp
    cases m
    simp_all

/-- Finding 24: a semicolon in the name of a tag makes jettison use the name of the field. -/
theorem C57_semicolon_wrong : ∃ W H M v out out', Ready W H M ∧ ReprE W.E H.mem (some (2, 100)) (.iface 2 v) ∧ v = .struct [.int (.int 1)] ∧
    marshal W H 9 (some (2, 100)) = .ret (some out) none ∧ StdWrites W M 2 false false v out' ∧ out = b! "{\"A\":1}" ∧ out' = b! "{\"a;b\":1}" := by
  refine ⟨univW semiDefs, univHeap semiDefs stdMethods [(100, .int (.int 1))], stdM, _, _, _, univ_ready semi_ok _ _, univ_repr 9 (by decide +kernel), rfl,
    by decide +kernel, ?_, rfl, rfl⟩
  have hk : ∀ {t}, (univE semiDefs t).special = none → (univE semiDefs t).meths = {} → StdKind (univE semiDefs) t false := by
    intro t h1 h2
    exact ⟨h1, by simp [Available, MethSet.Has, h2], by simp [Available, MethSet.Has, h2]⟩
  have := StdWrites.struct (W := univW semiDefs) (M := stdM) (t := 2) (ca := false) (v := .struct [.int (.int 1)])
    (l := [⟨[0], fld (b! "A") 0 0 (b! "a;b"), b! "a;b"⟩]) (kept := [⟨[0], fld (b! "A") 0 0 (b! "a;b"), b! "a;b"⟩]) (q' := fun _ => false) (ca' := fun _ => false)
    (x := fun _ => .int (.int 1)) (b := fun _ => b! "1") (key := fun _ => b! "a;b") (hk rfl rfl) ⟨_, rfl⟩ semi_members (.refl _) ?_ ?_ ?_ ?_ ?_ ?_
  · exact this
  · intro m hm
    cases List.mem_singleton.mp hm
    refine iff_of_true hm ?_
    rintro (h | ⟨x, -, h, -⟩)
    · cases h
    · rw [hasOpt_iff] at h
      revert h
      decide
  · intro m hm
    cases List.mem_singleton.mp hm
    exact .last rfl
  · intro m hm
    cases List.mem_singleton.mp hm
    refine iff_of_false (by simp) ?_
    rintro ⟨h, -⟩
    rw [hasOpt_iff] at h
    revert h
    decide
  · intro m hm
    cases List.mem_singleton.mp hm
    refine iff_of_false (by simp) ?_
    rintro (h | h) <;> cases h
  · intro m hm
    cases List.mem_singleton.mp hm
    exact .int (hk rfl rfl) rfl (.nonneg (b! "1") (.inr ⟨c! '1', [], rfl, by decide, by simp⟩))
  · intro m hm
    cases List.mem_singleton.mp hm
    have h : ∀ c ∈ b! "a;b", ¬ IsHtml c := by simp [IsHtml]
    have hs : ∀ c ∈ b! "a;b", ∀ s, ¬ SepFirst (c :: s) := by simp [SepFirst, utf8Encode]
    exact .other (h _ (by decide)) (hs _ (by decide) _) (.other (h _ (by decide)) (hs _ (by decide) _) (.other (h _ (by decide)) (hs _ (by decide) _) .nil))

end Jettison.Props
