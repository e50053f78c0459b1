import Verif.Proofs.GenOk
import Verif.Proofs.PrefixRun

/-!
# The encoder on shared state gives the results of the model
-/

namespace Jettison.Proofs
open Jettison Jettison.Model Jettison.Spec

variable {W : World} {X D N : Prop} {α β : Type} {K : Known} {h h' h1 h2 : Frag} {s s' s1 s2 : Sl} {d : Bytes}

theorem SliceIs.length (hh : SliceIs h s d) : d.length = s.len := by
  obtain ⟨⟨c, -, h2, rfl⟩, -⟩ := hh
  rw [List.length_take]; omega

/-- What appending to `s` with the result `s'` does to the arrays of a call. -/
structure MovesA (h : Frag) (s : Sl) (h' : Frag) (s' : Sl) : Prop where
  others : ∀ a, a ≠ s.arr → h.arr a ≠ none → h'.arr a = h.arr a
  own : ∃ c c', h.arr s.arr = some c ∧ h'.arr s.arr = some c' ∧ c'.length = c.length ∧ c'.take s.len = c.take s.len
  res : s'.arr = s.arr ∨ h.arr s'.arr = none ∧ h.keep s'.arr = []
  keep : h'.keep = h.keep
  le : s.len ≤ s'.len

/-- What appending does to the memory of a call. -/
structure Moves (h : Frag) (s : Sl) (h' : Frag) (s' : Sl) : Prop extends MovesA h s h' s' where
  objs : h'.obj = h.obj

theorem MovesA.refl (hh : SliceIs h s d) : MovesA h s h s := by
  obtain ⟨⟨c, h1, -, -⟩, -⟩ := hh
  exact ⟨fun _ _ _ => rfl, ⟨c, c, h1, h1, rfl, rfl⟩, .inl rfl, rfl, Nat.le_refl _⟩

theorem Moves.refl (hh : SliceIs h s d) : Moves h s h s := ⟨.refl hh, rfl⟩

theorem take_le {c c' : Bytes} {n m : Nat} (h : n ≤ m) (e : c'.take m = c.take m) : c'.take n = c.take n := by
  have := congrArg (List.take n) e
  simpa [List.take_take, Nat.min_eq_left h] using this

theorem MovesA.keeps (m : MovesA h s h' s') {a : Nat} (ha : h.arr a ≠ none) : h'.arr a ≠ none := by
  by_cases e : a = s.arr
  · subst e; obtain ⟨c, c', -, h2, -⟩ := m.own; rw [h2]; simp
  · rw [m.others a e ha]; exact ha

theorem MovesA.trans (m1 : MovesA h s h1 s1) (m2 : MovesA h1 s1 h2 s2) : MovesA h s h2 s2 := by
  refine ⟨fun a ha hn => ?_, ?_, ?_, m2.keep.trans m1.keep, Nat.le_trans m1.le m2.le⟩
  · have e1 := m1.others a ha hn
    rw [m2.others a ?_ (by rw [e1]; exact hn), e1]
    rintro rfl
    rcases m1.res with e | e
    · exact ha e
    · exact hn e.1
  · obtain ⟨c, c1, a1, a2, a3, a4⟩ := m1.own
    by_cases e : s1.arr = s.arr
    · obtain ⟨c1', c2, b1, b2, b3, b4⟩ := m2.own
      rw [e] at b1 b2
      rw [a2] at b1
      cases b1
      exact ⟨c, c2, a1, b2, by rw [b3, a3], by rw [take_le m1.le b4, a4]⟩
    · exact ⟨c, c1, a1, by rw [m2.others _ (Ne.symm e) (by rw [a2]; simp), a2], a3, a4⟩
  · rcases m2.res with e | e
    · rw [e]; exact m1.res
    · exact .inr ⟨Classical.byContradiction fun hn => m1.keeps hn e.1, by rw [← m1.keep]; exact e.2⟩

/-- The result is not in an array where something has to stay, unless the argument was. -/
theorem MovesA.free (m : MovesA h s h' s') (hk : h.keep s.arr = []) : h'.keep s'.arr = [] := by
  rw [m.keep]
  rcases m.res with e | e
  · rw [e]; exact hk
  · exact e.2

theorem Moves.trans (m1 : Moves h s h1 s1) (m2 : Moves h1 s1 h2 s2) : Moves h s h2 s2 :=
  ⟨m1.toMovesA.trans m2.toMovesA, m2.objs.trans m1.objs⟩

/-- What a panic leaves of the memory of a call that was appending to `s`: what was taken before is still
there, and the bytes in `s` are. -/
structure Spoils (h : Frag) (s : Sl) (h' : Frag) : Prop where
  others : ∀ a, a ≠ s.arr → h.arr a ≠ none → h'.arr a = h.arr a
  own : ∃ c c', h.arr s.arr = some c ∧ h'.arr s.arr = some c' ∧ c'.length = c.length ∧ c'.take s.len = c.take s.len
  keep : h'.keep = h.keep
  objs : ∀ id, h.obj id ≠ none → h'.obj id = h.obj id

theorem Moves.spoils (m : Moves h s h' s') : Spoils h s h' := ⟨m.others, m.own, m.keep, fun _ _ => by rw [m.objs]⟩

theorem Spoils.refl (hh : SliceIs h s d) : Spoils h s h := (Moves.refl hh).spoils

theorem Moves.spoil (m1 : Moves h s h1 s1) (m2 : Spoils h1 s1 h2) : Spoils h s h2 := by
  refine ⟨fun a ha hn => ?_, ?_, m2.keep.trans m1.keep, fun id hid => ?_⟩
  · have e1 := m1.others a ha hn
    rw [m2.others a ?_ (by rw [e1]; exact hn), e1]
    rintro rfl
    rcases m1.res with e | e
    · exact ha e
    · exact hn e.1
  · obtain ⟨c, c1, a1, a2, a3, a4⟩ := m1.own
    by_cases e : s1.arr = s.arr
    · obtain ⟨c1', c2, b1, b2, b3, b4⟩ := m2.own
      rw [e] at b1 b2
      rw [a2] at b1
      cases b1
      exact ⟨c, c2, a1, b2, by rw [b3, a3], by rw [take_le m1.le b4, a4]⟩
    · exact ⟨c, c1, a1, by rw [m2.others _ (Ne.symm e) (by rw [a2]; simp), a2], a3, a4⟩
  · rw [m2.objs id (by rw [m1.objs]; exact hid), m1.objs]

/-- The end of an encoder that does to bytes what gave `R`. -/
def EncPost (h : Frag) (s : Sl) (R : Res) : PostC RS := fun _ h' w' r => w' = [] ∧
  match r, R with
  | .ok s', .ok b => Moves h s h' s' ∧ SliceIs h' s' b
  | .fail e s', .fail e' b => e = e' ∧ Moves h s h' s' ∧ SliceIs h' s' b
  | .panic, .panic => Spoils h s h'
  | .bad, .bad => True
  | _, _ => False

theorem encPost_trans (m : Moves h s h1 s1) {R : Res} {K' : Known} {w' : Owed} {r : RS} (hp : EncPost h1 s1 R K' h' w' r) : EncPost h s R K' h' w' r := by
  refine ⟨hp.1, ?_⟩
  have hp := hp.2
  cases r <;> cases R <;> simp only at hp ⊢
  · exact ⟨m.trans hp.1, hp.2⟩
  · exact ⟨hp.1, m.trans hp.2.1, hp.2.2⟩
  · exact m.spoil hp

/-- The program ends as stated; it runs out of the bounds of the model only if the function does, or `X`. -/
abbrev MeetsE (W : World) (X : Prop) (h0 : Frag) (s0 : Sl) (R : Res) (p : Prog RS) (K : Known) (h : Frag) : Prop :=
  Meets W (X ∨ R = .nofuel) (EncPost h0 s0 R) p K h []

/-- The program encodes as the function. -/
def Enc (W : World) (X : Prop) (K : Known) (p : Sl → Prog RS) (f : Bytes → Res) : Prop :=
  ∀ K', K.Le K' → ∀ h s d, SliceIs h s d → MeetsE W X h s (f d) (p s) K' h

theorem enc_le {K' : Known} (hk : K.Le K') {p : Sl → Prog RS} {f : Bytes → Res} (he : Enc W X K p f) : Enc W X K' p f :=
  fun K'' h'' => he K'' (hk.trans h'')

theorem slice_all (c : Bytes) (n : Nat) : slice c 0 n = c.take n := by simp [slice]

theorem good_read {Post : PostC β} {k : Bytes → Prog β} (hh : SliceIs h s d) (hk : ∀ K', K.Le K' → Meets W D Post (k d) K' h []) :
    Meets W D Post ((Op.read s.sub).call >>= k) K h [] := by
  obtain ⟨⟨c, h1, h2, h3⟩, -⟩ := hh
  refine good_call fun K' hl => ⟨rfl, c, h1, h2, ?_⟩
  simp only [Sl.sub, slice_all, h3]
  exact hk K' hl

theorem good_scratch {Post : PostC β} {k : Bytes → Prog β} (hh : SliceIs h s d)
    (hk : ∀ K' h', K.Le K' → Moves h s h' s → SliceIs h' s d → Meets W D Post (k d) K' h' []) : Meets W D Post ((Op.scratch s).call >>= k) K h [] := by
  obtain ⟨⟨c, h1, h2, h3⟩, hkp⟩ := hh
  refine good_call fun K' hl => ⟨rfl, hkp, c, h1, h2, fun c' a1 a2 => ?_⟩
  rw [h3]
  have e : (h.setArr s.arr c').arr s.arr = some c' := by simp [Frag.setArr]
  refine hk K' _ hl ⟨⟨fun a ha hn => ?_, ⟨c, c', h1, e, a1, a2⟩, .inl rfl, rfl, Nat.le_refl _⟩, rfl⟩ ⟨⟨c', e, by omega, by rw [a2, h3]⟩, hkp⟩
  simp [Frag.setArr, ha]

theorem good_write {Post : PostC Sl} {w : Owed} {b : Bytes} (hh : SliceIs h s d) (hb : d <+: b)
    (hk : ∀ K' h' s', K.Le K' → Moves h s h' s' → SliceIs h' s' b → Post K' h' w s') :
    Meets W D Post (Op.write s b).call K h w := by
  obtain ⟨⟨c, h1, h2, rfl⟩, hkp⟩ := hh
  obtain ⟨t, rfl⟩ := hb
  have hlen : s.len ≤ (c.take s.len ++ t).length := by rw [List.length_append, List.length_take]; omega
  have htake : (c.take s.len ++ t).take s.len = c.take s.len := by rw [List.take_left' (by rw [List.length_take]; omega)]
  refine good_callLast fun K' hl => ⟨c, h1, ⟨hkp, h2, t, rfl⟩, fun c' a1 a2 a3 K3 hl3 => ?_, fun a c1 c' a0 ak a1 a2 a3 a4 K3 hl3 => ?_⟩
  · refine hk K3 _ _ (hl.trans hl3) ⟨⟨fun a ha hn => ?_, ⟨c, c', h1, ?_, a1, ?_⟩, .inl rfl, rfl, hlen⟩, rfl⟩ ⟨⟨c', ?_, by simp only; omega, a3⟩, Nat.le_trans hkp hlen⟩
    · simp [Frag.setArr, ha]
    · simp [Frag.setArr]
    · have := congrArg (List.take s.len) a3
      rw [List.take_take, Nat.min_eq_left hlen, htake] at this
      exact this
    · simp [Frag.setArr]
  · have hne : s.arr ≠ a := by rintro rfl; rw [h1] at a0; cases a0
    refine hk K3 _ _ (hl.trans hl3) ⟨⟨fun a' ha hn => ?_, ⟨c, c1, h1, ?_, a1, a2⟩, .inr ⟨a0, ak⟩, rfl, hlen⟩, rfl⟩ ⟨⟨c', ?_, a3, a4⟩, by show (h.keep a).length ≤ _; rw [ak]; exact Nat.zero_le _⟩
    · have : a' ≠ a := by rintro rfl; exact hn a0
      simp [Frag.setArr, ha, this]
    · simp [Frag.setArr, hne]
    · simp [Frag.setArr]

theorem good_add {Post : PostC β} {k : Sl → Prog β} {b : Bytes} (hh : SliceIs h s d)
    (hk : ∀ K' h' s', K.Le K' → Moves h s h' s' → SliceIs h' s' (d ++ b) → Meets W D Post (k s') K' h' []) :
    Meets W D Post (addBytes s b >>= k) K h [] := by
  refine good_bind ?_
  unfold addBytes
  refine good_read hh fun K1 l1 => ?_
  exact good_write hh ⟨b, rfl⟩ fun K' h' s' l m hh' hl => hk K' h' s' (l1.trans l) m hh'

theorem enc_addLast (b : Bytes) : Enc W X K (fun s => addLast s b) (fun d => .ok (d ++ b)) := by
  intro K' hl h s d hh
  refine good_add hh fun K1 h1 s1 l1 m1 hh1 => ?_
  exact good_pure fun _ _ => ⟨rfl, m1, hh1⟩

theorem good_addLast {R : Res} {b : Bytes} {h0 : Frag} {s0 : Sl} (m : Moves h0 s0 h s) (hh : SliceIs h s d) (hR : R = .ok (d ++ b)) :
    MeetsE W X h0 s0 R (addLast s b) K h := by
  subst hR
  exact good_mono (fun _ _ _ _ _ hp => encPost_trans m hp) (enc_addLast b K (.refl K) h s d hh)

/-- Encoders over bytes that only append and fail with the destination as it was. -/
theorem enc_onBytes {f : Bytes → Res} (hp : Pre f) (hf : ∀ d e b, f d = .fail e b → b = d) : Enc W X K (onBytes f) f := by
  intro K' hl h s d hh
  refine good_scratch hh fun K1 h1 l1 m1 hh1 => ?_
  cases hr : f d with
  | ok b =>
    obtain ⟨out, -, rfl⟩ := pre_res_ok hp hr
    refine good_bind (good_write hh1 ⟨out, rfl⟩ fun K2 h2 s2 l2 m2 hh2 _ => ?_)
    exact good_pure fun _ _ => ⟨rfl, m1.trans m2, hh2⟩
  | fail e b =>
    have := hf _ _ _ hr
    subst this
    exact good_pure fun _ _ => ⟨rfl, rfl, m1, hh1⟩
  | panic => exact good_pure fun _ _ => ⟨rfl, m1.spoils⟩
  | bad => exact good_pure fun _ _ => ⟨rfl, trivial⟩
  | nofuel => exact .inr rfl

/-- Calling an encoder. -/
theorem good_rec {Post : PostC β} {k : RS → Prog β} {p : Sl → Prog RS} {f : Bytes → Res} (he : Enc W X K p f) (hh : SliceIs h s d)
    (hok : ∀ K' h' s' b, K.Le K' → f d = .ok b → Moves h s h' s' → SliceIs h' s' b → Meets W (X ∨ N) Post (k (.ok s')) K' h' [])
    (hfail : ∀ K' h' e s' b, K.Le K' → f d = .fail e b → Moves h s h' s' → SliceIs h' s' b → Meets W (X ∨ N) Post (k (.fail e s')) K' h' [])
    (hpanic : ∀ K' h', K.Le K' → f d = .panic → Spoils h s h' → Meets W (X ∨ N) Post (k .panic) K' h' [])
    (hbad : ∀ K' h', K.Le K' → f d = .bad → Meets W (X ∨ N) Post (k .bad) K' h' [])
    (hno : f d = .nofuel → N) : Meets W (X ∨ N) Post (p s >>= k) K h [] := by
  refine good_bind (good_mono (fun K' h' w' r hl hp hl' => ?_) (good_dead (Or.imp_right hno) (he K (.refl K) h s d hh)))
  obtain ⟨rfl, hp⟩ := hp
  cases r with
  | ok s' =>
    cases hr : f d with
    | ok b => rw [hr] at hp; exact hok K' h' s' b hl hr hp.1 hp.2
    | _ => rw [hr] at hp; exact hp.elim
  | fail e s' =>
    cases hr : f d with
    | fail e' b => rw [hr] at hp; obtain ⟨rfl, h1, h2⟩ := hp; exact hfail K' h' e s' b hl hr h1 h2
    | _ => rw [hr] at hp; exact hp.elim
  | panic =>
    cases hr : f d with
    | panic => rw [hr] at hp; exact hpanic K' h' hl hr hp
    | _ => rw [hr] at hp; exact hp.elim
  | bad =>
    cases hr : f d with
    | bad => exact hbad K' h' hl hr
    | _ => rw [hr] at hp; exact hp.elim

theorem good_last {R : Res} {p : Sl → Prog RS} {f : Bytes → Res} {h0 : Frag} {s0 : Sl} (he : Enc W X K p f) (m : Moves h0 s0 h s) (hh : SliceIs h s d)
    (hR : R = f d) : MeetsE W X h0 s0 R (p s) K h := by
  subst hR
  exact good_mono (fun _ _ _ _ _ hp => encPost_trans m hp) (he K (.refl K) h s d hh)

/-! ## Loops -/

/-- The recursive calls encode as those of the model. -/
def RecOk (W : World) (X : Prop) (K : Known) (rec : RecP) (recM : Rec) : Prop :=
  ∀ K', K.Le K' → ∀ path c i p, Den K' c i → Enc W X K' (rec path c p) (recM path i p)

theorem recOk_le {K' : Known} (hk : K.Le K') {rec : RecP} {recM : Rec} (hr : RecOk W X K rec recM) : RecOk W X K' rec recM :=
  fun K'' h'' => hr K'' (hk.trans h'')

theorem structLoop_ok {H : Heap} {o : EncOpts} {rec : RecP} {recM : Rec} {path : Path} {p : Loc} :
    ∀ (l : List CField) (l' : List FInstr) (i : Nat) (first : Bool) (K : Known) (h : Frag) (s : Sl) (d : Bytes) (h0 : Frag) (s0 : Sl),
    RecOk W X K rec recM → DenFs K l l' → Moves h0 s0 h s → SliceIs h s d →
    MeetsE W X h0 s0 (structLoop H o recM path p i l' first d) (structLoopP H o rec path p i l first s) K h
  | [], l', i, first, K, h, s, d, h0, s0, hr, hd, m, hh => by
    cases hd
    simp only [structLoop, structLoopP]
    exact good_addLast m hh (by split <;> rfl)
  | f :: fs, l', i, first, K, h, s, d, h0, s0, hr, hd, m, hh => by
    obtain ⟨ins, l', rfl, hdi, hds⟩ := hd
    have hfl : fieldLoc H.mem o (f.with .iface) p = fieldLoc H.mem o (f.with ins) p := rfl
    simp only [structLoop, structLoopP, hfl]
    cases hx : fieldLoc H.mem o (f.with ins) p with
    | none => exact good_ret fun _ _ => ⟨rfl, trivial⟩
    | some y =>
      cases y with
      | none => exact structLoop_ok fs l' (i + 1) first K h s d h0 s0 hr hds m hh
      | some fp =>
        simp only
        refine good_add hh fun K1 h1 s1 l1 m1 hh1 => ?_
        have e1 : d ++ (if first = true then b! "{" else b! ",") ++ fieldKey o (f.with ins).fld.name =
            d ++ ((if first = true then b! "{" else b! ",") ++ fieldKey o f.fld.name) := by rw [List.append_assoc]; rfl
        rw [e1]
        refine good_rec (hr K1 l1 (i :: path) f.instr ins fp (den_le l1 hdi)) hh1 ?_ ?_ ?_ ?_ ?_
        · intro K2 h2 s2 b l2 hb m2 hh2
          have e2 : recM (i :: path) (f.with ins).instr fp (d ++ ((if first = true then b! "{" else b! ",") ++ fieldKey o f.fld.name)) = .ok b := hb
          rw [e2]
          refine good_read hh2 fun K3 l3 => ?_
          have lK := l1.trans (l2.trans l3)
          have hom : (f.with ins).omitNullMarshaler = f.omitNullMarshaler := rfl
          simp only [hom]
          split
          · have hlast : (if first = true then s.len + 1 else s.len) = (if first = true then d.length + 1 else d.length) := by rw [hh.length]
            have hle : (if first = true then s.len + 1 else s.len) ≤ s1.len := by
              rw [← hh1.length, List.length_append, hh.length, List.length_append]
              split <;> simp <;> omega
            refine structLoop_ok fs l' (i + 1) false K3 h2 _ _ h0 s0 (recOk_le lK hr) (denFs_le lK hds) ?_ ?_
            · have mm := (m.trans m1).trans m2
              exact ⟨⟨mm.others, mm.own, mm.res, mm.keep, by have := m.le; simp only; split <;> omega⟩, mm.objs⟩
            · have hkp : (h2.keep s2.arr).length ≤ s.len := by
                rw [(m1.trans m2).keep]
                rcases (m1.trans m2).res with e | e
                · rw [e]; exact hh.2
                · rw [e.2]; exact Nat.zero_le _
              obtain ⟨⟨c, c1, c2, rfl⟩, -⟩ := hh2
              have := m2.le
              refine ⟨⟨c, c1, by simp only; omega, ?_⟩, by simp only; split <;> omega⟩
              rw [← hlast, List.take_take, Nat.min_eq_left (by omega)]
          · exact structLoop_ok fs l' (i + 1) false K3 h2 s2 b h0 s0 (recOk_le lK hr) (denFs_le lK hds) ((m.trans m1).trans m2) hh2
        · intro K2 h2 e s2 b l2 hb m2 hh2
          have e2 : recM (i :: path) (f.with ins).instr fp (d ++ ((if first = true then b! "{" else b! ",") ++ fieldKey o f.fld.name)) = .fail e b := hb
          rw [e2]
          exact good_pure fun _ _ => ⟨rfl, rfl, (m.trans m1).trans m2, hh2⟩
        · intro K2 h2 l2 hb m2
          have e2 : recM (i :: path) (f.with ins).instr fp (d ++ ((if first = true then b! "{" else b! ",") ++ fieldKey o f.fld.name)) = .panic := hb
          rw [e2]
          exact good_pure fun _ _ => ⟨rfl, (m.trans m1).spoil m2⟩
        · intro K2 h2 l2 hb
          have e2 : recM (i :: path) (f.with ins).instr fp (d ++ ((if first = true then b! "{" else b! ",") ++ fieldKey o f.fld.name)) = .bad := hb
          rw [e2]
          exact good_pure fun _ _ => ⟨rfl, trivial⟩
        · intro hb
          have e2 : recM (i :: path) (f.with ins).instr fp (d ++ ((if first = true then b! "{" else b! ",") ++ fieldKey o f.fld.name)) = .nofuel := hb
          rw [e2]

theorem arrayLoop_ok {rec : RecP} {recM : Rec} {path : Path} {p : Loc} {es : Nat} {c : CInstr} {ins : Instr} :
    ∀ (n i : Nat) (K : Known) (h : Frag) (s : Sl) (d : Bytes) (h0 : Frag) (s0 : Sl),
    RecOk W X K rec recM → Den K c ins → Moves h0 s0 h s → SliceIs h s d →
    MeetsE W X h0 s0 (arrayLoop recM path ins es p i n d) (arrayLoopP rec path c es p i n s) K h
  | 0, i, K, h, s, d, h0, s0, hr, hd, m, hh => by
    simp only [arrayLoop, arrayLoopP]
    exact good_addLast m hh (by split <;> rfl)
  | n + 1, i, K, h, s, d, h0, s0, hr, hd, m, hh => by
    simp only [arrayLoop, arrayLoopP]
    refine good_add hh fun K1 h1 s1 l1 m1 hh1 => ?_
    refine good_rec (hr K1 l1 (i :: path) c ins _ (den_le l1 hd)) hh1 ?_ ?_ ?_ ?_ (fun hb => by simp only [hb])
    · intro K2 h2 s2 b l2 hb m2 hh2
      rw [hb]
      exact arrayLoop_ok n (i + 1) K2 h2 s2 b h0 s0 (recOk_le (l1.trans l2) hr) (den_le (l1.trans l2) hd) ((m.trans m1).trans m2) hh2
    · intro K2 h2 e s2 b l2 hb m2 hh2
      rw [hb]
      exact good_pure fun _ _ => ⟨rfl, rfl, (m.trans m1).trans m2, hh2⟩
    · intro K2 h2 l2 hb m2
      rw [hb]
      exact good_pure fun _ _ => ⟨rfl, (m.trans m1).spoil m2⟩
    · intro K2 h2 l2 hb
      rw [hb]
      exact good_pure fun _ _ => ⟨rfl, trivial⟩

theorem good_comma {Post : PostC β} {k : Sl → Prog β} {b : Bool} (hh : SliceIs h s d)
    (hk : ∀ K' h' s', K.Le K' → Moves h s h' s' → SliceIs h' s' (if b then d ++ b! "," else d) → Meets W D Post (k s') K' h' []) :
    Meets W D Post (commaP b s >>= k) K h [] := by
  cases b with
  | true => exact good_add hh hk
  | false => exact good_bind (good_ret fun K' l _ => hk K' h s l (.refl hh) hh)

theorem unsortedLoop_ok {kp vp : Nat → α → Sl → Prog RS} {kf vf : Nat → α → Bytes → Res} :
    ∀ (es : List α) (n : Nat) (K : Known) (h : Frag) (s : Sl) (d : Bytes) (h0 : Frag) (s0 : Sl),
    (∀ n, ∀ e ∈ es, Enc W X K (kp n e) (kf n e)) → (∀ n, ∀ e ∈ es, Enc W X K (vp n e) (vf n e)) → Moves h0 s0 h s → SliceIs h s d →
    MeetsE W X h0 s0 (unsortedLoop kf vf n es d) (unsortedLoopP kp vp n es s) K h
  | [], n, K, h, s, d, h0, s0, hk, hv, m, hh => good_ret fun _ _ => ⟨rfl, m, hh⟩
  | e :: es, n, K, h, s, d, h0, s0, hk, hv, m, hh => by
    simp only [unsortedLoop, unsortedLoopP]
    refine good_comma hh fun K1 h1 s1 l1 m1 hh1 => ?_
    have e1 : (if decide (n ≠ 0) = true then d ++ b! "," else d) = (if n ≠ 0 then d ++ b! "," else d) := by simp only [decide_eq_true_eq]
    rw [e1] at hh1
    refine good_rec (enc_le l1 (hk n e List.mem_cons_self)) hh1 ?_ ?_ ?_ ?_ (fun hb => by simp only [hb])
    · intro K2 h2 s2 b l2 hb m2 hh2
      rw [hb]
      refine good_add hh2 fun K3 h3 s3 l3 m3 hh3 => ?_
      refine good_rec (enc_le (l1.trans (l2.trans l3)) (hv n e List.mem_cons_self)) hh3 ?_ ?_ ?_ ?_ (fun hb => by simp only [hb])
      · intro K4 h4 s4 b4 l4 hb4 m4 hh4
        simp only [hb4]
        have lK := (l1.trans (l2.trans l3)).trans l4
        exact unsortedLoop_ok es (n + 1) K4 h4 s4 b4 h0 s0 (fun n e he => enc_le lK (hk n e (List.mem_cons_of_mem _ he))) (fun n e he => enc_le lK (hv n e (List.mem_cons_of_mem _ he)))
          ((((m.trans m1).trans m2).trans m3).trans m4) hh4
      · intro K4 h4 e4 s4 b4 l4 hb4 m4 hh4
        simp only [hb4]
        exact good_pure fun _ _ => ⟨rfl, rfl, (((m.trans m1).trans m2).trans m3).trans m4, hh4⟩
      · intro K4 h4 l4 hb4 m4
        simp only [hb4]
        exact good_pure fun _ _ => ⟨rfl, (((m.trans m1).trans m2).trans m3).spoil m4⟩
      · intro K4 h4 l4 hb4
        simp only [hb4]
        exact good_pure fun _ _ => ⟨rfl, trivial⟩
    · intro K2 h2 e s2 b l2 hb m2 hh2
      rw [hb]
      exact good_pure fun _ _ => ⟨rfl, rfl, (m.trans m1).trans m2, hh2⟩
    · intro K2 h2 l2 hb m2
      rw [hb]
      exact good_pure fun _ _ => ⟨rfl, (m.trans m1).spoil m2⟩
    · intro K2 h2 l2 hb
      rw [hb]
      exact good_pure fun _ _ => ⟨rfl, trivial⟩

/-! ## Sorted maps -/

/-- Part of an array, with its content. -/
def SubHolds (h : Frag) (k : Sub) (b : Bytes) : Prop := ∃ c, h.arr k.arr = some c ∧ k.hi ≤ c.length ∧ slice c k.lo k.hi = b

/-- The part is not beyond the end of the slice. -/
def Before (k : Sub) (s : Sl) : Prop := k.arr = s.arr → k.hi ≤ s.len

theorem slice_le {c c' : Bytes} {lo hi n : Nat} (h : hi ≤ n) (e : c'.take n = c.take n) : slice c' lo hi = slice c lo hi := by
  simp only [slice]; rw [take_le h e]

theorem sub_moves (m : MovesA h s h' s') {k : Sub} {b : Bytes} (hs : SubHolds h k b) (hb : Before k s) : SubHolds h' k b ∧ Before k s' := by
  obtain ⟨c, h1, h2, rfl⟩ := hs
  by_cases e : k.arr = s.arr
  · obtain ⟨c0, c', a1, a2, a3, a4⟩ := m.own
    rw [e, a1] at h1
    cases h1
    have := m.le
    have := hb e
    exact ⟨⟨c', by rw [e]; exact a2, by omega, slice_le (hb e) a4⟩, fun _ => by omega⟩
  · have := m.others _ e (by rw [h1]; simp)
    refine ⟨⟨c, by rw [this, h1], h2, rfl⟩, fun e' => ?_⟩
    rcases m.res with r | r
    · exact absurd (e'.trans r) e
    · rw [e', r.1] at h1; cases h1

/-- The collected entries and their content. -/
def Entries (h : Frag) (s : Sl) : List (Sub × Sub) → List (Bytes × Bytes) → Prop
  | [], l => l = []
  | x :: t, l => ∃ kb vb t', l = (kb, vb) :: t' ∧ (SubHolds h x.1 kb ∧ Before x.1 s) ∧ (SubHolds h x.2 vb ∧ Before x.2 s) ∧ Entries h s t t'

theorem entries_moves (m : MovesA h s h' s') : ∀ {l : List (Sub × Sub)} {l' : List (Bytes × Bytes)}, Entries h s l l' → Entries h' s' l l'
  | [], _, he => he
  | _ :: _, _, ⟨kb, vb, t', e, a, b, c⟩ => ⟨kb, vb, t', e, sub_moves m a.1 a.2, sub_moves m b.1 b.2, entries_moves m c⟩

theorem entries_snoc : ∀ {l : List (Sub × Sub)} {l' : List (Bytes × Bytes)} {x : Sub × Sub} {kb vb : Bytes}, Entries h s l l' →
    SubHolds h x.1 kb ∧ Before x.1 s → SubHolds h x.2 vb ∧ Before x.2 s → Entries h s (l ++ [x]) (l' ++ [(kb, vb)])
  | [], _, x, kb, vb, he, hk, hv => by cases he; exact ⟨kb, vb, [], rfl, hk, hv, rfl⟩
  | _ :: _, _, x, kb, vb, ⟨k, v, t', e, a, b, c⟩, hk, hv => ⟨k, v, t' ++ [(kb, vb)], by rw [e]; rfl, a, b, entries_snoc c hk hv⟩

theorem holds_sub (hh : SliceIs h s d) (lo hi : Nat) (hhi : hi ≤ s.len) : SubHolds h ⟨s.arr, lo, hi⟩ (slice d lo hi) := by
  obtain ⟨⟨c, h1, h2, rfl⟩, -⟩ := hh
  refine ⟨c, h1, by simp only; omega, ?_⟩
  simp only [slice, List.take_take, Nat.min_eq_left hhi]

/-- The end of the collecting loop. -/
def CollPost (h : Frag) (sb : Sl) (R : Coll) : PostC CollS := fun _ h' w' r => w' = [] ∧
  match r, R with
  | .ok sb' l, .ok mel => Moves h sb h' sb' ∧ (∃ b, SliceIs h' sb' b) ∧ Entries h' sb' l mel
  | .fail e sb', .stop (.fail e' _) => e = e' ∧ Moves h sb h' sb' ∧ ∃ b, SliceIs h' sb' b
  | .panic, .stop .panic => Spoils h sb h'
  | .bad, .stop .bad => True
  | _, _ => False

theorem sortedLoop_ok {kp vp : Nat → α → Sl → Prog RS} {kf vf : Nat → α → Bytes → Res} :
    ∀ (es : List α) (n : Nat) (K : Known) (h : Frag) (sb : Sl) (buf : Bytes) (l : List (Sub × Sub)) (mel : List (Bytes × Bytes)) (h0 : Frag) (s0 : Sl),
    (∀ n, ∀ e ∈ es, Enc W X K (kp n e) (kf n e)) → (∀ n, ∀ e ∈ es, Enc W X K (vp n e) (vf n e)) → Moves h0 s0 h sb → SliceIs h sb buf → Entries h sb l mel →
    Meets W (X ∨ sortedLoop kf vf n es buf mel = .stop .nofuel) (CollPost h0 s0 (sortedLoop kf vf n es buf mel)) (sortedLoopP kp vp n es sb l) K h []
  | [], n, K, h, sb, buf, l, mel, h0, s0, hk, hv, m, hh, he => good_ret fun _ _ => ⟨rfl, m, ⟨_, hh⟩, he⟩
  | e :: es, n, K, h, sb, buf, l, mel, h0, s0, hk, hv, m, hh, he => by
    simp only [sortedLoop, sortedLoopP]
    refine good_rec (hk n e List.mem_cons_self) hh ?_ ?_ ?_ ?_ (fun hb => by simp only [hb])
    · intro K1 h1 s1 b1 l1 hb1 m1 hh1
      simp only [hb1, hh1.length, hh.length]
      split
      · exact good_pure fun _ _ => ⟨rfl, (m.trans m1).spoils⟩
      · next hlen =>
        refine good_add hh1 fun K2 h2 s2 l2 m2 hh2 => ?_
        refine good_rec (enc_le (l1.trans l2) (hv n e List.mem_cons_self)) hh2 ?_ ?_ ?_ ?_ (fun hb => by simp only [hb])
        · intro K3 h3 s3 b3 l3 hb3 m3 hh3
          simp only [hb3, hh3.length]
          split
          · exact good_pure fun _ _ => ⟨rfl, (((m.trans m1).trans m2).trans m3).spoils⟩
          · have lK := (l1.trans l2).trans l3
            have hk1 : SubHolds h1 ⟨s1.arr, sb.len + 1, s1.len - 1⟩ (slice b1 (sb.len + 1) (s1.len - 1)) := holds_sub hh1 _ _ (by omega)
            have hk2 := sub_moves (m2.trans m3).toMovesA hk1 (fun _ => by simp only; omega)
            have hv2 : SubHolds h3 ⟨s3.arr, sb.len, s3.len⟩ (slice b3 sb.len s3.len) := holds_sub hh3 _ _ (Nat.le_refl _)
            have e2 : slice b3 sb.len s3.len = b3.drop sb.len := by rw [slice, List.take_of_length_le (by rw [hh3.length]; omega)]
            rw [e2] at hv2
            exact sortedLoop_ok es (n + 1) K3 h3 s3 b3 _ _ h0 s0 (fun n e he => enc_le lK (hk n e (List.mem_cons_of_mem _ he))) (fun n e he => enc_le lK (hv n e (List.mem_cons_of_mem _ he)))
              (((m.trans m1).trans m2).trans m3) hh3 (entries_snoc (entries_moves ((m1.trans m2).trans m3).toMovesA he) hk2 ⟨hv2, fun _ => Nat.le_refl _⟩)
        · intro K3 h3 e3 s3 b3 l3 hb3 m3 hh3
          simp only [hb3]
          exact good_pure fun _ _ => ⟨rfl, rfl, ((m.trans m1).trans m2).trans m3, _, hh3⟩
        · intro K3 h3 l3 hb3 m3
          simp only [hb3]
          exact good_pure fun _ _ => ⟨rfl, ((m.trans m1).trans m2).spoil m3⟩
        · intro K3 h3 l3 hb3
          simp only [hb3]
          exact good_pure fun _ _ => ⟨rfl, trivial⟩
    · intro K1 h1 e1 s1 b1 l1 hb1 m1 hh1
      simp only [hb1]
      exact good_pure fun _ _ => ⟨rfl, rfl, m.trans m1, _, hh1⟩
    · intro K1 h1 l1 hb1 m1
      simp only [hb1]
      exact good_pure fun _ _ => ⟨rfl, m.spoil m1⟩
    · intro K1 h1 l1 hb1
      simp only [hb1]
      exact good_pure fun _ _ => ⟨rfl, trivial⟩

theorem readEntries_ok {s : Sl} : ∀ (l : List (Sub × Sub)) (mel : List (Bytes × Bytes)) (K : Known), Entries h s l mel →
    Meets W D (Same h [] fun _ x => x = mel) (readEntries l) K h []
  | [], mel, K, he => by cases he; exact good_ret fun _ _ => ⟨rfl, rfl, rfl⟩
  | (k, kv) :: l, mel, K, he => by
    obtain ⟨kb, vb, t', rfl, ⟨⟨c, a1, a2, a3⟩, -⟩, ⟨⟨c', b1, b2, b3⟩, -⟩, ht⟩ := he
    simp only [readEntries]
    refine good_call fun K1 l1 => ⟨rfl, c, a1, a2, ?_⟩
    refine good_call fun K2 l2 => ⟨rfl, c', b1, b2, ?_⟩
    refine good_step (readEntries_ok l t' K2 ht) ?_
    rintro K3 x l3 rfl
    exact good_pure fun _ _ => ⟨rfl, rfl, by rw [a3, b3]⟩

theorem joinEntries_ok : ∀ (l : List (Bytes × Bytes)) (first : Bool) (K : Known) (h : Frag) (s : Sl) (d : Bytes) (h0 : Frag) (s0 : Sl),
    Moves h0 s0 h s → SliceIs h s d →
    Meets W D (fun _ h' w' s' => w' = [] ∧ Moves h0 s0 h' s' ∧ SliceIs h' s' (joinEntries first l d)) (joinEntriesP first l s) K h []
  | [], first, K, h, s, d, h0, s0, m, hh => good_ret fun _ _ => ⟨rfl, m, hh⟩
  | kv :: t, first, K, h, s, d, h0, s0, m, hh => by
    simp only [joinEntries, joinEntriesP]
    refine good_comma hh fun K1 h1 s1 l1 m1 hh1 => ?_
    have e1 : (if (!first) = true then d ++ b! "," else d) = (if first then d else d ++ b! ",") := by cases first <;> rfl
    rw [e1] at hh1
    refine good_add hh1 fun K2 h2 s2 l2 m2 hh2 => ?_
    exact joinEntries_ok t false K2 h2 s2 _ h0 s0 ((m.trans m1).trans m2) hh2

end Jettison.Proofs
