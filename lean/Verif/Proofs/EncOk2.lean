import Verif.Proofs.EncOk

/-!
# Maps and whole instructions on shared state
-/

namespace Jettison.Proofs
open Jettison Jettison.Model Jettison.Spec

variable {W : World} {X D : Prop} {S : List TId} {rk : TId → Nat} {α β : Type} {K : Known} {h h' h1 h2 : Frag} {s s' s1 s2 : Sl} {d : Bytes}

/-- The second memory has all of the first. -/
structure Wider (h h' : Frag) : Prop where
  arrs : ∀ a, h.arr a ≠ none → h'.arr a = h.arr a
  objs : ∀ id, h.obj id ≠ none → h'.obj id = h.obj id
  keep : h'.keep = h.keep

theorem Wider.refl (h : Frag) : Wider h h := ⟨fun _ _ => rfl, fun _ _ => rfl, rfl⟩

theorem Wider.setObj (e : Wider h h1) {id : Nat} {v : PObj} (hn : h.obj id = none) : Wider h (h1.setObj id v) := by
  refine ⟨e.arrs, fun x hx => ?_, e.keep⟩
  have : x ≠ id := by rintro rfl; exact hx hn
  simp [Frag.setObj, this, e.objs x hx]

theorem Wider.setArr (e : Wider h h1) {a : Nat} {c : Bytes} (hn : h.arr a = none) : Wider h (h1.setArr a c) := by
  refine ⟨fun x hx => ?_, e.objs, e.keep⟩
  have : x ≠ a := by rintro rfl; exact hx hn
  simp [Frag.setArr, this, e.arrs x hx]

theorem Wider.arr_none (e : Wider h h1) {a : Nat} (hn : h1.arr a = none) : h.arr a = none :=
  Classical.byContradiction fun hx => hx (by rw [← e.arrs a hx]; exact hn)

theorem Wider.obj_none (e : Wider h h1) {a : Nat} (hn : h1.obj a = none) : h.obj a = none :=
  Classical.byContradiction fun hx => hx (by rw [← e.objs a hx]; exact hn)

theorem Wider.slice (e : Wider h h1) (hh : SliceIs h s d) : SliceIs h1 s d := by
  obtain ⟨⟨c, h1, h2, h3⟩, hk⟩ := hh
  exact ⟨⟨c, by rw [e.arrs _ (by rw [h1]; simp), h1], h2, h3⟩, by rw [e.keep]; exact hk⟩

theorem Wider.moves (e : Wider h h1) {sb sb' : Sl} (m : Moves h1 sb h2 sb') (hn : h.arr sb.arr = none) : Wider h h2 ∧ h.arr sb'.arr = none := by
  refine ⟨⟨fun a ha => ?_, fun id hid => ?_, m.keep.trans e.keep⟩, ?_⟩
  · have e1 := e.arrs a ha
    rw [m.others a (by rintro rfl; exact ha hn) (by rw [e1]; exact ha), e1]
  · rw [m.objs, e.objs id hid]
  · rcases m.res with r | r
    · rw [r]; exact hn
    · exact e.arr_none r.1

/-- A panic while appending to something new. -/
theorem Wider.spoils (e : Wider h h1) (hh : SliceIs h s d) {sb : Sl} (m : Spoils h1 sb h2) (hn : h.arr sb.arr = none) : Spoils h s h2 := by
  have ha : ∀ a, h.arr a ≠ none → h2.arr a = h.arr a := fun a ha => by
    rw [m.others a (by rintro rfl; exact ha hn) (by rw [e.arrs a ha]; exact ha), e.arrs a ha]
  obtain ⟨⟨c, a0, -, -⟩, -⟩ := hh
  exact ⟨fun a _ hx => ha a hx, ⟨c, c, a0, by rw [ha _ (by rw [a0]; simp), a0], rfl, rfl⟩, m.keep.trans e.keep,
    fun id hid => by rw [m.objs id (by rw [e.objs id hid]; exact hid), e.objs id hid]⟩

/-- A panic with more taken. -/
theorem Spoils.wider (e : Wider h h1) (hh : SliceIs h s d) (m : Spoils h1 s h2) : Spoils h s h2 := by
  obtain ⟨⟨c0, a0, -, -⟩, -⟩ := hh
  refine ⟨fun a ha hn => ?_, ?_, m.keep.trans e.keep, fun id hid => by rw [m.objs id (by rw [e.objs id hid]; exact hid), e.objs id hid]⟩
  · have e1 := e.arrs a hn
    rw [m.others a ha (by rw [e1]; exact hn), e1]
  · obtain ⟨c, c', a1, a2, a3, a4⟩ := m.own
    rw [e.arrs _ (by rw [a0]; simp)] at a1
    exact ⟨c, c', a1, a2, a3, a4⟩

theorem MovesA.wider (e : Wider h h1) (hh : SliceIs h s d) (m : MovesA h1 s h2 s') : MovesA h s h2 s' := by
  obtain ⟨⟨c0, a0, -, -⟩, -⟩ := hh
  refine ⟨fun a ha hn => ?_, ?_, ?_, m.keep.trans e.keep, m.le⟩
  · have e1 := e.arrs a hn
    rw [m.others a ha (by rw [e1]; exact hn), e1]
  · obtain ⟨c, c', a1, a2, a3, a4⟩ := m.own
    rw [e.arrs _ (by rw [a0]; simp)] at a1
    exact ⟨c, c', a1, a2, a3, a4⟩
  · rcases m.res with r | r
    · exact .inl r
    · exact .inr ⟨e.arr_none r.1, by rw [← e.keep]; exact r.2⟩

theorem MovesA.delArr (m : MovesA h s h' s') {a : Nat} (hn : h.arr a = none) : MovesA h s (h'.delArr a) s' := by
  refine ⟨fun x hx hxn => ?_, ?_, m.res, m.keep, m.le⟩
  · have : x ≠ a := by rintro rfl; exact hxn hn
    simp [Frag.delArr, this, m.others x hx hxn]
  · obtain ⟨c, c', a1, a2, a3⟩ := m.own
    have : s.arr ≠ a := by rintro rfl; rw [a1] at hn; cases hn
    exact ⟨c, c', a1, by simp [Frag.delArr, this, a2], a3⟩

/-- The same arrays. -/
theorem MovesA.obj (m : MovesA h s h' s') {f : Nat → Option PObj} : MovesA h s { h' with obj := f } s' := ⟨m.others, m.own, m.res, m.keep, m.le⟩

theorem SliceIs.delArr (hh : SliceIs h s d) {a : Nat} (hn : s.arr ≠ a) : SliceIs (h.delArr a) s d := by
  obtain ⟨⟨c, h1, h2, h3⟩, hk⟩ := hh
  exact ⟨⟨c, by simp [Frag.delArr, hn, h1], h2, h3⟩, hk⟩

theorem release_ok {Post : PostC β} {k : Prog β} {b m : Nat} {sb : Sl} (hb : h.obj b ≠ none) (hm : h.obj m ≠ none) (hne : m ≠ b) (hs : h.arr sb.arr ≠ none) (hkp : h.keep sb.arr = [])
    (hk : ∀ K', K.Le K' → Meets W D Post k K' ((((h.setObj b (.buf sb)).setObj m (.elems [])).delObj m |>.delObj b).delArr sb.arr) []) :
    Meets W D Post (releaseP b m sb >>= fun _ => k) K h [] := by
  refine good_bind ?_
  unfold releaseP
  refine good_call fun K1 l1 => ⟨hb, ?_⟩
  refine good_call fun K2 l2 => ⟨by simp [Frag.setObj, hne, hm], ?_⟩
  refine good_call fun K3 l3 => ⟨by simp [Frag.setObj], ?_⟩
  refine good_callLast fun K4 l4 => ⟨sb, by simp [Frag.setObj, Frag.delObj, hne.symm], hs, hkp, fun K5 l5 _ => ?_⟩
  exact hk K5 ((((l1.trans l2).trans l3).trans l4).trans l5)

theorem encodeSorted_ok (sort : SortAlg) {kp vp : Nat → α → Sl → Prog RS} {kf vf : Nat → α → Bytes → Res} (es : List α)
    (hk : ∀ n, ∀ e ∈ es, Enc W X K (kp n e) (kf n e)) (hv : ∀ n, ∀ e ∈ es, Enc W X K (vp n e) (vf n e)) : Enc W X K (encodeSortedP sort kp vp es) (encodeSorted sort kf vf es) := by
  intro K0 l0 h s d hh
  unfold encodeSortedP encodeSorted
  refine good_call fun K1 l1 => ?_
  intro b s0 c hb hs0 hk0
  have hs0s : s.arr ≠ s0.arr := by
    intro e; obtain ⟨⟨c, a, -⟩, -⟩ := hh; rw [← e, a] at hs0; cases hs0
  refine good_call fun K2 l2 => ⟨.buf s0, by simp [Frag.setObj, Frag.setArr], ?_⟩
  simp only
  refine good_call fun K3 l3 => ⟨by simp [Frag.setObj, Frag.setArr], ?_⟩
  refine good_call fun K4 l4 => ?_
  intro m hm
  have hmb : m ≠ b := by rintro rfl; simp [Frag.setObj, Frag.setArr] at hm
  have hm' : h.obj m = none := by simpa [Frag.setObj, Frag.setArr, hmb] using hm
  refine good_call fun K5 l5 => ⟨.elems [], by simp [Frag.setObj], ?_⟩
  simp only
  generalize hh1 : Frag.setObj (Frag.setObj (Frag.setArr (Frag.setObj h b (.buf s0)) s0.arr c) b (.buf ⟨s0.arr, 0⟩)) m (.elems []) = h1
  have w1 : Wider h h1 := by subst hh1; exact ((((Wider.refl h).setObj hb).setArr hs0).setObj hb).setObj hm'
  have hb1 : h1.obj b = some (.buf ⟨s0.arr, 0⟩) := by subst hh1; simp [Frag.setObj, hmb.symm]
  have hm1 : h1.obj m = some (.elems []) := by subst hh1; simp [Frag.setObj]
  have ha1 : SliceIs h1 ⟨s0.arr, 0⟩ [] := by subst hh1; exact ⟨⟨c, by simp [Frag.setObj, Frag.setArr], Nat.zero_le _, rfl⟩, by show (h.keep s0.arr).length ≤ 0; rw [hk0]; exact Nat.le_refl _⟩
  have hk1 : h1.keep s0.arr = [] := by subst hh1; exact hk0
  have lK := l0.trans (l1.trans (l2.trans (l3.trans (l4.trans l5))))
  refine good_bind (good_mono ?_ (good_dead (Or.imp_right fun hb => by rw [hb]) (sortedLoop_ok es 0 K5 h1 ⟨s0.arr, 0⟩ [] [] [] h1 _ (fun n e he => enc_le lK (hk n e he)) (fun n e he => enc_le lK (hv n e he)) (.refl ha1) ha1 rfl)))
  intro K6 h2 w2 r l6 hp l6'
  obtain ⟨rfl, hp⟩ := hp
  have tail : ∀ {sb : Sl}, Moves h1 ⟨s0.arr, 0⟩ h2 sb → (∃ b, SliceIs h2 sb b) →
      h2.obj = h1.obj ∧ (Wider h h2 ∧ h.arr sb.arr = none) ∧ h2.obj b = some (.buf ⟨s0.arr, 0⟩) ∧ h2.obj m = some (.elems []) ∧ h2.arr sb.arr ≠ none ∧ h2.keep sb.arr = [] := by
    intro sb m2 ⟨x, hx⟩
    refine ⟨m2.objs, w1.moves m2 hs0, ?_, ?_, ?_, m2.free hk1⟩
    · rw [m2.objs, hb1]
    · rw [m2.objs, hm1]
    · obtain ⟨⟨c, a, -⟩, -⟩ := hx; rw [a]; simp
  have back : ∀ {h3 : Frag} {sb : Sl}, h3.obj = h1.obj →
      ((((h3.setObj b (.buf sb)).setObj m (.elems [])).delObj m |>.delObj b).delArr sb.arr).obj = h.obj := by
    intro h3 sb e
    funext x
    by_cases x1 : x = b
    · subst x1; simp [Frag.delArr, Frag.delObj, hb]
    · by_cases x2 : x = m
      · subst x2; simp [Frag.delArr, Frag.delObj, x1, hm']
      · subst hh1
        simp [Frag.delArr, Frag.delObj, Frag.setObj, x1, x2, e, Frag.setArr]
  cases r with
  | ok sb l =>
    cases hr : sortedLoop kf vf 0 es [] [] with
    | stop r => rw [hr] at hp; cases r <;> exact hp.elim
    | ok mel =>
    rw [hr] at hp
    obtain ⟨m2, hb2, he⟩ := hp
    obtain ⟨ho2, ⟨w2, hsb⟩, hob, hom, hsb2, hkb⟩ := tail m2 hb2
    simp only
    refine good_step (readEntries_ok l mel K6 he) ?_
    intro K7 mel l7 hmel
    subst hmel
    have hh2 := w2.slice hh
    refine good_bind (good_mono ?_ (joinEntries_ok (sort kvLess mel) true K7 h2 s d h2 s (.refl hh2) hh2))
    rintro K8 h3 w3 s' l8 ⟨rfl, m3, hh3⟩ -
    have hsne : s.arr ≠ sb.arr := by
      intro e; obtain ⟨⟨c, a, -⟩, -⟩ := hh; rw [← e, a] at hsb; cases hsb
    have hs'ne : s'.arr ≠ sb.arr := by
      intro e
      rcases m3.res with r | r
      · exact hsne (r.symm.trans e)
      · rw [e] at r; exact hsb2 r.1
    refine release_ok ?_ ?_ hmb (m3.keeps hsb2) (by rw [m3.keep]; exact hkb) fun K9 l9 => ?_
    · rw [m3.objs, hob]; simp
    · rw [m3.objs, hom]; simp
    refine good_pure fun _ _ => ⟨rfl, ⟨(m3.toMovesA.wider w2 hh).obj.delArr hsb, ?_⟩, ?_⟩
    · exact back (m3.objs.trans ho2)
    · exact SliceIs.delArr (h := (((h3.setObj b (.buf sb)).setObj m (.elems [])).delObj m |>.delObj b)) hh3 hs'ne
  | fail e sb =>
    cases hr : sortedLoop kf vf 0 es [] [] with
    | ok mel => rw [hr] at hp; exact hp.elim
    | stop r =>
    rw [hr] at hp
    cases r with
    | fail e' b' =>
      obtain ⟨rfl, m2, hb2⟩ := hp
      obtain ⟨ho2, ⟨w2, hsb⟩, hob, hom, hsb2, hkb⟩ := tail m2 hb2
      have hsne : s.arr ≠ sb.arr := by
        intro e; obtain ⟨⟨c, a, -⟩, -⟩ := hh; rw [← e, a] at hsb; cases hsb
      simp only
      refine release_ok (by rw [hob]; simp) (by rw [hom]; simp) hmb hsb2 hkb fun K9 l9 => ?_
      have hh2 := w2.slice hh
      refine good_pure fun _ _ => ⟨rfl, rfl, ⟨((MovesA.refl hh2).wider w2 hh).obj.delArr hsb, ?_⟩, ?_⟩
      · exact back ho2
      · exact SliceIs.delArr (h := (((h2.setObj b (.buf sb)).setObj m (.elems [])).delObj m |>.delObj b)) hh2 hsne
    | _ => exact hp.elim
  | panic =>
    cases hr : sortedLoop kf vf 0 es [] [] with
    | ok mel => rw [hr] at hp; exact hp.elim
    | stop r =>
    rw [hr] at hp
    cases r with
    | panic => exact good_pure fun _ _ => ⟨rfl, w1.spoils hh hp hs0⟩
    | _ => exact hp.elim
  | bad =>
    cases hr : sortedLoop kf vf 0 es [] [] with
    | ok mel => rw [hr] at hp; exact hp.elim
    | stop r =>
    rw [hr] at hp
    cases r with
    | bad => exact good_pure fun _ _ => ⟨rfl, trivial⟩
    | _ => exact hp.elim

/-- The entries without the closing brace. -/
def openEntries {α : Type} (W : World) (o : EncOpts) (kf vf : Nat → α → Bytes → Res) (es : List α) (dst : Bytes) : Res :=
  if bmHas o.flags .unsortedMap then unsortedLoop kf vf 0 es dst else encodeSorted W.sort kf vf es dst

/-- The closing brace. -/
def closeR : Res → Res | .ok d => .ok (d ++ b! "}") | r => r

theorem encodeEntries_eq (W : World) (o : EncOpts) (kf vf : Nat → α → Bytes → Res) (es : List α) (dst : Bytes) :
    encodeEntries W o kf vf es dst = closeR (openEntries W o kf vf es (dst ++ b! "{")) := by
  unfold encodeEntries openEntries
  simp only
  generalize (if bmHas o.flags Flag.unsortedMap = true then unsortedLoop kf vf 0 es (dst ++ b! "{") else encodeSorted W.sort kf vf es (dst ++ b! "{")) = r
  cases r <;> rfl

theorem encodeEntries_ok (o : EncOpts) {kp vp : Nat → α → Sl → Prog RS} {kf vf : Nat → α → Bytes → Res} (es : List α)
    (hk : ∀ n, ∀ e ∈ es, Enc W X K (kp n e) (kf n e)) (hv : ∀ n, ∀ e ∈ es, Enc W X K (vp n e) (vf n e)) :
    Enc W X K (encodeEntriesP W o kp vp es) (openEntries W o kf vf es) := by
  unfold encodeEntriesP openEntries
  split
  · intro K0 l0 h s d hh
    exact unsortedLoop_ok es 0 K0 h s d h s (fun n e he => enc_le l0 (hk n e he)) (fun n e he => enc_le l0 (hv n e he)) (.refl hh) hh
  · exact encodeSorted_ok W.sort es hk hv

theorem enc_bad : Enc W X K (fun _ => .ret .bad) (fun _ => .bad) := fun _ _ _ _ _ _ => good_ret fun _ _ => ⟨rfl, trivial⟩
theorem enc_panic : Enc W X K (fun _ => .ret .panic) (fun _ => .panic) := fun _ _ _ _ _ hh => good_ret fun _ _ => ⟨rfl, .refl hh⟩
theorem enc_fail (e : Err) : Enc W X K (fun s => .ret (.fail e s)) (fun d => .fail e d) := fun _ _ _ _ _ hh => good_ret fun _ _ => ⟨rfl, rfl, .refl hh, hh⟩
theorem enc_crash : Enc W X K (fun _ => .crash) (fun _ => .nofuel) := fun _ _ _ _ _ _ => .inr rfl

theorem enc_ite {c : Prop} [Decidable c] {p q : Sl → Prog RS} {f g : Bytes → Res} (h1 : c → Enc W X K p f) (h2 : ¬c → Enc W X K q g) :
    Enc W X K (fun s => if c then p s else q s) (fun d => if c then f d else g d) := by
  by_cases hc : c
  · simp only [hc, if_true]; exact h1 hc
  · simp only [hc, if_false]; exact h2 hc

theorem enc_lit {c : Prop} [Decidable c] (a b : Bytes) : Enc W X K (fun s => addLast s (if c then a else b)) (fun d => .ok (if c then d ++ a else d ++ b)) := by
  by_cases hc : c
  · simp only [hc, if_true]; exact enc_addLast a
  · simp only [hc, if_false]; exact enc_addLast b

theorem enc_withRead {r : Option α} {p : α → Sl → Prog RS} {f : α → Bytes → Res} (h : ∀ a, r = some a → Enc W X K (p a) (f a)) :
    Enc W X K (fun s => withReadP r (p · s)) (fun d => withRead r (f · d)) := by
  cases r with
  | none => exact enc_bad
  | some a => exact h a rfl

/-- Between two texts. -/
theorem enc_between (a b : Bytes) {p : Sl → Prog RS} {f : Bytes → Res} (he : Enc W X K p f) :
    Enc W X K (fun s => do
      let s1 ← addBytes s a
      match ← p s1 with
      | .ok s2 => addLast s2 b
      | r => return r) (fun d => match f (d ++ a) with | .ok d => .ok (d ++ b) | r => r) := by
  intro K0 l0 h s d hh
  refine good_add hh fun K1 h1 s1 l1 m1 hh1 => ?_
  refine good_rec (enc_le (l0.trans l1) he) hh1 ?_ ?_ ?_ ?_ (fun hb => by simp only [hb, closeR])
  · intro K2 h2 s2 x l2 hx m2 hh2
    simp only [hx]
    exact good_addLast (m1.trans m2) hh2 rfl
  · intro K2 h2 e s2 x l2 hx m2 hh2
    simp only [hx]
    exact good_pure fun _ _ => ⟨rfl, rfl, m1.trans m2, hh2⟩
  · intro K2 h2 l2 hx m2
    simp only [hx]
    exact good_pure fun _ _ => ⟨rfl, m1.spoil m2⟩
  · intro K2 h2 l2 hx
    simp only [hx]
    exact good_pure fun _ _ => ⟨rfl, trivial⟩

theorem encodeMap_ok {H : Heap} {o : EncOpts} {rec : RecP} {recM : Rec} (hr : RecOk W X K rec recM) (path : Path) {ck cv : CInstr} {ik iv : Instr}
    (hk : Den K ck ik) (hv : Den K cv iv) (p : Loc) : Enc W X K (encodeMapP W H o rec path ck cv p) (encodeMap W H o recM path ik iv p) := by
  unfold encodeMapP encodeMap
  refine enc_withRead fun a _ => enc_ite (fun _ => enc_lit _ _) fun _ => ?_
  refine enc_withRead fun es _ => enc_ite (fun _ => enc_addLast _) fun _ => ?_
  intro K0 l0 h s d hh
  rw [encodeEntries_eq]
  refine good_add hh fun K1 h1 s1 l1 m1 hh1 => ?_
  refine good_call fun K2 l2 => ?_
  intro it l hit
  refine good_call fun K3 l3 => ⟨by simp [Frag.setObj], ?_⟩
  refine good_call fun K4 l4 => ⟨.iter (W.visit path es), by simp [Frag.setObj], ?_⟩
  simp only
  have lK := l0.trans (l1.trans (l2.trans (l3.trans l4)))
  generalize hh2 : Frag.setObj (Frag.setObj h1 it (.iter l)) it (.iter (W.visit path es)) = h2
  have w2 : Wider h1 h2 := by subst hh2; exact ((Wider.refl h1).setObj hit).setObj hit
  have hit2 : h2.obj it = some (.iter (W.visit path es)) := by subst hh2; simp [Frag.setObj]
  have he := encodeEntries_ok (W := W) (K := K4) o (W.visit path es)
    (fun n e _ => hr K4 lK ((2 * n) :: path) ck ik (.heap e.1) (den_le lK hk))
    (fun n e _ => hr K4 lK ((2 * n + 1) :: path) cv iv (.heap e.2) (den_le lK hv))
  have back : ∀ {h3 : Frag}, h3.obj = h2.obj → (h3.delObj it).obj = h1.obj := by
    intro h3 e
    funext x
    by_cases x1 : x = it
    · subst x1; simp [Frag.delObj, hit]
    · subst hh2; simp [Frag.delObj, Frag.setObj, x1, e]
  refine good_rec he (w2.slice hh1) ?_ ?_ ?_ ?_ (fun hb => by simp only [hb, closeR])
  · intro K5 h3 s2 b l5 hb m2 hh3
    rw [hb]
    simp only
    refine good_call fun K6 l6 => ⟨W.visit path es, by rw [m2.objs, hit2], ?_⟩
    exact good_addLast (m1.trans ⟨(m2.toMovesA.wider w2 hh1).obj, back m2.objs⟩) (s := s2) (d := b) hh3 rfl
  · intro K5 h3 e s2 b l5 hb m2 hh3
    rw [hb]
    simp only
    refine good_call fun K6 l6 => ⟨W.visit path es, by rw [m2.objs, hit2], ?_⟩
    exact good_ret fun _ _ => ⟨rfl, rfl, m1.trans ⟨(m2.toMovesA.wider w2 hh1).obj, back m2.objs⟩, hh3⟩
  · intro K5 h3 l5 hb m2
    rw [hb]
    exact good_pure fun _ _ => ⟨rfl, m1.spoil (m2.wider w2 hh1)⟩
  · intro K5 h3 l5 hb
    rw [hb]
    exact good_pure fun _ _ => ⟨rfl, trivial⟩

theorem mem_visit {path : Path} {es : List α} {e : α} (h : e ∈ W.visit path es) : e ∈ es := by
  obtain ⟨i, -, hi⟩ := List.mem_filterMap.mp h
  exact List.mem_of_getElem? hi

/-- The type in the interface value is among those. -/
def InS (S : List TId) : Eface → Prop
  | none => True
  | some x => x.1 ∈ S

/-- All dynamic types in the memory are among those. -/
structure Dyn (H : Heap) (S : List TId) (g : Nat) : Prop where
  eface : ∀ p v, readEface H.mem p = some v → InS S v
  smap : ∀ p es, readSyncMap H.mem p = some es → ∀ e ∈ es, InS S e.1 ∧ InS S e.2
  room : 2 * S.length < g

theorem appendJSON_ok {H : Heap} {rec : RecP} {recM : Rec} {g : Nat} (fit : ¬X → Fit W S rk) (dyn : ¬X → Dyn H S g) (hr : RecOk W X K rec recM) (path : Path)
    (v : Eface) (hv : ¬X → InS S v) :
    Enc W X K (appendJSONP W g rec path v) (appendJSON W recM path v) := by
  unfold appendJSONP appendJSON
  cases v with
  | none => exact enc_panic
  | some x =>
    obtain ⟨t, w⟩ := x
    intro K0 l0 h s d hh
    refine good_step (good_dead .inl (cachedInstr_ok fit g K0 h [] t fun hx => ⟨hv hx, (dyn hx).room⟩)) ?_
    rintro K1 c l1 ⟨i, hi, hd⟩
    simp only [hi]
    exact good_last (hr K1 (l0.trans l1) path c i _ hd) (.refl hh) hh rfl

theorem enc_map {f : Bytes → Bytes} {out : Bytes} (hf : ∀ dst, f dst = dst ++ out) : Enc W X K (onBytes fun d => .ok (f d)) (fun d => .ok (f d)) :=
  enc_onBytes (pre_map hf) (fun _ _ _ h => by cases h)

theorem syncMapKey_ok {H : Heap} {o : EncOpts} {rec : RecP} {recM : Rec} {g : Nat} (fit : ¬X → Fit W S rk) (dyn : ¬X → Dyn H S g) (hr : RecOk W X K rec recM) (path : Path)
    (v : Eface) (hv : ¬X → InS S v) : Enc W X K (appendSyncMapKeyP W H o g rec path v) (appendSyncMapKey W H o recM path v) := by
  unfold appendSyncMapKeyP appendSyncMapKey
  cases v with
  | none => exact enc_fail _
  | some x =>
    obtain ⟨t, w⟩ := x
    simp only
    refine enc_ite (fun _ => enc_fail _) fun hn => ?_
    refine enc_ite (fun _ => enc_withRead fun x _ => enc_map (fun dst => encodeString_eq x dst o.esc)) fun hs => ?_
    have hs' : isStringK (W.E t).kind = false := by simpa using hs
    cases ht : (W.E t).meths.text with
    | true =>
      simp only [hs', Bool.not_false, Bool.not_true, Bool.and_false, Bool.false_eq_true, if_false, if_true]
      intro K0 l0 h s d hh
      have e := appendJSON_ok fit dyn hr path (some (t, w)) hv K0 l0 h s d hh
      cases hx : appendJSON W recM path (some (t, w)) d <;> rw [hx] at e <;> simp only [hx] <;> exact e
    | false =>
      simp only [hs', Bool.not_false, Bool.and_true, Bool.false_eq_true, if_false, if_true]
      exact enc_between _ _ (appendJSON_ok fit dyn hr path (some (t, w)) hv)

theorem encodeSyncMap_ok {H : Heap} {o : EncOpts} {rec : RecP} {recM : Rec} {g : Nat} (fit : ¬X → Fit W S rk) (dyn : ¬X → Dyn H S g)
    (hr : RecOk W X K rec recM) (path : Path) (p : Loc) :
    Enc W X K (encodeSyncMapP W H o g rec path p) (encodeSyncMap W H o recM path p) := by
  unfold encodeSyncMapP encodeSyncMap
  refine enc_withRead fun es hes => ?_
  intro K0 l0 h s d hh
  rw [encodeEntries_eq]
  refine good_add hh fun K1 h1 s1 l1 m1 hh1 => ?_
  have lK := l0.trans l1
  have he := encodeEntries_ok (W := W) (K := K1) o (W.visit path es)
    (fun n e he => syncMapKey_ok (H := H) (o := o) fit dyn (recOk_le lK hr) ((2 * n) :: path) e.1 fun hx => ((dyn hx).smap p es hes e (mem_visit he)).1)
    (fun n e he => appendJSON_ok fit dyn (recOk_le lK hr) ((2 * n + 1) :: path) e.2 fun hx => ((dyn hx).smap p es hes e (mem_visit he)).2)
  refine good_rec he hh1 ?_ ?_ ?_ ?_ (fun hb => by simp only [hb, closeR])
  · intro K5 h3 s2 b l5 hb m2 hh3
    rw [hb]
    exact good_addLast (m1.trans m2) hh3 rfl
  · intro K5 h3 e s2 b l5 hb m2 hh3
    rw [hb]
    exact good_ret fun _ _ => ⟨rfl, rfl, m1.trans m2, hh3⟩
  · intro K5 h3 l5 hb m2
    rw [hb]
    exact good_ret fun _ _ => ⟨rfl, m1.spoil m2⟩
  · intro K5 h3 l5 hb
    rw [hb]
    exact good_ret fun _ _ => ⟨rfl, trivial⟩

theorem callClosure_ok {H : Heap} {o : EncOpts} {rec : RecP} {recM : Rec} (hr : RecOk W X K rec recM) (path : Path) {f : Nat} {t : TId} {ca : Bool}
    (hf : K.closures[f]? = some (t, ca)) (p : Loc) : Enc W X K (callClosure H o rec path f p) (exec W H o recM path (.struct t ca) p) := by
  intro K0 l0 h s d hh
  unfold callClosure exec
  refine good_call fun K1 l1 => ⟨(t, ca), prefix_get (l0.trans l1).closures hf, fun c hc => ?_⟩
  unfold DenC at hc
  simp only at hc ⊢
  split
  · next h0 =>
    rw [if_pos h0] at hc
    subst hc
    exact good_addLast (.refl hh) hh rfl
  · next h0 =>
    rw [if_neg h0] at hc
    obtain ⟨l, l', rfl, e, hd⟩ := hc
    simp only [e]
    exact structLoop_ok l l' 0 true K1 h s d h s (recOk_le (l0.trans l1) hr) hd (.refl hh) hh

/-- Failing leaves give the destination back. -/
theorem leaf_fail {H : Heap} {o : EncOpts} {rec : Rec} {path : Path} {i : Instr} {p : Loc} (hl : isLeafI i = true) (hs : i ≠ .goType .syncMap) {d b : Bytes} {e : Err}
    (hx : exec W H o rec path i p d = .fail e b) : b = d := by
  have wr : ∀ {α : Type} {r : Option α} {f : α → Res}, withRead r f = .fail e b → ∃ a, r = some a ∧ f a = .fail e b := by
    intro α r f h; cases r with
    | none => cases h
    | some a => exact ⟨a, rfl, h⟩
  have ex : ∀ {r : Except Unit Bytes} {e' : Err}, exceptRes r e' d = .fail e b → b = d := by
    intro r e' h; cases r <;> simp [exceptRes] at h; exact h.2.symm
  have br : ∀ {r : BRes} {e' : Err}, r.res e' d = .fail e b → b = d := by
    intro r e' h; cases r <;> simp [BRes.res] at h; exact h.2.symm
  have inv : ∀ {m t hp}, invokeMeth W H o path m t hp p d = .fail e b → b = d := by
    intro m t hp h
    unfold invokeMeth at h
    obtain ⟨r, -, h⟩ := wr h
    cases r with
    | none => cases h
    | some r =>
      simp only at h
      unfold callMeth at h
      cases m <;> simp only at h <;> split at h <;> first | (cases h; done) | (cases h; rfl) | skip
      unfold relayJSON at h
      split at h
      · cases h
      · split at h
        · cases h; rfl
        · cases h
  cases i <;> simp [isLeafI] at hl <;> unfold exec at hx <;> simp only at hx
  case goType s =>
    unfold encodeSpecial at hx
    cases s <;> simp only at hx <;> try (obtain ⟨a, -, hx⟩ := wr hx)
    case duration => cases a <;> simp only at hx <;> first | exact br hx | cases hx
    all_goals first | exact absurd rfl hs | exact br hx | exact ex hx | cases hx
  case marshaler m t hp =>
    unfold encodeMarshaler at hx
    split at hx
    · split at hx
      · obtain ⟨a, -, hx⟩ := wr hx
        split at hx
        · cases hx
        · exact inv hx
      · exact inv hx
    · split at hx
      · cases hx
      · exact inv hx
  case unsupported t => cases hx; rfl
  case float w => obtain ⟨a, -, hx⟩ := wr hx; exact ex hx
  all_goals (obtain ⟨a, -, hx⟩ := wr hx; cases hx)

theorem execP_ok {H : Heap} {o : EncOpts} {rec : RecP} {recM : Rec} {g : Nat} (fit : ¬X → Fit W S rk) (dyn : ¬X → Dyn H S g) (hfl : FmtLong W.fmt) (hh : HonestAppend H.meth) (hr : RecOk W X K rec recM)
    (path : Path) {c : CInstr} {i : Instr} (p : Loc) (hd : Den K c i) : Enc W X K (execP W H o g rec path c p) (exec W H o recM path i p) := by
  cases c with
  | leaf j =>
    obtain ⟨rfl, hl⟩ := hd
    by_cases hs : i = .goType .syncMap
    · subst hs
      exact encodeSyncMap_ok fit dyn hr path p
    · have e : execP W H o g rec path (.leaf i) p = onBytes (exec W H o (fun _ _ _ _ => .bad) path i p) := by
        funext s
        cases i <;> first | rfl | (rename_i x; cases x <;> first | rfl | exact absurd rfl hs)
      rw [e]
      have e2 : exec W H o recM path i p = exec W H o (fun _ _ _ _ => .bad) path i p := by
        funext d
        cases i <;> simp [isLeafI] at hl <;> first | rfl | (rename_i x; cases x <;> first | rfl | exact absurd rfl hs)
      rw [e2]
      exact enc_onBytes (pre_exec hfl hh (fun _ _ _ => pre_bad) path i p) (fun d e b hx => leaf_fail hl hs hx)
  | quoted c =>
    obtain ⟨j, rfl, hd⟩ := hd
    exact enc_between _ _ (hr K (.refl K) path c j p hd)
  | nilText c =>
    obtain ⟨j, rfl, hd⟩ := hd
    exact enc_withRead fun a _ => enc_ite (fun _ => enc_addLast _) fun _ => hr K (.refl K) path c j p hd
  | inline c =>
    obtain ⟨j, rfl, hd⟩ := hd
    cases p with
    | heap w => exact hr K (.refl K) path c j (.tmp w) hd
    | tmp w => exact enc_bad
  | iface =>
    cases hd
    refine enc_withRead fun v hv => ?_
    cases v with
    | none => exact enc_addLast _
    | some x => exact appendJSON_ok fit dyn hr path (some x) fun hx => (dyn hx).eface p _ hv
  | struct r =>
    obtain ⟨t, ca, hk, rfl⟩ := hd
    cases r with
    | closure f => exact callClosure_ok hr path hk p
    | placeholder c =>
      intro K0 l0 h s d hh
      refine good_call fun K1 l1 => ⟨rfl, (t, ca), prefix_get (l0.trans l1).slots hk, fun f hf => ?_⟩
      exact callClosure_ok (recOk_le (l0.trans l1) hr) path hf p K1 (.refl K1) h s d hh
  | map t ck cv =>
    obtain ⟨ik, iv, rfl, hk, hv⟩ := hd
    exact encodeMap_ok hr path hk hv p
  | slice c sz =>
    obtain ⟨j, rfl, hd⟩ := hd
    refine enc_withRead fun x _ => ?_
    obtain ⟨a, n⟩ := x
    refine enc_ite (fun _ => enc_lit _ _) fun _ => enc_ite (fun _ => enc_addLast _) fun _ => ?_
    intro K0 l0 h s d hh
    exact arrayLoop_ok n 0 K0 h s d h s (recOk_le l0 hr) (den_le l0 hd) (.refl hh) hh
  | array c sz n isba =>
    obtain ⟨j, rfl, hd⟩ := hd
    show Enc W X K (encodeArrayP H o rec path c sz n isba p) (encodeArray H o recM path j sz n isba p)
    unfold encodeArrayP encodeArray
    refine enc_ite (fun _ => enc_withRead fun b _ => ?_) fun _ => ?_
    · exact enc_onBytes (pre_byteArray b o) (fun _ _ _ h => by cases h)
    · intro K0 l0 h s d hh
      exact arrayLoop_ok n 0 K0 h s d h s (recOk_le l0 hr) (den_le l0 hd) (.refl hh) hh
  | ptr c =>
    obtain ⟨j, rfl, hd⟩ := hd
    exact enc_withRead fun a _ => enc_ite (fun _ => hr K (.refl K) path c j (.heap a) hd) fun _ => enc_addLast _

theorem runP_ok {H : Heap} {o : EncOpts} {g : Nat} (fit : ¬X → Fit W S rk) (dyn : ¬X → Dyn H S g) (hfl : FmtLong W.fmt) (hh : HonestAppend H.meth) : ∀ n K, RecOk W X K (runP W H o g n) (run W H o n)
  | 0, K => fun K' _ path c i p hd => enc_crash
  | n + 1, K => fun K' _ path c i p hd => execP_ok fit dyn hfl hh (runP_ok fit dyn hfl hh n K') path p hd

end Jettison.Proofs
