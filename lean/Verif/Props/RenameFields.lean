import Verif.Props.Rename

/-! # C81: the members of structs of other names -/

namespace Jettison.Props
open Jettison Jettison.Model Jettison.Spec Jettison.Proofs

variable {letter digit : Nat → Bool} {E : Env} {R : TId → TId → Prop} {t t' : TId}

theorem sharing_flip (h : SameSharing letter digit E R t t') : SameSharing letter digit E (Flip R) t' t :=
  fun p u q p2 u2 q2 r w s r2 w2 s2 h1 h2 h3 h4 h5 h6 => (h r w s r2 w2 s2 p u q p2 u2 q2 h3 h4 h1 h2 h5 h6).symm

section
variable (D : Declared letter digit E R)
include D

theorem decl_struct (h : R t t') (hs : IsStruct E t) : IsStruct E t' := by
  obtain ⟨fs, hk⟩ := hs
  unfold HasFields at hk
  have := D.kind _ _ h
  rw [hk] at this
  generalize hk' : (E t').kind = k at this
  cases this with
  | struct => exact ⟨_, hk'⟩

theorem decl_ptr (h : R t t') {e : TId} (hk : (E t).kind = .ptr e) : ∃ e', (E t').kind = .ptr e' ∧ R e e' := by
  have := D.kind _ _ h
  rw [hk] at this
  generalize (E t').kind = k at this ⊢
  cases this with
  | ptr h => exact ⟨_, rfl, h⟩

theorem decl_encodable {fs fs' : List FieldDef} (S : SameDecls letter digit E R fs fs') {i : Nat} {f f' : FieldDef} (hf : fs[i]? = some f) (hf' : fs'[i]? = some f')
    (h : Encodable E f) : Encodable E f' := by
  unfold Encodable at h ⊢
  rw [S.exported _ _ _ hf hf', S.anonymous _ _ _ hf hf', S.tag _ _ _ hf hf']
  refine ⟨h.1.imp id fun g => ⟨g.1, ?_⟩, h.2⟩
  rcases g.2 with g | ⟨e, g1, g2⟩
  · exact .inl (decl_struct D (S.typ _ _ _ hf hf') g)
  · obtain ⟨e', k1, k2⟩ := decl_ptr D (S.typ _ _ _ hf hf') g1
    exact .inr ⟨e', k1, decl_struct D k2 g2⟩

theorem decl_promotes {fs fs' : List FieldDef} (S : SameDecls letter digit E R fs fs') {i : Nat} {f f' : FieldDef} (hf : fs[i]? = some f) (hf' : fs'[i]? = some f')
    {v : TId} {ptr : Bool} (h : Promotes letter digit E f v ptr) : ∃ v', Promotes letter digit E f' v' ptr ∧ R v v' := by
  obtain ⟨h1, h2, h3, h4, h5⟩ := h
  have hT := S.typ _ _ _ hf hf'
  have e1 := decl_encodable D S hf hf' h1
  have e2 : f'.anonymous = true := by rw [S.anonymous _ _ _ hf hf', h2]
  have e3 : ∀ n, ¬ TagGives letter digit f'.tag n := by rw [S.tag _ _ _ hf hf']; exact h3
  rcases h5 with ⟨h5, rfl⟩ | ⟨h5, h6, h7⟩
  · exact ⟨f'.typ, ⟨e1, e2, e3, decl_struct D hT h4, .inl ⟨h5, rfl⟩⟩, hT⟩
  · obtain ⟨v', k1, k2⟩ := decl_ptr D hT h6
    exact ⟨v', ⟨e1, e2, e3, decl_struct D k2 h4, .inr ⟨h5, k1, (D.ptrName _ _ hT ⟨_, h6⟩).mpr h7⟩⟩, k2⟩

theorem flip_decls {fs fs' : List FieldDef} (S : SameDecls letter digit E R fs fs') : SameDecls letter digit E (Flip R) fs' fs :=
  ⟨S.length.symm, fun i f f' a b hn => (S.name i f' f b a fun v ptr hp => by
    obtain ⟨v', k, -⟩ := decl_promotes D S b a hp
    exact hn v' ptr k).symm, fun i f f' a b => (S.exported i f' f b a).symm,
    fun i f f' a b => (S.anonymous i f' f b a).symm, fun i f f' a b => (S.tag i f' f b a).symm, fun i f f' a b => S.typ i f' f b a⟩

theorem declared_flip : Declared letter digit E (Flip R) where
  kind _ _ h := kindAlike_flip (D.kind _ _ h)
  ptrName t t' h hp := by
    refine (D.ptrName _ _ h ?_).symm
    unfold IsPtr at hp ⊢
    have := D.kind _ _ h
    generalize (E t).kind = k1 at this hp
    generalize (E t').kind = k2 at this ⊢
    cases this <;> simp at hp ⊢
  decls t t' fs fs' h h1 h2 := by
    exact flip_decls D (D.decls _ _ _ _ h h2 h1)

theorem decl_member {fs fs' : List FieldDef} (S : SameDecls letter digit E R fs fs') {i : Nat} {f f' : FieldDef} (hf : fs[i]? = some f) (hf' : fs'[i]? = some f')
    {n : Bytes} {tg : Bool} (h : Member letter digit E f n tg) : Member letter digit E f' n tg := by
  obtain ⟨h1, h2, h3⟩ := h
  refine ⟨decl_encodable D S hf hf' h1, fun v ptr hp => ?_, ?_⟩
  · obtain ⟨v', k, -⟩ := decl_promotes (declared_flip D) (flip_decls D S) hf' hf hp
    exact h2 v' ptr k
  · rw [S.tag _ _ _ hf hf', S.name _ _ _ hf hf' h2]
    exact h3

theorem decl_fields (h : R t t') {fs : List FieldDef} (hf : HasFields E t fs) : ∃ fs', HasFields E t' fs' ∧ SameDecls letter digit E R fs fs' := by
  obtain ⟨fs', hf'⟩ := decl_struct D h ⟨fs, hf⟩
  exact ⟨fs', hf', D.decls _ _ _ _ h hf hf'⟩

theorem decl_reaches (h : R t t') {p : List Nat} {u : TId} {q : List (Nat × Bool)} (hr : Reaches letter digit E t p u q) :
    ∃ u' q', Reaches letter digit E t' p u' q' ∧ R u u' := by
  induction hr with
  | here => exact ⟨t', [], .here, h⟩
  | step _ h2 h3 h4 ih =>
    obtain ⟨u', q', k1, k2⟩ := ih
    obtain ⟨fs', hf', S⟩ := decl_fields D k2 h2
    obtain ⟨f', hi⟩ := get_other S.length h3
    obtain ⟨v', k3, k4⟩ := decl_promotes D S h3 hi h4
    exact ⟨v', _, .step k1 hf' hi k3, k4⟩

theorem decl_canonical (hS : SameSharing letter digit E R t t') (h : R t t') {p : List Nat} {u : TId} (hc : Canonical letter digit E t p u) :
    ∃ u', Canonical letter digit E t' p u' ∧ R u u' := by
  obtain ⟨⟨q, hq⟩, hmin⟩ := hc
  obtain ⟨u', q', k1, k2⟩ := decl_reaches D h hq
  refine ⟨u', ⟨⟨q', k1⟩, fun p2 q2 h2 => ?_⟩, k2⟩
  obtain ⟨w, s, k3, k4⟩ := decl_reaches (declared_flip D) h h2
  cases (hS _ _ _ _ _ _ _ _ _ _ _ _ hq k3 k1 h2 k2 k4).mpr rfl
  exact hmin _ _ k3

theorem decl_push (hS : SameSharing letter digit E R t t') (h : R t t') {a : List Nat} {u : TId} (hc : CanonicalPush letter digit E t a u) :
    ∃ u', CanonicalPush letter digit E t' a u' ∧ R u u' := by
  obtain ⟨p, w, fs, i, sf, ptr, rfl, h1, h2, h3, h4⟩ := hc
  obtain ⟨w', k1, k2⟩ := decl_canonical D hS h h1
  obtain ⟨fs', hf', S⟩ := decl_fields D k2 h2
  obtain ⟨f', hi⟩ := get_other S.length h3
  obtain ⟨v', k3, k4⟩ := decl_promotes D S h3 hi h4
  exact ⟨v', ⟨p, w', fs', i, f', ptr, rfl, k1, hf', hi, k3⟩, k4⟩

end

theorem push_reaches {a : List Nat} {u : TId} (hc : CanonicalPush letter digit E t a u) : ∃ q, Reaches letter digit E t a u q := by
  obtain ⟨p, w, fs, i, sf, ptr, rfl, ⟨⟨q, h1⟩, -⟩, h2, h3, h4⟩ := hc
  exact ⟨_, .step h1 h2 h3 h4⟩

/-- C81: struct types with the same declarations, embedded ones included, have the same members. -/
theorem C81_members (D : Declared letter digit E R) (hS : SameSharing letter digit E R t t') (h : R t t') {m : MField} (hm : ChosenField letter digit E t m) :
    ∃ m', ChosenField letter digit E t' m' ∧ Twins R m m' := by
  obtain ⟨p, u, i, r, tg, hp, ⟨⟨p0, q0, hr0, hp0, -⟩, ⟨fs, hf, hi⟩, hmem⟩, hcan, hpush, hwin⟩ := hm
  have e0 : p0 = p := (List.append_inj' (hp0.symm.trans hp) rfl).1
  subst e0
  obtain ⟨u', hcan', hu⟩ := decl_canonical D hS h hcan
  obtain ⟨q', hr'⟩ := hcan'.1
  obtain ⟨fs', hf', S⟩ := decl_fields D hu hf
  obtain ⟨f', hi'⟩ := get_other S.length hi
  refine ⟨⟨m.path, f', m.name⟩, ⟨p0, u', i, _, tg, hp, ⟨⟨p0, q', hr', hp0, rfl⟩, ⟨fs', hf', hi'⟩, decl_member D S hi hi' hmem⟩, hcan', ?_, ?_⟩,
    rfl, rfl, S.tag _ _ _ hi hi', S.typ _ _ _ hi hi'⟩
  · rintro ⟨a, b, hab, ⟨ha, la⟩, ⟨hb, lb⟩⟩
    obtain ⟨wa, ka, ra⟩ := decl_push (declared_flip D) (sharing_flip hS) h ha
    obtain ⟨wb, kb, rb⟩ := decl_push (declared_flip D) (sharing_flip hS) h hb
    obtain ⟨qa, za⟩ := push_reaches ka
    obtain ⟨qb, zb⟩ := push_reaches kb
    cases (hS _ _ _ _ _ _ _ _ _ _ _ _ hr0 za hr' hr' hu ra).mpr rfl
    cases (hS _ _ _ _ _ _ _ _ _ _ _ _ hr0 zb hr' hr' hu rb).mpr rfl
    exact hpush ⟨a, b, hab, ⟨ka, la⟩, ⟨kb, lb⟩⟩
  · intro p2 u2 i2 sf2 tg2 r2 ⟨⟨p3, q3, hr3, hp3, _⟩, ⟨fs2, hf2, hi2⟩, hmem2⟩ hcan2 hne
    have e3 : p3 = p2 := (List.append_inj' hp3.symm rfl).1
    subst e3
    obtain ⟨w, hcanw, hw⟩ := decl_canonical (declared_flip D) (sharing_flip hS) h hcan2
    obtain ⟨q4, hr4⟩ := hcanw.1
    obtain ⟨fs4, hf4, S4⟩ := decl_fields (declared_flip D) hw hf2
    obtain ⟨f4, hi4⟩ := get_other S4.length hi2
    exact hwin p3 w i2 f4 tg2 _ ⟨⟨p3, q4, hr4, rfl, rfl⟩, ⟨fs4, hf4, hi4⟩, decl_member (declared_flip D) S4 hi2 hi4 hmem2⟩ hcanw hne

/-- C81: so types that are declared alike, and whose methods answer alike, are the same but for their names. -/
theorem C81_declared {W : World} {M : MethV} (D : Declared W.U.isLetter W.U.isDigit W.E R) (hS : ∀ t t', R t t' → IsStruct W.E t → SameSharing W.U.isLetter W.U.isDigit W.E R t t')
    (h1 : ∀ t t', R t t' → (W.E t').special = (W.E t).special) (h2 : ∀ t t', R t t' → (W.E t').meths = (W.E t).meths)
    (h3 : ∀ t t', R t t' → (W.E t').pmeths = (W.E t).pmeths) (h4 : ∀ t t', R t t' → R (W.ptrTo t) (W.ptrTo t'))
    (h5 : ∀ path m ctx t t' v v' dst, R t t' → SameVal R v v' → M path m ctx t' v' dst = M path m ctx t v dst) : Renaming W M R where
  kind := D.kind
  special := h1
  meths := h2
  pmeths := h3
  ptrName := D.ptrName
  members t t' h hs m hm := C81_members D (hS t t' h hs) h hm
  members' t t' h hs m hm := by
    obtain ⟨m', k1, k2⟩ := C81_members (declared_flip D) (sharing_flip (hS t t' h hs)) h hm
    exact ⟨m', k1, k2.path.symm, k2.name.symm, k2.tag.symm, k2.typ⟩
  ptrTo := h4
  answers := h5

/-- Structs that embed nothing. -/
theorem sharing_flat {fs fs' : List FieldDef} (hf : HasFields E t fs) (hf' : HasFields E t' fs') (h : ∀ f ∈ fs, f.anonymous = false)
    (h' : ∀ f ∈ fs', f.anonymous = false) : SameSharing letter digit E R t t' := by
  have flat : ∀ {t fs}, HasFields E t fs → (∀ f ∈ fs, f.anonymous = false) → ∀ {p u q}, Reaches letter digit E t p u q → u = t := by
    intro t fs hf h p u q hr
    induction hr with
    | here => rfl
    | step _ g1 g2 g3 ih =>
      subst ih
      unfold HasFields at hf g1
      rw [hf] at g1
      cases g1
      have := h _ (List.mem_of_getElem? g2)
      rw [g3.2.1] at this
      cases this
  intro p u q p2 u2 q2 r w s r2 w2 s2 g1 g2 g3 g4 _ _
  rw [flat hf h g1, flat hf h g2, flat hf' h' g3, flat hf' h' g4]
  exact ⟨fun _ => rfl, fun _ => rfl⟩

end Jettison.Props
