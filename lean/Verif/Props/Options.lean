import Verif.Proofs.Options
import Verif.Spec.Options

/-! # Options (C13, C20, C29) -/

namespace Jettison.Props
open Jettison.Spec Jettison.Model Jettison.Proofs

/-- C20: a field name is denied iff it is in the deny list, or an allow list was
given that lacks it. -/
theorem C20_denied_iff (o : EncOpts) (name : Bytes) :
    o.isDeniedField name = true ↔ Hidden o.allowList o.denyList name := by
  unfold EncOpts.isDeniedField Hidden
  cases o.denyList with
  | none => cases o.allowList <;> simp
  | some d =>
    by_cases h : name ∈ d
    · simp [h]
    · cases o.allowList <;> simp [h]

theorem C20_no_lists (o : EncOpts) (name : Bytes) (h1 : o.allowList = none) (h2 : o.denyList = none) :
    o.isDeniedField name = false := by
  simp [EncOpts.isDeniedField, h1, h2]

/-- An empty allow list (even `AllowList(nil)`) hides every field. -/
theorem C20_empty_allow (o : EncOpts) (name : Bytes) :
    ((Opt.allowList []).run o).isDeniedField name = true := by
  simp [Opt.run, fieldListToSet, EncOpts.isDeniedField]

example : ({ defaultEncOpts with allowList := some [b! "a", b! "b"], denyList := some [b! "b"] } : EncOpts).isDeniedField (b! "b") = true ∧
    ({ defaultEncOpts with allowList := some [b! "a", b! "b"], denyList := some [b! "b"] } : EncOpts).isDeniedField (b! "a") = false := by
  decide

/-- C29: the configuration after applying any list of options, nil ones included:
a flag is on iff it was asked for, the other settings are the last ones given. -/
theorem C29_effect (l : List (Option Opt)) :
    (∀ f, bmHas (defaultEncOpts.apply l).flags f = true ↔ some (Opt.flag f) ∈ l) ∧
    (defaultEncOpts.apply l).timeLayout = lastSetting settingLayout layoutRFC3339Nano l ∧
    (defaultEncOpts.apply l).durationFmt = lastSetting settingDuration 5 l ∧
    (defaultEncOpts.apply l).ctx = lastSetting settingContext (some 0) l ∧
    (defaultEncOpts.apply l).allowList = lastSetting settingAllow none l ∧
    (defaultEncOpts.apply l).denyList = lastSetting settingDeny none l := by
  refine ⟨fun f => ?_, ?_, ?_, ?_, ?_, ?_⟩
  · rw [apply_flag]
    constructor
    · rintro (h | h)
      · cases f <;> exact absurd h (by decide)
      · exact h
    · exact Or.inr
  · rw [apply_layout, lastSetting_eq]
    have : layoutOf = settingLayout := by funext x; cases x <;> rfl
    rw [this]; rfl
  · rw [apply_dur, lastSetting_eq]
    have : durOf = settingDuration := by funext x; cases x <;> rfl
    rw [this]; rfl
  · rw [apply_ctx, lastSetting_eq]
    have : ctxOf = settingContext := by funext x; cases x <;> rfl
    rw [this]; rfl
  · rw [apply_allow, lastSetting_eq]
    have : (fun x => (allowOf x).map some) = settingAllow := by funext x; cases x <;> rfl
    rw [this]; rfl
  · rw [apply_deny, lastSetting_eq]
    have : (fun x => (denyOf x).map some) = settingDeny := by funext x; cases x <;> rfl
    rw [this]; rfl

/-- C29: the options are rejected iff the resulting context is nil, or the layout
empty, or the duration format unknown; otherwise the configuration is the one of
`C29_effect` (with no options, the defaults). -/
theorem C29_rejected_iff (l : List (Option Opt)) :
    ((∃ e, prepare l = .error e) ↔
      lastSetting settingContext (some 0) l = none ∨
      lastSetting settingLayout layoutRFC3339Nano l = [] ∨
      ¬ (0 ≤ lastSetting settingDuration 5 l ∧ lastSetting settingDuration 5 l ≤ 5)) ∧
    (∀ o, prepare l = .ok o → o = defaultEncOpts.apply l) := by
  obtain ⟨-, h2, h3, h4, -, -⟩ := C29_effect l
  cases l with
  | nil =>
    refine ⟨⟨?_, ?_⟩, ?_⟩
    · rintro ⟨e, h⟩; cases h
    · rintro (h | h | h)
      · cases h
      · exact absurd h (by decide)
      · exact absurd h (by decide)
    · intro o h; cases h; rfl
  | cons x l =>
    unfold prepare
    rw [if_pos (by simp)]
    simp only
    rw [← h2, ← h3, ← h4]
    generalize defaultEncOpts.apply (x :: l) = o
    unfold EncOpts.validate durationFmtValid
    by_cases c1 : o.ctx = none
    · simp [c1]
    · by_cases c2 : o.timeLayout = []
      · simp [c1, c2]
      · by_cases c3 : 0 ≤ o.durationFmt ∧ o.durationFmt ≤ 5
        · have : (decide (o.durationFmt ≥ 0) && decide (o.durationFmt ≤ 5)) = true := by simpa using c3
          simp only [c1, c2, this]
          simp [c3]
        · have : (decide (o.durationFmt ≥ 0) && decide (o.durationFmt ≤ 5)) = false := by
            simpa using c3
          simp only [c1, c2, this]
          simp [c3]

/-- C29: only the set of flags and the last of each other setting matter, so
repeating, reordering flags, or adding nil options changes nothing observable. -/
theorem C29_extensional (l l' : List (Option Opt))
    (hf : ∀ f, some (Opt.flag f) ∈ l ↔ some (Opt.flag f) ∈ l')
    (h2 : lastSetting settingLayout layoutRFC3339Nano l = lastSetting settingLayout layoutRFC3339Nano l')
    (h3 : lastSetting settingDuration 5 l = lastSetting settingDuration 5 l')
    (h4 : lastSetting settingContext (some 0) l = lastSetting settingContext (some 0) l')
    (h5 : lastSetting settingAllow none l = lastSetting settingAllow none l')
    (h6 : lastSetting settingDeny none l = lastSetting settingDeny none l') :
    let o := defaultEncOpts.apply l
    let o' := defaultEncOpts.apply l'
    (∀ f, bmHas o.flags f = bmHas o'.flags f) ∧ o.timeLayout = o'.timeLayout ∧
      o.durationFmt = o'.durationFmt ∧ o.ctx = o'.ctx ∧ o.allowList = o'.allowList ∧ o.denyList = o'.denyList := by
  have a := C29_effect l
  have b := C29_effect l'
  refine ⟨fun f => ?_, ?_, ?_, ?_, ?_, ?_⟩
  · rw [Bool.eq_iff_iff, a.1 f, b.1 f]; exact hf f
  · rw [a.2.1, b.2.1, h2]
  · rw [a.2.2.1, b.2.2.1, h3]
  · rw [a.2.2.2.1, b.2.2.2.1, h4]
  · rw [a.2.2.2.2.1, b.2.2.2.2.1, h5]
  · rw [a.2.2.2.2.2, b.2.2.2.2.2, h6]

/-- Non-vacuity: nil options, repeated flags, later settings overriding earlier ones. -/
example : ∃ o, prepare [some (.flag .unixTime), none, some (.timeLayout []), some (.flag .unixTime),
      some (.durationFormat 9), some (.timeLayout (b! "x")), some (.durationFormat 2)] = .ok o ∧
    o.timeLayout = b! "x" ∧ o.durationFmt = 2 ∧ bmHas o.flags .unixTime = true ∧ bmHas o.flags .noCompact = false :=
  ⟨_, rfl, rfl, rfl, by decide, by decide⟩
example : prepare [some (.durationFormat 2), some (.durationFormat 6)] = .error .unknownDuration := rfl
example : prepare [some (.withContext (some 3)), some (.withContext none)] = .error .nilContext := rfl

/-- C13: a duration format that passes validation is one of the six documented
ones, and the encoder's switch selects exactly that one. -/
theorem C13_format_known (l : List (Option Opt)) (o : EncOpts) (h : prepare l = .ok o) :
    (o.durationFmt = 0 ∧ o.durFmt = .str) ∨ (o.durationFmt = 1 ∧ o.durFmt = .minutes) ∨
    (o.durationFmt = 2 ∧ o.durFmt = .seconds) ∨ (o.durationFmt = 3 ∧ o.durFmt = .milliseconds) ∨
    (o.durationFmt = 4 ∧ o.durFmt = .microseconds) ∨ (o.durationFmt = 5 ∧ o.durFmt = .nanoseconds) := by
  have hr := C29_rejected_iff l
  have ho := hr.2 o h
  have hn : ¬ ∃ e, prepare l = .error e := by rintro ⟨e, he⟩; rw [h] at he; cases he
  rw [hr.1] at hn
  have e3 := (C29_effect l).2.2.1
  rw [← e3, ← ho] at hn
  have hb : 0 ≤ o.durationFmt ∧ o.durationFmt ≤ 5 := by
    refine Decidable.byContradiction fun hc => hn (Or.inr (Or.inr hc))
  have : o.durationFmt = 0 ∨ o.durationFmt = 1 ∨ o.durationFmt = 2 ∨ o.durationFmt = 3 ∨
      o.durationFmt = 4 ∨ o.durationFmt = 5 := by omega
  rcases this with h | h | h | h | h | h <;> simp [EncOpts.durFmt, h]

/-- C10, C29: which layout a list of options selects. The two RFC 3339 layouts are
those of package time, and the one with fractional seconds is the default. -/
theorem C10_layouts (l : List (Option Opt)) (s : Bytes)
    (hs : lastSetting settingLayout (b! "2006-01-02T15:04:05.999999999Z07:00") l = s) :
    ((defaultEncOpts.apply l).layout = .rfc3339 ↔ s = b! "2006-01-02T15:04:05Z07:00") ∧
    ((defaultEncOpts.apply l).layout = .rfc3339Nano ↔ s = b! "2006-01-02T15:04:05.999999999Z07:00") ∧
    (∀ x, (defaultEncOpts.apply l).layout = .other x ↔
      x = s ∧ s ≠ b! "2006-01-02T15:04:05Z07:00" ∧ s ≠ b! "2006-01-02T15:04:05.999999999Z07:00") := by
  have h1 : (defaultEncOpts.apply l).timeLayout = s := by
    rw [(C29_effect l).2.1, ← hs]
    exact congrArg (fun d => lastSetting settingLayout d l) (show layoutRFC3339Nano = _ by decide)
  have h2 : layoutRFC3339 = b! "2006-01-02T15:04:05Z07:00" := by decide
  have h3 : layoutRFC3339Nano = b! "2006-01-02T15:04:05.999999999Z07:00" := by decide
  unfold EncOpts.layout
  rw [h1, ← h2, ← h3]
  by_cases e1 : s = layoutRFC3339
  · subst e1
    refine ⟨by simp, ?_, ?_⟩
    · simp only [if_true]
      exact ⟨fun h => (by cases h), fun h => absurd h (by decide)⟩
    · simp
  · by_cases e2 : s = layoutRFC3339Nano
    · subst e2
      simp [e1]
    · simp only [e1, e2, if_false]
      refine ⟨by simp, by simp, fun x => ?_⟩
      rw [Layout.other.injEq]
      exact ⟨fun h => ⟨h.symm, e1, e2⟩, fun h => h.1.symm⟩

example : (defaultEncOpts.apply [some (.timeLayout (b! "2006-01-02T15:04:05Z07:00"))]).layout = .rfc3339 ∧
    (defaultEncOpts.apply [some (.timeLayout (b! "15:04")), some (.flag .unixTime)]).layout = .other (b! "15:04") := by decide

end Jettison.Props
