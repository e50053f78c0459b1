import Verif.Model.Calls

/-!
# Methods that call the library (/repo/encode.go:631-729)

A method of the user, called by an instruction, may call the library again, and the
instruction waits for it. Calls made in the goroutine of the method are the steps `MStep`
of Model/Calls. A method may also start goroutines which call the library, and wait for
them before it returns: in Model/Calls they are goroutines like all others; here the
instruction that called the method goes on only when they have ended. Between the two, the
method may go on to make calls in its own goroutine, whose methods may do the same.
-/

namespace Jettison.Model

/-- The process; for each goroutine the one in whose method it was started, if any, with the number of
calls that enclose that method in its goroutine beside the outermost; and for each goroutine the number of calls
that have ended of those its methods have made in it. Calls of /repo/json.go:111-160 made by the methods called at
/repo/encode.go:631-729. -/
structure Nest where
  conf : Conf
  up : List (Option (Nat × Nat))
  ended : List Nat

/-- How many calls made by methods are going on in goroutine `i`, one in a method of the other
(/repo/encode.go:631-729). -/
def Nest.depth (N : Nest) (i : Nat) : Nat :=
  match N.conf.thr[i]? with
  | some T => T.inner.length - (N.ended[i]?).getD 0
  | none => 0

/-- Goroutine `i` waits for a call made in another goroutine by the method that is running in it. A method called at
/repo/encode.go:631-729 that has not returned. -/
def Nest.Held (N : Nest) (i : Nat) : Prop :=
  ∃ (j : Nat) (T : Thread), N.up[j]? = some (some (i, N.depth i)) ∧ N.conf.thr[j]? = some T ∧ ∀ out, T.prog ≠ .ret out

/-- Goroutine `i` may be in a method. The instructions that call methods (/repo/encode.go:631-729) are made by
`onBytes` (Model/Calls): the destination is read, the method is called, the result is appended. The calls
the method makes are taken to happen before the destination is read. This allows more than the code
does: not every operation `scratch` is followed by a method. -/
def Nest.InMethod (N : Nest) (i : Nat) : Prop := ∃ (T : Thread) (s : Sl) (k : Bytes → Prog Out), N.conf.thr[i]? = some T ∧ T.prog = .op (.scratch s) k

/-- Who may make a call: a goroutine of the user, or a method that is being called (/repo/encode.go:631-729). -/
def Nest.Calls (N : Nest) : Option (Nat × Nat) → Prop
  | none => True
  | some (i, d) => N.InMethod i ∧ d = N.depth i

/-- A call made by a method in its own goroutine is about to return to it (the method called at
/repo/encode.go:631-729 goes on). -/
def Thread.backs (T : Thread) : Bool := match T.prog with | .op (.back _ _ _ _) _ => true | _ => false

/-- The calls that have ended when goroutine `i` has done its next operation (a method called at
/repo/encode.go:631-729 goes on when the call it made has returned). -/
def Nest.after (N : Nest) (i : Nat) : List Nat :=
  match N.conf.thr[i]? with
  | some T => if T.backs then N.ended.modify i (· + 1) else N.ended
  | none => N.ended

/-- One step. As `CStep` (Model/Calls): calls of /repo/json.go:111-160, some of them made in methods
(/repo/encode.go:631-729). -/
inductive NStep (W : World) (g n : Nat) : Nest → Nest → Prop
  /-- `MarshalOpts` is called in a new goroutine. -/
  | marshal {N : Nest} {c u} : c.dst = none → N.Calls u →
      NStep W g n N ⟨⟨N.conf.sh, N.conf.thr ++ [⟨c, c.marshal W g n, [], []⟩]⟩, N.up ++ [u], N.ended ++ [0]⟩
  /-- `AppendOpts` is called in a new goroutine, with a slice whose array the caller leaves to it. -/
  | append {N : Nest} {c dst u} (junk : Bytes) : c.dst = some dst → N.Calls u →
      NStep W g n N ⟨⟨{ N.conf.sh with arrs := N.conf.sh.arrs ++ [dst ++ junk] },
        N.conf.thr ++ [⟨c, c.append W g n ⟨N.conf.sh.arrs.length, dst.length⟩, [], []⟩]⟩, N.up ++ [u], N.ended ++ [0]⟩
  /-- A goroutine that does not wait for others does its next operation. -/
  | op {N : Nest} {C' i} : OStep i N.conf C' → ¬ N.Held i → NStep W g n N ⟨C', N.up, N.after i⟩
  /-- A method does something to the memory it was given, or calls the library in the same goroutine
  (/repo/encode.go:631-729), also while goroutines it has started are running. -/
  | method {N : Nest} {C' i} : MStep W g n i N.conf C' → NStep W g n N ⟨C', N.up, N.ended⟩
  /-- The garbage collector drops an object of a pool. -/
  | drop {N : Nest} {P id} : id ∈ N.conf.sh.pool P →
      NStep W g n N ⟨⟨{ N.conf.sh with pool := fun Q => if Q = P then (N.conf.sh.pool P).erase id else N.conf.sh.pool Q }, N.conf.thr⟩, N.up, N.ended⟩

/-- The states reached from the start of the process, by calls of /repo/json.go:111-160. -/
inductive NReached (W : World) (g n : Nat) : Nest → Prop
  | init : NReached W g n ⟨⟨.init, []⟩, [], []⟩
  | step {N N'} : NReached W g n N → NStep W g n N N' → NReached W g n N'

/-- Goroutine `j` was started within the call of goroutine `i`: by one of its methods, or by a method of a call made
within it (/repo/encode.go:631-729). -/
inductive MadeIn (up : List (Option (Nat × Nat))) (i : Nat) : Nat → Prop
  | one {j d} : up[j]? = some (some (i, d)) → MadeIn up i j
  | deep {j m d} : up[j]? = some (some (m, d)) → MadeIn up i m → MadeIn up i j

end Jettison.Model
