import Verif.Stop.Model
/-
  What is asked of shutdown, in terms of what the threads still have to do.

  `A` is a set of objects that are known not to be stopping; it is empty unless said otherwise.
-/
namespace HS.Stop
open Prog Obj

/-- No object is known not to be stopping. -/
def nobody : Obj → Bool := fun _ => false

/-- The most by which, on some path and up to some point of it, the thread gives back more counts on `o`
than it takes: at least one if the thread has counted itself on `o` and may yet say so. -/
def owed (A : Obj → Bool) (o : Obj) : Prog → Int
  | done => 0
  | test x a b => if A x then owed A o b else max (owed A o a) (owed A o b)
  | inc x k => if x = o then max 0 (owed A o k - 1) else owed A o k
  | dec x k => if x = o then owed A o k + 1 else owed A o k
  | use _ k => owed A o k
  | alt a b => max (owed A o a) (owed A o b)
  | fork body k => owed A o body + owed A o k
  | stop _ k => owed A o k
  | await _ k => owed A o k

/-- The least by which the thread, and those it starts, give back more counts on `o` than they take, when
they run to the end. -/
def back (A : Obj → Bool) (o : Obj) : Prog → Int
  | done => 0
  | test x a b => if A x then back A o b else min (back A o a) (back A o b)
  | inc x k => if x = o then back A o k - 1 else back A o k
  | dec x k => if x = o then back A o k + 1 else back A o k
  | use _ k => back A o k
  | alt a b => min (back A o a) (back A o b)
  | fork body k => back A o body + back A o k
  | stop _ k => back A o k
  | await _ k => back A o k

/-- Once `o` is stopping, the thread does not touch it any more, whatever path it takes. -/
def Refuses (A : Obj → Bool) (o : Obj) : Prog → Prop
  | done => True
  | test x a b =>
    if A x then Refuses A o b else if x = o then Refuses A o a else Refuses A o a ∧ Refuses A o b
  | inc _ k => Refuses A o k
  | dec _ k => Refuses A o k
  | use x k => x ≠ o ∧ Refuses A o k
  | alt a b => Refuses A o a ∧ Refuses A o b
  | fork body k => Refuses A o body ∧ Refuses A o k
  | stop _ k => Refuses A o k
  | await _ k => Refuses A o k

/-- The thread is counted on `o`, or does not touch `o` any more once it is stopping.  A thread that is
neither has looked at the flag of `o` and has not counted itself yet, or touches `o` uncounted. -/
def Settled (A : Obj → Bool) (o : Obj) (p : Prog) : Prop := 1 ≤ owed A o p ∨ Refuses A o p

/-- In this state and by this event a stop of `o` begins. -/
def Begins (s : St) (o : Obj) : Ev → Prop
  | .call _ => False
  | .run i _ => ∃ k, s.pool[i]? = some (stop o k)

/-- In this history no stop begins while a thread is between looking at the flag and counting itself. -/
def Calm (A : Obj → Bool) : St → List Ev → Prop
  | _, [] => True
  | s, e :: es => (∀ o, A o = false → Begins s o e → ∀ p ∈ s.pool, Settled A o p) ∧
      ∀ t, s.step e = some t → Calm A t es

/-- Every call of the history is one of these. -/
def Calls (F : Prog → Prop) (es : List Ev) : Prop := ∀ p, Ev.call p ∈ es → F p

/-- Every event of the history is a step of a thread: no call is made. -/
def Steps (es : List Ev) : Prop := ∀ p, Ev.call p ∉ es

/-- All calls, and all they have started, are over. -/
def St.Over (s : St) : Prop := ∀ p ∈ s.pool, p = done

/-- No thread can take a step. -/
def St.Stuck (s : St) : Prop := ∀ i c, s.step (.run i c) = none

/-- The number of steps a thread and those it starts can still take, at most. -/
def size : Prog → Nat
  | done => 0
  | test _ a b => 1 + max (size a) (size b)
  | inc _ k => 1 + size k
  | dec _ k => 1 + size k
  | use _ k => 1 + size k
  | alt a b => 1 + max (size a) (size b)
  | fork body k => 1 + size body + size k
  | stop _ k => 2 + size k
  | await _ k => 1 + size k

/-- The order in which stops wait: for the services before their devices, for these before their stores. -/
def rank : Obj → Nat
  | repl => 0
  | rdev _ => 1
  | logs => 2
  | ldev _ => 3
  | store _ _ => 4
  | data => 5
  | index => 2
  | table _ => 3

end HS.Stop
