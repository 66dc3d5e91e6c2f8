import Verif.Js.Accept
import Verif.Props.JsWire

/-!
# Property C92: the streams a browser accepts
-/

set_option autoImplicit false

namespace Verif.Props.JsAccept

open Verif Verif.Coding Verif.Js Verif.Props.Grammar Verif.Props.JsWire

open Verif.Session (RecvStream StreamEnd)

/-- The stream starts with a complete first message, `m`, and `rest` follows. -/
def Opens {α : Type} (d : Rd α) (s : RecvStream) (m : α) (rest : Bytes) : Prop :=
  Returns (d ⟨[], s⟩) m rest s.ending

/-- The first message of the stream cannot be read, or not yet. -/
def Bad {α : Type} (d : Rd α) (s : RecvStream) : Prop := ∀ m, (d ⟨[], s⟩).1 ≠ .ok m

theorem loop_ok {α : Type} {d : Rd α} {s : RecvStream} {m : α} {r : Js.Reader}
    (h : d ⟨[], s⟩ = (.ok m, r)) (streams : List RecvStream) : acceptLoop d (s :: streams) =
      ((m, r) :: (acceptLoop d streams).1, (acceptLoop d streams).2) := by
  rw [acceptLoop, h]

theorem loop_thrown {α : Type} {d : Rd α} {s : RecvStream} {e : JsError} {r : Js.Reader}
    (h : d ⟨[], s⟩ = (.thrown e, r)) (streams : List RecvStream) :
    acceptLoop d (s :: streams) = ([], .dead e) := by
  rw [acceptLoop, h]

theorem loop_waiting {α : Type} {d : Rd α} {s : RecvStream} {r : Js.Reader}
    (h : d ⟨[], s⟩ = (.waiting, r)) (streams : List RecvStream) :
    acceptLoop d (s :: streams) = ([], .reading) := by
  rw [acceptLoop, h]

/-- **C92 (partial).**  As long as all streams begin with a complete and valid message, each is
handled: in the order they were opened, each once, with its own message and the rest of its own
stream; and the loop goes on.  (The full property does not need the condition: see
`c92_poisoned`.) -/
theorem c92_all_handled_partial {α : Type} (d : Rd α) (streams : List (RecvStream × α × Bytes))
    (h : ∀ x ∈ streams, Opens d x.1 x.2.1 x.2.2) :
    (acceptLoop d (streams.map (·.1))).2 = .accepting ∧
    List.Forall₂ (fun x y => y.1 = x.2.1 ∧ Holds y.2 x.2.2 x.1.ending) streams
      (acceptLoop d (streams.map (·.1))).1 := by
  induction streams with
  | nil => exact ⟨rfl, .nil⟩
  | cons x xs ih =>
    obtain ⟨i1, i2⟩ := ih fun y hy => h y (by simp [hy])
    obtain ⟨h1, h2⟩ := h x (by simp)
    rw [List.map_cons, acceptLoop]
    revert h1 h2
    generalize d ⟨[], x.1⟩ = o
    obtain ⟨o, r⟩ := o
    intro h1 h2
    have h1 : o = .ok x.2.1 := h1
    subst h1
    exact ⟨i1, .cons ⟨rfl, h2⟩ i2⟩

/-- A handled stream was handled as its own bytes say, and all streams before it were handled
too: the handled streams are the first ones. -/
theorem c92_handled {α : Type} (d : Rd α) (streams : List RecvStream) (i : Nat) (m : α)
    (r : Js.Reader) (h : (acceptLoop d streams).1[i]? = some (m, r)) :
    ∃ s, streams[i]? = some s ∧ d ⟨[], s⟩ = (.ok m, r) := by
  induction streams generalizing i with
  | nil => simp [acceptLoop] at h
  | cons s streams ih =>
    rw [acceptLoop] at h
    revert h
    cases hd : d ⟨[], s⟩ with
    | mk o r' =>
      cases o with
      | ok m' =>
        intro h
        cases i with
        | zero =>
          simp only [List.getElem?_cons_zero, Option.some.injEq, Prod.mk.injEq] at h
          obtain ⟨rfl, rfl⟩ := h
          exact ⟨s, rfl, hd⟩
        | succ i =>
          obtain ⟨s', h1, h2⟩ := ih i (by simpa using h)
          exact ⟨s', by simpa using h1, h2⟩
      | thrown e =>
        intro h
        simp at h
      | waiting =>
        intro h
        simp at h

/-- **Violation.**  One stream whose first message is invalid or incomplete keeps the browser from
handling any stream opened after it, whatever those are: only the streams before it are handled,
and the loop waits for it or has ended. -/
theorem c92_poisoned {α : Type} (d : Rd α) (before after : List RecvStream) (s : RecvStream)
    (h : Bad d s) :
    (acceptLoop d (before ++ s :: after)).1 = (acceptLoop d before).1 ∧
    (acceptLoop d (before ++ s :: after)).2 ≠ .accepting := by
  induction before with
  | nil =>
    unfold Bad at h
    cases hd : d ⟨[], s⟩ with
    | mk o r =>
      rw [hd] at h
      cases o with
      | ok m => exact absurd rfl (h m)
      | thrown e =>
        rw [List.nil_append, loop_thrown hd]
        exact ⟨rfl, by simp⟩
      | waiting =>
        rw [List.nil_append, loop_waiting hd]
        exact ⟨rfl, by simp⟩
  | cons b before ih =>
    rw [List.cons_append]
    cases hd : d ⟨[], b⟩ with
    | mk o r =>
      cases o with
      | ok m =>
        rw [loop_ok hd, loop_ok hd]
        exact ⟨congrArg ((m, r) :: ·) ih.1, ih.2⟩
      | thrown e =>
        rw [loop_thrown hd, loop_thrown hd]
        exact ⟨rfl, by simp⟩
      | waiting =>
        rw [loop_waiting hd, loop_waiting hd]
        exact ⟨rfl, by simp⟩

/-- **Violation, from a well-behaved peer.**  A native peer that subscribes with a priority of 64
or more (a native player subscribes to the catalog with 100) thereby keeps the browser from
handling all of its later subscriptions and announcement requests. -/
theorem c92_priority_poisons (L : Lossy) (before after : List RecvStream) (s : RecvStream)
    (m : Message.Subscribe) (bs : Bytes) (hw : Wire .subscribe bs m) (hp : 64 ≤ m.priority)
    (hb : NoMark m.broadcast) (hb' : Safe (strBytes m.broadcast).length)
    (ht : NoMark m.track) (ht' : Safe (strBytes m.track).length)
    (hs : s.chunks.flatten = [2] ++ bs) :
    (acceptLoop (acceptBi L) (before ++ s :: after)).1 = (acceptLoop (acceptBi L) before).1 := by
  refine (c92_poisoned _ before after s fun x hx => ?_).1
  have := (c90_priority_starves L ⟨[], s⟩ s.ending).2 m bs hw hp hb hb' ht ht' ⟨hs, rfl⟩
  rw [hx] at this
  cases he : s.ending <;> rw [he] at this <;> cases this

/-- The two kinds of loops: streams in both directions, and streams of groups. -/
example : (acceptLoop (acceptBi fun _ => []) [⟨[[1, 0]], .idle⟩, ⟨[[2, 7, 0], [0, 3]], .idle⟩]) =
    ([(.announce ⟨[]⟩, ⟨[], ⟨[], .idle⟩⟩), (.subscribe ⟨7, [], [], 3⟩, ⟨[], ⟨[], .idle⟩⟩)],
      .accepting) := by decide +kernel

/-- An unknown type of stream, and a priority of 100, before a good stream. -/
example : acceptLoop acceptUni [⟨[[0, 1, 5, 1, 9]], .fin⟩, ⟨[[3]], .fin⟩, ⟨[[0, 1, 6]], .fin⟩] =
      ([(⟨1, 5⟩, ⟨[1, 9], ⟨[], .fin⟩⟩)], .dead (.unknownType 3)) ∧
    acceptLoop (acceptBi fun _ => []) [⟨[[2, 0, 0, 0, 100]], .idle⟩, ⟨[[1, 0]], .idle⟩] =
      ([], .reading) := by
  constructor <;> decide +kernel

end Verif.Props.JsAccept
