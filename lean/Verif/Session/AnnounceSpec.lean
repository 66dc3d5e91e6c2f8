import Verif.Session.Announce

/-!
# Specification vocabulary for announce streams

Everything here is defined from the messages, or from the history of calls and answers.
-/

set_option autoImplicit false

namespace Verif.Session.Announce.Spec

open Verif
open Verif.Model.Origin (Path)

/-- How often a suffix was announced. -/
def actives (l : List Msg) (suffix : Path) : Nat := l.count (.active suffix)

/-- How often a suffix was unannounced. -/
def endeds (l : List Msg) (suffix : Path) : Nat := l.count (.ended suffix)

/-- The suffix is announced and not unannounced after these messages. -/
def Announced (l : List Msg) (suffix : Path) : Prop := actives l suffix = endeds l suffix + 1

/-- After every prefix of the messages, every suffix is announced as often as it is unannounced,
or once more. -/
def WellFormed (l : List Msg) : Prop :=
  ∀ l', l' <+: l → ∀ suffix,
    endeds l' suffix ≤ actives l' suffix ∧ actives l' suffix ≤ endeds l' suffix + 1

/-- Nothing is announced after these messages. -/
def Settled (l : List Msg) : Prop := ∀ suffix, actives l suffix = endeds l suffix

/-- The messages a sender has sent. -/
def sent (tr : List (Sender.Op × Sender.Out)) : List Msg :=
  tr.filterMap fun
    | (_, .sent m) => some m
    | _ => none

/-- A broadcast is announced only under suffixes that are not announced at that moment. -/
def Polite (tr : List (Sender.Op × Sender.Out)) : Prop :=
  ∀ t₁ t₂ suffix bc, tr = t₁ ++ (.announce suffix bc, .sent (.active suffix)) :: t₂ →
    actives (sent t₁) suffix = endeds (sent t₁) suffix

/-- The messages a receiver has accepted. -/
def accepted (tr : List (Receiver.Op × Receiver.Out)) : List Msg :=
  tr.filterMap fun
    | (.msg m, .ok) => some m
    | _ => none

/-- How often the origin of the receiver has processed the closure of a broadcast at a suffix. -/
def removals (tr : List (Receiver.Op × Receiver.Out)) (suffix : Path) : Nat :=
  tr.countP fun e => e.2 = .removed suffix

/-- The receiver has failed. -/
def Failed (tr : List (Receiver.Op × Receiver.Out)) : Prop := ∃ m e, (Receiver.Op.msg m, Receiver.Out.err e) ∈ tr

/-- The stream has ended. -/
def Over (tr : List (Receiver.Op × Receiver.Out)) : Prop := (Receiver.Op.fin, Receiver.Out.ok) ∈ tr

/-- The broadcasts that were announced, with their suffixes. -/
def announces (tr : List (Sender.Op × Sender.Out)) : List (Path × Nat) :=
  tr.filterMap fun
    | (.announce suffix bc, .sent _) => some (suffix, bc)
    | _ => none

/-- The broadcast was closed. -/
def IsClosed (tr : List (Sender.Op × Sender.Out)) (bc : Nat) : Prop :=
  (Sender.Op.close bc, Sender.Out.ok) ∈ tr

/-- The loop of the sender was left. -/
def Left (tr : List (Sender.Op × Sender.Out)) : Prop :=
  ∃ op, ((∃ order, op = Sender.Op.exhausted order) ∨ op = .stop) ∧ (op, Sender.Out.ok) ∈ tr

end Verif.Session.Announce.Spec
