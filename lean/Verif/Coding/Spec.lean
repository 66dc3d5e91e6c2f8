import Verif.Coding.Model

/-!
# Specification of codecs

What it means for an encoder and a decoder to be right, independently of how they are
written.  These notions appear in the property theorems.
-/

namespace Verif.Coding

open Verif

/-- Every value (satisfying `P`) that can be encoded decodes to itself, whatever follows
it on the wire, and the bytes that follow are left untouched. -/
def RoundTripsOn {α} (P : α → Prop) (enc : α → Enc) (dec : Dec α) : Prop :=
  ∀ a bs rest, P a → wire (enc a) = .ok bs → dec (bs ++ rest) = .ok (a, rest)

/-- Every value that can be encoded decodes to itself. -/
def RoundTrips {α} (enc : α → Enc) (dec : Dec α) : Prop :=
  ∀ a bs rest, wire (enc a) = .ok bs → dec (bs ++ rest) = .ok (a, rest)

/-- A successful decode consumes a prefix of the buffer, and its outcome depends on
nothing but that prefix. -/
def DecidesOnPrefix {α} (dec : Dec α) : Prop :=
  ∀ bs a rest, dec bs = .ok (a, rest) →
    ∃ used, bs = used ++ rest ∧ ∀ more, dec (used ++ more) = .ok (a, more)

/-- An error other than "short" is final: more input does not change it. -/
def ErrorsAreFinal {α} (dec : Dec α) : Prop :=
  ∀ bs e, dec bs = .error e → e ≠ .short → ∀ more, dec (bs ++ more) = .error e

/-- Appending input never changes an outcome other than "short". -/
def StableUnderMoreInput {α} (dec : Dec α) : Prop :=
  (∀ bs a rest, dec bs = .ok (a, rest) → ∀ more, dec (bs ++ more) = .ok (a, rest ++ more)) ∧
  (∀ bs e, dec bs = .error e → e ≠ .short → ∀ more, dec (bs ++ more) = .error e)

/-- Decoding a strict prefix of an encoding reports "short". -/
def TruncationIsShortOn {α} (P : α → Prop) (enc : α → Enc) (dec : Dec α) : Prop :=
  ∀ a bs cut missing, P a → wire (enc a) = .ok bs → bs = cut ++ missing → missing ≠ [] →
    dec cut = .error .short

/-- Encode a sequence of values back to back. -/
def encodeAll {α} (enc : α → Enc) : List α → Enc
  | [] => .ok []
  | x :: xs => enc x ⨾ encodeAll enc xs

/-- Decode `n` values back to back. -/
def decodeCount {α} (dec : Dec α) : Nat → Bytes → Except DecodeError (List α × Bytes)
  | 0, bs => .ok ([], bs)
  | n + 1, bs =>
    match dec bs with
    | .error e => .error e
    | .ok (x, bs') =>
      match decodeCount dec n bs' with
      | .error e => .error e
      | .ok (xs, bs'') => .ok (x :: xs, bs'')

end Verif.Coding
