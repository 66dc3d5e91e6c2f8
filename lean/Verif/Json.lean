import Verif.Base

/-!
# JSON documents

A document is its tree; the text of `serde_json` and of `JSON.stringify` and its parsing are not modelled, except for
what they do to numbers.  A number is either written with digits only, or otherwise it stands for the double that is
nearest to it.  Documents in which a key repeats are not modelled: no writer here makes them.  Doubles are modelled by
the larger set of rationals, without a negative zero.
-/

set_option autoImplicit false

namespace Verif

inductive Json where
  | null
  | bool (b : Bool)
  /-- digits only, possibly after a minus -/
  | int (n : Int)
  /-- with a fraction or an exponent, or an integer of at least 2^53 from `JSON.stringify`; the nearest double -/
  | dec (x : Rat)
  | str (s : String)
  | arr (xs : List Json)
  | obj (kvs : List (String × Json))

/-- An `f64`, an `f32` or a number of JavaScript. -/
inductive Num where
  | nan
  | inf (negative : Bool)
  | fin (x : Rat)
  deriving DecidableEq

namespace Json

/-- The value of a key. -/
def lookup (k : String) : List (String × Json) → Option Json
  | [] => none
  | (k', v) :: r => if k' = k then some v else lookup k r

/-- The keys that are written; `none` is left out. -/
def fields : List (String × Option Json) → List (String × Json)
  | [] => []
  | (_, none) :: r => fields r
  | (k, some v) :: r => (k, v) :: fields r

/-- A key that has to be there. -/
def need {α : Type} (p : Json → Option α) (o : Option Json) : Option α := o.bind p

/-- All elements or a failure. -/
def all {α β : Type} (p : α → Option β) : List α → Option (List β)
  | [] => some []
  | a :: r => (p a).bind fun b => (all p r).map (b :: ·)

/-- The double nearest to a natural number, ties to even. -/
def nearest (a : Nat) : Nat :=
  if a < 2 ^ 53 then a
  else
    let u := 2 ^ (a.log2 - 52)
    let q := a / u
    let r := a % u
    if u < 2 * r ∨ (2 * r = u ∧ q % 2 = 1) then (q + 1) * u else q * u

/-- The double nearest to an integer. -/
def double (n : Int) : Int := if n < 0 then -(nearest n.natAbs : Int) else nearest n.natAbs

end Json

/-- How texts of floats are made and read. -/
structure Floats where
  /-- The double that `serde_json` reads from a text; without `float_roundtrip` it need not be the nearest. -/
  f64 : Rat → Rat
  /-- The single that it reads. -/
  f32 : Rat → Num
  /-- The double nearest to the text of a single, which has only as many digits as tell singles apart. -/
  short : Rat → Rat

end Verif
