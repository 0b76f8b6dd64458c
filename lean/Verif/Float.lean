import Verif.Num
/-
Formatting of floating point numbers (`ryu`); third-party, see DESIGN.md §3.
-/
namespace Verif

/-- A floating point number, as far as `ryu` looks at it: not a number, an infinity, or a sign, the digits of the shortest decimal that is read as the number, and their exponent:
`digits · 10 ^ exp`.  Which decimal is the shortest is not modelled. -/
inductive FloatV
  | nan
  | inf (neg : Bool)
  | fin (neg : Bool) (digits : Nat) (exp : Int)
deriving DecidableEq, Repr

/-- The types with `set_f32` and `set_f64` (value_mut.rs:600-601). -/
inductive FloatTy
  | f32 | f64
deriving DecidableEq, Repr

namespace FloatTy
/-- The hint the setters store (value_mut.rs:318-340, 600-601; mapping_mut.rs:696-697; sequence_mut.rs:583-584). -/
def hint : FloatTy → Hint
  | f32 => .f32 | f64 => .f64
/-- `ryu` (`pretty/mod.rs`, `format32` and `format64`): the number of digits before the point, up to which there is no exponent. -/
def high : FloatTy → Nat
  | f32 => 13 | f64 => 16
/-- `ryu` (same place): numbers from this many places after the point on are written with an exponent. -/
def low : FloatTy → Nat
  | f32 => 6 | f64 => 5
end FloatTy

def signText (neg : Bool) : Bytes := if neg then [DASH] else []

/-- `ryu` (`pretty/mod.rs`, `format32` and `format64`) for a positive number. -/
def decimalText (high low : Nat) (n : Nat) (k : Int) : Bytes :=
  let s := natText n
  let kk : Int := s.length + k
  if 0 ≤ k ∧ kk ≤ high then s ++ List.replicate k.toNat 48 ++ b! ".0"
  else if 0 < kk ∧ kk ≤ high then s.take kk.toNat ++ b! "." ++ s.drop kk.toNat
  else if -low < kk ∧ kk ≤ 0 then b! "0." ++ List.replicate (-kk).toNat 48 ++ s
  else if s.length = 1 then s ++ b! "e" ++ intText (kk - 1)
  else s.take 1 ++ b! "." ++ s.drop 1 ++ b! "e" ++ intText (kk - 1)

/-- `ryu::Buffer::format`. -/
def floatFormat (t : FloatTy) : FloatV → Bytes
  | .nan => b! "NaN"
  | .inf neg => signText neg ++ b! "inf"
  | .fin neg n k => signText neg ++ if n = 0 then b! "0.0" else decimalText t.high t.low n k

/-- value_mut.rs:318-340 `set_float!`. -/
def setFloat (t : FloatTy) (d : Data) (id : Nat) (x : FloatV) : Except Stop Data :=
  setNumber d id (floatFormat t x) t.hint

/-- mapping_mut.rs:53-91 `insert_float!`. -/
def mapInsertFloat (t : FloatTy) (d : Data) (id : Nat) (key : Bytes) (x : FloatV) : Except Stop (Nat × Data) :=
  mapInsertNumber d id key (floatFormat t x) t.hint

/-- sequence_mut.rs:13-48 `push_float!`. -/
def seqPushFloat (t : FloatTy) (d : Data) (id : Nat) (x : FloatV) : Except Stop (Nat × Data) :=
  seqPushNumber d id (floatFormat t x) t.hint

end Verif
