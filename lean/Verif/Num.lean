import Verif.Access
/-
Integer formatting (`itoa`) and parsing (`lexical-core`); third-party, see DESIGN.md §3.
-/
namespace Verif

/-- Decimal digits, most significant first; the first argument bounds the digits. -/
def digitsF : Nat → Nat → Bytes
  | 0, _ => []
  | f + 1, n => (if n < 10 then [] else digitsF f (n / 10)) ++ [UInt8.ofNat (48 + n % 10)]

/-- `itoa` of an unsigned integer. -/
def natText (n : Nat) : Bytes := digitsF (n + 1) n

/-- `itoa::Buffer::format`. -/
def intText : Int → Bytes
  | .ofNat n => natText n
  | .negSucc n => DASH :: natText (n + 1)

/-- Value of a list of digits, `none` if some byte is not a digit. -/
def digitsVal : Nat → Bytes → Option Nat
  | acc, [] => some acc
  | acc, b :: r => if isDigit b then digitsVal (acc * 10 + (b.toNat - 48)) r else none

/-- The integer types with `set_*`/`as_*` methods (value_mut.rs:600-611, value.rs:571-582). -/
inductive IntTy
  | u8 | u16 | u32 | u64 | u128 | i8 | i16 | i32 | i64 | i128
deriving DecidableEq, Repr

namespace IntTy
/-- Rust's primitive integer types: signed ones. -/
def signed : IntTy → Bool
  | u8 | u16 | u32 | u64 | u128 => false
  | _ => true
/-- Rust's primitive integer types: their width. -/
def bits : IntTy → Nat
  | u8 | i8 => 8
  | u16 | i16 => 16
  | u32 | i32 => 32
  | u64 | i64 => 64
  | u128 | i128 => 128
/-- Smallest value of the type. -/
def min (t : IntTy) : Int := if t.signed then -(2 ^ (t.bits - 1) : Nat) else 0
/-- Largest value of the type. -/
def max (t : IntTy) : Int := if t.signed then (2 ^ (t.bits - 1) : Nat) - 1 else (2 ^ t.bits : Nat) - 1
/-- The hint the setters store (value_mut.rs:600-611 and alike). -/
def hint : IntTy → Hint
  | u8 => .u8 | u16 => .u16 | u32 => .u32 | u64 => .u64 | u128 => .u128
  | i8 => .i8 | i16 => .i16 | i32 => .i32 | i64 => .i64 | i128 => .i128
/-- `x` is a value of the type. -/
def has (t : IntTy) (x : Int) : Bool := t.min ≤ x && x ≤ t.max
end IntTy

/-- `lexical_core::parse::<T>` for an integer type: optional `+`, or `-` if signed, at least one
digit, nothing else, and the value in range. -/
def lexParse (t : IntTy) (s : Bytes) : Option Int :=
  let (neg, digits) :=
    match s with
    | b :: r => if b == 43 then (false, r) else if b == DASH && t.signed then (true, r) else (false, s)
    | [] => (false, [])
  if digits.isEmpty then none
  else
    match digitsVal 0 digits with
    | none => none
    | some v =>
      let x : Int := if neg then -(v : Int) else v
      if t.has x then some x else none

/-- value.rs:143-169 `as_number!` (and number.rs:8-30). -/
def asInt (t : IntTy) (d : Data) (id : Nat) : Except Stop (Option Int) := do
  match ← d.raw id with
  | .number s _ => return lexParse t s
  | _ => return none

/-- value_mut.rs:343-366 `set_number!`. -/
def setInt (t : IntTy) (d : Data) (id : Nat) (x : Int) : Except Stop Data :=
  setNumber d id (intText x) t.hint

/-- mapping_mut.rs:93-132 `insert_number!`. -/
def mapInsertInt (t : IntTy) (d : Data) (id : Nat) (key : Bytes) (x : Int) : Except Stop (Nat × Data) :=
  mapInsertNumber d id key (intText x) t.hint

/-- sequence_mut.rs:50-86 `push_number!`. -/
def seqPushInt (t : IntTy) (d : Data) (id : Nat) (x : Int) : Except Stop (Nat × Data) :=
  seqPushNumber d id (intText x) t.hint

end Verif
