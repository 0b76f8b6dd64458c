import Verif.Bytes
/-
The data types of `raw.rs`, `data.rs`, `error.rs`, `value.rs`.
-/
namespace Verif

/-- error.rs:50-167 `ErrorKind`. -/
inductive ErrKind
  | expectedEof | badSequenceTerminator | badMappingSeparator | badMappingTerminator
  | badEscape | badHexEscape | badUnicodeEscape
deriving DecidableEq, Repr

/-- How a modelled function can fail to return a value: an `Error` with its span and kind
(error.rs:8-11), a Rust panic, or running out of the fuel that bounds loops and
recursion in the model ("has not finished yet"). -/
inductive Stop
  | err (start stop : Nat) (kind : ErrKind)
  | panic
  | fuel
deriving DecidableEq, Repr

deriving instance DecidableEq for Except

/-- raw.rs:464-475 `RawStringKind`; a `StringId` is modelled by its bytes. -/
inductive StrKind
  | bare | single | double | original
  | multiline (pre : Bytes)
deriving DecidableEq, Repr

/-- raw.rs:514-521 `String`: `id` is the content, `original` the source text. -/
structure RStr where
  kind : StrKind
  id : Bytes
  original : Bytes
deriving DecidableEq, Repr

/-- raw.rs:344-351 `Null`. -/
inductive RNull
  | keyword (s : Bytes) | tilde | empty
deriving DecidableEq, Repr

/-- mod.rs:112-137 `RawNumberHint` (as with the `serde` feature). -/
inductive Hint
  | f32 | f64 | u8 | u16 | u32 | u64 | u128 | i8 | i16 | i32 | i64 | i128
deriving DecidableEq, Repr

/-- raw.rs:712-732 `SequenceKind` and 859-878 `MappingKind` (the same two cases). -/
inductive CollKind
  | block
  | inline (trailing : Bool) (suffix : Bytes)
deriving DecidableEq, Repr

/-- raw.rs:737-744 `Sequence` and 883-890 `Mapping` (the same three fields). -/
structure Coll where
  indent : Nat
  kind : CollKind
  items : List Nat
deriving DecidableEq, Repr

/-- raw.rs:201-218 `Raw`.  An `Id` is modelled by its slab index (data.rs:70-77). -/
inductive Raw
  | null (n : RNull)
  | bool (value : Bool) (string : Bytes)
  | number (string : Bytes) (hint : Hint)
  | string (s : RStr)
  | mapping (c : Coll)
  | mappingItem (key : RStr) (value : Nat)
  | sequence (c : Coll)
  | sequenceItem (value : Nat)
deriving DecidableEq, Repr

/-- data.rs:87-90 `Entry` with raw.rs:189-195 `Layout` inlined. -/
structure Entry where
  raw : Raw
  pre : Bytes
  parent : Option Nat
deriving DecidableEq, Repr

/-- value.rs:14-24 `Chomp`. -/
inductive Chomp | strip | clip | keep
deriving DecidableEq, Repr

/-- value.rs:39-54 `StringKind`. -/
inductive StringKind | bare | single | double
deriving DecidableEq, Repr

/-- value.rs:59-77 `Block`. -/
inductive Block | literal (c : Chomp) | folded (c : Chomp)
deriving DecidableEq, Repr

/-- value.rs:87-102 `Separator`. -/
inductive Separator | auto | custom (s : Bytes)
deriving DecidableEq, Repr

/-- value.rs:108-115 `Null`. -/
inductive NullKind | keyword | tilde | empty
deriving DecidableEq, Repr

end Verif
