import Verif.Num
/-
The `serde` feature: `serde/ser.rs` and `serde/de.rs`.

A `Serializer` is given by the list of the calls it gets (`Ev`); a `Visitor` by the one call it gets (`Visit`), with
the accesses of `visit_seq` and `visit_map` as iterators that the visitor steps.  Floating point numbers are given by their text, as parsing them is
third-party (DESIGN.md §3).
-/
namespace Verif

/-- An optional sign, removed. -/
def unsign (s : Bytes) : Bytes := if s.headD 0 == 43 || s.headD 0 == DASH then s.tail else s

/-- Which texts `lexical_core::parse::<f64>` (and `f32`) accepts: optional sign; then digits with at most one point, at least one digit, and optionally an exponent
with at least one digit; or a special value. -/
def floatText (s : Bytes) : Bool :=
  let s := unsign s
  if eqIgnoreCase s (b! "nan") || eqIgnoreCase s (b! "inf") || eqIgnoreCase s (b! "infinity") then true
  else
    let a := s.takeWhile isDigit
    let r := s.dropWhile isDigit
    let dot := r.headD 0 == 46
    let b := if dot then r.tail.takeWhile isDigit else []
    let r := if dot then r.tail.dropWhile isDigit else r
    !(a.isEmpty && b.isEmpty) &&
      (r.isEmpty || ((r.headD 0 == 101 || r.headD 0 == 69) && !(unsign r.tail).isEmpty && (unsign r.tail).all isDigit))

/-- value.rs:143-169 `as_number!` for `as_f32` and `as_f64`: the text stands for the number. -/
def asFloat (d : Data) (id : Nat) : Except Stop (Option Bytes) := do
  match ← d.raw id with
  | .number s _ => return if floatText s then some s else none
  | _ => return none

/-- Calls of a `Serializer`: one for each scalar; `seq` and `map` (with their length hint) up to the matching `stop`, keys and values of a map alternating. -/
inductive Ev
  | none | bool (b : Bool) | int (t : IntTy) (x : Int) | f32 (text : Bytes) | f64 (text : Bytes) | str (s : Bytes) | bytes (s : Bytes)
  | seq (len : Option Nat) | map (len : Option Nat) | stop
deriving DecidableEq, Repr

/-- `Error::custom` with one of the messages of ser.rs:79, de.rs:71 and 687, or serde's for the 128-bit methods that de.rs does not implement; or a stop of the model. -/
inductive SErr
  | items | missingValue | unsupported | other (s : Stop)
deriving DecidableEq, Repr

/-- The type that a hint is for; the second component for integers. -/
def Hint.ty : Hint → Option IntTy
  | .f32 | .f64 => none
  | .u8 => some .u8 | .u16 => some .u16 | .u32 => some .u32 | .u64 => some .u64 | .u128 => some .u128
  | .i8 => some .i8 | .i16 => some .i16 | .i32 => some .i32 | .i64 => some .i64 | .i128 => some .i128

/-- ser.rs:18-67, the numbers: through the accessor for the hint; `serialize_none` if that has no result. -/
def serNumber (d : Data) (id : Nat) (h : Hint) : Except Stop Ev :=
  match h with
  | .f32 => do return match ← asFloat d id with | some v => .f32 v | none => .none
  | .f64 => do return match ← asFloat d id with | some v => .f64 v | none => .none
  | .u8 => do return match ← asInt .u8 d id with | some v => .int .u8 v | none => .none
  | .u16 => do return match ← asInt .u16 d id with | some v => .int .u16 v | none => .none
  | .u32 => do return match ← asInt .u32 d id with | some v => .int .u32 v | none => .none
  | .u64 => do return match ← asInt .u64 d id with | some v => .int .u64 v | none => .none
  | .u128 => do return match ← asInt .u128 d id with | some v => .int .u128 v | none => .none
  | .i8 => do return match ← asInt .i8 d id with | some v => .int .i8 v | none => .none
  | .i16 => do return match ← asInt .i16 d id with | some v => .int .i16 v | none => .none
  | .i32 => do return match ← asInt .i32 d id with | some v => .int .i32 v | none => .none
  | .i64 => do return match ← asInt .i64 d id with | some v => .int .i64 v | none => .none
  | .i128 => do return match ← asInt .i128 d id with | some v => .int .i128 v | none => .none

/-- `serialize_str` for valid UTF-8, else `serialize_bytes` (ser.rs:68-76; for keys 108-113, where `BStr` serializes as bytes). -/
def strEv (s : Bytes) : Ev := if validUtf8 s then .str s else .bytes s

/-- A stop of the model inside a serialization. -/
def lift {α} : Except Stop α → Except SErr α
  | .ok a => .ok a
  | .error e => .error (.other e)

/-- ser.rs:91-93, the loop over the items of a sequence; `rec` serializes a value. -/
def serSeqItems (rec : Nat → Except SErr (List Ev)) (d : Data) : List Nat → Except SErr (List Ev)
  | [] => return []
  | i :: is => do
    let v ← lift (d.sequenceItem i)
    let e ← rec v
    return e ++ (← serSeqItems rec d is)

/-- ser.rs:107-113, the loop over the items of a mapping. -/
def serMapItems (rec : Nat → Except SErr (List Ev)) (d : Data) : List Nat → Except SErr (List Ev)
  | [] => return []
  | i :: is => do
    let (k, v) ← lift (mapItemOf d i)
    let e ← rec v
    return strEv k :: e ++ (← serMapItems rec d is)

/-- ser.rs:10-118 `Serialize for Value`, `Sequence` and `Mapping`: the calls in order.  (A serializer that fails ends them earlier.)  The recursion in the Rust code
is not bounded; the fuel bounds it here. -/
def serializeF : Nat → Data → Nat → Except SErr (List Ev)
  | 0, _, _ => .error (.other .fuel)
  | f + 1, d, id => do
    match ← lift (d.raw id) with
    | .null _ => return [.none]
    | .bool b _ => return [.bool b]
    | .number _ h => return [← lift (serNumber d id h)]
    | .string s => return [strEv s.id]
    | .mapping _ =>
      let n ← lift (mapLen d id)
      let it ← lift (mapIter d id)
      return .map (some n) :: (← serMapItems (serializeF f d) d it.rest) ++ [.stop]
    | .sequence _ =>
      let n ← lift (seqLen' d id)
      let it ← lift (seqIter d id)
      return .seq (some n) :: (← serSeqItems (serializeF f d) d it.rest) ++ [.stop]
    | _ => .error .items

/-- `Serialize::serialize` of a value. -/
def serialize (d : Data) (id : Nat) : Except SErr (List Ev) := serializeF d.fuel d id

/-! ### Deserialization -/

/-- The methods of `Deserializer` (`int` for the ten integer types). -/
inductive Method
  | any | bool | int (t : IntTy) | f32 | f64 | char | str | string | bytes | byteBuf | option | unit | unitStruct | newtypeStruct
  | seq | tuple | tupleStruct | map | struct | enum | identifier | ignoredAny
deriving DecidableEq, Repr

/-- The call that the visitor gets: `visit_none`, `visit_bool`, ...; `some` is `visit_some` with the value of the id as deserializer; `seq` and `map` come with an
iterator. -/
inductive Visit
  | none | bool (b : Bool) | int (t : IntTy) (x : Int) | f32 (text : Bytes) | f64 (text : Bytes) | str (s : Bytes) | bytes (s : Bytes)
  | some (id : Nat) | seq (it : Iter) | map (it : Iter)
deriving DecidableEq, Repr

/-- de.rs:42-55: the method for a hint. -/
def Hint.method : Hint → Method
  | .f32 => .f32 | .f64 => .f64
  | .u8 => .int .u8 | .u16 => .int .u16 | .u32 => .int .u32 | .u64 => .int .u64 | .u128 => .int .u128
  | .i8 => .int .i8 | .i16 => .int .i16 | .i32 => .int .i32 | .i64 => .int .i64 | .i128 => .int .i128

/-- de.rs:31-381 `Deserializer for Value`: which call the visitor gets.  The methods fall back to `deserialize_any`, which for numbers calls one of them; the fuel bounds
this.  `deserialize_i128` and `deserialize_u128` are not implemented, so serde's default is used, which fails. -/
def deserialize : Nat → Data → Nat → Method → Except SErr Visit
  | 0, _, _, _ => .error (.other .fuel)
  | f + 1, d, id, .any => do
    match ← lift (d.raw id) with
    | .null _ => return .none
    | .bool b _ => return .bool b
    | .number _ h => deserialize f d id h.method
    | .string s => return if validUtf8 s.id then .str s.id else .bytes s.id
    | .mapping _ => return .map (← lift (mapIter d id))
    | .sequence _ => return .seq (← lift (seqIter d id))
    | _ => .error .items
  | f + 1, d, id, .bool => do
    match ← lift (asBool d id) with
    | some v => return .bool v
    | none => deserialize f d id .any
  | f + 1, d, id, .int t => do
    if t = .u128 ∨ t = .i128 then .error .unsupported
    else
      match ← lift (asInt t d id) with
      | some v => return .int t v
      | none => deserialize f d id .any
  | f + 1, d, id, .f32 => do
    match ← lift (asFloat d id) with
    | some v => return .f32 v
    | none => deserialize f d id .any
  | f + 1, d, id, .f64 => do
    match ← lift (asFloat d id) with
    | some v => return .f64 v
    | none => deserialize f d id .any
  | f + 1, d, id, .char | f + 1, d, id, .str | f + 1, d, id, .string => do
    match ← lift (asStr d id) with
    | some v => return .str v
    | none => deserialize f d id .any
  | f + 1, d, id, .bytes | f + 1, d, id, .byteBuf => do
    match ← lift (asBstr d id) with
    | some v => return .bytes v
    | none => deserialize f d id .any
  | f + 1, d, id, .option => do
    match ← lift (d.raw id) with
    | .null _ => return .none
    | _ => return .some id
  | f + 1, d, id, .seq | f + 1, d, id, .tuple => do
    match ← lift (asSequence d id) with
    | some v => return .seq (← lift (seqIter d v))
    | none => deserialize f d id .any
  | f + 1, d, id, .map => do
    match ← lift (asMapping d id) with
    | some v => return .map (← lift (mapIter d v))
    | none => deserialize f d id .any
  | f + 1, d, id, .unit | f + 1, d, id, .unitStruct | f + 1, d, id, .newtypeStruct | f + 1, d, id, .tupleStruct | f + 1, d, id, .struct
  | f + 1, d, id, .enum | f + 1, d, id, .identifier | f + 1, d, id, .ignoredAny => deserialize f d id .any

/-- de.rs:653-656 `MappingIter`. -/
structure MapAccess where
  iter : Iter
  value : Option Nat
deriving DecidableEq, Repr

/-- de.rs:668-679 `next_key_seed`: the key, which the seed gets through `visit_bytes` whatever it asks for (de.rs:383-651 `BStrDeserializer`; only for integers of 128 bits it is left to serde, which fails, and this is not modelled). -/
def MapAccess.nextKey (d : Data) (a : MapAccess) : Except Stop (Option Bytes × MapAccess) := do
  match ← a.iter.next (mapItemOf d) with
  | (some (k, v), it) => return (some k, ⟨it, some v⟩)
  | (none, it) => return (none, ⟨it, a.value⟩)

/-- de.rs:681-691 `next_value_seed`: the value that the seed gets as deserializer. -/
def MapAccess.nextValue (a : MapAccess) : Except SErr (Nat × MapAccess) :=
  match a.value with
  | some v => .ok (v, ⟨a.iter, none⟩)
  | none => .error .missingValue

/-- de.rs:708-718 `next_element_seed` of `SequenceIter`: the value that the seed gets as deserializer. -/
def seqAccessNext (d : Data) (it : Iter) : Except Stop (Option Nat × Iter) := it.next (d.sequenceItem)

end Verif
