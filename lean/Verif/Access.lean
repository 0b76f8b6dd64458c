import Verif.Edit
/-
The reading API: `value.rs`, `mapping.rs`, `sequence.rs`, the iterators, `any.rs`.
-/
namespace Verif

/-- any.rs `Any`, with a value given by its id; numbers and strings by what their handle
shows (`Number::as_raw`, the string's content). -/
inductive AnyV
  | null
  | bool (b : Bool)
  | number (raw : Bytes)
  | string (content : Bytes)
  | mapping (id : Nat)
  | sequence (id : Nat)
  | raw (id : Nat)
deriving DecidableEq, Repr

/-- value.rs:209-219 `into_any`, 254-264 `as_any`. -/
def asAny (d : Data) (id : Nat) : Except Stop AnyV := do
  match ← d.raw id with
  | .null _ => return .null
  | .bool b _ => return .bool b
  | .number s _ => return .number s
  | .string s => return .string s.id
  | .mapping _ => return .mapping id
  | .sequence _ => return .sequence id
  | _ => return .raw id

/-- value.rs:356-361 `as_bstr`. -/
def asBstr (d : Data) (id : Nat) : Except Stop (Option Bytes) := do
  match ← d.raw id with
  | .string s => return some s.id
  | _ => return none

/-- value.rs:430-435 `as_str`. -/
def asStr (d : Data) (id : Nat) : Except Stop (Option Bytes) := do
  match ← d.raw id with
  | .string s => return if validUtf8 s.id then some s.id else none
  | _ => return none

/-- value.rs:453-458 `as_bool`. -/
def asBool (d : Data) (id : Nat) : Except Stop (Option Bool) := do
  match ← d.raw id with
  | .bool b _ => return some b
  | _ => return none

/-- value.rs:543-548 `as_number`, 564-569 `into_number`, with number.rs:76-78 `as_raw`. -/
def asNumber (d : Data) (id : Nat) : Except Stop (Option Bytes) := do
  match ← d.raw id with
  | .number s _ => return some s
  | _ => return none

/-- value.rs:490-495 `as_mapping` (and value_mut.rs:172-177, 230-235). -/
def asMapping (d : Data) (id : Nat) : Except Stop (Option Nat) := do
  match ← d.raw id with
  | .mapping _ => return some id
  | _ => return none

/-- value.rs:521-526 `as_sequence` (and value_mut.rs:269-274, 310-315). -/
def asSequence (d : Data) (id : Nat) : Except Stop (Option Nat) := do
  match ← d.raw id with
  | .sequence _ => return some id
  | _ => return none

/-- mapping.rs:135-137 `len`. -/
def mapLen (d : Data) (id : Nat) : Except Stop Nat := do return (← d.mapping id).items.length
/-- mapping.rs:161-163 `is_empty`. -/
def mapIsEmpty (d : Data) (id : Nat) : Except Stop Bool := do return (← d.mapping id).items.isEmpty
/-- mapping.rs:195-205 `get`: the value's id. -/
def mapGet (d : Data) (id : Nat) (key : Bytes) : Except Stop (Option Nat) := do
  findKey d key (← d.mapping id).items

/-- sequence.rs:168-170 `len`. -/
def seqLen' (d : Data) (id : Nat) : Except Stop Nat := do return (← d.sequence id).items.length
/-- sequence.rs:194-196 `is_empty`. -/
def seqIsEmpty (d : Data) (id : Nat) : Except Stop Bool := do return (← d.sequence id).items.isEmpty
/-- sequence.rs:223-227 `get`. -/
def seqGet (d : Data) (id ix : Nat) : Except Stop (Option Nat) := do
  match (← d.sequence id).items[ix]? with
  | some i => return some (← d.sequenceItem i)
  | none => return none
/-- sequence.rs:252-256 `first`. -/
def seqFirst (d : Data) (id : Nat) : Except Stop (Option Nat) := do
  match (← d.sequence id).items.head? with
  | some i => return some (← d.sequenceItem i)
  | none => return none
/-- sequence.rs:281-285 `last`. -/
def seqLast (d : Data) (id : Nat) : Except Stop (Option Nat) := do
  match (← d.sequence id).items.getLast? with
  | some i => return some (← d.sequenceItem i)
  | none => return none

/-! ### Iterators: the remaining `slice::Iter` is the list of remaining item ids -/

/-- sequence/iter.rs:9-12 and mapping/iter.rs:11-14 `Iter`. -/
structure Iter where
  rest : List Nat
deriving DecidableEq, Repr

/-- What a mapping iterator yields for an item: key content and value id
(mapping/iter.rs:31-34). -/
def mapItemOf (d : Data) (i : Nat) : Except Stop (Bytes × Nat) := do
  let (k, v) ← d.mappingItem i
  return (k.id, v)

/-- sequence.rs:309-311 `iter`. -/
def seqIter (d : Data) (id : Nat) : Except Stop Iter := do return ⟨(← d.sequence id).items⟩
/-- mapping.rs:229-231 `iter`. -/
def mapIter (d : Data) (id : Nat) : Except Stop Iter := do return ⟨(← d.mapping id).items⟩

namespace Iter
variable {α : Type} (look : Nat → Except Stop α)

/-- sequence/iter.rs:28-31, mapping/iter.rs:30-35 `next`; `look` resolves an item id. -/
def next (it : Iter) : Except Stop (Option α × Iter) :=
  match it.rest with
  | [] => return (none, it)
  | i :: is => do return (some (← look i), ⟨is⟩)

/-- sequence/iter.rs:34-37, mapping/iter.rs:38-43 `nth`: `slice::Iter::nth` drops `n` items and
takes the next one. -/
def nth (it : Iter) (n : Nat) : Except Stop (Option α × Iter) :=
  match it.rest.drop n with
  | [] => return (none, ⟨[]⟩)
  | i :: is => do return (some (← look i), ⟨is⟩)

/-- sequence/iter.rs:47-50, mapping/iter.rs:53-58 `next_back`. -/
def nextBack (it : Iter) : Except Stop (Option α × Iter) :=
  match it.rest.getLast? with
  | none => return (none, it)
  | some i => do return (some (← look i), ⟨it.rest.dropLast⟩)

/-- sequence/iter.rs:53-56, mapping/iter.rs:61-66 `nth_back`: calls `iter.nth(n)` (sic). -/
def nthBack (it : Iter) (n : Nat) : Except Stop (Option α × Iter) :=
  match it.rest.drop n with
  | [] => return (none, ⟨[]⟩)
  | i :: is => do return (some (← look i), ⟨is⟩)

/-- sequence/iter.rs:40-42, mapping/iter.rs:46-48 `size_hint`. -/
def sizeHint (it : Iter) : Nat × Option Nat := (it.rest.length, some it.rest.length)

end Iter
end Verif
