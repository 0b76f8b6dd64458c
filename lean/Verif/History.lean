import Verif.Num
import Verif.Write
import Verif.Parse
/-
Specification vocabulary: documents that a program can have in hand, and the values in them,
stated with the public operations only.
-/
namespace Verif

/-- `from_slice(inp)` returns this document (with some, hence with any larger, amount of
fuel). -/
def Parsed (inp : Bytes) (doc : Document) : Prop := ∃ fuel, parseF fuel inp = .ok doc

/-- What a `for` loop over a sequence visits: the values' ids in order
(sequence.rs:309-311, sequence/iter.rs:28-31). -/
def seqValues (d : Data) (id : Nat) : Except Stop (List Nat) := do
  (← seqIter d id).rest.mapM d.sequenceItem

/-- What a `for` loop over a mapping visits: keys and values' ids in order
(mapping.rs:229-231, mapping/iter.rs:30-35). -/
def mapEntries (d : Data) (id : Nat) : Except Stop (List (Bytes × Nat)) := do
  (← mapIter d id).rest.mapM (mapItemOf d)

/-- The bytes a value contributes to `write_to`, without the whitespace before it
(raw.rs:277-309). -/
def valueText (d : Data) (id : Nat) : Except Stop Bytes := do writeRaw d (← d.raw id)

/-- `v` is visited by iterating over the value `x`. -/
def Child (d : Data) (x v : Nat) : Prop :=
  (∃ l, asSequence d x = .ok (some x) ∧ seqValues d x = .ok l ∧ v ∈ l) ∨
  (∃ l k, asMapping d x = .ok (some x) ∧ mapEntries d x = .ok l ∧ (k, v) ∈ l)

/-- `v` is `x` or can be reached from it by iterating. -/
inductive Below (d : Data) (x : Nat) : Nat → Prop
  | self : Below d x x
  | step {v w : Nat} : Below d x v → Child d v w → Below d x w

/-- The values that are in the document. -/
def Live (doc : Document) (x : Nat) : Prop := Below doc.data doc.root x

/-- What can be inserted into a mapping or pushed to a sequence.  A number is given by its
text, so that all integer and float methods are covered. -/
inductive Val
  | null (sep : Separator) | str (s : Bytes) | block (lines : List Bytes) (b : Block) | bool (v : Bool)
  | number (text : Bytes) (h : Hint)
deriving DecidableEq, Repr

/-- The `insert*` methods of a mapping (mapping_mut.rs:53-132, 500-541, 652-694). -/
def mapInsertV (d : Data) (x : Nat) (key : Bytes) : Val → Except Stop (Nat × Data)
  | .null sep => mapInsert d x key sep
  | .str s => mapInsertStr d x key s
  | .block l b => mapInsertBlock d x key l b
  | .bool v => mapInsertBool d x key v
  | .number s h => mapInsertNumber d x key s h

/-- The `push*` methods of a sequence (sequence_mut.rs:13-86, 393-431, 542-581). -/
def seqPushV (d : Data) (x : Nat) : Val → Except Stop (Nat × Data)
  | .null sep => seqPush d x sep
  | .str s => seqPushStr d x s
  | .block l b => seqPushBlock d x l b
  | .bool v => seqPushBool d x v
  | .number s h => seqPushNumber d x s h

/-- Every edit of the public API, with its arguments. -/
inductive Op
  | setNull (k : NullKind) | setString (s : Bytes) | setStringWith (s : Bytes) (k : StringKind)
  | setBlock (lines : List Bytes) (b : Block) | setBool (v : Bool) | setNumber (text : Bytes) (h : Hint)
  | makeMapping | makeSequence
  | insert (key : Bytes) (v : Val) | remove (key : Bytes) | clearMapping
  | push (v : Val) | removeAt (ix : Nat) | clearSequence
deriving DecidableEq, Repr

/-- The `set_*` methods. -/
def Op.isSet : Op → Bool
  | .setNull _ | .setString _ | .setStringWith _ _ | .setBlock _ _ | .setBool _ | .setNumber _ _ => true
  | _ => false

/-- Run `f` on the mapping handle, if the value is a mapping (value_mut.rs:172-177
`as_mapping_mut`); otherwise there is no handle and nothing to run. -/
def withMapping {α} (d : Data) (x : Nat) (f : Nat → Except Stop (α × Data)) : Except Stop Data := do
  match ← asMapping d x with
  | some m => return (← f m).2
  | none => return d

/-- As `withMapping` for sequences (value_mut.rs:269-274). -/
def withSequence {α} (d : Data) (x : Nat) (f : Nat → Except Stop (α × Data)) : Except Stop Data := do
  match ← asSequence d x with
  | some m => return (← f m).2
  | none => return d

/-- Run an edit on `doc.value_mut(x)`. -/
def Op.run (d : Data) (x : Nat) : Op → Except Stop Data
  | .setNull k => Verif.setNull d x k
  | .setString s => Verif.setString d x s
  | .setStringWith s k => Verif.setStringWith d x s k
  | .setBlock l b => Verif.setBlock d x l b
  | .setBool v => Verif.setBool d x v
  | .setNumber s h => Verif.setNumber d x s h
  | .makeMapping => Verif.makeMapping d x
  | .makeSequence => Verif.makeSequence d x
  | .insert k v => withMapping d x fun m => mapInsertV d m k v
  | .remove k => withMapping d x fun m => mapRemove d m k
  | .clearMapping => withMapping d x fun m => do return ((), ← mapClear d m)
  | .push v => withSequence d x fun m => seqPushV d m v
  | .removeAt i => withSequence d x fun m => seqRemove d m i
  | .clearSequence => withSequence d x fun m => do return ((), ← seqClear d m)

/-- The document after an edit of the value `x`. -/
def Document.edit (doc : Document) (x : Nat) (op : Op) : Except Stop Document := do
  return { doc with data := ← op.run doc.data x }

/-- The documents a program can have: parsed, then edited any number of times, each edit
addressed at a value that is in the document at that point. -/
inductive Reachable : Document → Prop
  | parsed {inp doc} : Parsed inp doc → Reachable doc
  | edited {doc doc' x op} : Reachable doc → Live doc x → doc.edit x op = .ok doc' → Reachable doc'

end Verif
