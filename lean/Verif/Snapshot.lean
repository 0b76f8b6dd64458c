import Verif.Intern
import Verif.History
/-
Snapshots: the feature `serde-edits`, with which a `Document` is `Serialize` and `Deserialize` (serde/mod.rs:5-7).

Everything here is what `serde`'s derive macros and the `slab` crate (builder.rs, serde.rs, version 0.4.8, neither in /repo) make of the attributes in /repo.
The format in between is not modelled: it is taken to give back the tree it was given, except that it may give the entries of the two maps (the string table and the slab) in
another order.  The string table has no order of its own.
-/
namespace Verif

/-- Names of fields and variants. -/
inductive Tok
  | suffix | root | data | strings | slab | raw | layout | prefix | parent | kind | value | string | hint | id | original | indent | items | key | trailing
  | null | boolean | number | mapping | mappingItem | sequence | sequenceItem | keyword | tilde | empty | bare | single | double | originalKind | multiline
  | block | inline | stringRaw
  | float32 | float64 | unsigned8 | unsigned16 | unsigned32 | unsigned64 | unsigned128 | signed8 | signed16 | signed32 | signed64 | signed128
deriving DecidableEq, Repr

/-- What a self-describing format stores.  `hash` is a `StringId`, an array of 16 bytes. -/
inductive Sd (H : Type)
  | bool (b : Bool) | num (n : Nat) | hash (h : H) | bytes (s : Bytes) | name (n : Tok) | none | some (v : Sd H)
  | seq (l : List (Sd H)) | map (l : List (Sd H × Sd H))

/-- A struct: its fields by name. -/
def Sd.struct {H : Type} (l : List (Tok × Sd H)) : Sd H := .map (l.map fun p => (.name p.1, p.2))

def Sd.isName {H : Type} (n : Tok) : Sd H → Bool
  | .name m => m = n
  | _ => false

/-- A field, which must be there once. -/
def Sd.field {H : Type} (n : Tok) : Sd H → Option (Sd H)
  | .map l =>
    match l.filter fun p => p.1.isName n with
    | [p] => .some p.2
    | _ => .none
  | _ => .none

section
variable {H : Type} (hash : Bytes → H)

/-- data.rs:17 `serde(transparent)`; the id of a string is its hash (data.rs:115-119). -/
def saveStr (s : Bytes) : Sd H := .hash (hash s)
/-- data.rs:68 `serde(transparent)`: the slab index plus one (data.rs:70-77, 256). -/
def saveId (i : Nat) : Sd H := .num (i + 1)
/-- raw.rs:343-351: externally tagged. -/
def saveNull : RNull → Sd H
  | .keyword s => .struct [(.keyword, saveStr hash s)]
  | .tilde => .name .tilde
  | .empty => .name .empty
/-- mod.rs:110-137: internally tagged. -/
def Hint.tok : Hint → Tok
  | .f32 => .float32 | .f64 => .float64 | .u8 => .unsigned8 | .u16 => .unsigned16 | .u32 => .unsigned32 | .u64 => .unsigned64 | .u128 => .unsigned128
  | .i8 => .signed8 | .i16 => .signed16 | .i32 => .signed32 | .i64 => .signed64 | .i128 => .signed128
def saveHint (h : Hint) : Sd H := .struct [(.kind, .name h.tok)]
/-- raw.rs:461-475: internally tagged. -/
def saveStrKind : StrKind → Sd H
  | .bare => .struct [(.kind, .name .bare)]
  | .single => .struct [(.kind, .name .single)]
  | .double => .struct [(.kind, .name .double)]
  | .original => .struct [(.kind, .name .originalKind)]
  | .multiline p => .struct [(.kind, .name .multiline), (.prefix, saveStr hash p)]
/-- raw.rs:513-521. -/
def saveRStr (s : RStr) : Sd H := .struct [(.kind, saveStrKind hash s.kind), (.id, saveStr hash s.id), (.original, saveStr hash s.original)]
/-- raw.rs:710-732, 857-879: internally tagged. -/
def saveCollKind : CollKind → Sd H
  | .block => .struct [(.kind, .name .block)]
  | .inline t s => .struct [(.kind, .name .inline), (.trailing, .bool t), (.suffix, saveStr hash s)]
/-- raw.rs:736-744, 882-890. -/
def saveColl (c : Coll) : Sd H := .struct [(.indent, .num c.indent), (.kind, saveCollKind hash c.kind), (.items, .seq (c.items.map saveId))]
/-- raw.rs:199-218: adjacently tagged; the payloads are 343-351, 405-409, 432-437, 513-521, 882-890, 972-976, 736-744, 834-837. -/
def saveRaw : Raw → Sd H
  | .null n => .struct [(.kind, .name .null), (.value, saveNull hash n)]
  | .bool v s => .struct [(.kind, .name .boolean), (.value, .struct [(.value, .bool v), (.string, saveStr hash s)])]
  | .number s h => .struct [(.kind, .name .number), (.value, .struct [(.string, saveStr hash s), (.hint, saveHint h)])]
  | .string s => .struct [(.kind, .name .stringRaw), (.value, saveRStr hash s)]
  | .mapping c => .struct [(.kind, .name .mapping), (.value, saveColl hash c)]
  | .mappingItem k v => .struct [(.kind, .name .mappingItem), (.value, .struct [(.key, saveRStr hash k), (.value, saveId v)])]
  | .sequence c => .struct [(.kind, .name .sequence), (.value, saveColl hash c)]
  | .sequenceItem v => .struct [(.kind, .name .sequenceItem), (.value, .struct [(.value, saveId v)])]
/-- `Option<Id>`. -/
def saveParent : Option Nat → Sd H
  | .none => .none
  | .some i => .some (saveId i)
/-- data.rs:86-90, raw.rs:188-195. -/
def saveEntry (e : Entry) : Sd H :=
  .struct [(.raw, saveRaw hash e.raw), (.layout, .struct [(.prefix, saveStr hash e.pre), (.parent, saveParent e.parent)])]

/-- Iteration over a slab, which is how it is serialized: the occupied slots. -/
def Slab.pairs {α : Type} : List (Slot α) → Nat → List (Nat × α)
  | [], _ => []
  | .occupied a :: l, i => (i, a) :: Slab.pairs l (i + 1)
  | .vacant _ :: l, i => Slab.pairs l (i + 1)

/-- document.rs:31-36, data.rs:94-98: the document with the maps' entries in these orders. -/
def saveDoc (doc : Document) (strs : List (H × Bytes)) (ents : List (Nat × Entry)) : Sd H :=
  .struct [(.suffix, saveStr hash doc.suffix), (.root, saveId doc.root),
    (.data, .struct [(.strings, .map (strs.map fun p => (.hash p.1, .bytes p.2))), (.slab, .map (ents.map fun p => (.num p.1, saveEntry hash p.2)))])]

/-- `sd` is a snapshot of the document `doc`, whose strings are in the table `t`. -/
def Saves (t : Table H) (doc : Document) (sd : Sd H) : Prop :=
  ∃ strs ents, strs.Perm t.entries ∧ ents.Perm (Slab.pairs doc.data.slab.slots 0) ∧ sd = saveDoc hash doc strs ents

end

/-- `slab`'s `Builder`. -/
structure Builder (α : Type) where
  slab : Slab α
  len : Nat
  broken : Bool
  first : Option Nat

/-- `slab`'s `Builder::pair`, the loop adding holes. -/
def Slab.holes {α : Type} : Nat → Slab α → Slab α
  | 0, s => s
  | n + 1, s => Slab.holes n ⟨s.slots ++ [.vacant s.next], s.slots.length⟩

/-- `slab`'s `Builder::pair`. -/
def Builder.pair {α : Type} (b : Builder α) (p : Nat × α) : Builder α :=
  match b.slab.slots[p.1]? with
  | some (.vacant _) => { b with slab := { b.slab with slots := b.slab.slots.set p.1 (.occupied p.2) }, len := b.len + 1, broken := true }
  | some (.occupied _) => { b with slab := { b.slab with slots := b.slab.slots.set p.1 (.occupied p.2) } }
  | none =>
    let s := Slab.holes (p.1 - b.slab.slots.length) b.slab
    { b with slab := { s with slots := s.slots ++ [.occupied p.2] }, len := b.len + 1,
             first := if b.slab.slots.length < p.1 then b.first.or (some b.slab.slots.length) else b.first }

/-- `slab`'s `recreate_vacant_list`, from slot `i` on: backwards, so that the list goes up. -/
def Slab.relink {α : Type} : List (Slot α) → Nat → Nat → List (Slot α) × Nat
  | [], _, n => ([], n)
  | .occupied a :: l, i, n => let r := Slab.relink l (i + 1) n; (.occupied a :: r.1, r.2)
  | .vacant _ :: l, i, n => let r := Slab.relink l (i + 1) n; (.vacant r.2 :: r.1, i)

/-- `slab`'s `Builder::build`; `none` is its `unreachable!()`. -/
def Builder.build {α : Type} (b : Builder α) : Option (Slab α) :=
  let n := b.slab.slots.length
  if b.len = n then some { b.slab with next := n }
  else if b.broken then
    let r := Slab.relink b.slab.slots 0 n
    some ⟨r.1, r.2⟩
  else
    match b.first with
    | some f =>
      match b.slab.slots[f]? with
      | some (.vacant _) => some { b.slab with slots := b.slab.slots.set f (.vacant n) }
      | _ => none
    | none => none

/-- `slab`'s `Deserialize`. -/
def Slab.ofPairs {α : Type} (l : List (Nat × α)) : Option (Slab α) := (l.foldl Builder.pair ⟨Slab.empty, 0, false, none⟩).build

section
variable {H : Type} [DecidableEq H] (t : Table H)

/-- A `StringId`, resolved at once.  (In the code this happens when it is used, and if there is nothing, panics.) -/
def loadStr : Sd H → Option Bytes
  | .hash h => t.find h
  | _ => none
/-- A `NonZeroUsize`. -/
def loadId : Sd H → Option Nat
  | .num (n + 1) => some n
  | _ => none
def loadNum : Sd H → Option Nat
  | .num n => some n
  | _ => none
def loadBool : Sd H → Option Bool
  | .bool b => some b
  | _ => none
def loadName : Sd H → Option Tok
  | .name n => some n
  | _ => none
/-- raw.rs:343-351. -/
def loadNull (v : Sd H) : Option RNull :=
  match v with
  | .name .tilde => some .tilde
  | .name .empty => some .empty
  | .map [(.name .keyword, s)] => do return .keyword (← loadStr t s)
  | _ => none
/-- mod.rs:110-137. -/
def loadHint (v : Sd H) : Option Hint := do
  match ← loadName (← v.field .kind) with
  | .float32 => return .f32 | .float64 => return .f64 | .unsigned8 => return .u8 | .unsigned16 => return .u16 | .unsigned32 => return .u32
  | .unsigned64 => return .u64 | .unsigned128 => return .u128 | .signed8 => return .i8 | .signed16 => return .i16 | .signed32 => return .i32
  | .signed64 => return .i64 | .signed128 => return .i128
  | _ => none
/-- raw.rs:461-475. -/
def loadStrKind (v : Sd H) : Option StrKind := do
  match ← loadName (← v.field .kind) with
  | .bare => return .bare
  | .single => return .single
  | .double => return .double
  | .originalKind => return .original
  | .multiline => return .multiline (← loadStr t (← v.field .prefix))
  | _ => none
/-- raw.rs:513-521. -/
def loadRStr (v : Sd H) : Option RStr := do
  return ⟨← loadStrKind t (← v.field .kind), ← loadStr t (← v.field .id), ← loadStr t (← v.field .original)⟩
/-- raw.rs:710-732, 857-879. -/
def loadCollKind (v : Sd H) : Option CollKind := do
  match ← loadName (← v.field .kind) with
  | .block => return .block
  | .inline => return .inline (← loadBool (← v.field .trailing)) (← loadStr t (← v.field .suffix))
  | _ => none
/-- `Vec<Id>`. -/
def loadIds : Sd H → Option (List Nat)
  | .seq l => l.mapM loadId
  | _ => none
/-- raw.rs:736-744, 882-890. -/
def loadColl (v : Sd H) : Option Coll := do
  return ⟨← loadNum (← v.field .indent), ← loadCollKind t (← v.field .kind), ← loadIds (← v.field .items)⟩
/-- raw.rs:199-218. -/
def loadRaw (v : Sd H) : Option Raw := do
  let p ← v.field .value
  match ← loadName (← v.field .kind) with
  | .null => return .null (← loadNull t p)
  | .boolean => return .bool (← loadBool (← p.field .value)) (← loadStr t (← p.field .string))
  | .number => return .number (← loadStr t (← p.field .string)) (← loadHint (← p.field .hint))
  | .stringRaw => return .string (← loadRStr t p)
  | .mapping => return .mapping (← loadColl t p)
  | .mappingItem => return .mappingItem (← loadRStr t (← p.field .key)) (← loadId (← p.field .value))
  | .sequence => return .sequence (← loadColl t p)
  | .sequenceItem => return .sequenceItem (← loadId (← p.field .value))
  | _ => none
/-- `Option<Id>`. -/
def loadParent : Sd H → Option (Option Nat)
  | .none => some none
  | .some i => do return some (← loadId i)
  | _ => none
/-- data.rs:86-90, raw.rs:188-195. -/
def loadEntry (v : Sd H) : Option Entry := do
  let l ← v.field .layout
  return ⟨← loadRaw t (← v.field .raw), ← loadStr t (← l.field .prefix), ← loadParent (← l.field .parent)⟩

/-- An entry of the slab's map. -/
def loadSlot : Sd H × Sd H → Option (Nat × Entry)
  | (k, v) => do return (← loadNum k, ← loadEntry t v)

end

/-- An entry of the string table. -/
def loadString {H : Type} : Sd H × Sd H → Option (H × Bytes)
  | (.hash h, .bytes s) => some (h, s)
  | _ => none

/-- A `HashMap` from its entries: a later entry takes the place of an earlier one. -/
def Table.ofEntries {H : Type} [DecidableEq H] (l : List (H × Bytes)) : Table H :=
  ⟨l.foldl (fun es e => es.filter (fun e' => e'.1 ≠ e.1) ++ [e]) []⟩

def Sd.entries {H : Type} : Sd H → Option (List (Sd H × Sd H))
  | .map l => .some l
  | _ => .none

/-- document.rs:31-36, data.rs:94-98: the string table and the document. -/
def loadDoc {H : Type} [DecidableEq H] (v : Sd H) : Option (Table H × Document) := do
  let d ← v.field .data
  let t := Table.ofEntries (← (← (← d.field .strings).entries).mapM loadString)
  let s ← Slab.ofPairs (← (← (← d.field .slab).entries).mapM (loadSlot t))
  return (t, ⟨← loadStr t (← v.field .suffix), ← loadId (← v.field .root), ⟨s⟩⟩)

/-! What the theorems are about. -/

/-- The strings of a raw value. -/
def RStr.strings (s : RStr) : List Bytes :=
  (match s.kind with | .multiline p => [p] | _ => []) ++ [s.id, s.original]
def Coll.strings (c : Coll) : List Bytes :=
  match c.kind with | .inline _ s => [s] | .block => []
def Raw.strings : Raw → List Bytes
  | .null (.keyword s) => [s]
  | .null _ => []
  | .bool _ s => [s]
  | .number s _ => [s]
  | .string s => s.strings
  | .mapping c => c.strings
  | .mappingItem k _ => k.strings
  | .sequence c => c.strings
  | .sequenceItem _ => []
def Entry.strings (e : Entry) : List Bytes := e.pre :: e.raw.strings

/-- `s` is one of the strings the document refers to. -/
def Document.Mentions (doc : Document) (s : Bytes) : Prop :=
  s = doc.suffix ∨ ∃ i e, doc.data.slab.get i = some e ∧ s ∈ e.strings

/-- The table has one entry for each id, and every string the document refers to is found under its id. -/
structure Table.Fits {H : Type} [DecidableEq H] (hash : Bytes → H) (t : Table H) (doc : Document) : Prop where
  keys : (t.entries.map (·.1)).Nodup
  find : ∀ s, doc.Mentions s → t.find (hash s) = some s

/-- The `n`-th value of a sequence, or of a mapping in the order of its entries. -/
def childAt (d : Data) (x n : Nat) : Except Stop (Option Nat) := do
  match ← asSequence d x with
  | some s => return (← seqValues d s)[n]?
  | none =>
    match ← asMapping d x with
    | some m => return ((← mapEntries d m)[n]?).map (·.2)
    | none => return none

/-- The value at a path. -/
def walk (d : Data) : Nat → List Nat → Except Stop (Option Nat)
  | x, [] => return some x
  | x, n :: p => do
    match ← childAt d x n with
    | some y => walk d y p
    | none => return none

/-- Edits one after the other, each of the value at a path; where there is none, nothing happens. -/
def Document.play (doc : Document) : List (List Nat × Op) → Except Stop Document
  | [] => return doc
  | (p, op) :: rest => do
    match ← walk doc.data doc.root p with
    | some x => (← doc.edit x op).play rest
    | none => doc.play rest

end Verif
