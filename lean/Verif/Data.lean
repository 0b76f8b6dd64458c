import Verif.Slab
/-
`data.rs`: the arena of entries.  The string table is modelled in `Verif.Intern`; here a
`StringId` is the string itself.
-/
namespace Verif

/-- data.rs:95-98 `Data`. -/
structure Data where
  slab : Slab Entry
deriving DecidableEq, Repr

namespace Data

/-- `Data::default`. -/
def empty : Data := ⟨Slab.empty⟩

/-- data.rs:131-137 `layout`, 145-151 `pair`, 154-160 `raw`: the entry, or a panic. -/
def entry (d : Data) (id : Nat) : Except Stop Entry :=
  match d.slab.get id with
  | some e => .ok e
  | none => .error .panic

/-- data.rs:154-160 `raw`. -/
def raw (d : Data) (id : Nat) : Except Stop Raw := do return (← d.entry id).raw

/-- data.rs:140-142 `prefix`. -/
def pre (d : Data) (id : Nat) : Except Stop Bytes := do return (← d.entry id).pre

/-- data.rs:172-182 `sequence`, 185-195 `sequence_mut` (the lookup). -/
def sequence (d : Data) (id : Nat) : Except Stop Coll :=
  match d.slab.get id with
  | some ⟨.sequence c, _, _⟩ => .ok c
  | _ => .error .panic

/-- data.rs:198-208 `mapping`, 237-247 `mapping_mut` (the lookup). -/
def mapping (d : Data) (id : Nat) : Except Stop Coll :=
  match d.slab.get id with
  | some ⟨.mapping c, _, _⟩ => .ok c
  | _ => .error .panic

/-- data.rs:211-221 `sequence_item`: the value's id. -/
def sequenceItem (d : Data) (id : Nat) : Except Stop Nat :=
  match d.slab.get id with
  | some ⟨.sequenceItem v, _, _⟩ => .ok v
  | _ => .error .panic

/-- data.rs:224-234 `mapping_item`: key and value id. -/
def mappingItem (d : Data) (id : Nat) : Except Stop (RStr × Nat) :=
  match d.slab.get id with
  | some ⟨.mappingItem k v, _, _⟩ => .ok (k, v)
  | _ => .error .panic

/-- `sequence_mut(id).items = items` (data.rs:185-195 and its callers). -/
def setSequenceItems (d : Data) (id : Nat) (items : List Nat) : Except Stop Data :=
  match d.slab.get id with
  | some ⟨.sequence c, p, par⟩ => .ok ⟨d.slab.set id ⟨.sequence { c with items := items }, p, par⟩⟩
  | _ => .error .panic

/-- `mapping_mut(id).items = items` (data.rs:237-247 and its callers). -/
def setMappingItems (d : Data) (id : Nat) (items : List Nat) : Except Stop Data :=
  match d.slab.get id with
  | some ⟨.mapping c, p, par⟩ => .ok ⟨d.slab.set id ⟨.mapping { c with items := items }, p, par⟩⟩
  | _ => .error .panic

/-- data.rs:251-258 `insert`. -/
def insert (d : Data) (raw : Raw) (pre : Bytes) (parent : Option Nat) : Except Stop (Nat × Data) := do
  let (i, s) ← d.slab.insert ⟨raw, pre, parent⟩
  return (i, ⟨s⟩)

/-- data.rs:262-268 `drop`, given `drop_kind`. -/
def dropWith (dropKind : Data → Raw → Except Stop Data) (d : Data) (id : Nat) : Except Stop Data :=
  match d.slab.tryRemove id with
  | none => .ok d
  | some (e, s) => dropKind ⟨s⟩ e.raw

/-- data.rs:280-281, 289-290: `slab.remove` (panics if missing), then `drop_kind`. -/
def removeWith (dropKind : Data → Raw → Except Stop Data) (d : Data) (id : Nat) : Except Stop Data :=
  match d.slab.tryRemove id with
  | none => .error .panic
  | some (e, s) => dropKind ⟨s⟩ e.raw

/-- data.rs:272-294 `drop_kind`, with fuel for the recursion depth. -/
def dropKindF : Nat → Data → Raw → Except Stop Data
  | 0, _, _ => .error .fuel
  | f + 1, d, raw =>
    match raw with
    | .mapping c => c.items.foldlM (dropWith (dropKindF f)) d
    | .mappingItem _ v => removeWith (dropKindF f) d v
    | .sequence c => c.items.foldlM (dropWith (dropKindF f)) d
    | .sequenceItem v => removeWith (dropKindF f) d v
    | _ => .ok d

/-- Fuel that suffices for any recursion along distinct slots. -/
def fuel (d : Data) : Nat := 2 * d.slab.slots.length + 2

/-- data.rs:272-294 `drop_kind`. -/
def dropKind (d : Data) (raw : Raw) : Except Stop Data := dropKindF d.fuel d raw

/-- data.rs:262-268 `drop`. -/
def drop (d : Data) (id : Nat) : Except Stop Data := dropWith (dropKindF d.fuel) d id

/-- data.rs:297-307 `replace`: silently does nothing if the id is missing. -/
def replace (d : Data) (id : Nat) (raw : Raw) : Except Stop Data :=
  match d.slab.get id with
  | none => .ok d
  | some e => dropKind ⟨d.slab.set id { e with raw := raw }⟩ e.raw

/-- data.rs:310-318 `replace_with`. -/
def replaceWith (d : Data) (id : Nat) (pre : Bytes) (raw : Raw) : Except Stop Data :=
  match d.slab.get id with
  | none => .ok d
  | some e => dropKind ⟨d.slab.set id { e with raw := raw, pre := pre }⟩ e.raw

end Data

/-- document.rs:32-36 `Document`. -/
structure Document where
  suffix : Bytes
  root : Nat
  data : Data
deriving DecidableEq, Repr

end Verif
