import Verif.Data
import Verif.Scan
/-
Trees: the specification-side view of a document.  A `Tree Nat` is a value with the arena ids of
its parts, a `Tree Unit` the same without ids.  Nothing here is part of the Rust code; the
arena is related to trees by `Tree.entries`.
-/
namespace Verif

mutual
/-- A value with its prefix: a scalar, or a collection (mapping if `isMap`) with its items. -/
inductive Tree (α : Type) : Type
  | leaf (id : α) (pre : Bytes) (s : Scalar)
  | node (id : α) (pre : Bytes) (isMap : Bool) (indent : Nat) (kind : CollKind) (items : Items α)
/-- The items of a collection, each with its prefix, key (ignored in sequences) and value. -/
inductive Items (α : Type) : Type
  | nil
  | cons (id : α) (pre : Bytes) (key : RStr) (v : Tree α) (rest : Items α)
end

deriving instance DecidableEq, Repr for Tree, Items

/-- The key used for sequence items, which have none. -/
def noKey : RStr := ⟨.bare, [], []⟩

/-- The `Raw` of a collection. -/
def collRaw (isMap : Bool) (c : Coll) : Raw := if isMap then .mapping c else .sequence c
/-- The `Raw` of an item. -/
def itemRaw (isMap : Bool) (key : RStr) (v : Nat) : Raw := if isMap then .mappingItem key v else .sequenceItem v

def Tree.id {α} : Tree α → α
  | .leaf i _ _ => i
  | .node i _ _ _ _ _ => i
def Tree.pre {α} : Tree α → Bytes
  | .leaf _ p _ => p
  | .node _ p _ _ _ _ => p
def Items.ids {α} : Items α → List α
  | .nil => []
  | .cons i _ _ _ r => i :: r.ids

/-- The `Raw` stored for a value. -/
def Tree.raw : Tree Nat → Raw
  | .leaf _ _ s => s.toRaw
  | .node _ _ m ind k items => collRaw m ⟨ind, k, items.ids⟩

mutual
/-- The arena entries of a value below `parent`, in preorder. -/
def Tree.entries (parent : Option Nat) : Tree Nat → List (Nat × Entry)
  | .leaf i p s => [(i, ⟨s.toRaw, p, parent⟩)]
  | .node i p m ind k items => (i, ⟨collRaw m ⟨ind, k, items.ids⟩, p, parent⟩) :: items.entries i m
/-- The arena entries of the items of collection `c`. -/
def Items.entries (c : Nat) (m : Bool) : Items Nat → List (Nat × Entry)
  | .nil => []
  | .cons i p key v rest => (i, ⟨itemRaw m key v.id, p, some c⟩) :: (v.entries (some i) ++ rest.entries c m)
end

mutual
/-- Number of arena entries. -/
def Tree.size {α} : Tree α → Nat
  | .leaf _ _ _ => 1
  | .node _ _ _ _ _ items => items.size + 1
def Items.size {α} : Items α → Nat
  | .nil => 0
  | .cons _ _ _ v rest => 1 + v.size + rest.size
end

mutual
/-- Number the parts of a value from `k` in preorder. -/
def Tree.label (k : Nat) : Tree Unit → Tree Nat
  | .leaf _ p s => .leaf k p s
  | .node _ p m ind kd items => .node k p m ind kd (items.label (k + 1))
def Items.label (k : Nat) : Items Unit → Items Nat
  | .nil => .nil
  | .cons _ p key v rest => .cons k p key (v.label (k + 1)) (rest.label (k + 1 + v.size))
end

end Verif
