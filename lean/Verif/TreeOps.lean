import Verif.Tree
import Verif.Write
/-
Operations on trees used in specifications: rendering, lookup and replacement of a subtree.
-/
namespace Verif

@[simp] theorem Tree.id_leaf {α} (i : α) (p s) : (Tree.leaf i p s).id = i := rfl
@[simp] theorem Tree.id_node {α} (i : α) (p m n k is) : (Tree.node i p m n k is).id = i := rfl
@[simp] theorem Tree.pre_leaf {α} (i : α) (p s) : (Tree.leaf i p s).pre = p := rfl
@[simp] theorem Tree.pre_node {α} (i : α) (p m n k is) : (Tree.node i p m n k is).pre = p := rfl

/-- Text of a scalar. -/
def Scalar.write : Scalar → Bytes
  | .null n => n.write
  | .bool _ s => s
  | .number s _ => s
  | .string s => s.write

/-- Text of a scalar through `Display`. -/
def Scalar.disp : Scalar → Bytes
  | .null (.keyword s) => lossy s
  | .null .tilde => b! "~"
  | .null .empty => []
  | .bool _ s => lossy s
  | .number s _ => lossy s
  | .string s => s.display

def Items.isNil {α} : Items α → Bool
  | .nil => true
  | .cons _ _ _ _ _ => false

mutual
/-- Text of a value, without its prefix. -/
def Tree.render {α} : Tree α → Bytes
  | .leaf _ _ s => s.write
  | .node _ _ m _ k items =>
    openOf k (if m then LCB else LBR) ++ items.render m k ++ closeOf k (if m then RCB else RBR)
/-- Text of items. -/
def Items.render {α} (m : Bool) (k : CollKind) : Items α → Bytes
  | .nil => []
  | .cons _ pre key v rest =>
    (if m then pre ++ key.write ++ [COLON] else lossy pre ++ (if k = .block then [DASH] else [])) ++
      v.pre ++ v.render ++ sepOf k rest.isNil ++ rest.render m k
end

/-- Text of a value with its prefix. -/
def Tree.text {α} (t : Tree α) : Bytes := t.pre ++ t.render

/-- Whether `Display` writes the prefix of the value. -/
def Tree.showsPre {α} : Tree α → Bool
  | .leaf _ _ s => s != .null .empty
  | .node _ _ _ _ k items => k != .block || !items.isNil

mutual
/-- `Display` of a value, without its prefix. -/
def Tree.disp {α} : Tree α → Bytes
  | .leaf _ _ s => s.disp
  | .node _ _ m _ k items =>
    openOf k (if m then LCB else LBR) ++ items.disp m k ++ closeOfDisplay k (if m then RCB else RBR)
/-- `Display` of items. -/
def Items.disp {α} (m : Bool) (k : CollKind) : Items α → Bytes
  | .nil => []
  | .cons _ pre key v rest =>
    lossy pre ++ (if m then key.display ++ [COLON] else if k = .block then [DASH] else []) ++
      (if v.showsPre then lossy v.pre else []) ++ v.disp ++ sepOf k rest.isNil ++ rest.disp m k
end

mutual
/-- Nesting depth in arena entries. -/
def Tree.depth {α} : Tree α → Nat
  | .leaf _ _ _ => 1
  | .node _ _ _ _ _ items => items.depth + 1
def Items.depth {α} : Items α → Nat
  | .nil => 0
  | .cons _ _ _ v rest => max (v.depth + 1) rest.depth
end

mutual
/-- Forget ids. -/
def Tree.erase {α} : Tree α → Tree Unit
  | .leaf _ p s => .leaf () p s
  | .node _ p m ind k items => .node () p m ind k items.erase
def Items.erase {α} : Items α → Items Unit
  | .nil => .nil
  | .cons _ p key v rest => .cons () p key v.erase rest.erase
end

mutual
/-- The subtree (value) with id `x`. -/
def Tree.find (x : Nat) : Tree Nat → Option (Tree Nat)
  | .leaf i p s => if i = x then some (.leaf i p s) else none
  | .node i p m ind k items => if i = x then some (.node i p m ind k items) else items.find x
def Items.find (x : Nat) : Items Nat → Option (Tree Nat)
  | .nil => none
  | .cons _ _ _ v rest => (v.find x).or (rest.find x)
end

mutual
/-- Replace the subtree (value) with id `x` by `u`. -/
def Tree.upd (x : Nat) (u : Tree Nat) : Tree Nat → Tree Nat
  | .leaf i p s => if i = x then u else .leaf i p s
  | .node i p m ind k items => if i = x then u else .node i p m ind k (Items.upd x u items)
def Items.upd (x : Nat) (u : Tree Nat) : Items Nat → Items Nat
  | .nil => .nil
  | .cons i p key v rest =>
    if (v.find x).isSome then .cons i p key (Tree.upd x u v) rest else .cons i p key v (Items.upd x u rest)
end

/-- Ids of all arena entries of a value, in preorder. -/
def Tree.allIds (t : Tree Nat) : List Nat := (t.entries none).map (·.1)

def Items.append {α} : Items α → Items α → Items α
  | .nil, b => b
  | .cons i p key v rest, b => .cons i p key v (rest.append b)

def Items.eraseIdx {α} : Items α → Nat → Items α
  | .nil, _ => .nil
  | .cons _ _ _ _ rest, 0 => rest
  | .cons i p key v rest, n + 1 => .cons i p key v (rest.eraseIdx n)

/-- Keys and values of items, in order. -/
def Items.pairs {α} : Items α → List (RStr × Tree α)
  | .nil => []
  | .cons _ _ key v rest => (key, v) :: rest.pairs

/-- Id of the value of the first item whose key has the given content. -/
def Items.lookup {α} (key : Bytes) : Items α → Option (Tree α)
  | .nil => none
  | .cons _ _ k v rest => if k.id == key then some v else rest.lookup key

/-- Index of the first item whose key has the given content. -/
def Items.indexOf {α} (key : Bytes) : Items α → Option Nat
  | .nil => none
  | .cons _ _ k _ rest => if k.id == key then some 0 else (rest.indexOf key).map (· + 1)

end Verif
