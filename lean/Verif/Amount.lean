import Verif.Fault
/-
Specification: how much there is in a content.  Nothing here is part of the Rust code.
-/
namespace Verif

/-- The number of bytes of a number or a string. -/
def AnyV.size : AnyV → Nat
  | .number s | .string s => s.length
  | _ => 0

mutual
/-- The number of values, collections included. -/
def Content.values : Content → Nat
  | .scalar _ => 1
  | .map es => es.values + 1
  | .seq es => es.values + 1
def Entries.values : Entries → Nat
  | .nil => 0
  | .cons _ v rest => v.values + rest.values
def Elems.values : Elems → Nat
  | .nil => 0
  | .cons v rest => v.values + rest.values
end

mutual
/-- The number of bytes of all keys, numbers and strings. -/
def Content.bytes : Content → Nat
  | .scalar a => a.size
  | .map es => es.bytes
  | .seq es => es.bytes
def Entries.bytes : Entries → Nat
  | .nil => 0
  | .cons k v rest => k.length + v.bytes + rest.bytes
def Elems.bytes : Elems → Nat
  | .nil => 0
  | .cons v rest => v.bytes + rest.bytes
end

mutual
/-- How deep collections are in one another. -/
def Content.depth : Content → Nat
  | .scalar _ => 0
  | .map es => es.depth + 1
  | .seq es => es.depth + 1
def Entries.depth : Entries → Nat
  | .nil => 0
  | .cons _ v rest => max v.depth rest.depth
def Elems.depth : Elems → Nat
  | .nil => 0
  | .cons v rest => max v.depth rest.depth
end

end Verif
