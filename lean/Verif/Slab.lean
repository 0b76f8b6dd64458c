import Verif.Types
/-
The `slab` crate (third-party, see DESIGN.md §3): a vector of slots with a free list
threaded through the vacant slots.
-/
namespace Verif

/-- `slab::Entry`. -/
inductive Slot (α : Type)
  | vacant (next : Nat)
  | occupied (a : α)
deriving DecidableEq, Repr

/-- `slab::Slab` (its cached `len` is not used by the crate and left out). -/
structure Slab (α : Type) where
  slots : List (Slot α)
  next : Nat
deriving DecidableEq, Repr

namespace Slab
variable {α : Type}

/-- `Slab::default`. -/
def empty : Slab α := ⟨[], 0⟩

/-- `Slab::get`. -/
def get (s : Slab α) (k : Nat) : Option α :=
  match s.slots[k]? with
  | some (.occupied a) => some a
  | _ => none

/-- `Slab::insert`: reuse the head of the free list, or push.  Slab's
`unreachable!()` is a panic. -/
def insert (s : Slab α) (a : α) : Except Stop (Nat × Slab α) :=
  if s.next = s.slots.length then
    .ok (s.next, ⟨s.slots ++ [.occupied a], s.next + 1⟩)
  else
    match s.slots[s.next]? with
    | some (.vacant nx) => .ok (s.next, ⟨s.slots.set s.next (.occupied a), nx⟩)
    | _ => .error .panic

/-- `Slab::try_remove`. -/
def tryRemove (s : Slab α) (k : Nat) : Option (α × Slab α) :=
  match s.slots[k]? with
  | some (.occupied a) => some (a, ⟨s.slots.set k (.vacant s.next), k⟩)
  | _ => none

/-- `Slab::get_mut` followed by an assignment through the reference. -/
def set (s : Slab α) (k : Nat) (a : α) : Slab α := ⟨s.slots.set k (.occupied a), s.next⟩

end Slab
end Verif
