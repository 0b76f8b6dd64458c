import Verif.Floats
import Verif.Grammar
/-
What serializing and deserializing should do, in terms of what a value reads as (`Content`, `Reads` of `Verif.Grammar`).
-/
namespace Verif

/-- The number that digits stand for. -/
def natOf (s : Bytes) : Option Nat :=
  if s.isEmpty || !s.all isDigit then none else some (s.foldl (fun a b => a * 10 + (b.toNat - 48)) 0)

/-- The integer that an optional sign and digits stand for. -/
def decimal : Bytes → Option Int
  | [] => none
  | b :: r =>
    if b == DASH then (natOf r).map fun n : Nat => -(n : Int)
    else if b == 43 then (natOf r).map fun n : Nat => (n : Int)
    else (natOf (b :: r)).map fun n : Nat => (n : Int)

/-- The number texts that stand for a number: an integer of 64 bits, or a floating point number. -/
def fits (s : Bytes) : Bool :=
  match decimal s with
  | some x => -2 ^ 63 ≤ x && x < 2 ^ 64
  | none => decide (IsFloat s)

/-- The call hands over the number written as `s`. -/
def Ev.shows (s : Bytes) : Ev → Prop
  | .int t x => decimal s = some x ∧ t.has x = true
  | .f32 a | .f64 a => a = s ∧ IsFloat s
  | _ => False

/-- The call as a visitor's. -/
def Ev.visit : Ev → Visit
  | .bool b => .bool b | .int t x => .int t x | .f32 s => .f32 s | .f64 s => .f64 s | .str s => .str s | .bytes s => .bytes s
  | _ => .none

/-- Requests for a number, but of 128 bits. -/
def Method.numeric : Method → Bool
  | .int t => t.bits != 128
  | .f32 | .f64 => true
  | _ => false

/-- Number of entries. -/
def Entries.length : Entries → Nat
  | .nil => 0
  | .cons _ _ r => r.length + 1
/-- Number of elements. -/
def Elems.length : Elems → Nat
  | .nil => 0
  | .cons _ r => r.length + 1

mutual
/-- The calls hand over the content: everything in it, once, in order.  `num`: when a call hands over a number text; `key`: how a key is handed over; `len`: the
length hint for a number of items. -/
def Says (num : Bytes → Ev → Prop) (key : Bytes → Ev) (len : Nat → Option Nat) : Content → List Ev → Prop
  | .scalar .null, e => e = [.none]
  | .scalar (.bool b), e => e = [.bool b]
  | .scalar (.number s), e => ∃ n, e = [n] ∧ num s n
  | .scalar (.string s), e => e = [if validUtf8 s then .str s else .bytes s]
  | .scalar _, _ => False
  | .map es, e => ∃ r, e = .map (len es.length) :: r ++ [.stop] ∧ SaysMap num key len es r
  | .seq es, e => ∃ r, e = .seq (len es.length) :: r ++ [.stop] ∧ SaysSeq num key len es r
def SaysMap (num : Bytes → Ev → Prop) (key : Bytes → Ev) (len : Nat → Option Nat) : Entries → List Ev → Prop
  | .nil, e => e = []
  | .cons k v rest, e => ∃ a b, e = key k :: a ++ b ∧ Says num key len v a ∧ SaysMap num key len rest b
def SaysSeq (num : Bytes → Ev → Prop) (key : Bytes → Ev) (len : Nat → Option Nat) : Elems → List Ev → Prop
  | .nil, e => e = []
  | .cons v rest, e => ∃ a b, e = a ++ b ∧ Says num key len v a ∧ SaysSeq num key len rest b
end

/-- The text and hint are those of a number: an integer of the type (with `wide`, also of 128 bits), or a floating point number. -/
def IsNumberOf (wide : Bool) (h : Hint) (s : Bytes) : Prop :=
  (∃ t x, h = IntTy.hint t ∧ t.has x = true ∧ s = intText x ∧ (wide = false → t.bits ≠ 128)) ∨ ((h = .f32 ∨ h = .f64) ∧ IsFloat s)

/-- The edit is a call that the API offers: a number is given as a value of one of the types. -/
def Op.typed (wide : Bool) : Op → Prop
  | .setNumber s h | .insert _ (.number s h) | .push (.number s h) => IsNumberOf wide h s
  | _ => True

/-- Documents made from a text, all of whose numbers stand for one, by edits. -/
inductive Sound (wide : Bool) : Document → Prop
  | parsed {inp doc} : Parsed inp doc → (∀ x s, Live doc x → asNumber doc.data x = .ok (some s) → fits s = true) → Sound wide doc
  | edited {doc doc' x op} : Sound wide doc → Live doc x → op.typed wide → doc.edit x op = .ok doc' → Sound wide doc'

/-! ### A client that deserializes everything -/

/-- Steps a sequence until it ends, and takes every element. -/
def takeSeq (rec : Nat → Except SErr (List Ev)) (d : Data) : Nat → Iter → Except SErr (List Ev)
  | 0, _ => .error (.other .fuel)
  | f + 1, it => do
    match ← lift (seqAccessNext d it) with
    | (none, _) => return []
    | (some v, it) =>
      let a ← rec v
      return a ++ (← takeSeq rec d f it)

/-- Steps a mapping until it ends, and takes every key, which is visited as bytes, and value. -/
def takeMap (rec : Nat → Except SErr (List Ev)) (d : Data) : Nat → MapAccess → Except SErr (List Ev)
  | 0, _ => .error (.other .fuel)
  | f + 1, acc => do
    match ← lift (acc.nextKey d) with
    | (none, _) => return []
    | (some k, acc) =>
      let (v, acc) ← acc.nextValue
      let a ← rec v
      return .bytes k :: a ++ (← takeMap rec d f acc)

/-- Takes a value, whatever it is (`deserialize_any`), as types that can hold anything do. -/
def takeF : Nat → Data → Nat → Except SErr (List Ev)
  | 0, _, _ => .error (.other .fuel)
  | f + 1, d, x => do
    match ← deserialize (f + 1) d x .any with
    | .none => return [.none]
    | .bool b => return [.bool b]
    | .int t x => return [.int t x]
    | .f32 s => return [.f32 s]
    | .f64 s => return [.f64 s]
    | .str s => return [.str s]
    | .bytes s => return [.bytes s]
    | .some y => takeF f d y
    | .seq it => return .seq none :: (← takeSeq (takeF f d) d (it.rest.length + 1) it) ++ [.stop]
    | .map it => return .map none :: (← takeMap (takeF f d) d (it.rest.length + 1) ⟨it, none⟩) ++ [.stop]

end Verif
