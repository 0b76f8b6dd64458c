import Verif.Wanted
/-
Types of data, and what they are to be given.
-/
namespace Verif

/-- Types, as they are deserialized by serde's own and derived implementations: `bool`, integers, floating point numbers, `String`, byte buffers, `Option`, `Vec`, tuples, maps, and structs, with the
names of the fields and their types.  `ignored` is `IgnoredAny`, which derived implementations ask for as the values of keys that are no fields; where `known` is false the value is not asked for at all. -/
inductive Ty
  | bool | int (t : IntTy) | f32 | f64 | str | bytes
  | opt (τ : Ty) | vec (τ : Ty) | tuple (n : Nat) (elem : Nat → Ty) | map (τ : Ty) | ignored | record (known : Bytes → Bool) (field : Bytes → Ty)

/-- What they ask for. -/
def types : Wanted Ty where
  ask
    | .bool => .bool | .int t => .int t | .f32 => .f32 | .f64 => .f64 | .str => .string | .bytes => .byteBuf
    | .opt _ => .option | .vec _ => .seq | .tuple .. => .tuple | .map _ => .map | .ignored => .ignoredAny | .record .. => .struct
  inner
    | .opt τ => τ
    | τ => τ
  elem
    | .vec τ, _ => some τ
    | .ignored, _ => some .ignored
    | .tuple n elem, i => if i < n then some (elem i) else none
    | _, _ => none
  more _ _ := true
  value
    | .map τ, _, _ => some τ
    | .ignored, _, _ => some .ignored
    | .record known field, _, k => if known k then some (field k) else none
    | _, _, _ => none

/-- The calls for elements, one after the other, as far as they are asked for. -/
def eachElem (P : Nat → Option (Content → List Visit → Prop)) : Nat → Elems → List Visit → Prop
  | _, .nil, r => r = []
  | n, .cons v rest, r =>
    match P n with
    | none => r = []
    | some Q => ∃ a b, r = a ++ b ∧ Q v a ∧ eachElem P (n + 1) rest b

/-- The calls for entries: all keys, and the values that are asked for. -/
def eachEntry (P : Bytes → Option (Content → List Visit → Prop)) : Entries → List Visit → Prop
  | .nil, r => r = []
  | .cons k v rest, r =>
    match P k with
    | none => ∃ b, r = .bytes k :: b ∧ eachEntry P rest b
    | some Q => ∃ a b, r = .bytes k :: a ++ b ∧ Q v a ∧ eachEntry P rest b

/-- The call for a number of a text that is asked for as any value; there is none for numbers that no type of 64 bits has. -/
def numberCall (s : Bytes) : Option Visit :=
  match decimal s with
  | some x =>
    if s.headD 0 = DASH then (if IntTy.i64.has x then some (.int .i64 x) else none)
    else if IntTy.u64.has x then some (.int .u64 x) else none
  | none => if IsFloat s then some (.f64 s) else none

mutual
/-- The calls when a content is passed over with `IgnoredAny`, which looks at all of it. -/
def passing : Content → Option (List Visit)
  | .scalar .null => some [.none]
  | .scalar (.bool b) => some [.bool b]
  | .scalar (.string s) => some [if validUtf8 s then .str s else .bytes s]
  | .scalar (.number s) => (numberCall s).map ([·])
  | .scalar _ => none
  | .seq es => (passingElems es).map (.seq ⟨List.replicate es.length 0⟩ :: ·)
  | .map es => (passingEntries es).map (.map ⟨List.replicate es.length 0⟩ :: ·)
def passingElems : Elems → Option (List Visit)
  | .nil => some []
  | .cons v rest => do return (← passing v) ++ (← passingElems rest)
def passingEntries : Entries → Option (List Visit)
  | .nil => some []
  | .cons k v rest => do return .bytes k :: (← passing v) ++ (← passingEntries rest)
end

/-- The content is one of the type, and these are the calls that hand it over: each scalar as what it is, all elements and entries in order.  Collections come with the number of their items, the other ids
are left out.  With `p`, the document is as parsed: numbers are handed over to `IgnoredAny` as the type that follows from their text. -/
def Gets (p : Prop) : Ty → Content → List Visit → Prop
  | .bool, c, r => ∃ b, c = .scalar (.bool b) ∧ r = [.bool b]
  | .int t, c, r => ∃ s x, c = .scalar (.number s) ∧ decimal s = some x ∧ t.has x = true ∧ (t.signed = true ∨ s.headD 0 ≠ DASH) ∧ t.bits ≠ 128 ∧ r = [.int t x]
  | .f32, c, r => ∃ s, c = .scalar (.number s) ∧ IsFloat s ∧ r = [.f32 s]
  | .f64, c, r => ∃ s, c = .scalar (.number s) ∧ IsFloat s ∧ r = [.f64 s]
  | .str, c, r => ∃ s, c = .scalar (.string s) ∧ validUtf8 s = true ∧ r = [.str s]
  | .bytes, c, r => ∃ s, c = .scalar (.string s) ∧ r = [.bytes s]
  | .opt τ, c, r => (c = .scalar .null ∧ r = [.none]) ∨ (c ≠ .scalar .null ∧ ∃ a, r = .some 0 :: a ∧ Gets p τ c a)
  | .vec τ, c, r => ∃ es a, c = .seq es ∧ r = .seq ⟨List.replicate es.length 0⟩ :: a ∧ eachElem (fun _ => some fun c a => Gets p τ c a) 0 es a
  | .tuple n elem, c, r => ∃ es a, c = .seq es ∧ n ≤ es.length ∧ r = .seq ⟨List.replicate es.length 0⟩ :: a ∧ eachElem (fun i => if i < n then some fun c a => Gets p (elem i) c a else none) 0 es a
  | .map τ, c, r => ∃ es a, c = .map es ∧ r = .map ⟨List.replicate es.length 0⟩ :: a ∧ eachEntry (fun _ => some fun c a => Gets p τ c a) es a
  | .ignored, c, r => p ∧ passing c = some r
  | .record known field, c, r => ∃ es a, c = .map es ∧ r = .map ⟨List.replicate es.length 0⟩ :: a ∧ eachEntry (fun k => if known k then some fun c a => Gets p (field k) c a else none) es a

end Verif
