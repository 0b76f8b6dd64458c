import Verif.Data
/-
The string table of `Data` (data.rs:95-131).

The rest of the model lets a `StringId` be the string itself.  Here it is what it is in the code: a hash, under which the string is found in a table.
`C37_faithful` of `Verif.Props.Intern` is what makes the two agree: an id that was handed out always resolves to the string it was handed out for.
-/
namespace Verif

/-- data.rs:95 `strings: HashMap<StringId, Box<[u8]>>`, as the list of its entries.  `H` stands for `StringId`, data.rs:15-19. -/
structure Table (H : Type) where
  entries : List (H × Bytes)
deriving DecidableEq, Repr

namespace Table
variable {H : Type} [DecidableEq H]

/-- `HashMap::get`. -/
def find (t : Table H) (id : H) : Option Bytes := (t.entries.find? fun e => e.1 = id).map (·.2)

/-- data.rs:101-108 `str`; panics if there is no such string. -/
def str (t : Table H) (id : H) : Except Stop Bytes :=
  match t.find id with
  | some s => .ok s
  | none => .error .panic

/-- data.rs:110-127 `insert_str`: stored unless there is an entry already.  The hash, XXH3 of the string, is a parameter. -/
def insertStr (hash : Bytes → H) (t : Table H) (s : Bytes) : H × Table H :=
  let id := hash s
  match t.find id with
  | none => (id, ⟨t.entries ++ [(id, s)]⟩)
  | some _ => (id, t)

end Table

/-- data.rs:92-97 `Data`, with its table. -/
structure Interned (H : Type) where
  strings : Table H
  data : Data

/-- data.rs:90 `Default`. -/
def Interned.empty (H : Type) : Interned H := ⟨⟨[]⟩, Data.empty⟩

/-- What happens to `Data`: a string is interned, or one of the other functions (data.rs:133-337), none of which mentions `strings`, changes the slab. -/
inductive Event
  | intern (s : Bytes)
  | slab (f : Data → Data)

def Interned.step {H : Type} [DecidableEq H] (hash : Bytes → H) (d : Interned H) : Event → Interned H
  | .intern s => { d with strings := (d.strings.insertStr hash s).2 }
  | .slab f => { d with data := f d.data }

def Interned.run {H : Type} [DecidableEq H] (hash : Bytes → H) (d : Interned H) (es : List Event) : Interned H := es.foldl (Interned.step hash) d

/-- The strings interned by events. -/
def internedBy : List Event → List Bytes
  | [] => []
  | .intern s :: es => s :: internedBy es
  | .slab _ :: es => internedBy es

end Verif
