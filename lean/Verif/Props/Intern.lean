import Verif.Intern
/-
C37: interned strings.
-/
namespace Verif
variable {H : Type} [DecidableEq H] {hash : Bytes → H}

theorem Table.find_insert (t : Table H) (s : Bytes) (id : H) :
    (t.insertStr hash s).2.find id = (t.find id).or (if hash s = id then some s else none) := by
  simp only [Table.insertStr]
  cases h : t.find (hash s) with
  | none =>
    simp only [Table.find, List.find?_append]
    cases t.entries.find? fun e => e.1 = id with
    | some e => rfl
    | none => by_cases hi : hash s = id <;> simp [hi]
  | some v =>
    by_cases hi : hash s = id
    · subst hi; simp [h]
    · simp [hi]

theorem Interned.find_run (id : H) : ∀ (es : List Event) (d : Interned H),
    (d.run hash es).strings.find id = (d.strings.find id).or ((internedBy es).find? fun s => hash s = id)
  | [], d => by simp [Interned.run, internedBy]
  | .intern s :: es, d => by
    have := Interned.find_run id es (d.step hash (.intern s))
    simp only [Interned.run, List.foldl_cons] at this ⊢
    rw [this]
    simp only [Interned.step, Table.find_insert, internedBy, List.find?_cons]
    cases d.strings.find id <;> by_cases hi : hash s = id <;> simp [hi]
  | .slab f :: es, d => by
    have := Interned.find_run id es (d.step hash (.slab f))
    simp only [Interned.run, List.foldl_cons] at this ⊢
    rw [this]; rfl

/-- The state after some events, the interning of `s`, and more events. -/
def afterIntern (hash : Bytes → H) (before : List Event) (s : Bytes) (after : List Event) : Interned H :=
  ((Interned.empty H).run hash (before ++ [.intern s])).run hash after

theorem internedBy_append : ∀ a b : List Event, internedBy (a ++ b) = internedBy a ++ internedBy b
  | [], _ => rfl
  | .intern s :: a, b => by simp [internedBy, internedBy_append a b]
  | .slab _ :: a, b => by simp [internedBy, internedBy_append a b]

/-- C37, in full: the id that interning `s` hands out resolves, at any time later, to the first string interned with the same hash. -/
theorem C37_exact (before : List Event) (s : Bytes) (after : List Event) :
    (afterIntern hash before s after).strings.str ((((Interned.empty H).run hash before).strings.insertStr hash s).1) =
      .ok (((internedBy before).find? fun s' => hash s' = hash s).getD s) := by
  have hid : (((Interned.empty H).run hash before).strings.insertStr hash s).1 = hash s := by
    simp only [Table.insertStr]; split <;> rfl
  rw [hid, Table.str, afterIntern, Interned.find_run, Interned.find_run, internedBy_append]
  simp only [Interned.empty, Table.find, List.find?_nil, Option.map_none, Option.none_or, internedBy, List.find?_append]
  cases (internedBy before).find? fun s' => hash s' = hash s <;> simp

/-- C37: the id that interning `s` hands out resolves to `s`, whatever was interned or removed before and later, if no string interned before has the same hash without being `s`. -/
theorem C37_faithful {before : List Event} {s : Bytes} (after : List Event) (h : ∀ s' ∈ internedBy before, hash s' = hash s → s' = s) :
    (afterIntern hash before s after).strings.str ((((Interned.empty H).run hash before).strings.insertStr hash s).1) = .ok s := by
  rw [C37_exact]
  cases hf : (internedBy before).find? fun s' => hash s' = hash s with
  | none => rfl
  | some s' =>
    have := h s' (List.mem_of_find?_eq_some hf) (by simpa using List.find?_some hf)
    rw [this]; rfl

/-- Two strings get the same id only if they have the same hash; one string always gets the same. -/
theorem C37_ids (t t' : Table H) (s s' : Bytes) : (t.insertStr hash s).1 = (t'.insertStr hash s').1 ↔ hash s = hash s' := by
  have h1 : ∀ (t : Table H) s, (t.insertStr hash s).1 = hash s := by
    intro t s; simp only [Table.insertStr]; split <;> rfl
  rw [h1, h1]

/-- With the length as hash: `ab` was interned after `c` and stays what it is. -/
example : (afterIntern (fun s => s.length) [.intern (b! "c"), .slab (fun _ => Data.empty)] (b! "ab") [.intern (b! "xy")]).strings.str 2 = .ok (b! "ab") :=
  C37_faithful (hash := fun s : Bytes => s.length) (before := [.intern (b! "c"), .slab (fun _ => Data.empty)]) (s := b! "ab") [.intern (b! "xy")] (by decide)
/-- And `xy`, which collides with it, is lost. -/
example : (afterIntern (fun s => s.length) [.intern (b! "c"), .intern (b! "ab")] (b! "xy") []).strings.str 2 = .ok (b! "ab") := by decide

end Verif
