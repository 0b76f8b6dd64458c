import Verif.SerdeSpec
/-
Types that are deserialized: what they ask for, and what they do with the calls that their visitors get.
-/
namespace Verif

/-- Types that can be asked for, by name (`σ`), so that they may be recursive.  `ask`: the method that is called; `inner`: what is asked for in `visit_some`; `elem`: what is asked for as the element with
that number, if there is one (`none`: no further element is asked for); `more`: a further key is asked for, after that many; `value`: what is asked for as the value of the entry with that number and key
(`none`: the value is not asked for). -/
structure Wanted (σ : Type) where
  ask : σ → Method
  inner : σ → σ
  elem : σ → Nat → Option σ
  more : σ → Nat → Bool
  value : σ → Nat → Bytes → Option σ

/-- Types in types are not all options: `visit_some` is given the same value once more, so a type that is nothing but an option of itself is never done. -/
def Wanted.founded {σ : Type} (T : Wanted σ) : Prop := ∃ rank : σ → Nat, ∀ s, T.ask s = .option → rank (T.inner s) < rank s

mutual
/-- A value is deserialized as the type `s`: the calls of visitors, in order.  (A visitor that fails ends them earlier.) -/
def Wanted.run {σ : Type} (T : Wanted σ) (d : Data) : Nat → σ → Nat → Except SErr (List Visit)
  | 0, _, _ => .error (.other .fuel)
  | f + 1, s, x => do
    match ← deserialize f d x (T.ask s) with
    | .some y => return .some y :: (← T.run d f (T.inner s) y)
    | .seq it => return .seq it :: (← T.runSeq d f s 0 it)
    | .map it => return .map it :: (← T.runMap d f s 0 ⟨it, none⟩)
    | v => return [v]
/-- The elements from the one with number `n` on. -/
def Wanted.runSeq {σ : Type} (T : Wanted σ) (d : Data) : Nat → σ → Nat → Iter → Except SErr (List Visit)
  | 0, _, _, _ => .error (.other .fuel)
  | f + 1, s, n, it =>
    match T.elem s n with
    | none => return []
    | some s' => do
      match ← lift (seqAccessNext d it) with
      | (none, _) => return []
      | (some v, it) =>
        let a ← T.run d f s' v
        return a ++ (← T.runSeq d f s (n + 1) it)
/-- The entries from the one with number `n` on. -/
def Wanted.runMap {σ : Type} (T : Wanted σ) (d : Data) : Nat → σ → Nat → MapAccess → Except SErr (List Visit)
  | 0, _, _, _ => .error (.other .fuel)
  | f + 1, s, n, acc =>
    if T.more s n then do
      match ← lift (acc.nextKey d) with
      | (none, _) => return []
      | (some k, acc) =>
        match T.value s n k with
        | none => return .bytes k :: (← T.runMap d f s (n + 1) acc)
        | some s' =>
          let (v, acc) ← acc.nextValue
          let a ← T.run d f s' v
          return .bytes k :: a ++ (← T.runMap d f s (n + 1) acc)
    else return []
end

/-- Something that is given a number of steps ends: from some number of steps on it has the same result, which is neither a panic nor that the steps do not suffice. -/
def Ends {α : Type} (F : Nat → Except SErr α) : Prop := ∃ N r, (∀ st, r ≠ .error (.other st)) ∧ ∀ f, N ≤ f → F f = r

/-- The call without the ids in it; of an iterator, how many items it has is left. -/
def Visit.plain : Visit → Visit
  | .some _ => .some 0
  | .seq it => .seq ⟨it.rest.map fun _ => 0⟩
  | .map it => .map ⟨it.rest.map fun _ => 0⟩
  | v => v

/-- The calls without the ids in them. -/
def plainly (r : Except SErr (List Visit)) : Except SErr (List Visit) := r.map (List.map Visit.plain)

end Verif
