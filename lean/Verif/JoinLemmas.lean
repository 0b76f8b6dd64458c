import Verif.LiveLemmas
/-
The text of a collection as its entries' texts with separators between them.
-/
namespace Verif

/-- Texts with a separator between them. -/
def joinSep (sep : Bytes) : List Bytes → Bytes
  | [] => []
  | [x] => x
  | x :: y :: r => x ++ sep ++ joinSep sep (y :: r)

theorem joinSep_cons (sep x : Bytes) (r : List Bytes) :
    joinSep sep (x :: r) = x ++ (if r.isEmpty then [] else sep) ++ joinSep sep r := by
  cases r <;> simp [joinSep]

theorem joinSep_snoc (sep x : Bytes) : ∀ L : List Bytes,
    joinSep sep (L ++ [x]) = joinSep sep L ++ (if L.isEmpty then [] else sep) ++ x
  | [] => by simp [joinSep]
  | [a] => by simp [joinSep]
  | a :: b :: r => by
    have := joinSep_snoc sep x (b :: r)
    simp only [List.cons_append] at this ⊢
    simp [joinSep, this]

/-- Which separator goes with an entry that is taken out. -/
theorem joinSep_erase (sep : Bytes) : ∀ (L : List Bytes) (n : Nat) (x : Bytes), L[n]? = some x →
    (L.length = 1 ∧ joinSep sep L = x ∧ joinSep sep (L.eraseIdx n) = []) ∨
    (n + 1 < L.length ∧ ∃ a b, joinSep sep L = a ++ (x ++ sep) ++ b ∧ joinSep sep (L.eraseIdx n) = a ++ b) ∨
    (1 < L.length ∧ n + 1 = L.length ∧ ∃ a, joinSep sep L = a ++ (sep ++ x) ∧ joinSep sep (L.eraseIdx n) = a)
  | [], n, x, h => by simp at h
  | [y], 0, x, h => by simp at h; subst h; left; simp [joinSep]
  | [y], n + 1, x, h => by simp at h
  | y :: z :: r, 0, x, h => by
    simp at h; subst h
    right; left
    exact ⟨by simp, [], joinSep sep (z :: r), by simp [joinSep], by simp⟩
  | y :: z :: r, n + 1, x, h => by
    simp only [List.getElem?_cons_succ] at h
    rcases joinSep_erase sep (z :: r) n x h with ⟨h1, h2, h3⟩ | ⟨h1, a, b, h2, h3⟩ | ⟨h1, h1', a, h2, h3⟩
    · right; right
      have hr : r = [] := by simpa using h1
      subst hr
      have hn : n = 0 := by
        have := (List.getElem?_eq_some_iff.1 h).1
        simp at this; omega
      subst hn
      simp at h; subst h
      exact ⟨by simp, by simp, y, by simp [joinSep], by simp [joinSep]⟩
    · right; left
      refine ⟨by simp at h1 ⊢; omega, y ++ sep ++ a, b, ?_, ?_⟩
      · rw [joinSep, h2]; simp
      · rw [List.eraseIdx_cons_succ, joinSep_cons, h3]
        have : ((z :: r).eraseIdx n).isEmpty = false := by
          have : ((z :: r).eraseIdx n).length ≠ 0 := by
            rw [List.length_eraseIdx]; simp only [List.length_cons] at *; split <;> omega
          cases hz : (z :: r).eraseIdx n with
          | nil => rw [hz] at this; simp at this
          | cons => rfl
        rw [this]; simp
    · right; right
      refine ⟨by simp, by simp at h1' ⊢; omega, y ++ sep ++ a, ?_, ?_⟩
      · rw [joinSep, h2]; simp
      · rw [List.eraseIdx_cons_succ, joinSep_cons, h3]
        have : ((z :: r).eraseIdx n).isEmpty = false := by
          have : ((z :: r).eraseIdx n).length ≠ 0 := by
            rw [List.length_eraseIdx]; simp only [List.length_cons] at *; split <;> omega
          cases hz : (z :: r).eraseIdx n with
          | nil => rw [hz] at this; simp at this
          | cons => rfl
        rw [this]; simp

/-- The text of one entry. -/
def itemText (m : Bool) (k : CollKind) (pre : Bytes) (key : RStr) (v : Tree Nat) : Bytes :=
  (if m then pre ++ key.write ++ [COLON] else lossy pre ++ (if k = .block then [DASH] else [])) ++ v.pre ++ v.render

def Items.texts (m : Bool) (k : CollKind) : Items Nat → List Bytes
  | .nil => []
  | .cons _ pre key v rest => itemText m k pre key v :: rest.texts m k

theorem Items.texts_isEmpty (m : Bool) (k : CollKind) (is : Items Nat) : (is.texts m k).isEmpty = is.isNil := by
  cases is <;> rfl

theorem Items.render_texts (m : Bool) (k : CollKind) : ∀ is : Items Nat, is.render m k = joinSep (sepOf k false) (is.texts m k)
  | .nil => rfl
  | .cons i pre key v rest => by
    rw [Items.texts, joinSep_cons, Items.texts_isEmpty, ← Items.render_texts m k rest, Items.render]
    have : sepOf k rest.isNil = if rest.isNil then [] else sepOf k false := by
      cases k <;> cases rest.isNil <;> rfl
    rw [this]
    simp [itemText]

theorem Items.texts_append (m : Bool) (k : CollKind) : ∀ a b : Items Nat, (a.append b).texts m k = a.texts m k ++ b.texts m k
  | .nil, _ => rfl
  | .cons _ _ _ _ rest, b => by simp [Items.append, Items.texts, Items.texts_append m k rest b]

theorem Items.texts_eraseIdx (m : Bool) (k : CollKind) : ∀ (a : Items Nat) (n : Nat),
    (a.eraseIdx n).texts m k = (a.texts m k).eraseIdx n
  | .nil, _ => rfl
  | .cons _ _ _ _ _, 0 => rfl
  | .cons _ _ _ _ rest, n + 1 => by simp [Items.eraseIdx, Items.texts, Items.texts_eraseIdx m k rest n]

/-- The `n`th entry. -/
theorem RepItems.item {d : Data} {c : Nat} {m : Bool} (k : CollKind) : ∀ {is : Items Nat}, RepItems d c m is →
    ∀ {n i : Nat}, is.ids[n]? = some i → ∃ ip key v, is.pairs[n]? = some (key, v) ∧
      (is.texts m k)[n]? = some (itemText m k ip key v) ∧
      d.slab.get i = some ⟨itemRaw m key v.id, ip, some c⟩ ∧ Rep d (some i) v
  | .nil, _, n, i, hn => by simp [Items.ids] at hn
  | .cons j p key v rest, h, 0, i, hn => by
    simp only [Items.ids, List.getElem?_cons_zero, Option.some.injEq] at hn
    subst hn
    exact ⟨p, key, v, rfl, rfl, h.cons.1, h.cons.2.1⟩
  | .cons j p key v rest, h, n + 1, i, hn => by
    simp only [Items.ids, List.getElem?_cons_succ] at hn
    obtain ⟨ip, key', v', h1, h2, h3⟩ := RepItems.item k h.cons.2.2 hn
    exact ⟨ip, key', v', h1, h2, h3⟩

theorem Items.texts_length (m : Bool) (k : CollKind) : ∀ is : Items Nat, (is.texts m k).length = is.ids.length
  | .nil => rfl
  | .cons _ _ _ _ rest => by simp [Items.texts, Items.ids, Items.texts_length m k rest]

end Verif
