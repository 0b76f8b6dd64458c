import Verif.Nest
/-
Documents in which every block collection is further to the right than the one it is in, and in which no value is missing.  Used in proofs only; nothing here is part of the Rust code.
-/
namespace Verif

/-- A collection in one that starts in column `c` (`m`: a mapping) starts further to the right, or a sequence in a mapping not further to the left. -/
def Tree.inside {α : Type} (m : Bool) (c : Nat) : Tree α → Prop
  | .leaf _ _ _ => True
  | .node _ _ m' ind _ _ => if m' || !m then c < ind else c ≤ ind

mutual
/-- No value is missing or a block scalar, there are no inline collections, and the block collections are not empty and further to the right than the ones they are in. -/
def Tree.nested {α : Type} : Tree α → Prop
  | .leaf _ _ sc => sc.write.headD 0 ≠ 0 ∧ sc.write.headD 0 ≠ PIPE ∧ sc.write.headD 0 ≠ GT
  | .node _ _ m ind .block items => items.isNil = false ∧ items.nested m ind
  | .node _ _ _ _ (.inline _ _) _ => False
def Items.nested {α : Type} (m : Bool) (c : Nat) : Items α → Prop
  | .nil => True
  | .cons _ _ _ v rest => v.inside m c ∧ v.nested ∧ rest.nested m c
end

theorem Tree.inside_under {α : Type} {m m' : Bool} {c ind : Nat} (h : if m' || !m then c < ind else c ≤ ind) {v : Tree α} (hv : v.inside m' ind) : v.inside m c := by
  cases v with
  | leaf => trivial
  | node i p m2 ind2 k items =>
    simp only [Tree.inside] at hv ⊢
    cases m <;> cases m' <;> cases m2 <;> simp at h hv ⊢ <;> omega

theorem Items.nested_under {α : Type} {m m' : Bool} {c ind : Nat} (h : if m' || !m then c < ind else c ≤ ind) : ∀ {items : Items α}, items.nested m' ind → items.nested m c
  | .nil, _ => by rw [Items.nested]; trivial
  | .cons _ _ _ v rest, hi => by
    rw [Items.nested] at hi ⊢
    exact ⟨Tree.inside_under h hi.1, hi.2.1, Items.nested_under h hi.2.2⟩

mutual
theorem Tree.nested_tail {c : Nat} {m : Bool} {p : Nat} : ∀ {v : Tree Nat}, v.inside m c → v.nested → v.erase.tailOk c m false p
  | .leaf _ _ sc, _, h => by
    rw [Tree.nested] at h
    rw [Tree.erase, Tree.tailOk]
    exact ⟨fun he => absurd (by rw [he]; rfl) h.1, .inl h.2⟩
  | .node _ _ _ _ (.inline _ _) _, _, h => by rw [Tree.nested] at h; exact h.elim
  | .node _ _ m' ind .block items, hi, h => by
    rw [Tree.nested] at h
    rw [Tree.erase, Tree.tailOk]
    rw [Tree.inside] at hi
    refine ⟨fun he => ?_, Items.nested_tail (Items.nested_under hi h.2)⟩
    subst he
    cases m <;> cases m' <;> simp at hi ⊢
theorem Items.nested_tail {c : Nat} {m : Bool} {p : Nat} : ∀ {items : Items Nat}, items.nested m c → items.erase.tailOk c m false p
  | .nil, _ => by rw [Items.erase, Items.tailOk]; trivial
  | .cons _ _ _ v .nil, h => by
    rw [Items.nested] at h
    rw [Items.erase, Items.erase, Items.tailOk]
    exact Tree.nested_tail h.1 h.2.1
  | .cons _ _ _ v (.cons i p' k v' rest), h => by
    rw [Items.nested] at h
    have := Items.nested_tail (p := p) h.2.2
    rw [Items.erase] at this ⊢
    rw [Items.erase, Items.tailOk]
    · exact this
    · simp
end

mutual
theorem Tree.nested_find {x : Nat} {u : Tree Nat} : ∀ {t : Tree Nat}, t.nested → t.find x = some u → u.nested
  | .leaf i p s, h, hf => by
    rw [Tree.find] at hf
    split at hf
    · cases hf; exact h
    · cases hf
  | .node i p m ind k items, h, hf => by
    rw [Tree.find] at hf
    split at hf
    · cases hf; exact h
    · cases k with
      | inline => rw [Tree.nested] at h; exact h.elim
      | block => rw [Tree.nested] at h; exact Items.nested_find h.2 hf
theorem Items.nested_find {x : Nat} {u : Tree Nat} {m : Bool} {c : Nat} : ∀ {items : Items Nat}, items.nested m c → items.find x = some u → u.nested
  | .nil, _, hf => by rw [Items.find] at hf; cases hf
  | .cons i p k v rest, h, hf => by
    rw [Items.nested] at h
    rw [Items.find, Option.or_eq_some_iff] at hf
    rcases hf with hf | hf
    · exact Tree.nested_find h.2.1 hf
    · exact Items.nested_find h.2.2 hf.2
end

theorem Items.upd_isNil (x : Nat) (u : Tree Nat) (items : Items Nat) : (Items.upd x u items).isNil = items.isNil := by
  cases items with
  | nil => rfl
  | cons => rw [Items.upd]; split <;> rfl

theorem Tree.inside_upd {x : Nat} {u u' : Tree Nat} (hk : ∀ m c, u.inside m c → u'.inside m c) {m : Bool} {c : Nat} {t : Tree Nat} (h : t.inside m c) (hf : t.find x = some u) :
    (Tree.upd x u' t).inside m c := by
  cases t with
  | leaf i p s =>
    rw [Tree.find] at hf
    rw [Tree.upd]
    split at hf
    · next hi => rw [if_pos hi]; cases hf; exact hk _ _ h
    · cases hf
  | node i p m' ind k items =>
    rw [Tree.find] at hf
    rw [Tree.upd]
    split at hf
    · next hi => rw [if_pos hi]; cases hf; exact hk _ _ h
    · next hi => rw [if_neg hi]; exact h

mutual
theorem Tree.nested_upd {x : Nat} {u u' : Tree Nat} (hk : ∀ m c, u.inside m c → u'.inside m c) (hn : u'.nested) : ∀ {t : Tree Nat}, t.nested → t.find x = some u → (Tree.upd x u' t).nested
  | .leaf i p s, h, hf => by
    rw [Tree.find] at hf
    rw [Tree.upd]
    split at hf
    · next hi => rw [if_pos hi]; exact hn
    · cases hf
  | .node i p m ind k items, h, hf => by
    rw [Tree.find] at hf
    rw [Tree.upd]
    split at hf
    · next hi => rw [if_pos hi]; exact hn
    · next hi =>
      rw [if_neg hi]
      cases k with
      | inline => rw [Tree.nested] at h; exact h.elim
      | block =>
        rw [Tree.nested] at h ⊢
        exact ⟨by rw [Items.upd_isNil]; exact h.1, Items.nested_upd hk hn h.2 hf⟩
theorem Items.nested_upd {x : Nat} {u u' : Tree Nat} (hk : ∀ m c, u.inside m c → u'.inside m c) (hn : u'.nested) {m : Bool} {c : Nat} : ∀ {items : Items Nat}, items.nested m c →
    items.find x = some u → (Items.upd x u' items).nested m c
  | .nil, _, hf => by rw [Items.find] at hf; cases hf
  | .cons i p k v rest, h, hf => by
    rw [Items.nested] at h
    rw [Items.find, Option.or_eq_some_iff] at hf
    rw [Items.upd]
    rcases hf with hf | hf
    · rw [hf]
      simp only [Option.isSome_some, if_true]
      rw [Items.nested]
      exact ⟨Tree.inside_upd hk h.1 hf, Tree.nested_upd hk hn h.2.1 hf, h.2.2⟩
    · rw [hf.1]
      simp only [Option.isSome_none, Bool.false_eq_true, if_false]
      rw [Items.nested]
      exact ⟨h.1, h.2.1, Items.nested_upd hk hn h.2.2 hf.2⟩
end

theorem Items.nested_append {α : Type} {m : Bool} {c : Nat} {l : Items α} (hl : l.nested m c) : ∀ {items : Items α}, items.nested m c → (items.append l).nested m c
  | .nil, _ => hl
  | .cons _ _ _ _ _, h => by
    rw [Items.nested] at h
    rw [Items.append, Items.nested]
    exact ⟨h.1, h.2.1, Items.nested_append hl h.2.2⟩

theorem Items.nested_eraseIdx {α : Type} {m : Bool} {c : Nat} : ∀ {items : Items α} (n : Nat), items.nested m c → (items.eraseIdx n).nested m c
  | .nil, _, h => by rw [Items.eraseIdx]; exact h
  | .cons _ _ _ _ _, 0, h => by
    rw [Items.nested] at h
    rw [Items.eraseIdx]
    exact h.2.2
  | .cons _ _ _ _ _, n + 1, h => by
    rw [Items.nested] at h
    rw [Items.eraseIdx, Items.nested]
    exact ⟨h.1, h.2.1, Items.nested_eraseIdx n h.2.2⟩

/-- A new item at the end of a block collection. -/
theorem Tree.nested_add {t : Tree Nat} (h : t.nested) {x : Nat} {pre : Bytes} {m : Bool} {ind : Nat} {items : Items Nat} (hf : t.find x = some (.node x pre m ind .block items)) {i v : Nat} {p sep : Bytes}
    {key : RStr} {sc : Scalar} (hs : sc.write.headD 0 ≠ 0 ∧ sc.write.headD 0 ≠ PIPE ∧ sc.write.headD 0 ≠ GT) :
    (Tree.upd x (.node x pre m ind .block (items.append (.cons i p key (.leaf v sep sc) .nil))) t).nested := by
  have hx := Tree.nested_find h hf
  rw [Tree.nested] at hx
  refine Tree.nested_upd (u := .node x pre m ind .block items) (fun _ _ h => by simpa only [Tree.inside] using h) ?_ h hf
  rw [Tree.nested]
  refine ⟨?_, Items.nested_append ?_ hx.2⟩
  · cases items <;> rfl
  · simp only [Items.nested, Tree.inside, Tree.nested]
    exact ⟨trivial, hs, trivial⟩

/-- An item that is not the first one is removed. -/
theorem Tree.nested_cut {t : Tree Nat} (h : t.nested) {x : Nat} {pre : Bytes} {m : Bool} {ind : Nat} {items : Items Nat} (hf : t.find x = some (.node x pre m ind .block items)) (n : Nat) :
    (Tree.upd x (.node x pre m ind .block (items.eraseIdx (n + 1))) t).nested := by
  have hx := Tree.nested_find h hf
  rw [Tree.nested] at hx
  refine Tree.nested_upd (u := .node x pre m ind .block items) (fun _ _ h => by simpa only [Tree.inside] using h) ?_ h hf
  rw [Tree.nested]
  refine ⟨?_, Items.nested_eraseIdx _ hx.2⟩
  cases items with
  | nil => exact hx.1
  | cons => rfl

/-- A scalar in the place of a scalar. -/
theorem Tree.nested_set {t : Tree Nat} (h : t.nested) {x : Nat} {u : Tree Nat} (hf : t.find x = some u) {sc : Scalar}
    (hs : sc.write.headD 0 ≠ 0 ∧ sc.write.headD 0 ≠ PIPE ∧ sc.write.headD 0 ≠ GT) {pre : Bytes} : (Tree.upd x (.leaf x pre sc) t).nested :=
  Tree.nested_upd (u := u) (fun _ _ _ => by simp [Tree.inside]) (by rw [Tree.nested]; exact hs) h hf

end Verif
