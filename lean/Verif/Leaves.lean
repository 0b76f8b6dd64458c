import Verif.Rules
import Verif.LiveLemmas
/-
Facts about all scalars of a document: of a parsed one, and across edits.
-/
namespace Verif

mutual
/-- All scalars satisfy `P`. -/
def Tree.all {α} (P : Scalar → Prop) : Tree α → Prop
  | .leaf _ _ s => P s
  | .node _ _ _ _ _ items => items.all P
def Items.all {α} (P : Scalar → Prop) : Items α → Prop
  | .nil => True
  | .cons _ _ _ v rest => v.all P ∧ rest.all P
end

theorem allRules {inp : Bytes} {P : Scalar → Prop} (h0 : P (.null .empty))
    (hl : ∀ {f i t n s ws m}, lead f inp i t n = .ok (.scalar s ws m) → P s) :
    Rules inp (fun _ _ t _ _ => t.all P) (fun _ _ _ _ items _ _ _ => items.all P) (fun _ _ _ _ _ items _ _ _ _ => items.all P)
    (fun _ _ _ items _ _ => items.all P) (fun _ _ _ _ _ items _ _ => items.all P) where
  scalar := fun h => hl h
  seq := fun _ h => h
  flowSeq := fun _ h _ => h
  flowMap := fun _ h _ => h
  keyNull := fun _ _ _ => h0
  keyMap := fun _ _ h => h
  fsStop := fun _ => trivial
  fsLast := fun _ h => ⟨h, trivial⟩
  fsComma := fun _ h _ h2 => ⟨h, h2⟩
  fsOther := fun _ h _ h2 => ⟨h, h2⟩
  fmStop := fun _ => trivial
  fmLast := fun _ _ h => ⟨h, trivial⟩
  fmComma := fun _ _ h _ h2 => ⟨h, h2⟩
  fmOther := fun _ _ h _ h2 => ⟨h, h2⟩
  bsLast := fun _ h _ => ⟨h, trivial⟩
  bsMore := fun _ h _ _ h2 => ⟨h, h2⟩
  bmLast := fun _ h _ => ⟨h, trivial⟩
  bmEnd := fun _ h _ _ => ⟨h, trivial⟩
  bmMore := fun _ h _ _ h2 => ⟨h, h2⟩

mutual
theorem Tree.all_label {P : Scalar → Prop} (k : Nat) : ∀ {t : Tree Unit}, t.all P → (t.label k).all P
  | .leaf _ _ _, h => h
  | .node _ _ _ _ _ items, h => Items.all_label (k + 1) (items := items) h
theorem Items.all_label {P : Scalar → Prop} (k : Nat) : ∀ {items : Items Unit}, items.all P → (items.label k).all P
  | .nil, _ => trivial
  | .cons _ _ _ _ _, h => ⟨Tree.all_label _ h.1, Items.all_label _ h.2⟩
end

mutual
theorem Tree.all_find {P : Scalar → Prop} {x : Nat} {u : Tree Nat} : ∀ {t : Tree Nat}, t.all P → t.find x = some u → u.all P
  | .leaf i p s, h, hf => by
    simp only [Tree.find] at hf
    split at hf
    · cases hf; exact h
    · cases hf
  | .node i p m ind k items, h, hf => by
    simp only [Tree.find] at hf
    split at hf
    · cases hf; exact h
    · exact Items.all_find (items := items) h hf
theorem Items.all_find {P : Scalar → Prop} {x : Nat} {u : Tree Nat} : ∀ {items : Items Nat}, items.all P → items.find x = some u → u.all P
  | .nil, _, hf => by simp only [Items.find] at hf; cases hf
  | .cons i p key v rest, h, hf => by
    simp only [Items.find] at hf
    cases hv : v.find x with
    | some w => rw [hv] at hf; cases hf; exact Tree.all_find h.1 hv
    | none => rw [hv] at hf; exact Items.all_find h.2 hf
end

mutual
theorem Tree.all_upd {P : Scalar → Prop} {x : Nat} {u : Tree Nat} (hu : u.all P) : ∀ {t : Tree Nat}, t.all P → (Tree.upd x u t).all P
  | .leaf i p s, h => by
    simp only [Tree.upd]
    split
    · exact hu
    · exact h
  | .node i p m ind k items, h => by
    simp only [Tree.upd]
    split
    · exact hu
    · exact Items.all_upd (items := items) hu h
theorem Items.all_upd {P : Scalar → Prop} {x : Nat} {u : Tree Nat} (hu : u.all P) : ∀ {items : Items Nat}, items.all P → (Items.upd x u items).all P
  | .nil, _ => trivial
  | .cons i p key v rest, h => by
    simp only [Items.upd]
    split
    · exact ⟨Tree.all_upd hu h.1, h.2⟩
    · exact ⟨h.1, Items.all_upd hu h.2⟩
end

theorem Items.all_append {P : Scalar → Prop} : ∀ {a b : Items Nat}, a.all P → b.all P → (a.append b).all P
  | .nil, _, _, h => h
  | .cons _ _ _ _ _, _, ⟨h1, h2⟩, h => ⟨h1, Items.all_append h2 h⟩

theorem Items.all_eraseIdx {P : Scalar → Prop} : ∀ {a : Items Nat} {n : Nat}, a.all P → (a.eraseIdx n).all P
  | .nil, _, _ => trivial
  | .cons _ _ _ _ _, 0, h => h.2
  | .cons _ _ _ _ _, n + 1, ⟨h1, h2⟩ => ⟨h1, Items.all_eraseIdx h2⟩

mutual
theorem Tree.all_mono {P Q : Scalar → Prop} (h : ∀ s, P s → Q s) : ∀ {t : Tree Nat}, t.all P → t.all Q
  | .leaf _ _ _, ht => h _ ht
  | .node _ _ _ _ _ items, ht => Items.all_mono (items := items) h ht
theorem Items.all_mono {P Q : Scalar → Prop} (h : ∀ s, P s → Q s) : ∀ {items : Items Nat}, items.all P → items.all Q
  | .nil, _ => trivial
  | .cons _ _ _ _ _, ht => ⟨Tree.all_mono h ht.1, Items.all_mono h ht.2⟩
end

mutual
theorem Tree.all_true {P : Scalar → Prop} (h : ∀ s, P s) : ∀ {t : Tree Nat}, t.all P
  | .leaf _ _ _ => h _
  | .node _ _ _ _ _ items => Items.all_true (items := items) h
theorem Items.all_true {P : Scalar → Prop} (h : ∀ s, P s) : ∀ {items : Items Nat}, items.all P
  | .nil => trivial
  | .cons _ _ _ _ _ => ⟨Tree.all_true h, Items.all_true h⟩
end

/-- The scalars of the tree after an edit: those there were, and what the edit stores. -/
theorem Op.tree_all {P : Scalar → Prop} {i v : Nat} {mk : Nat × Bytes} {op : Op} {u : Tree Nat} (hu : u.all P)
    (hs : ∀ s, op.scalar u = some s → P s)
    (hv : ∀ val, (∃ key, op = .insert key val) ∨ op = .push val → P (val.scalar u)) : (op.tree i v mk u).all P := by
  simp only [Op.tree]
  split
  · next h => exact hs _ h
  · split
    · split
      · exact Items.all_append (show Items.all P _ from hu) ⟨hv _ (.inl ⟨_, rfl⟩), trivial⟩
      · next w _ => exact Tree.all_upd (u := .leaf w.id w.pre _) (hv _ (.inl ⟨_, rfl⟩)) hu
    · split
      · exact hu
      · exact Items.all_eraseIdx (show Items.all P _ from hu)
    · trivial
    · exact Items.all_append (show Items.all P _ from hu) ⟨hv _ (.inr rfl), trivial⟩
    · exact Items.all_eraseIdx (show Items.all P _ from hu)
    · trivial
    · trivial
    · trivial
    · trivial
    · trivial
    · exact hu

theorem parsed_all {inp : Bytes} {doc : Document} {P : Scalar → Prop} (h : Parsed inp doc) (h0 : P (.null .empty))
    (hl : ∀ {f i t n s ws m}, lead f inp i t n = .ok (.scalar s ws m) → P s) : ∃ t, Holds doc t ∧ t.all P := by
  obtain ⟨f, h⟩ := h
  rw [parseF_refine] at h
  cases hp : pparseF f inp with
  | error e => rw [hp] at h; cases h
  | ok r =>
    obtain ⟨t, suffix⟩ := r
    rw [hp] at h
    cases h
    refine ⟨_, docOf_holds t suffix, Tree.all_label 0 ?_⟩
    unfold pparseF at hp
    cases hs : startOfDocument f inp with
    | error e => simp only [hs, bind, Except.bind] at hp; cases hp
    | ok r =>
      obtain ⟨pre, n⟩ := r
      simp only [hs, bind, Except.bind] at hp
      cases hv : pvalue inp f ⟨pre, false, true, none⟩ n with
      | error e => rw [hv] at hp; cases hp
      | ok r =>
        obtain ⟨t', ws, m⟩ := r
        rw [hv] at hp
        simp only at hp
        split at hp
        · cases hp
          exact (allRules h0 hl).value f _ _ _ _ _ hv
        · cases hp

end Verif
