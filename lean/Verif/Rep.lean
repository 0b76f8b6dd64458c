import Verif.TreeOps
import Verif.SlabLemmas
import Verif.Access
/-
Arenas that represent a tree: reading and writing.
-/
namespace Verif

/-- The arena holds the entries of `t` below `parent`. -/
def Rep (d : Data) (parent : Option Nat) (t : Tree Nat) : Prop :=
  ∀ i e, (i, e) ∈ t.entries parent → d.slab.get i = some e
def RepItems (d : Data) (c : Nat) (m : Bool) (is : Items Nat) : Prop :=
  ∀ i e, (i, e) ∈ is.entries c m → d.slab.get i = some e

theorem Rep.node {d : Data} {par : Option Nat} {i p m ind k items} (h : Rep d par (.node i p m ind k items)) :
    d.slab.get i = some ⟨collRaw m ⟨ind, k, items.ids⟩, p, par⟩ ∧ RepItems d i m items :=
  ⟨h _ _ (by simp [Tree.entries]), fun j e hj => h j e (by simp [Tree.entries, hj])⟩

theorem RepItems.cons {d : Data} {c m i p key v rest} (h : RepItems d c m (.cons i p key v rest)) :
    d.slab.get i = some ⟨itemRaw m key v.id, p, some c⟩ ∧ Rep d (some i) v ∧ RepItems d c m rest :=
  ⟨h _ _ (by simp [Items.entries]), fun j e hj => h j e (by simp [Items.entries, hj]),
    fun j e hj => h j e (by simp [Items.entries, hj])⟩

theorem Tree.entries_head (par : Option Nat) (t : Tree Nat) :
    ∃ rest, t.entries par = (t.id, ⟨t.raw, t.pre, par⟩) :: rest := by
  cases t <;> exact ⟨_, rfl⟩

theorem Rep.head {d : Data} {par : Option Nat} {t : Tree Nat} (h : Rep d par t) :
    d.slab.get t.id = some ⟨t.raw, t.pre, par⟩ := by
  obtain ⟨r, hr⟩ := t.entries_head par
  exact h _ _ (by simp [hr])

theorem entry_of {d : Data} {i : Nat} {e : Entry} (h : d.slab.get i = some e) : d.entry i = .ok e := by
  simp [Data.entry, h]
theorem raw_of {d : Data} {i : Nat} {e : Entry} (h : d.slab.get i = some e) : d.raw i = .ok e.raw := by
  simp [Data.raw, entry_of h, bind, Except.bind, pure, Except.pure]
theorem pre_of {d : Data} {i : Nat} {e : Entry} (h : d.slab.get i = some e) : d.pre i = .ok e.pre := by
  simp [Data.pre, entry_of h, bind, Except.bind, pure, Except.pure]
theorem mappingItem_of {d : Data} {i v : Nat} {key p par} (h : d.slab.get i = some ⟨itemRaw true key v, p, par⟩) :
    d.mappingItem i = .ok (key, v) := by simp [Data.mappingItem, h, itemRaw]
theorem sequenceItem_of {d : Data} {i v : Nat} {key p par} (h : d.slab.get i = some ⟨itemRaw false key v, p, par⟩) :
    d.sequenceItem i = .ok v := by simp [Data.sequenceItem, h, itemRaw]
theorem mapping_of {d : Data} {i : Nat} {c p par} (h : d.slab.get i = some ⟨collRaw true c, p, par⟩) :
    d.mapping i = .ok c := by simp [Data.mapping, h, collRaw]
theorem sequence_of {d : Data} {i : Nat} {c p par} (h : d.slab.get i = some ⟨collRaw false c, p, par⟩) :
    d.sequence i = .ok c := by simp [Data.sequence, h, collRaw]

theorem ids_isEmpty (is : Items Nat) : is.ids.isEmpty = is.isNil := by cases is <;> rfl

theorem writeRawF_leaf (f : Nat) (d : Data) (s : Scalar) : writeRawF (f + 1) d s.toRaw = .ok s.write := by
  cases s <;> rfl

mutual
theorem writeRawF_tree {d : Data} : ∀ {t : Tree Nat} {par : Option Nat} {f : Nat},
    Rep d par t → t.depth ≤ f → writeRawF f d t.raw = .ok t.render
  | .leaf i p s, _, f, _, hf => by
    obtain ⟨f, rfl⟩ : ∃ g, f = g + 1 := ⟨f - 1, by simp [Tree.depth] at hf; omega⟩
    exact writeRawF_leaf f d s
  | .node i p m ind k items, par, f, h, hf => by
    obtain ⟨f, rfl⟩ : ∃ g, f = g + 1 := ⟨f - 1, by simp [Tree.depth] at hf; omega⟩
    simp only [Tree.depth] at hf
    have hi := h.node.2
    cases m with
    | true =>
      simp [Tree.raw, collRaw, writeRawF, writeMapItems_items hi (f := f) (by omega), bind, Except.bind, pure,
        Except.pure, Tree.render]
    | false =>
      simp [Tree.raw, collRaw, writeRawF, writeSeqItems_items hi (f := f) (by omega), bind, Except.bind, pure,
        Except.pure, Tree.render]
theorem writeMapItems_items {d : Data} : ∀ {is : Items Nat} {c : Nat} {k : CollKind} {f : Nat},
    RepItems d c true is → is.depth ≤ f + 1 → writeMapItems (writeRawF f) d k is.ids = .ok (is.render true k)
  | .nil, _, _, _, _, _ => rfl
  | .cons i p key v rest, c, k, f, h, hf => by
    simp only [Items.depth] at hf
    obtain ⟨h1, h2, h3⟩ := h.cons
    have hv := writeRawF_tree h2 (f := f) (by omega)
    have hr := writeMapItems_items h3 (k := k) (f := f) (by omega)
    have hh := h2.head
    simp [Items.ids, writeMapItems, pre_of h1, mappingItem_of h1, pre_of hh, raw_of hh, hv, hr, bind, Except.bind,
      pure, Except.pure, Items.render, ids_isEmpty]
theorem writeSeqItems_items {d : Data} : ∀ {is : Items Nat} {c : Nat} {k : CollKind} {f : Nat},
    RepItems d c false is → is.depth ≤ f + 1 → writeSeqItems (writeRawF f) d k is.ids = .ok (is.render false k)
  | .nil, _, _, _, _, _ => rfl
  | .cons i p key v rest, c, k, f, h, hf => by
    simp only [Items.depth] at hf
    obtain ⟨h1, h2, h3⟩ := h.cons
    have hv := writeRawF_tree h2 (f := f) (by omega)
    have hr := writeSeqItems_items h3 (k := k) (f := f) (by omega)
    have hh := h2.head
    simp [Items.ids, writeSeqItems, pre_of h1, sequenceItem_of h1, pre_of hh, raw_of hh, hv, hr, bind, Except.bind,
      pure, Except.pure, Items.render, ids_isEmpty]
end

theorem dispRawF_leaf (f : Nat) (d : Data) (s : Scalar) (pre : Option Bytes) :
    dispRawF (f + 1) d s.toRaw pre = .ok ((if s != .null .empty then dispPre pre else []) ++ s.disp) := by
  cases s with
  | null n => cases n <;> rfl
  | _ => rfl

mutual
theorem dispRawF_tree {d : Data} : ∀ {t : Tree Nat} {par : Option Nat} {f : Nat} (pre : Option Bytes),
    Rep d par t → t.depth ≤ f →
      dispRawF f d t.raw pre = .ok ((if t.showsPre then dispPre pre else []) ++ t.disp)
  | .leaf i p s, _, f, pre, _, hf => by
    obtain ⟨f, rfl⟩ : ∃ g, f = g + 1 := ⟨f - 1, by simp [Tree.depth] at hf; omega⟩
    exact dispRawF_leaf f d s pre
  | .node i p m ind k items, par, f, pre, h, hf => by
    obtain ⟨f, rfl⟩ : ∃ g, f = g + 1 := ⟨f - 1, by simp [Tree.depth] at hf; omega⟩
    simp only [Tree.depth] at hf
    have hi := h.node.2
    cases m with
    | true =>
      simp [Tree.raw, collRaw, dispRawF, dispMapItems_items hi (f := f) (by omega), bind, Except.bind, pure,
        Except.pure, Tree.disp, Tree.showsPre, showsPre, ids_isEmpty]
    | false =>
      simp [Tree.raw, collRaw, dispRawF, dispSeqItems_items hi (f := f) (by omega), bind, Except.bind, pure,
        Except.pure, Tree.disp, Tree.showsPre, showsPre, ids_isEmpty]
theorem dispMapItems_items {d : Data} : ∀ {is : Items Nat} {c : Nat} {k : CollKind} {f : Nat},
    RepItems d c true is → is.depth ≤ f + 1 → dispMapItems (dispRawF f) d k is.ids = .ok (is.disp true k)
  | .nil, _, _, _, _, _ => rfl
  | .cons i p key v rest, c, k, f, h, hf => by
    simp only [Items.depth] at hf
    obtain ⟨h1, h2, h3⟩ := h.cons
    have hv := fun pre => dispRawF_tree pre h2 (f := f) (by omega)
    have hr := dispMapItems_items h3 (k := k) (f := f) (by omega)
    have hh := h2.head
    simp [Items.ids, dispMapItems, pre_of h1, mappingItem_of h1, pre_of hh, raw_of hh, hv, hr, bind, Except.bind,
      pure, Except.pure, Items.disp, ids_isEmpty, dispPre]
theorem dispSeqItems_items {d : Data} : ∀ {is : Items Nat} {c : Nat} {k : CollKind} {f : Nat},
    RepItems d c false is → is.depth ≤ f + 1 → dispSeqItems (dispRawF f) d k is.ids = .ok (is.disp false k)
  | .nil, _, _, _, _, _ => rfl
  | .cons i p key v rest, c, k, f, h, hf => by
    simp only [Items.depth] at hf
    obtain ⟨h1, h2, h3⟩ := h.cons
    have hv := fun pre => dispRawF_tree pre h2 (f := f) (by omega)
    have hr := dispSeqItems_items h3 (k := k) (f := f) (by omega)
    have hh := h2.head
    simp [Items.ids, dispSeqItems, pre_of h1, sequenceItem_of h1, pre_of hh, raw_of hh, hv, hr, bind, Except.bind,
      pure, Except.pure, Items.disp, ids_isEmpty, dispPre]
end

end Verif
