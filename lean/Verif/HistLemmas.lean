import Verif.History
import Verif.EditLemmas
/-
Reachable documents hold a tree; live values are its subtrees.
-/
namespace Verif
set_option linter.unusedSimpArgs false

theorem Parsed.holds {inp : Bytes} {doc : Document} (h : Parsed inp doc) : ∃ t, Holds doc t := by
  obtain ⟨f, hf⟩ := h
  rw [parseF_refine] at hf
  split at hf
  · cases hf
  · next t s _ => cases hf; exact ⟨_, docOf_holds t s⟩

/-! ### Reading collections -/

theorem mapM_seq {d : Data} : ∀ {is : Items Nat} {c : Nat}, RepItems d c false is →
    is.ids.mapM d.sequenceItem = .ok (is.pairs.map (·.2.id))
  | .nil, _, _ => rfl
  | .cons i p key v rest, c, h => by
    obtain ⟨h1, _, h3⟩ := h.cons
    simp [Items.ids, Items.pairs, List.mapM_cons, sequenceItem_of h1, mapM_seq h3, bind, Except.bind, pure, Except.pure]

theorem mapM_map {d : Data} : ∀ {is : Items Nat} {c : Nat}, RepItems d c true is →
    is.ids.mapM (mapItemOf d) = .ok (is.pairs.map fun q => (q.1.id, q.2.id))
  | .nil, _, _ => rfl
  | .cons i p key v rest, c, h => by
    obtain ⟨h1, _, h3⟩ := h.cons
    simp [Items.ids, Items.pairs, List.mapM_cons, mapItemOf, mappingItem_of h1, mapM_map h3, bind, Except.bind, pure,
      Except.pure]

theorem seqValues_node {d : Data} {par x p ind k items} (h : Rep d par (.node x p false ind k items)) :
    seqValues d x = .ok (items.pairs.map (·.2.id)) := by
  simp [seqValues, seqIter, sequence_of h.node.1, bind, Except.bind, pure, Except.pure, mapM_seq h.node.2]

theorem mapEntries_node {d : Data} {par x p ind k items} (h : Rep d par (.node x p true ind k items)) :
    mapEntries d x = .ok (items.pairs.map fun q => (q.1.id, q.2.id)) := by
  simp [mapEntries, mapIter, mapping_of h.node.1, bind, Except.bind, pure, Except.pure, mapM_map h.node.2]

theorem asSequence_of {d : Data} {par} {u : Tree Nat} (h : Rep d par u) :
    asSequence d u.id = .ok (match u with | .node i _ false _ _ _ => some i | _ => none) := by
  have hh := h.head
  cases u with
  | leaf i p s => cases s <;> simp only [asSequence, raw_of hh, bind, Except.bind, pure, Except.pure, Tree.raw, Scalar.toRaw]
  | node i p m ind k items =>
    cases m <;> simp only [asSequence, raw_of hh, bind, Except.bind, pure, Except.pure, Tree.raw, collRaw] <;> rfl

theorem asMapping_of {d : Data} {par} {u : Tree Nat} (h : Rep d par u) :
    asMapping d u.id = .ok (match u with | .node i _ true _ _ _ => some i | _ => none) := by
  have hh := h.head
  cases u with
  | leaf i p s => cases s <;> simp only [asMapping, raw_of hh, bind, Except.bind, pure, Except.pure, Tree.raw, Scalar.toRaw]
  | node i p m ind k items =>
    cases m <;> simp only [asMapping, raw_of hh, bind, Except.bind, pure, Except.pure, Tree.raw, collRaw] <;> rfl

theorem child_iff {d : Data} {par} {u : Tree Nat} (h : Rep d par u) (v : Nat) :
    Child d u.id v ↔ ∃ i p m ind k items, u = .node i p m ind k items ∧
      ∃ (n : Nat) (key : RStr) (w : Tree Nat), items.pairs[n]? = some (key, w) ∧ w.id = v := by
  unfold Child
  rw [asSequence_of h, asMapping_of h]
  cases u with
  | leaf i p s => simp
  | node i p m ind k items =>
    have key : (∃ (n : Nat) (key : RStr) (w : Tree Nat), items.pairs[n]? = some (key, w) ∧ w.id = v) ↔
        ∃ q, q ∈ items.pairs ∧ q.2.id = v := by
      constructor
      · rintro ⟨n, key, w, h1, h2⟩
        exact ⟨(key, w), List.mem_of_getElem? h1, h2⟩
      · rintro ⟨⟨key, w⟩, h1, h2⟩
        obtain ⟨n, hn⟩ := List.getElem?_of_mem h1
        exact ⟨n, key, w, hn, h2⟩
    cases m
    · simp only [Tree.id_node, seqValues_node h]
      constructor
      · rintro (⟨l, _, h1, h2⟩ | ⟨l, _, h1, _⟩)
        · cases h1
          obtain ⟨q, hq, hv⟩ := List.mem_map.1 h2
          exact ⟨_, _, _, _, _, _, rfl, key.2 ⟨q, hq, hv⟩⟩
        · simp at h1
      · rintro ⟨_, _, _, _, _, _, he, h1⟩
        cases he
        obtain ⟨q, hq, hv⟩ := key.1 h1
        exact .inl ⟨_, trivial, rfl, List.mem_map.2 ⟨q, hq, hv⟩⟩
    · simp only [Tree.id_node, mapEntries_node h]
      constructor
      · rintro (⟨l, h1, _⟩ | ⟨l, k, _, h1, h2⟩)
        · simp at h1
        · cases h1
          obtain ⟨q, hq, hv⟩ := List.mem_map.1 h2
          exact ⟨_, _, _, _, _, _, rfl, key.2 ⟨q, hq, by simpa using congrArg Prod.snd hv⟩⟩
      · rintro ⟨_, _, _, _, _, _, he, h1⟩
        cases he
        obtain ⟨q, hq, hv⟩ := key.1 h1
        exact .inr ⟨_, q.1.id, trivial, rfl, List.mem_map.2 ⟨q, hq, by simp [hv]⟩⟩

theorem Below.trans {d : Data} {x y z : Nat} (h : Below d x y) (h' : Below d y z) : Below d x z := by
  induction h' with
  | self => exact h
  | step _ hc ih => exact .step ih hc

mutual
theorem Tree.below_of_find {d : Data} {v : Nat} {w : Tree Nat} : ∀ {u : Tree Nat} {par}, Rep d par u →
    u.find v = some w → Below d u.id v
  | .leaf i p s, par, _, h => by
    simp only [Tree.find] at h
    split at h
    · next hi => subst hi; exact .self
    · cases h
  | .node i p m ind k items, par, hr, h => by
    simp only [Tree.find] at h
    split at h
    · next hi => subst hi; exact .self
    · obtain ⟨n, key, c, h1, h2⟩ := Items.below_of_find hr.node.2 h
      exact Below.trans (.step .self ((child_iff hr c.id).2 ⟨_, _, _, _, _, _, rfl, n, key, c, h1, rfl⟩)) h2
theorem Items.below_of_find {d : Data} {v : Nat} {w : Tree Nat} : ∀ {is : Items Nat} {c m}, RepItems d c m is →
    is.find v = some w → ∃ (n : Nat) (key : RStr) (c : Tree Nat), is.pairs[n]? = some (key, c) ∧ Below d c.id v
  | .nil, _, _, _, h => by simp [Items.find] at h
  | .cons i p key u rest, c, m, hr, h => by
    obtain ⟨_, h2, h3⟩ := hr.cons
    simp only [Items.find, Option.or_eq_some_iff] at h
    rcases h with h | ⟨_, h⟩
    · exact ⟨0, key, u, rfl, Tree.below_of_find h2 h⟩
    · obtain ⟨n, key', c', h4, h5⟩ := Items.below_of_find h3 h
      exact ⟨n + 1, key', c', by simpa [Items.pairs] using h4, h5⟩
end

theorem Holds.below_iff {doc : Document} {t u : Tree Nat} {x : Nat} (h : Holds doc t) (hf : t.find x = some u) (v : Nat) :
    Below doc.data x v ↔ ∃ w, u.find v = some w := by
  obtain ⟨p, ha⟩ := h.at hf
  have hid := ha.id
  constructor
  · intro hb
    induction hb with
    | self => exact ⟨u, by rw [← hid]; exact u.find_self⟩
    | @step v w _ hc ih =>
      obtain ⟨y, hy⟩ := ih
      obtain ⟨q, hq⟩ := h.at (Tree.find_trans h.nodup hf hy)
      have hc' := (child_iff hq.rep w).1 (by rw [hq.id]; exact hc)
      obtain ⟨_, _, _, _, _, _, rfl, n, key, c, h1, rfl⟩ := hc'
      exact ⟨c, Tree.find_trans ha.nodup hy (Tree.find_pair hq.nodup h1)⟩
  · rintro ⟨w, hw⟩
    rw [← hid]
    exact Tree.below_of_find ha.rep hw

theorem Holds.live_iff {doc : Document} {t : Tree Nat} (h : Holds doc t) (v : Nat) :
    Live doc v ↔ ∃ w, t.find v = some w := by
  have := h.below_iff (x := doc.root) (u := t) (by rw [h.root]; exact t.find_self) v
  exact this

/-! ### Parents -/

/-- The container of a value other than the root. -/
theorem Holds.parent {doc : Document} {t w : Tree Nat} {x : Nat} (h : Holds doc t) (hf : t.find x = some w) :
    (x = t.id ∧ doc.data.slab.get x = some ⟨w.raw, w.pre, none⟩) ∨ ∃ (c : Nat) (cpre : Bytes) (m : Bool) (ind : Nat) (k : CollKind) (items : Items Nat) (i : Nat) (ip : Bytes)
      (key : RStr) (n : Nat) (q : Option Nat),
      t.find c = some (.node c cpre m ind k items) ∧ items.ids[n]? = some i ∧ items.pairs[n]? = some (key, w) ∧
      doc.data.slab.get c = some ⟨collRaw m ⟨ind, k, items.ids⟩, cpre, q⟩ ∧
      doc.data.slab.get i = some ⟨itemRaw m key x, ip, some c⟩ ∧
      doc.data.slab.get x = some ⟨w.raw, w.pre, some i⟩ := by
  have hl : Below doc.data doc.root x := (h.live_iff x).2 ⟨w, hf⟩
  cases hl with
  | self =>
    left
    rw [h.root, t.find_self] at hf
    cases hf
    exact ⟨h.root, by rw [h.root]; exact h.rep.head⟩
  | @step v _ hb hc =>
    right
    obtain ⟨u, hu⟩ := (h.live_iff v).1 hb
    obtain ⟨p, ha⟩ := h.at hu
    obtain ⟨c, cp, m, ind, k, items, rfl, n, key, w', h1, rfl⟩ := (child_iff ha.rep x).1 (by rw [ha.id]; exact hc)
    have hv : c = v := ha.id
    subst hv
    have hww : w' = w := by
      have := Tree.find_trans h.nodup hu (Tree.find_pair ha.nodup h1)
      rw [hf] at this; exact (Option.some.inj this).symm
    subst hww
    have hn : n < items.ids.length := by
      rw [← Items.length_pairs]; exact (List.getElem?_eq_some_iff.1 h1).1
    obtain ⟨ip, key', w'', h2, h3, h4⟩ := ha.rep.node.2.get (List.getElem?_eq_getElem hn)
    rw [h1] at h2
    cases h2
    exact ⟨c, cp, m, ind, k, items, _, ip, key, n, p, hu, List.getElem?_eq_getElem hn, h1, ha.get, h3, h4.head⟩

end Verif
