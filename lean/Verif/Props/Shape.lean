import Verif.Props.Samples
/-
C08, C09: parsed documents are well-formed trees and stay so under edits.
C22, C23, C24: ids.  C31: kinds.
-/
namespace Verif

/-- A well-formed document, in terms of what the API shows. -/
structure WellFormed (doc : Document) : Prop where
  /-- Every value can be inspected, and is of one of the six kinds. -/
  kinds : ∀ x, Live doc x → ∃ a, asAny doc.data x = .ok a ∧ a ≠ .raw x
  /-- Iterating over a mapping never panics and visits each value once. -/
  mappings : ∀ x, Live doc x → asMapping doc.data x = .ok (some x) →
    ∃ l, mapEntries doc.data x = .ok l ∧ (l.map (·.2)).Nodup
  /-- Iterating over a sequence never panics and visits each value once. -/
  sequences : ∀ x, Live doc x → asSequence doc.data x = .ok (some x) →
    ∃ l, seqValues doc.data x = .ok l ∧ l.Nodup
  /-- The root is in no container. -/
  top : ∀ x, Live doc x → ¬ Child doc.data x doc.root
  /-- A value is in at most one container. -/
  parent : ∀ x y v, Live doc x → Live doc y → Child doc.data x v → Child doc.data y v → x = y
  /-- No value contains itself, directly or further down. -/
  acyclic : ∀ x y, Live doc x → Child doc.data x y → ¬ Below doc.data y x
  /-- There are finitely many values. -/
  finite : ∃ l : List Nat, ∀ x, Live doc x → x ∈ l
  /-- The document can be written and displayed. -/
  writes : ∃ out, doc.write = .ok out
  displays : ∃ out, doc.display = .ok out

theorem Holds.child_parent {doc : Document} {t : Tree Nat} (h : Holds doc t) {x v : Nat} (hx : Live doc x)
    (hc : Child doc.data x v) : ∃ (u : Tree Nat) (m : Bool) (ind : Nat) (k : CollKind)
      (items : Items Nat) (p : Bytes) (n i : Nat) (key : RStr) (ip : Bytes) (w : Tree Nat), t.find x = some u ∧
      u = .node x p m ind k items ∧ items.ids[n]? = some i ∧ items.pairs[n]? = some (key, w) ∧ w.id = v ∧
      doc.data.slab.get i = some ⟨itemRaw m key v, ip, some x⟩ ∧
      doc.data.slab.get v = some ⟨w.raw, w.pre, some i⟩ := by
  obtain ⟨u, hu⟩ := (h.live_iff x).1 hx
  obtain ⟨p, ha⟩ := h.at hu
  obtain ⟨c, cp, m, ind, k, items, rfl, n, key, w, h1, rfl⟩ := (child_iff ha.rep v).1 (by rw [ha.id]; exact hc)
  have hv : c = x := ha.id
  subst hv
  have hn : n < items.ids.length := by rw [← Items.length_pairs]; exact (List.getElem?_eq_some_iff.1 h1).1
  obtain ⟨ip, key', w'', h2, h3, h4⟩ := ha.rep.node.2.get (List.getElem?_eq_getElem hn)
  rw [h1] at h2
  cases h2
  exact ⟨_, m, ind, k, items, cp, n, _, key, ip, w, hu, rfl, List.getElem?_eq_getElem hn, h1, rfl, h3, h4.head⟩

theorem Items.values_nodup (c : Nat) (m : Bool) : ∀ {is : Items Nat}, ((is.entries c m).map (·.1)).Nodup →
    (is.pairs.map (·.2.id)).Nodup ∧ ∀ i ∈ is.pairs.map (·.2.id), i ∈ (is.entries c m).map (·.1)
  | .nil, _ => by simp [Items.pairs]
  | .cons i p key v rest, h => by
    simp only [Items.entries, List.map_cons, List.map_append, List.nodup_cons, List.nodup_append, List.mem_append,
      not_or, Tree.allIds_eq] at h
    obtain ⟨h1, h2⟩ := Items.values_nodup c m h.2.2.1
    have hv : v.id ∈ v.allIds := by rw [Tree.allIds_eq_cons]; simp
    refine ⟨?_, ?_⟩
    · simp only [Items.pairs, List.map_cons, List.nodup_cons]
      exact ⟨fun hc => h.2.2.2 v.id hv v.id (h2 v.id hc) rfl, h1⟩
    · intro j hj
      simp only [Items.pairs, List.map_cons, List.mem_cons] at hj
      simp only [Items.entries, List.map_cons, List.map_append, List.mem_cons, List.mem_append, Tree.allIds_eq]
      rcases hj with rfl | hj
      · exact .inr (.inl hv)
      · exact .inr (.inr (h2 j hj))

theorem At.values_nodup {doc : Document} {x p m ind k items q} (ha : At doc x (.node x p m ind k items) q) :
    (items.pairs.map (·.2.id)).Nodup := by
  have hnd := ha.nodup
  simp only [Tree.allIds_node, List.nodup_cons] at hnd
  exact (Items.values_nodup x m hnd.2).1

theorem asAny_of {d : Data} {par} {u : Tree Nat} (h : Rep d par u) : asAny d u.id = .ok (match u with
    | .leaf _ _ (.null _) => .null
    | .leaf _ _ (.bool b _) => .bool b
    | .leaf _ _ (.number s _) => .number s
    | .leaf _ _ (.string s) => .string s.id
    | .node i _ true _ _ _ => .mapping i
    | .node i _ false _ _ _ => .sequence i) := by
  have hh := h.head
  cases u with
  | leaf i p s => cases s <;> simp only [asAny, raw_of hh, bind, Except.bind, pure, Except.pure, Tree.raw, Scalar.toRaw]
  | node i p m ind k items =>
    cases m <;> simp only [asAny, raw_of hh, bind, Except.bind, pure, Except.pure, Tree.raw, collRaw] <;> rfl

theorem Holds.wellFormed {doc : Document} {t : Tree Nat} (h : Holds doc t) : WellFormed doc where
  kinds x hx := by
    obtain ⟨u, hu⟩ := (h.live_iff x).1 hx
    obtain ⟨p, ha⟩ := h.at hu
    have := asAny_of ha.rep
    rw [ha.id] at this
    refine ⟨_, this, ?_⟩
    cases u with
    | leaf i p s => cases s <;> simp
    | node i p m ind k items => cases m <;> simp
  mappings x hx hm := by
    obtain ⟨u, hu⟩ := (h.live_iff x).1 hx
    obtain ⟨p, ha⟩ := h.at hu
    have := asMapping_of ha.rep
    rw [ha.id, hm] at this
    cases u with
    | leaf => simp at this
    | node i p m ind k items =>
      cases m
      · simp at this
      · simp at this
        subst this
        refine ⟨_, mapEntries_node ha.rep, ?_⟩
        rw [List.map_map]; exact ha.values_nodup
  sequences x hx hm := by
    obtain ⟨u, hu⟩ := (h.live_iff x).1 hx
    obtain ⟨p, ha⟩ := h.at hu
    have := asSequence_of ha.rep
    rw [ha.id, hm] at this
    cases u with
    | leaf => simp at this
    | node i p m ind k items =>
      cases m
      · simp at this
        subst this
        exact ⟨_, seqValues_node ha.rep, ha.values_nodup⟩
      · simp at this
  top x hx hc := by
    obtain ⟨u, m, ind, k, items, p, n, i, key, ip, w, _, _, _, _, _, _, h1⟩ := h.child_parent hx hc
    have := h.rep.head
    rw [← h.root, h1] at this
    simp at this
  parent x y v hx hy h1 h2 := by
    obtain ⟨_, m, ind, k, items, p, n, i, key, ip, w, _, _, _, _, _, a1, b1⟩ := h.child_parent hx h1
    obtain ⟨_, m', ind', k', items', p', n', i', key', ip', w', _, _, _, _, _, a2, b2⟩ := h.child_parent hy h2
    rw [b1] at b2
    simp only [Option.some.injEq, Entry.mk.injEq] at b2
    obtain ⟨_, _, rfl⟩ := b2
    rw [a1] at a2
    simp only [Option.some.injEq, Entry.mk.injEq] at a2
    exact a2.2.2
  acyclic x y hx h1 h2 := by
    obtain ⟨_, m, ind, k, items, p, n, i, key, ip, w, hu, rfl, _, hn, rfl, _, _⟩ := h.child_parent hx h1
    obtain ⟨_, ha⟩ := h.at hu
    have hw := Tree.find_pair ha.nodup hn
    have hw' := Tree.find_trans h.nodup hu hw
    obtain ⟨z, hz⟩ := (h.below_iff hw' x).1 h2
    have hz' := Tree.find_trans h.nodup hw' hz
    rw [hu] at hz'
    cases hz'
    have hnd := ha.nodup
    simp only [Tree.allIds_node, List.nodup_cons] at hnd
    have h3 := Items.find_size (Items.find_pair x m hnd.2 hn)
    rcases Tree.find_size hz with h4 | h4
    · rw [← h4] at h3; simp only [Tree.size] at h3; omega
    · simp only [Tree.size] at h4; omega
  finite := ⟨t.allIds, fun x hx => by
    obtain ⟨u, hu⟩ := (h.live_iff x).1 hx
    exact Tree.find_mem hu⟩
  writes := ⟨_, h.write⟩
  displays := ⟨_, h.display⟩

/-- C08: the values of a parsed document form a finite tree that can be walked without a
panic. -/
theorem C08_parsed_wellFormed {inp : Bytes} {doc : Document} (h : Parsed inp doc) : WellFormed doc := by
  obtain ⟨t, ht⟩ := h.holds
  exact ht.wellFormed

example : WellFormed sample := C08_parsed_wellFormed sample_parsed

/-- C09: after any history of edits of live values, an edit of a live value succeeds (no panic)
and the document is well formed before and after it. -/
theorem C09_edits_never_panic {doc : Document} (h : Reachable doc) {x : Nat} (hx : Live doc x) (op : Op) :
    WellFormed doc ∧ ∃ doc', doc.edit x op = .ok doc' ∧ WellFormed doc' := by
  obtain ⟨t, ht⟩ := h.holds
  obtain ⟨u, hu⟩ := (ht.live_iff x).1 hx
  obtain ⟨doc', u', h1, _, _, _, h2⟩ := ht.edit hu op
  exact ⟨ht.wellFormed, doc', h1, h2.wellFormed⟩

example : ∃ doc', sample.edit 8 (.insert (b! "new") (.block [b! "l1", b! "l2"] (.literal .keep))) = .ok doc' ∧
    WellFormed doc' := (C09_edits_never_panic sample_reachable sample_live_inner _).2

/-! ### C31 -/

/-- C31: a live value is of exactly one kind, `as_any` is never `Raw`, and the typed accessors
agree with it. -/
theorem C31_one_kind {doc : Document} (h : Reachable doc) {x : Nat} (hx : Live doc x) :
    ∃ a, asAny doc.data x = .ok a ∧ a ≠ .raw x ∧
      asBool doc.data x = .ok (match a with | .bool b => some b | _ => none) ∧
      asNumber doc.data x = .ok (match a with | .number s => some s | _ => none) ∧
      asBstr doc.data x = .ok (match a with | .string s => some s | _ => none) ∧
      asStr doc.data x = .ok (match a with | .string s => if validUtf8 s then some s else none | _ => none) ∧
      asMapping doc.data x = .ok (match a with | .mapping i => some i | _ => none) ∧
      asSequence doc.data x = .ok (match a with | .sequence i => some i | _ => none) ∧
      (∀ i, (a = .mapping i ∨ a = .sequence i) → i = x) := by
  obtain ⟨t, ht⟩ := h.holds
  obtain ⟨u, hu⟩ := (ht.live_iff x).1 hx
  obtain ⟨p, ha⟩ := ht.at hu
  have hg := raw_of ha.get
  have hid := ha.id
  cases u with
  | leaf i p s =>
    cases s <;> simp [asAny, asBool, asNumber, asBstr, asStr, asMapping, asSequence, hg, bind, Except.bind, pure,
      Except.pure, Tree.raw, Scalar.toRaw]
  | node i p m ind k items =>
    cases m <;> simp [asAny, asBool, asNumber, asBstr, asStr, asMapping, asSequence, hg, bind, Except.bind, pure,
      Except.pure, Tree.raw, collRaw]

example : ∃ a, asAny sample.data 10 = .ok a ∧ a ≠ .raw 10 :=
  let ⟨a, h1, h2, _⟩ := C31_one_kind sample_reachable sample_live_k; ⟨a, h1, h2⟩

end Verif
