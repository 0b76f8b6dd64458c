import Verif.Props.Sets
/-
C35, C36, C43: `make_mapping`, `make_sequence` and `clear`.
-/
namespace Verif

theorem Holds.kindOf {doc : Document} {t u : Tree Nat} {x : Nat} (h : Holds doc t) (hf : t.find x = some u) :
    (∃ p s, u = .leaf x p s ∧ asMapping doc.data x = .ok none ∧ asSequence doc.data x = .ok none) ∨
    (∃ p n k is, u = .node x p true n k is ∧ asMapping doc.data x = .ok (some x) ∧ asSequence doc.data x = .ok none) ∨
    (∃ p n k is, u = .node x p false n k is ∧ asMapping doc.data x = .ok none ∧ asSequence doc.data x = .ok (some x)) := by
  obtain ⟨q, ha⟩ := h.at hf
  have hid := ha.id
  have h1 := asMapping_of ha.rep
  have h2 := asSequence_of ha.rep
  cases u with
  | leaf i p s =>
    simp only [Tree.id_leaf] at hid h1 h2; subst hid
    exact .inl ⟨p, s, rfl, h1, h2⟩
  | node i p m n k is =>
    simp only [Tree.id_node] at hid h1 h2; subst hid
    cases m with
    | true => exact .inr (.inl ⟨p, n, k, is, rfl, h1, h2⟩)
    | false => exact .inr (.inr ⟨p, n, k, is, rfl, h1, h2⟩)

theorem edit_same {doc : Document} {x : Nat} {op : Op} (h : op.run doc.data x = .ok doc.data) : doc.edit x op = .ok doc := by
  simp [Document.edit, h, bind, Except.bind, pure, Except.pure]

/-! ### C35 -/

/-- C35: `make_mapping` does nothing to a mapping, and makes anything else an empty mapping under
the same id, which a second call leaves alone. -/
theorem C35_make_mapping {doc : Document} (h : Reachable doc) {x : Nat} (hx : Live doc x) :
    (asMapping doc.data x = .ok (some x) → doc.edit x .makeMapping = .ok doc) ∧
    (asMapping doc.data x = .ok none → ∃ doc', doc.edit x .makeMapping = .ok doc' ∧ Live doc' x ∧
      asMapping doc'.data x = .ok (some x) ∧ mapEntries doc'.data x = .ok [] ∧
      doc'.edit x .makeMapping = .ok doc') := by
  have idem : ∀ {doc : Document}, asMapping doc.data x = .ok (some x) → doc.edit x .makeMapping = .ok doc := by
    intro doc hm
    apply edit_same
    simp only [asMapping, bind, Except.bind, pure, Except.pure] at hm
    simp only [Op.run, Verif.makeMapping, bind, Except.bind, pure, Except.pure]
    cases hr : doc.data.raw x with
    | error e => simp [hr] at hm
    | ok r => rw [hr] at hm; cases r <;> simp at hm ⊢
  refine ⟨idem, fun hm => ?_⟩
  obtain ⟨t, ht⟩ := h.holds
  obtain ⟨u, hu⟩ := (ht.live_iff x).1 hx
  obtain ⟨d', i, v, mk, h1, _, _, h4⟩ := ht.editTree hu .makeMapping
  refine ⟨⟨doc.suffix, doc.root, d'⟩, by simp [Document.edit, h1, bind, Except.bind, pure, Except.pure], ?_⟩
  have hk : Op.makeMapping.tree i v mk u = .node x mk.2 true mk.1 .block .nil := by
    rcases ht.kindOf hu with ⟨p, s, rfl, _⟩ | ⟨p, n, k, is, rfl, h', _⟩ | ⟨p, n, k, is, rfl, _⟩
    · rfl
    · rw [hm] at h'; cases h'
    · rfl
  rw [hk] at h4
  have hf := Tree.find_upd (u' := .node x mk.2 true mk.1 .block .nil) hu rfl
  obtain ⟨p, ha⟩ := h4.at hf
  have ham := asMapping_of ha.rep
  exact ⟨(h4.live_iff x).2 ⟨_, hf⟩, ham, mapEntries_node ha.rep, idem ham⟩

/-- C35 for `make_sequence`. -/
theorem C35_make_sequence {doc : Document} (h : Reachable doc) {x : Nat} (hx : Live doc x) :
    (asSequence doc.data x = .ok (some x) → doc.edit x .makeSequence = .ok doc) ∧
    (asSequence doc.data x = .ok none → ∃ doc', doc.edit x .makeSequence = .ok doc' ∧ Live doc' x ∧
      asSequence doc'.data x = .ok (some x) ∧ seqValues doc'.data x = .ok [] ∧
      doc'.edit x .makeSequence = .ok doc') := by
  have idem : ∀ {doc : Document}, asSequence doc.data x = .ok (some x) → doc.edit x .makeSequence = .ok doc := by
    intro doc hm
    apply edit_same
    simp only [asSequence, bind, Except.bind, pure, Except.pure] at hm
    simp only [Op.run, Verif.makeSequence, bind, Except.bind, pure, Except.pure]
    cases hr : doc.data.raw x with
    | error e => simp [hr] at hm
    | ok r => rw [hr] at hm; cases r <;> simp at hm ⊢
  refine ⟨idem, fun hm => ?_⟩
  obtain ⟨t, ht⟩ := h.holds
  obtain ⟨u, hu⟩ := (ht.live_iff x).1 hx
  obtain ⟨d', i, v, mk, h1, _, _, h4⟩ := ht.editTree hu .makeSequence
  refine ⟨⟨doc.suffix, doc.root, d'⟩, by simp [Document.edit, h1, bind, Except.bind, pure, Except.pure], ?_⟩
  have hk : Op.makeSequence.tree i v mk u = .node x mk.2 false mk.1 .block .nil := by
    rcases ht.kindOf hu with ⟨p, s, rfl, _⟩ | ⟨p, n, k, is, rfl, _⟩ | ⟨p, n, k, is, rfl, _, h'⟩
    · rfl
    · rfl
    · rw [hm] at h'; cases h'
  rw [hk] at h4
  have hf := Tree.find_upd (u' := .node x mk.2 false mk.1 .block .nil) hu rfl
  obtain ⟨p, ha⟩ := h4.at hf
  have ham := asSequence_of ha.rep
  exact ⟨(h4.live_iff x).2 ⟨_, hf⟩, ham, seqValues_node ha.rep, idem ham⟩

example : sample.edit 8 .makeMapping = .ok sample := (C35_make_mapping sample_reachable sample_live_inner).1 (by decide)
example : ∃ doc', sample.edit 4 .makeMapping = .ok doc' ∧ Live doc' 4 ∧ asMapping doc'.data 4 = .ok (some 4) ∧
    mapEntries doc'.data 4 = .ok [] ∧ doc'.edit 4 .makeMapping = .ok doc' :=
  (C35_make_mapping sample_reachable sample_live_list).2 (by decide)
example : sample.edit 14 .makeSequence = .ok sample := (C35_make_sequence sample_reachable sample_live_b).1 (by decide)
example : ∃ doc', sample.edit 2 .makeSequence = .ok doc' ∧ Live doc' 2 ∧ asSequence doc'.data 2 = .ok (some 2) ∧
    seqValues doc'.data 2 = .ok [] ∧ doc'.edit 2 .makeSequence = .ok doc' :=
  (C35_make_sequence sample_reachable sample_live_a).2 (by decide)

/-! ### C36 -/

/-- `n` columns that continue the last line of `cpre`, and spaces where that is too short. -/
def Padding (cpre : Bytes) (n : Nat) (pad : Bytes) : Prop :=
  ∃ line, IsLastLine cpre line ∧ pad = ((chars line).take n).flatten ++ List.replicate (n - (chars line).length) SP

theorem chars_spaces : ∀ m, chars (List.replicate m SP) = List.replicate m [SP]
  | 0 => rfl
  | m + 1 => by
    have := chars_spaces m
    simp only [chars] at this
    simp only [chars, List.replicate_succ]
    rw [← this]
    rfl

/-- After a line of spaces only, the padding is `n` spaces. -/
theorem Padding.spaces {cpre : Bytes} {n m : Nat} {pad : Bytes} (h : Padding cpre n pad)
    (hs : IsLastLine cpre (List.replicate m SP)) : pad = List.replicate n SP := by
  obtain ⟨line, hl, rfl⟩ := h
  have : line = List.replicate m SP := by
    have key : ∀ {a b : Bytes}, NL ∉ a → NL ∉ b → ∀ {x y : Bytes}, x ++ [NL] ++ a = y ++ [NL] ++ b → a = b := by
      intro a b ha hb x y he
      simp only [List.append_assoc, List.singleton_append] at he
      rw [List.append_eq_append_iff] at he
      rcases he with ⟨z, h1, h2⟩ | ⟨z, h1, h2⟩
      · cases z with
        | nil => simp at h2; exact h2
        | cons c z =>
          simp only [List.cons_append, List.cons.injEq] at h2
          exact absurd (by rw [h2.2]; simp) ha
      · cases z with
        | nil => simp at h2; exact h2.symm
        | cons c z =>
          simp only [List.cons_append, List.cons.injEq] at h2
          exact absurd (by rw [h2.2]; simp) hb
    obtain ⟨n1, h1⟩ := hl
    obtain ⟨n2, h2⟩ := hs
    rcases h1 with h1 | ⟨x, h1⟩ <;> rcases h2 with h2 | ⟨y, h2⟩
    · rw [← h1, ← h2]
    · exact absurd (by rw [← h1, h2]; simp) n1
    · exact absurd (by rw [← h2, h1]; simp) n2
    · exact key n1 n2 (h1.symm.trans h2)
  subst this
  rw [chars_spaces]
  simp only [List.take_replicate, List.length_replicate, List.flatten_replicate_singleton, List.replicate_append_replicate]
  congr 1
  omega

/-- C36: a collection made from a value inside a mapping or an inline sequence starts on a line of
its own, indented two columns deeper than the collection around it; made from an item of a block
sequence it starts on the line of the item, two columns deeper than the dash.  The rest of the
output is not touched. -/
theorem C36_make_indent {doc doc' : Document} (h : Reachable doc) {c x : Nat} (hc : Live doc c) (hcx : Child doc.data c x)
    {op : Op} (hop : op = .makeMapping ∧ asMapping doc.data x = .ok none ∨
      op = .makeSequence ∧ asSequence doc.data x = .ok none) (he : doc.edit x op = .ok doc') :
    ∃ pad n, (if op = .makeMapping then doc'.data.mapping x else doc'.data.sequence x) = .ok ⟨n, .block, []⟩ ∧
      (∃ a old oldPre b, valueText doc.data x = .ok old ∧ doc.data.pre x = .ok oldPre ∧
        doc.write = .ok (a ++ (oldPre ++ old) ++ b) ∧ doc'.write = .ok (a ++ pad ++ b)) ∧
      (∀ C, doc.data.mapping c = .ok C ∨ (doc.data.sequence c = .ok C ∧ C.kind ≠ .block) → n = C.indent + 2 ∧
        ∃ cpre text, doc.data.pre c = .ok cpre ∧ Padding cpre n text ∧ pad = [NL] ++ text) ∧
      (∀ C, doc.data.sequence c = .ok C → C.kind = .block → pad = [SP] ∧
        ∃ i ipre line, i ∈ C.items ∧ doc.data.sequenceItem i = .ok x ∧ doc.data.pre i = .ok ipre ∧
          IsLastLine ipre line ∧ n = (chars line).length + 2) := by
  obtain ⟨t, ht⟩ := h.holds
  have hx : Live doc x := .step hc hcx
  obtain ⟨u, hu⟩ := (ht.live_iff x).1 hx
  obtain ⟨q, hq⟩ := ht.at hu
  obtain ⟨i, v, mk, _, hmk, hsuf, _, h4⟩ := ht.editDoc hu he
  obtain ⟨a, b, hw, hw'⟩ := ht.context hu
  -- the new tree
  have hk : op.tree i v mk u = .node x mk.2 (decide (op = .makeMapping)) mk.1 .block .nil := by
    rcases hop with ⟨rfl, hm⟩ | ⟨rfl, hm⟩
    · rcases ht.kindOf hu with ⟨p, s, rfl, _⟩ | ⟨p, n, k, is, rfl, h', _⟩ | ⟨p, n, k, is, rfl, _⟩
      · rfl
      · rw [hm] at h'; cases h'
      · rfl
    · rcases ht.kindOf hu with ⟨p, s, rfl, _⟩ | ⟨p, n, k, is, rfl, _⟩ | ⟨p, n, k, is, rfl, _, h'⟩
      · rfl
      · rfl
      · rw [hm] at h'; cases h'
  rw [hk] at h4
  have hf := Tree.find_upd (u' := .node x mk.2 (decide (op = .makeMapping)) mk.1 .block .nil) hu rfl
  obtain ⟨p, ha⟩ := h4.at hf
  have hg := ha.get
  refine ⟨mk.2, mk.1, ?_, ⟨a, u.render, u.pre, b, hq.text, pre_of hq.get, hw, ?_⟩, ?_⟩
  · rcases hop with ⟨rfl, _⟩ | ⟨rfl, _⟩
    · simp [Data.mapping, hg, Tree.raw, collRaw, Items.ids]
    · simp [Data.sequence, hg, Tree.raw, collRaw, Items.ids]
  · have := hw' doc' _ rfl hsuf h4
    simpa [Tree.text, Tree.render, Items.render, openOf, closeOf] using this
  · -- the container
    rcases ht.parent hu with ⟨hr, hx0⟩ | ⟨c', cpre, m, ind, k, items, i', ip, key, n, q', hc', hn, hp, hgc, hgi, hgx⟩
    · exfalso
      have hwf := ht.wellFormed
      exact hwf.acyclic c x hc hcx (by rw [hr, ← ht.root]; exact hc)
    · obtain ⟨uc, huc⟩ := (ht.live_iff c).1 hc
      have hcc : c' = c := by
        have hc1 : Live doc c' := (ht.live_iff c').2 ⟨_, hc'⟩
        obtain ⟨q1, hq1⟩ := ht.at hc'
        have : Child doc.data c' x := (child_iff hq1.rep x).2 ⟨c', cpre, m, ind, k, items, rfl, n, key, u, hp, hq.id⟩
        exact ht.wellFormed.parent c' c x hc1 hc this hcx
      subst hcc
      have hmk' := hmk
      simp only [Verif.makeIndent, entry_of hgx, entry_of hgi, entry_of hgc, bind, Except.bind, pure, Except.pure] at hmk'
      have pad : Padding cpre (ind + 2) (((chars (lastLine cpre)).take (ind + 2)).flatten ++
          List.replicate (ind + 2 - (chars (lastLine cpre)).length) SP) := ⟨_, isLastLine_lastLine cpre, rfl⟩
      cases m with
      | true =>
        simp only [collRaw, if_true] at hmk'
        cases hmk'
        refine ⟨fun C hC => ?_, fun C hC => by simp [Data.sequence, hgc, collRaw] at hC⟩
        have : C = ⟨ind, k, items.ids⟩ := by
          rcases hC with hC | ⟨hC, _⟩
          · rw [mapping_of hgc] at hC; cases hC; rfl
          · simp [Data.sequence, hgc, collRaw] at hC
        subst this
        exact ⟨rfl, cpre, _, pre_of hgc, pad, rfl⟩
      | false =>
        simp only [collRaw, itemRaw, Bool.false_eq_true, if_false] at hmk'
        refine ⟨fun C hC => ?_, fun C hC hb => ?_⟩
        · rcases hC with hC | ⟨hC, hb⟩
          · simp [Data.mapping, hgc, collRaw] at hC
          · rw [sequence_of hgc] at hC; cases hC
            simp only at hb
            rw [if_neg hb] at hmk'
            cases hmk'
            exact ⟨rfl, cpre, _, pre_of hgc, pad, rfl⟩
        · rw [sequence_of hgc] at hC; cases hC
          simp only at hb
          rw [if_pos hb] at hmk'
          cases hmk'
          exact ⟨rfl, i', ip, _, List.mem_of_getElem? hn, sequenceItem_of hgi, pre_of hgi, isLastLine_lastLine ip, rfl⟩

theorem sample_child_a : Child sample.data 0 2 :=
  .inr ⟨_, b! "a", by decide, sample_entries, by decide⟩
theorem sample_child_item : Child sample.data 4 8 := .inl ⟨[6, 8], by decide, by decide, by decide⟩

example {doc'} (he : sample.edit 2 .makeMapping = .ok doc') :
    ∃ a b, sample.write = .ok (a ++ b! " 1" ++ b) ∧ doc'.write = .ok (a ++ b! "\n  " ++ b) := by
  obtain ⟨pad, n, _, ⟨a, old, oldPre, b, h1, h2, h3, h4⟩, h5, _⟩ :=
    C36_make_indent sample_reachable sample_live_root sample_child_a (.inl ⟨rfl, by decide⟩) he
  obtain ⟨rfl, cpre, text, h6, h7, rfl⟩ := h5 ⟨0, .block, [1, 3, 13]⟩ (.inl (by decide))
  cases h6
  have := h7.spaces (m := 0) ⟨by simp, .inl rfl⟩
  subst this
  cases h1; cases h2
  exact ⟨a, b, h3, h4⟩

example {doc'} (he : sample.edit 8 .makeSequence = .ok doc') :
    ∃ a old b, sample.write = .ok (a ++ old ++ b) ∧ doc'.write = .ok (a ++ b! " " ++ b) := by
  obtain ⟨pad, n, _, ⟨a, old, oldPre, b, h1, h2, h3, h4⟩, _, h5⟩ :=
    C36_make_indent sample_reachable sample_live_list sample_child_item (.inr ⟨rfl, by decide⟩) he
  obtain ⟨rfl, _⟩ := h5 ⟨2, .block, [5, 7]⟩ (by decide) rfl
  exact ⟨a, _, b, h3, h4⟩

/-! ### C43 -/

/-- What is written around the entries of a collection: nothing for a block, brackets for an inline
one, with the trailing comma and white space before the closing one. -/
def Brackets (C : Coll) (op cl : Bytes) (opening closing : Bytes) : Prop :=
  match C.kind with
  | .block => opening = [] ∧ closing = []
  | .inline trailing suffix => opening = op ∧ closing = (if trailing then b! "," else []) ++ suffix ++ cl

/-- C43: `clear` on a mapping takes the text of the entries out of the output and nothing else. -/
theorem C43_clear_mapping {doc doc' : Document} (h : Reachable doc) {x : Nat} (hx : Live doc x) {C : Coll}
    (hC : doc.data.mapping x = .ok C) (he : doc.edit x .clearMapping = .ok doc') :
    Live doc' x ∧ mapEntries doc'.data x = .ok [] ∧ doc'.data.mapping x = .ok { C with items := [] } ∧
    ∃ a entries b opening closing, Brackets C (b! "{") (b! "}") opening closing ∧
      valueText doc.data x = .ok (opening ++ entries ++ closing) ∧
      doc.write = .ok (a ++ opening ++ entries ++ closing ++ b) ∧ doc'.write = .ok (a ++ opening ++ closing ++ b) := by
  obtain ⟨t, ht⟩ := h.holds
  obtain ⟨u, hu⟩ := (ht.live_iff x).1 hx
  obtain ⟨q, hq⟩ := ht.at hu
  obtain ⟨i, v, mk, _, _, hsuf, _, h4⟩ := ht.editDoc hu he
  obtain ⟨a, b, hw, hw'⟩ := ht.context hu
  have hg := hq.get
  rcases ht.kindOf hu with ⟨p, s, rfl, h', _⟩ | ⟨p, n, k, is, rfl, _⟩ | ⟨p, n, k, is, rfl, _⟩
  · cases s <;> simp [Data.mapping, hg, Tree.raw, Scalar.toRaw] at hC
  · rw [mapping_of hg] at hC
    cases hC
    have h5 : Holds doc' (Tree.upd x (.node x p true n k .nil) t) := h4
    have hf := Tree.find_upd (u' := .node x p true n k .nil) hu rfl
    obtain ⟨q', ha⟩ := h5.at hf
    refine ⟨(h5.live_iff x).2 ⟨_, hf⟩, mapEntries_node ha.rep, mapping_of ha.get, a ++ p, is.render true k, b,
      openOf k LCB, closeOf k RCB, ?_, ?_, ?_, ?_⟩
    · cases k <;> exact ⟨rfl, rfl⟩
    · rw [hq.text]; simp [Tree.render]
    · rw [hw]; simp [Tree.text, Tree.render]
    · rw [hw' doc' (.node x p true n k .nil) rfl hsuf h5]; simp [Tree.text, Tree.render, Items.render]
  · simp [Data.mapping, hg, Tree.raw, collRaw] at hC

/-- C43 for sequences. -/
theorem C43_clear_sequence {doc doc' : Document} (h : Reachable doc) {x : Nat} (hx : Live doc x) {C : Coll}
    (hC : doc.data.sequence x = .ok C) (he : doc.edit x .clearSequence = .ok doc') :
    Live doc' x ∧ seqValues doc'.data x = .ok [] ∧ doc'.data.sequence x = .ok { C with items := [] } ∧
    ∃ a entries b opening closing, Brackets C (b! "[") (b! "]") opening closing ∧
      valueText doc.data x = .ok (opening ++ entries ++ closing) ∧
      doc.write = .ok (a ++ opening ++ entries ++ closing ++ b) ∧ doc'.write = .ok (a ++ opening ++ closing ++ b) := by
  obtain ⟨t, ht⟩ := h.holds
  obtain ⟨u, hu⟩ := (ht.live_iff x).1 hx
  obtain ⟨q, hq⟩ := ht.at hu
  obtain ⟨i, v, mk, _, _, hsuf, _, h4⟩ := ht.editDoc hu he
  obtain ⟨a, b, hw, hw'⟩ := ht.context hu
  have hg := hq.get
  rcases ht.kindOf hu with ⟨p, s, rfl, h', _⟩ | ⟨p, n, k, is, rfl, _⟩ | ⟨p, n, k, is, rfl, _⟩
  · cases s <;> simp [Data.sequence, hg, Tree.raw, Scalar.toRaw] at hC
  · simp [Data.sequence, hg, Tree.raw, collRaw] at hC
  · rw [sequence_of hg] at hC
    cases hC
    have h5 : Holds doc' (Tree.upd x (.node x p false n k .nil) t) := h4
    have hf := Tree.find_upd (u' := .node x p false n k .nil) hu rfl
    obtain ⟨q', ha⟩ := h5.at hf
    refine ⟨(h5.live_iff x).2 ⟨_, hf⟩, seqValues_node ha.rep, sequence_of ha.get, a ++ p, is.render false k, b,
      openOf k LBR, closeOf k RBR, ?_, ?_, ?_, ?_⟩
    · cases k <;> exact ⟨rfl, rfl⟩
    · rw [hq.text]; simp [Tree.render]
    · rw [hw]; simp [Tree.text, Tree.render]
    · rw [hw' doc' (.node x p false n k .nil) rfl hsuf h5]; simp [Tree.text, Tree.render, Items.render]

example {doc'} (he : sample.edit 8 .clearMapping = .ok doc') : mapEntries doc'.data 8 = .ok [] :=
  (C43_clear_mapping sample_reachable sample_live_inner (C := ⟨0, .inline false [], [9, 11]⟩) (by decide) he).2.1
example : (sample.after 8 .clearMapping).write = .ok (b! "a: 1\nlist:\n  - x # c\n  - {}\nb: [p, q]\n") := by decide
example {doc'} (he : sample.edit 4 .clearSequence = .ok doc') : seqValues doc'.data 4 = .ok [] :=
  (C43_clear_sequence sample_reachable sample_live_list (C := ⟨2, .block, [5, 7]⟩) (by decide) he).2.1

end Verif
