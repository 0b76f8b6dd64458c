import Verif.Props.Maps
/-
C18, C19, C20, C29, C30 for sequences, and the iterators.
-/
namespace Verif

/-! ### Lemmas -/

theorem Holds.asSequence_values {doc : Document} {t : Tree Nat} {x : Nat} {L : List Nat} (h : Holds doc t)
    (hx : Live doc x) (hL : seqValues doc.data x = .ok L) : asSequence doc.data x = .ok (some x) := by
  obtain ⟨pre, ind, k, items, p, _, ha, _⟩ := h.seqNode hx hL
  exact asSequence_of ha.rep

theorem edit_push {doc : Document} {x : Nat} {v : Val} {id : Nat} {d' : Data}
    (hm : asSequence doc.data x = .ok (some x)) (h : seqPushV doc.data x v = .ok (id, d')) :
    doc.edit x (.push v) = .ok { doc with data := d' } := by
  simp [Document.edit, Op.run, withSequence, hm, h, bind, Except.bind, pure, Except.pure]

theorem edit_removeAt {doc : Document} {x n : Nat} {b : Bool} {d' : Data}
    (hm : asSequence doc.data x = .ok (some x)) (h : seqRemove doc.data x n = .ok (b, d')) :
    doc.edit x (.removeAt n) = .ok { doc with data := d' } := by
  simp [Document.edit, Op.run, withSequence, hm, h, bind, Except.bind, pure, Except.pure]

theorem Items.pairs_isEmpty {α} (is : Items α) : is.pairs.isEmpty = is.ids.isEmpty := by cases is <;> rfl

theorem At.seqFirst {doc : Document} {x : Nat} {pre : Bytes} {ind : Nat} {k : CollKind} {items : Items Nat} {p : Option Nat}
    (ha : At doc x (.node x pre false ind k items) p) :
    Verif.seqFirst doc.data x = .ok ((items.pairs.map (·.2.id)).head?) := by
  have hg := ha.seqGet 0
  simp only [Verif.seqFirst, Verif.seqGet, bind, Except.bind] at hg ⊢
  rw [List.head?_eq_getElem?, List.getElem?_map, ← hg]
  split
  · rfl
  · rw [List.head?_eq_getElem?]

theorem At.seqLast {doc : Document} {x : Nat} {pre : Bytes} {ind : Nat} {k : CollKind} {items : Items Nat} {p : Option Nat}
    (ha : At doc x (.node x pre false ind k items) p) :
    Verif.seqLast doc.data x = .ok ((items.pairs.map (·.2.id)).getLast?) := by
  have hg := ha.seqGet (items.pairs.length - 1)
  have hx : doc.data.slab.get x = some ⟨collRaw false ⟨ind, k, items.ids⟩, pre, p⟩ := ha.get
  simp only [Verif.seqLast, Verif.seqGet, sequence_of hx, bind, Except.bind] at hg ⊢
  have e : (items.pairs.map (·.2.id)).getLast? = (items.pairs[items.pairs.length - 1]?).map (·.2.id) := by
    rw [List.getLast?_eq_getElem?, List.getElem?_map, List.length_map]
  rw [e, ← hg, List.getLast?_eq_getElem?, Items.length_pairs]

/-! ### C19 -/

/-- C19: what the reading methods of a sequence show is the list that iterating visits. -/
theorem C19_reads {doc : Document} (h : Reachable doc) {x : Nat} (hx : Live doc x) {L : List Nat}
    (hL : seqValues doc.data x = .ok L) :
    seqLen' doc.data x = .ok L.length ∧ seqIsEmpty doc.data x = .ok L.isEmpty ∧
    (∀ n, seqGet doc.data x n = .ok L[n]?) ∧ (∀ n, seqGetMut doc.data x n = .ok L[n]?) ∧
    seqFirst doc.data x = .ok L.head? ∧ seqLast doc.data x = .ok L.getLast? := by
  obtain ⟨t, ht⟩ := h.holds
  obtain ⟨pre, ind, k, items, p, hf, ha, rfl⟩ := ht.seqNode hx hL
  have hg : doc.data.slab.get x = some ⟨collRaw false ⟨ind, k, items.ids⟩, pre, p⟩ := ha.get
  refine ⟨?_, ?_, fun n => ?_, fun n => ?_, ha.seqFirst, ha.seqLast⟩
  · simp [seqLen', sequence_of hg, bind, Except.bind, pure, Except.pure, Items.length_pairs]
  · simp [seqIsEmpty, sequence_of hg, bind, Except.bind, pure, Except.pure, ← Items.pairs_isEmpty]
  · rw [ha.seqGet, List.getElem?_map]
  · rw [List.getElem?_map]; exact ha.seqGet n

example : seqLast sample.data 4 = .ok (some 8) :=
  (C19_reads sample_reachable sample_live_list (L := [6, 8]) (by decide)).2.2.2.2.2

/-- C19: push appends, and leaves the other values alone. -/
theorem C19_push {doc : Document} (h : Reachable doc) {x : Nat} (hx : Live doc x) {L : List Nat}
    (hL : seqValues doc.data x = .ok L) (val : Val) :
    ∃ id d', seqPushV doc.data x val = .ok (id, d') ∧ asAny d' id = .ok val.reads ∧ Live { doc with data := d' } x ∧
      seqValues d' x = .ok (L ++ [id]) ∧ ∀ e ∈ L, SameAt doc.data d' e := by
  obtain ⟨t, ht⟩ := h.holds
  have hm := ht.asSequence_values hx hL
  obtain ⟨pre, ind, k, items, p, hf, ha, hLi⟩ := ht.seqNode hx hL
  obtain ⟨i, v, d', h1, _, _, _, h2⟩ := ht.push hf val.sep (val.scalar (.node x pre false ind k items))
  have heq := seqPushV_eq ha.rep val
  simp only [Tree.id_node] at heq
  rw [← heq] at h1
  have hf' := Tree.find_upd (x := x) (u' := .node x pre false ind k (items.append (.cons i (addPre ind items) noKey
    (.leaf v (pushPre val.sep items) (val.scalar (.node x pre false ind k items))) .nil))) hf rfl
  obtain ⟨q, hq⟩ := h2.at hf'
  have hx' : Live ⟨doc.suffix, doc.root, d'⟩ x := (h2.live_iff x).2 ⟨_, hf'⟩
  have hvals : seqValues d' x = .ok (L ++ [v]) := by
    rw [seqValues_node hq.rep, Items.pairs_append, List.map_append, hLi]; rfl
  have hvg : d'.slab.get v = some ⟨(val.scalar (.node x pre false ind k items)).toRaw, pushPre val.sep items, some i⟩ := by
    refine hq.rep.node.2 v _ ?_
    rw [Items.entries_append]
    simp [Items.entries, Tree.entries]
  refine ⟨v, d', h1, Val.scalar_reads hvg, hx', hvals, fun e he => ?_⟩
  have hch : Child doc.data x e := .inl ⟨L, hm, hL, he⟩
  refine C21_same h hx (edit_push hm h1) (hx.step hch)
    (Below.step hx' (.inl ⟨_, asSequence_of hq.rep, hvals, by simp [he]⟩)) ?_
  intro ho
  exact ht.wellFormed.acyclic x e hx hch (by rw [show e = x from ho]; exact .self)

example : ∃ id d', seqPushV sample.data 14 (.str (b! "r")) = .ok (id, d') ∧ asAny d' id = .ok (.string (b! "r")) ∧
    seqValues d' 14 = .ok [16, 18, id] := by
  obtain ⟨id, d', h1, h2, _, h3, _⟩ := C19_push sample_reachable sample_live_b (L := [16, 18]) (by decide) (.str (b! "r"))
  exact ⟨id, d', h1, h2, h3⟩

/-- C19: `remove(n)` deletes index `n` and says whether there was one. -/
theorem C19_remove {doc : Document} (h : Reachable doc) {x : Nat} (hx : Live doc x) {L : List Nat}
    (hL : seqValues doc.data x = .ok L) (n : Nat) :
    ∃ d', seqRemove doc.data x n = .ok (decide (n < L.length), d') ∧ Live { doc with data := d' } x ∧
      seqValues d' x = .ok (L.eraseIdx n) ∧ ∀ e ∈ L.eraseIdx n, SameAt doc.data d' e := by
  obtain ⟨t, ht⟩ := h.holds
  have hm := ht.asSequence_values hx hL
  obtain ⟨pre, ind, k, items, p, hf, ha, hLi⟩ := ht.seqNode hx hL
  obtain ⟨d', h1, h2⟩ := ht.removeAt hf n
  have hf' := Tree.find_upd (x := x) (u' := .node x pre false ind k (items.eraseIdx n)) hf rfl
  obtain ⟨q, hq⟩ := h2.at hf'
  have hx' : Live ⟨doc.suffix, doc.root, d'⟩ x := (h2.live_iff x).2 ⟨_, hf'⟩
  have hvals : seqValues d' x = .ok (L.eraseIdx n) := by
    rw [seqValues_node hq.rep, Items.pairs_eraseIdx, map_eraseIdx, hLi]
  refine ⟨d', ?_, hx', hvals, fun e he => ?_⟩
  · rw [h1, hLi, List.length_map, Items.length_pairs]
  · have hch : Child doc.data x e := .inl ⟨L, hm, hL, List.mem_of_mem_eraseIdx he⟩
    refine C21_same h hx (edit_removeAt hm h1) (hx.step hch) (Below.step hx' (.inl ⟨_, asSequence_of hq.rep, hvals, he⟩)) ?_
    intro ho
    exact ht.wellFormed.acyclic x e hx hch (by rw [show e = x from ho]; exact .self)

example : ∃ d', seqRemove sample.data 14 0 = .ok (true, d') ∧ seqValues d' 14 = .ok [18] := by
  obtain ⟨d', h1, _, h2, _⟩ := C19_remove sample_reachable sample_live_b (L := [16, 18]) (by decide) 0
  exact ⟨d', h1, h2⟩

/-- C19: `clear` empties the list. -/
theorem C19_clear {doc : Document} (h : Reachable doc) {x : Nat} (hx : Live doc x) {L : List Nat}
    (hL : seqValues doc.data x = .ok L) : ∃ d', seqClear doc.data x = .ok d' ∧ seqValues d' x = .ok [] := by
  obtain ⟨t, ht⟩ := h.holds
  obtain ⟨pre, ind, k, items, p, hf, ha, hLi⟩ := ht.seqNode hx hL
  obtain ⟨d', h1, h2⟩ := ht.clearSeq hf
  have hf' := Tree.find_upd (x := x) (u' := .node x pre false ind k .nil) hf rfl
  obtain ⟨q, hq⟩ := h2.at hf'
  exact ⟨d', h1, seqValues_node hq.rep⟩

example : ∃ d', seqClear sample.data 4 = .ok d' ∧ seqValues d' 4 = .ok [] :=
  C19_clear sample_reachable sample_live_list (L := [6, 8]) (by decide)

/-! ### C20 -/

/-- C20: pushing adds one entry after the last one, on a line of its own unless the sequence was
empty, and changes no other byte.  Without a separator of the caller's, the white space before the
value is copied from the last value, or is a space. -/
theorem C20_push_text {doc : Document} (h : Reachable doc) {x : Nat} (hx : Live doc x) {C : Coll}
    (hC : doc.data.sequence x = .ok C) {L : List Nat} (hL : seqValues doc.data x = .ok L) :
    ∃ a entries b opening closing auto, Brackets C (b! "[") (b! "]") opening closing ∧
      valueText doc.data x = .ok (opening ++ entries ++ closing) ∧
      doc.write = .ok (a ++ opening ++ entries ++ closing ++ b) ∧
      (L = [] → auto = b! " ") ∧ (∀ w, L.getLast? = some w → doc.data.pre w = .ok auto) ∧
      ∀ val id d', seqPushV doc.data x val = .ok (id, d') →
        valueText d' id = .ok (val.newText C.indent) ∧
        Document.write { doc with data := d' } = .ok (a ++ opening ++ entries ++
          ((if C.items = [] then [] else (if C.kind = .block then [] else b! ",") ++ [NL] ++ List.replicate C.indent SP) ++
            (if C.kind = .block then b! "-" else []) ++ val.sepText auto ++ val.newText C.indent) ++ closing ++ b) := by
  obtain ⟨t, ht⟩ := h.holds
  obtain ⟨pre, n, k, items, p, hu, ha, hLi⟩ := ht.seqNode hx hL
  obtain ⟨a, b, hw, hw'⟩ := ht.context hu
  rw [sequence_of ha.get] at hC
  cases hC
  refine ⟨a ++ pre, items.render false k, b, openOf k LBR, closeOf k RBR, pushPre .auto items, ?_, ?_, ?_, ?_, ?_, ?_⟩
  · cases k <;> exact ⟨rfl, rfl⟩
  · rw [ha.text]; simp [Tree.render]
  · rw [hw]; simp [Tree.text, Tree.render]
  · intro he
    rw [hLi, List.map_eq_nil_iff] at he
    simp [pushPre, he, SP]
  · intro w hwl
    rw [hLi, List.getLast?_map] at hwl
    cases hlast : items.pairs.getLast? with
    | none => rw [hlast] at hwl; cases hwl
    | some q =>
      rw [hlast] at hwl
      cases hwl
      rw [List.getLast?_eq_getElem?] at hlast
      obtain ⟨_, hq⟩ := ht.at (Tree.find_trans ht.nodup hu (Tree.find_pair ha.nodup hlast))
      rw [← List.getLast?_eq_getElem?] at hlast
      rw [pre_of hq.get]
      simp [pushPre, hlast]
  · intro val id d' hi
    have heq := seqPushV_eq ha.rep val
    simp only [Tree.id_node] at heq
    obtain ⟨i, v, d2, h1, _, _, _, h2⟩ := ht.push hu val.sep (val.scalar (.node x pre false n k items))
    rw [← heq, hi] at h1
    cases h1
    have hf' := Tree.find_upd (x := x) (u' := .node x pre false n k (items.append (.cons i (addPre n items) noKey
      (.leaf id (pushPre val.sep items) (val.scalar (.node x pre false n k items))) .nil))) hu rfl
    obtain ⟨q, hq⟩ := h2.at hf'
    constructor
    · have hrep : Rep d' (some i) (.leaf id (pushPre val.sep items) (val.scalar (.node x pre false n k items))) := by
        intro j e hj
        refine hq.rep.node.2 j e ?_
        rw [Items.entries_append]
        simp only [Items.entries, List.append_nil, List.mem_append, List.mem_cons]
        exact .inr (.inr hj)
      have hr := hrep.text (by simp [Tree.allIds, Tree.entries])
      rw [Tree.id_leaf] at hr
      rw [hr]
      simp [Tree.render, Val.scalar_write]
    · rw [hw' ⟨doc.suffix, doc.root, d'⟩ _ rfl rfl h2]
      simp only [Tree.text, Tree.render, Tree.pre_node, Items.render_texts, Items.texts_append, Items.texts,
        joinSep_snoc, Items.texts_isEmpty, itemText, Tree.pre_leaf, Val.scalar_write]
      have e1 : pushPre val.sep items = val.sepText (pushPre .auto items) := by
        cases val with
        | null sep => cases sep <;> rfl
        | _ => rfl
      have e0 : lossy (addPre n items) = addPre n items := by
        have : ∀ c ∈ addPre n items, c < 0x80 := by
          intro c hc
          simp only [addPre, makePrefix] at hc
          split at hc
          · cases hc
          · rcases List.mem_cons.1 hc with rfl | hc
            · decide
            · rw [(List.mem_replicate.1 hc).2]; decide
        exact lossy_valid (valid_of_ascii this)
      have e2 : (if items.isNil = true then [] else sepOf k false) ++ addPre n items =
          if items.ids = [] then [] else (if k = .block then [] else b! ",") ++ [NL] ++ List.replicate n SP := by
        cases items with
        | nil => rfl
        | cons => cases k <;> simp [Items.isNil, Items.ids, addPre, makePrefix, sepOf, COMMA]
      rw [← e2, e0, e1]
      simp [DASH]

example {id : Nat} {d' : Data} (hi : seqPushV sample.data 4 (.str (b! "it's")) = .ok (id, d')) :
    ∃ a b, sample.write = .ok (a ++ b! "- x # c\n  - {k: 'v', n: ~}" ++ b) ∧
      Document.write ⟨sample.suffix, sample.root, d'⟩ = .ok (a ++ b! "- x # c\n  - {k: 'v', n: ~}\n  - \"it's\"" ++ b) := by
  obtain ⟨a, e, b, o, c, auto, ⟨rfl, rfl⟩, h2, h3, _, h5, h4⟩ := C20_push_text sample_reachable sample_live_list
    (C := ⟨2, .block, [5, 7]⟩) (by decide) (L := [6, 8]) (by decide)
  have h6 := (h4 _ _ _ hi).2
  have h7 : auto = b! " " := by
    have := h5 8 rfl
    have h8 : sample.data.pre 8 = .ok (b! " ") := by decide
    rw [h8] at this; cases this; rfl
  have he : e = b! "- x # c\n  - {k: 'v', n: ~}" := by
    have : valueText sample.data 4 = .ok (b! "- x # c\n  - {k: 'v', n: ~}") := by decide
    rw [this] at h2
    simpa using h2.symm
  subst he h7
  have hq : quoteDouble (b! "it's") = b! "\"it's\"" := by decide
  have hp : preferred (b! "it's") = .double := by decide
  refine ⟨a, b, by simpa using h3, ?_⟩
  simpa [Val.sepText, Val.newText, quoted, hq, hp, NL, SP] using h6

/-! ### C18 for sequences -/

/-- What `write_to` writes for an entry of a sequence. -/
def seqEntryText (d : Data) (block : Bool) (i : Nat) : Except Stop Bytes := do
  let v ← d.sequenceItem i
  return lossy (← d.pre i) ++ (if block then b! "-" else []) ++ (← d.pre v) ++ (← valueText d v)

/-- C18 for sequences. -/
theorem C18_removeAt_text {doc : Document} (h : Reachable doc) {x : Nat} (hx : Live doc x) {C : Coll}
    (hC : doc.data.sequence x = .ok C) {n : Nat} (hn : n < C.items.length) {d' : Data} {b : Bool}
    (hr : seqRemove doc.data x n = .ok (b, d')) :
    ∃ i entry gone before after, C.items[n]? = some i ∧ seqEntryText doc.data (C.kind == .block) i = .ok entry ∧
      Gone C n entry gone ∧
      doc.write = .ok (before ++ gone ++ after) ∧ Document.write { doc with data := d' } = .ok (before ++ after) := by
  obtain ⟨t, ht⟩ := h.holds
  obtain ⟨u, hu⟩ := (ht.live_iff x).1 hx
  obtain ⟨p, ha⟩ := ht.at hu
  obtain ⟨a, b', hw, hw'⟩ := ht.context hu
  have hg := ha.get
  rcases ht.kindOf hu with ⟨pre, s, rfl, h', _⟩ | ⟨pre, ind, k, items, rfl, _⟩ | ⟨pre, ind, k, items, rfl, _⟩
  · cases s <;> simp [Data.sequence, hg, Tree.raw, Scalar.toRaw] at hC
  · simp [Data.sequence, hg, Tree.raw, collRaw] at hC
  rw [sequence_of hg] at hC
  cases hC
  have hlt : n < items.ids.length := hn
  obtain ⟨d2, h1, h3⟩ := ht.removeAt hu n
  rw [hr] at h1
  cases h1
  obtain ⟨ip, ikey, v, e1, e2, e3, e4⟩ := ha.rep.node.2.item k (List.getElem?_eq_getElem hlt)
  have hlen := Items.texts_length false k items
  have hnodup : v.allIds.Nodup := by
    obtain ⟨_, hv⟩ := ht.at (Tree.find_trans ht.nodup hu (Tree.find_pair ha.nodup e1))
    exact hv.nodup
  have hent : seqEntryText doc.data (k == .block) items.ids[n] = .ok (itemText false k ip ikey v) := by
    simp [seqEntryText, sequenceItem_of e3, pre_of e3, pre_of e4.head, e4.text hnodup, bind, Except.bind, pure,
      Except.pure, itemText, DASH]
  have hw2 := hw' ⟨doc.suffix, doc.root, d'⟩ _ rfl rfl h3
  simp only [Tree.text, Tree.pre_node, Tree.render, Bool.false_eq_true, if_false, Items.render_texts,
    Items.texts_eraseIdx] at hw hw2
  rcases joinSep_erase (sepOf k false) _ n _ e2 with ⟨l1, l2, l3⟩ | ⟨l1, c1, c2, l2, l3⟩ | ⟨l1, l1', c1, l2, l3⟩
  · refine ⟨_, _, itemText false k ip ikey v, a ++ (pre ++ openOf k LBR), closeOf k RBR ++ b',
      List.getElem?_eq_getElem hlt, hent, ?_, ?_, ?_⟩
    · simp only [Gone]; rw [if_pos (.inr (by omega))]; trivial
    · rw [hw, l2]; simp
    · rw [hw2, l3]; simp
  · refine ⟨_, _, itemText false k ip ikey v ++ sepOf k false, a ++ (pre ++ openOf k LBR) ++ c1, c2 ++ closeOf k RBR ++ b',
      List.getElem?_eq_getElem hlt, hent, ?_, ?_, ?_⟩
    · simp only [Gone]
      cases k with
      | block => simp [sepOf]
      | inline tr suf =>
        rw [if_neg (by simp; omega), if_pos (by omega)]; rfl
    · rw [hw, l2]; simp
    · rw [hw2, l3]; simp
  · refine ⟨_, _, sepOf k false ++ itemText false k ip ikey v, a ++ (pre ++ openOf k LBR) ++ c1, closeOf k RBR ++ b',
      List.getElem?_eq_getElem hlt, hent, ?_, ?_, ?_⟩
    · simp only [Gone]
      cases k with
      | block => simp [sepOf]
      | inline tr suf =>
        rw [if_neg (by simp; omega), if_neg (by omega)]; rfl
    · rw [hw, l2]; simp
    · rw [hw2, l3]; simp

example {b : Bool} {d' : Data} (hr : seqRemove sample.data 14 1 = .ok (b, d')) :
    ∃ before after, sample.write = .ok (before ++ b! ", q" ++ after) ∧
      Document.write ⟨sample.suffix, sample.root, d'⟩ = .ok (before ++ after) := by
  obtain ⟨i, e, g, before, after, h1, h2, h3, h4, h5⟩ := C18_removeAt_text sample_reachable sample_live_b
    (C := ⟨0, .inline false [], [15, 17]⟩) (by decide) (n := 1) (by decide) hr
  cases h1
  have h6 : seqEntryText sample.data false 17 = .ok (b! " q") := by decide
  have h7 := h6.symm.trans h2
  cases h7
  simp only [Gone] at h3
  rw [if_neg (by simp), if_neg (by simp)] at h3
  subst h3
  exact ⟨before, after, h4, h5⟩

/-! ### C29 and C30 -/

/-- A call on an iterator. -/
inductive Call
  | next | nextBack | nth (n : Nat)

/-- Make these calls on an iterator: the answers, and the iterator that is left. -/
def Iter.calls {α} (look : Nat → Except Stop α) (it : Iter) : List Call → Except Stop (List (Option α) × Iter)
  | [] => return ([], it)
  | c :: cs => do
    let (a, it) ← match c with
      | .next => it.next look
      | .nextBack => it.nextBack look
      | .nth n => it.nth look n
    let (as, it) ← it.calls look cs
    return (a :: as, it)

/-- A double-ended queue of the entries, the specification of an iterator: the answers to the same
calls, and the entries that are left. -/
def queue {α} (L : List α) : List Call → List (Option α) × List α
  | [] => ([], L)
  | .nextBack :: cs => let (as, L') := queue L.dropLast cs; (L.getLast? :: as, L')
  | .next :: cs => let (as, L') := queue L.tail cs; (L.head? :: as, L')
  | .nth n :: cs => let (as, L') := queue (L.drop (n + 1)) cs; (L[n]? :: as, L')

theorem mapM_ok_length {α β} {f : α → Except Stop β} : ∀ {l : List α} {L : List β}, l.mapM f = .ok L → L.length = l.length
  | [], L, h => by simp [pure, Except.pure] at h; subst h; rfl
  | a :: l, L, h => by
    simp only [List.mapM_cons, bind, Except.bind, pure, Except.pure] at h
    cases hf : f a with
    | error e => rw [hf] at h; cases h
    | ok b =>
      rw [hf] at h
      cases hm : l.mapM f with
      | error e => rw [hm] at h; cases h
      | ok bs => rw [hm] at h; cases h; simp [mapM_ok_length hm]

theorem mapM_ok_get {α β} {f : α → Except Stop β} : ∀ {l : List α} {L : List β}, l.mapM f = .ok L →
    ∀ (n : Nat) a, l[n]? = some a → ∃ b, f a = .ok b ∧ L[n]? = some b
  | [], L, _, n, a, hn => by simp at hn
  | a :: l, L, h, n, a', hn => by
    simp only [List.mapM_cons, bind, Except.bind, pure, Except.pure] at h
    cases hf : f a with
    | error e => rw [hf] at h; cases h
    | ok b =>
      rw [hf] at h
      cases hm : l.mapM f with
      | error e => rw [hm] at h; cases h
      | ok bs =>
        rw [hm] at h; cases h
        cases n with
        | zero => cases hn; exact ⟨b, hf, rfl⟩
        | succ n => exact mapM_ok_get hm n a' hn

theorem mapM_ok_of_get {α β} {f : α → Except Stop β} : ∀ {l : List α} {L : List β}, L.length = l.length →
    (∀ (n : Nat) a, l[n]? = some a → ∃ b, f a = .ok b ∧ L[n]? = some b) → l.mapM f = .ok L
  | [], L, hl, _ => by
    have : L = [] := List.length_eq_zero_iff.1 hl
    subst this; rfl
  | a :: l, L, hl, h => by
    obtain ⟨b, hb, hb'⟩ := h 0 a rfl
    cases L with
    | nil => simp at hl
    | cons b' L =>
      cases hb'
      have := mapM_ok_of_get (l := l) (L := L) (by simpa using hl) (fun n a hn => h (n + 1) a hn)
      simp [List.mapM_cons, hb, this, bind, Except.bind, pure, Except.pure]

theorem mapM_tail {α β} {f : α → Except Stop β} {l : List α} {L : List β} (h : l.mapM f = .ok L) :
    l.tail.mapM f = .ok L.tail := by
  refine mapM_ok_of_get (by simp [mapM_ok_length h]) fun n a hn => ?_
  rw [List.getElem?_tail] at hn
  rw [List.getElem?_tail]
  exact mapM_ok_get h _ _ hn

theorem mapM_drop {α β} {f : α → Except Stop β} {l : List α} {L : List β} (h : l.mapM f = .ok L) (n : Nat) :
    (l.drop n).mapM f = .ok (L.drop n) := by
  refine mapM_ok_of_get (by simp [mapM_ok_length h]) fun m a hn => ?_
  rw [List.getElem?_drop] at hn
  rw [List.getElem?_drop]
  exact mapM_ok_get h _ _ hn

theorem mapM_dropLast {α β} {f : α → Except Stop β} {l : List α} {L : List β} (h : l.mapM f = .ok L) :
    l.dropLast.mapM f = .ok L.dropLast := by
  have hl := mapM_ok_length h
  refine mapM_ok_of_get (by simp [hl]) fun n a hn => ?_
  rw [List.getElem?_dropLast] at hn
  rw [List.getElem?_dropLast]
  split at hn
  · next hlt =>
    rw [if_pos (by omega)]
    exact mapM_ok_get h _ _ hn
  · cases hn

theorem Iter.calls_queue {α} {look : Nat → Except Stop α} : ∀ (cs : List Call) {it : Iter} {L : List α},
    it.rest.mapM look = .ok L → ∃ it', it.calls look cs = .ok ((queue L cs).1, it') ∧
      it'.rest.mapM look = .ok (queue L cs).2 ∧
      it'.sizeHint = ((queue L cs).2.length, some (queue L cs).2.length)
  | [], it, L, h => ⟨it, rfl, h, by simp [Iter.sizeHint, queue, mapM_ok_length h]⟩
  | .nth n :: cs, ⟨rest⟩, L, h => by
    simp only [Iter.calls, Iter.nth]
    have hl := mapM_ok_length h
    simp only at h hl
    cases hd : rest.drop n with
    | nil =>
      have h0 : rest.length ≤ n := List.drop_eq_nil_iff.1 hd
      obtain ⟨it', h1, h2, h3⟩ := Iter.calls_queue (look := look) cs (it := ⟨[]⟩) (L := []) rfl
      have e1 : L.drop (n + 1) = [] := List.drop_eq_nil_iff.2 (by omega)
      have e2 : L[n]? = none := List.getElem?_eq_none (by omega)
      exact ⟨it', by simp [bind, Except.bind, pure, Except.pure, h1, queue, e1, e2], by rw [queue, e1]; exact h2, by rw [queue, e1]; exact h3⟩
    | cons i is =>
      have hg : rest[n]? = some i := by
        have : (rest.drop n)[0]? = some i := by rw [hd]; rfl
        rwa [List.getElem?_drop, Nat.add_zero] at this
      have hr : rest.drop (n + 1) = is := by rw [← List.tail_drop, hd]; rfl
      obtain ⟨it', h1, h2, h3⟩ := Iter.calls_queue cs (it := ⟨rest.drop (n + 1)⟩) (mapM_drop h (n + 1))
      rw [hr] at h1
      obtain ⟨b, hb, hb'⟩ := mapM_ok_get h _ _ hg
      exact ⟨it', by simp [bind, Except.bind, pure, Except.pure, h1, hb, hb', queue], h2, h3⟩
  | .nextBack :: cs, ⟨rest⟩, L, h => by
    simp only [Iter.calls, Iter.nextBack]
    have hl := mapM_ok_length h
    simp only at h hl
    cases hg : rest.getLast? with
    | none =>
      have : rest = [] := List.getLast?_eq_none_iff.1 hg
      subst this
      have hL : L = [] := by simpa using hl
      subst hL
      obtain ⟨it', h1, h2, h3⟩ := Iter.calls_queue cs (it := ⟨[]⟩) (L := []) h
      exact ⟨it', by simp [bind, Except.bind, pure, Except.pure, h1, queue], h2, h3⟩
    | some i =>
      obtain ⟨it', h1, h2, h3⟩ := Iter.calls_queue cs (it := ⟨rest.dropLast⟩) (mapM_dropLast h)
      rw [List.getLast?_eq_getElem?] at hg
      obtain ⟨b, hb, hb'⟩ := mapM_ok_get h _ _ hg
      rw [← hl, ← List.getLast?_eq_getElem?] at hb'
      exact ⟨it', by simp [bind, Except.bind, pure, Except.pure, h1, hb, hb', queue], h2, h3⟩
  | .next :: cs, ⟨rest⟩, L, h => by
    simp only [Iter.calls, Iter.next]
    have hl := mapM_ok_length h
    simp only at h hl
    cases rest with
    | nil =>
      have hL : L = [] := by simpa using hl
      subst hL
      obtain ⟨it', h1, h2, h3⟩ := Iter.calls_queue cs (it := ⟨[]⟩) (L := []) h
      exact ⟨it', by simp [bind, Except.bind, pure, Except.pure, h1, queue], h2, h3⟩
    | cons i rest =>
      obtain ⟨it', h1, h2, h3⟩ := Iter.calls_queue cs (it := ⟨rest⟩) (mapM_tail h)
      obtain ⟨b, hb, hb'⟩ := mapM_ok_get h 0 i rfl
      rw [← List.head?_eq_getElem?] at hb'
      exact ⟨it', by simp [bind, Except.bind, pure, Except.pure, h1, hb, hb', queue], h2, h3⟩

/-- C29 for sequences: any mixture of `next`, `next_back` and `nth` answers as a double-ended queue of the
entries that `get` finds, and `size_hint` is exact at every point. -/
theorem C29_iter_sequence {doc : Document} (h : Reachable doc) {x n : Nat} (hx : Live doc x)
    (hl : seqLen' doc.data x = .ok n) : ∃ it L, seqIter doc.data x = .ok it ∧ L.length = n ∧
      (∀ i, seqGet doc.data x i = .ok L[i]?) ∧
      ∀ cs, ∃ it', it.calls doc.data.sequenceItem cs = .ok ((queue L cs).1, it') ∧
        it'.sizeHint = ((queue L cs).2.length, some (queue L cs).2.length) := by
  obtain ⟨t, ht⟩ := h.holds
  obtain ⟨u, hu⟩ := (ht.live_iff x).1 hx
  obtain ⟨p, ha⟩ := ht.at hu
  have hg := ha.get
  have hv : ∃ L, seqValues doc.data x = .ok L := by
    rcases ht.kindOf hu with ⟨pre, s, rfl, h', _⟩ | ⟨pre, ind, k, items, rfl, _⟩ | ⟨pre, ind, k, items, rfl, _⟩
    · cases s <;> simp [seqLen', Data.sequence, hg, Tree.raw, Scalar.toRaw, bind, Except.bind] at hl
    · simp [seqLen', Data.sequence, hg, Tree.raw, collRaw, bind, Except.bind] at hl
    · exact ⟨_, seqValues_node ha.rep⟩
  obtain ⟨L, hL⟩ := hv
  obtain ⟨h1, _, h2, _⟩ := C19_reads h hx hL
  rw [hl] at h1
  simp only [seqValues, bind, Except.bind] at hL
  cases hi : seqIter doc.data x with
  | error e => rw [hi] at hL; cases hL
  | ok it =>
    rw [hi] at hL
    refine ⟨it, L, rfl, by cases h1; rfl, h2, fun cs => ?_⟩
    obtain ⟨it', a, _, b⟩ := Iter.calls_queue cs hL
    exact ⟨it', a, b⟩

/-- C29 for mappings; the entries are those `mapEntries` lists, which C14 and C15 are about. -/
theorem C29_iter_mapping {doc : Document} (h : Reachable doc) {x n : Nat} (hx : Live doc x)
    (hl : mapLen doc.data x = .ok n) : ∃ it L, mapIter doc.data x = .ok it ∧ L.length = n ∧ mapIsEmpty doc.data x = .ok L.isEmpty ∧
      (∀ key, mapGet doc.data x key = .ok ((L.find? (·.1 == key)).map (·.2))) ∧
      ∀ cs, ∃ it', it.calls (mapItemOf doc.data) cs = .ok ((queue L cs).1, it') ∧
        it'.sizeHint = ((queue L cs).2.length, some (queue L cs).2.length) := by
  obtain ⟨t, ht⟩ := h.holds
  obtain ⟨u, hu⟩ := (ht.live_iff x).1 hx
  obtain ⟨p, ha⟩ := ht.at hu
  have hg := ha.get
  rcases ht.kindOf hu with ⟨pre, s, rfl, h', _⟩ | ⟨pre, ind, k, items, rfl, _⟩ | ⟨pre, ind, k, items, rfl, _⟩
  · cases s <;> simp [mapLen, Data.mapping, hg, Tree.raw, Scalar.toRaw, bind, Except.bind] at hl
  · have hL := mapEntries_node ha.rep
    simp only [mapEntries, bind, Except.bind, mapIter, mapping_of hg, pure, Except.pure] at hL
    simp only [mapLen, mapping_of hg, bind, Except.bind, pure, Except.pure, Except.ok.injEq] at hl
    refine ⟨⟨items.ids⟩, items.pairs.map fun q => (q.1.id, q.2.id), by simp [mapIter, mapping_of hg, bind, Except.bind, pure, Except.pure], ?_,
      by simp [mapIsEmpty, mapping_of hg, bind, Except.bind, pure, Except.pure, ← Items.pairs_isEmpty], fun key => ?_, fun cs => ?_⟩
    rotate_left
    · rw [ha.mapGet, lookup_find]
    · obtain ⟨it', a, _, b⟩ := Iter.calls_queue cs hL
      exact ⟨it', a, b⟩
    · rw [List.length_map, Items.length_pairs, hl]
  · simp [mapLen, Data.mapping, hg, Tree.raw, collRaw, bind, Except.bind] at hl

example : ∃ it it', mapIter sample.data 0 = .ok it ∧ it.calls (mapItemOf sample.data) [.nextBack, .nth 1, .next, .nextBack] =
    .ok ([some (b! "b", 14), some (b! "list", 4), none, none], it') := by
  refine ⟨⟨[1, 3, 13]⟩, ⟨[]⟩, by decide, by decide⟩
example := C29_iter_mapping sample_reachable sample_live_root (n := 3) (by decide)
example := C29_iter_sequence sample_reachable sample_live_list (n := 2) (by decide)

/-- C30: `nth_back(n)` should return the entry `n` places before the last and leave the entries
before it. -/
def NthBackSpec (d : Data) (x : Nat) (L : List Nat) (n : Nat) : Prop :=
  ∃ it it', seqIter d x = .ok it ∧ it.nthBack d.sequenceItem n = .ok (L.reverse[n]?, it') ∧
    it'.rest.mapM d.sequenceItem = .ok (L.reverse.drop (n + 1)).reverse

/-- C30 is false: on a two element sequence `nth_back(0)` returns the first element. -/
theorem C30_nth_back_false : seqValues sample.data 4 = .ok [6, 8] ∧
    (∃ it, seqIter sample.data 4 = .ok it ∧ it.nthBack sample.data.sequenceItem 0 = .ok (some 6, ⟨[7]⟩)) ∧
    ¬ NthBackSpec sample.data 4 [6, 8] 0 := by
  refine ⟨by decide, ⟨⟨[5, 7]⟩, by decide, by decide⟩, ?_⟩
  rintro ⟨it, it', h1, h2, _⟩
  have : seqIter sample.data 4 = .ok ⟨[5, 7]⟩ := by decide
  rw [this] at h1
  cases h1
  have : Iter.nthBack sample.data.sequenceItem ⟨[5, 7]⟩ 0 = .ok (some 6, ⟨[7]⟩) := by decide
  rw [this] at h2
  cases h2

/-- C30 is false for mappings as well. -/
theorem C30_nth_back_mapping_false : mapEntries sample.data 0 = .ok [(b! "a", 2), (b! "list", 4), (b! "b", 14)] ∧
    ∃ it, mapIter sample.data 0 = .ok it ∧ it.nthBack (mapItemOf sample.data) 0 = .ok (some (b! "a", 2), ⟨[3, 13]⟩) :=
  ⟨by decide, ⟨[1, 3, 13]⟩, by decide, by decide⟩

/-- What remains of C30: `nth_back(n)` counts from the front, so it is right exactly for the middle
element of the answer and past the end, and about the entries left only if there are none. Missing:
all other cases, where it is wrong (`C30_nth_back_false`). -/
theorem C30_nth_back_partial {doc : Document} {x : Nat} {L : List Nat}
    (hL : seqValues doc.data x = .ok L) (n : Nat) :
    (∃ it it', seqIter doc.data x = .ok it ∧ it.nthBack doc.data.sequenceItem n = .ok (L[n]?, it') ∧
      it'.rest.mapM doc.data.sequenceItem = .ok (L.drop (n + 1))) ∧
    (L.length ≤ n ∨ L.length = 1 → NthBackSpec doc.data x L n) := by
  simp only [seqValues, bind, Except.bind] at hL
  cases hi : seqIter doc.data x with
  | error e => rw [hi] at hL; cases hL
  | ok it =>
    rw [hi] at hL
    have key : ∃ it', it.nthBack doc.data.sequenceItem n = .ok (L[n]?, it') ∧
        it'.rest.mapM doc.data.sequenceItem = .ok (L.drop (n + 1)) := by
      have hd := mapM_drop hL n
      have hd' := mapM_drop hL (n + 1)
      have hl := mapM_ok_length hL
      simp only [Iter.nthBack]
      cases hdr : it.rest.drop n with
      | nil =>
        have : it.rest.length ≤ n := by simpa using hdr
        refine ⟨⟨[]⟩, ?_, ?_⟩
        · rw [List.getElem?_eq_none (by omega)]; rfl
        · rw [List.drop_eq_nil_of_le (by omega)]; rfl
      | cons i is =>
        have hg : it.rest[n]? = some i := by
          have := List.getElem?_drop (xs := it.rest) (i := n) (j := 0)
          rw [hdr] at this
          simpa using this.symm
        obtain ⟨b, hb, hb'⟩ := mapM_ok_get hL n i hg
        have his : is = it.rest.drop (n + 1) := by
          rw [← List.drop_drop, ] <;> simp [hdr]
        refine ⟨⟨is⟩, ?_, ?_⟩
        · simp [hb, hb', bind, Except.bind, pure, Except.pure]
        · rw [his]; exact hd'
    obtain ⟨it', k1, k2⟩ := key
    refine ⟨⟨it, it', rfl, k1, k2⟩, ?_⟩
    rintro hc
    refine ⟨it, it', hi, ?_, ?_⟩
    · rw [k1]
      rcases hc with hc | hc
      · rw [List.getElem?_eq_none hc, List.getElem?_eq_none (by simpa using hc)]
      · obtain ⟨a, rfl⟩ := List.length_eq_one_iff.1 hc
        rfl
    · rw [k2]
      have h1 : L.length ≤ n + 1 := by omega
      rw [List.drop_eq_nil_of_le h1, List.drop_eq_nil_of_le (by simpa using h1)]; rfl

example : NthBackSpec sampleShort.data 4 [8] 0 :=
  (C30_nth_back_partial (L := [8]) (by decide) 0).2 (.inr rfl)

end Verif
