import Verif.Grow
import Verif.Props.Missing
import Verif.Props.SetRead
import Verif.Props.Plain
/-
Reading what is written after adding entries to the block collection that a text is (C85).
-/
namespace Verif

/-- Insert the entries into the mapping that the document is. -/
def Document.inserts (doc : Document) : List (Bytes × Val) → Except Stop Document
  | [] => .ok doc
  | e :: es => do (← doc.edit doc.root (.insert e.1 e.2)).inserts es

/-- Push the values to the sequence that the document is. -/
def Document.pushes (doc : Document) : List Val → Except Stop Document
  | [] => .ok doc
  | v :: vs => do (← doc.edit doc.root (.push v)).pushes vs

theorem ReadsMap.get {d : Data} : ∀ {es : Entries} {l : List (Bytes × Nat)}, ReadsMap d l es → ∀ {n : Nat} {k : Bytes} {c : Content}, es.list[n]? = some (k, c) →
    ∃ x, l[n]? = some (k, x) ∧ Reads d x c
  | .nil, _, _, n, _, _, h => by rw [Entries.list] at h; cases h
  | .cons key v rest, _, ⟨x, l', rfl, h1, h2⟩, n, k, c, h => by
    rw [Entries.list] at h
    cases n with
    | zero => cases h; exact ⟨x, rfl, h1⟩
    | succ n => exact h2.get h

theorem ReadsSeq.get {d : Data} : ∀ {es : Elems} {l : List Nat}, ReadsSeq d l es → ∀ {n : Nat} {c : Content}, es.list[n]? = some c → ∃ x, l[n]? = some x ∧ Reads d x c
  | .nil, _, _, n, _, h => by rw [Elems.list] at h; cases h
  | .cons v rest, _, ⟨x, l', rfl, h1, h2⟩, n, c, h => by
    rw [Elems.list] at h
    cases n with
    | zero => cases h; exact ⟨x, rfl, h1⟩
    | succ n => exact h2.get h

/-- What is written is read as a mapping that has another entry than the document. -/
theorem unstable_entry {doc : Document} {out : Bytes} {l : List (Bytes × Content)} {L : List (Bytes × Nat)} (hw : doc.write = .ok out) (hs : TextMap out l) (hL : mapEntries doc.data doc.root = .ok L)
    {n : Nat} {k k' : Bytes} {a a' : AnyV} {x : Nat} (h1 : l[n]? = some (k, .scalar a)) (h2 : L[n]? = some (k', x)) (h3 : asAny doc.data x = .ok a') (hne : a ≠ a') : ¬ Stable doc := by
  rintro ⟨out', doc', c, g1, g2, g3, g4⟩
  obtain rfl := Except.ok.inj (hw.symm.trans g1)
  obtain ⟨doc2, es, e1, e2, rfl⟩ := hs
  obtain rfl := Except.ok.inj (g2.symm.trans e1)
  obtain rfl := Reads.unique g4 e2
  obtain ⟨L', i1, i2⟩ := g3
  obtain rfl : L' = L := Except.ok.inj (i1.2.symm.trans hL)
  obtain ⟨x', j1, j2⟩ := i2.get h1
  rw [h2] at j1
  cases j1
  exact hne (Except.ok.inj (j2.1.symm.trans h3))

/-- What is written is read as a sequence that has another item than the document. -/
theorem unstable_item {doc : Document} {out : Bytes} {l : List Content} {L : List Nat} (hw : doc.write = .ok out) (hs : TextSeq out l) (hL : seqValues doc.data doc.root = .ok L)
    {n : Nat} {a a' : AnyV} {x : Nat} (h1 : l[n]? = some (.scalar a)) (h2 : L[n]? = some x) (h3 : asAny doc.data x = .ok a') (hne : a ≠ a') : ¬ Stable doc := by
  rintro ⟨out', doc', c, g1, g2, g3, g4⟩
  obtain rfl := Except.ok.inj (hw.symm.trans g1)
  obtain ⟨doc2, es, e1, e2, rfl⟩ := hs
  obtain rfl := Except.ok.inj (g2.symm.trans e1)
  obtain rfl := Reads.unique g4 e2
  obtain ⟨L', i1, i2⟩ := g3
  obtain rfl : L' = L := Except.ok.inj (i1.2.symm.trans hL)
  obtain ⟨x', j1, j2⟩ := i2.get h1
  rw [h2] at j1
  cases j1
  exact hne (Except.ok.inj (j2.1.symm.trans h3))

/-- C85 is false: a comment after the last value becomes part of the new one. -/
theorem C85_comment_false : ¬ ∀ (x : Bytes) (doc doc' : Document) (key : Bytes) (val : Val), Parsed x doc → startsItem true x = true → StandsMap (newEntry (key, val) ++ b! "\n") [(key, .scalar val.reads)] →
    doc.edit doc.root (.insert key val) = .ok doc' → Stable doc' := by
  intro h
  have hp : Parsed (b! "a: [1] # c\n") (docOfText (b! "a: [1] # c\n")) := ⟨30, by decide +kernel⟩
  refine unstable_entry (doc := (docOfText (b! "a: [1] # c\n")).after 0 (.insert (b! "b") (.bool true))) (out := b! "a: [1]\nb: true # c\n") (by decide +kernel)
    (textMap_says (l := [(b! "a", .seq (.cons (.scalar (.number (b! "1"))) .nil)), (b! "b", .scalar (.string (b! "true # c")))]).2 (by decide +kernel))
    (L := [(b! "a", 2), (b! "b", 6)]) (by decide +kernel) (n := 1) rfl rfl (by decide +kernel) (a' := .bool true) (by decide) ?_
  exact h _ _ _ (b! "b") (.bool true) hp (by decide) ⟨by decide, by decide, textMap_says.2 (by decide +kernel)⟩ (by decide +kernel)

/-- C85 is false: the line breaks after a block scalar are part of its value, but are written after the new entry, so that inserting an entry changes the one before it. -/
theorem C85_breaks_false : ¬ ∀ (x : Bytes) (doc doc' : Document) (key : Bytes) (val : Val), Parsed x doc → startsItem true x = true → HASH ∉ x →
    StandsMap (newEntry (key, val) ++ b! "\n") [(key, .scalar val.reads)] → doc.edit doc.root (.insert key val) = .ok doc' → Stable doc' := by
  intro h
  have hp : Parsed (b! "a: |\n  x\n\n") (docOfText (b! "a: |\n  x\n\n")) := ⟨30, by decide +kernel⟩
  refine unstable_entry (doc := (docOfText (b! "a: |\n  x\n\n")).after 0 (.insert (b! "b") (.bool true))) (out := b! "a: |\n  x\nb: true\n\n") (by decide +kernel)
    (textMap_says (l := [(b! "a", .scalar (.string (b! "x\n"))), (b! "b", .scalar (.bool true))]).2 (by decide +kernel))
    (L := [(b! "a", 2), (b! "b", 4)]) (by decide +kernel) (n := 0) rfl rfl (by decide +kernel) (a' := .string (b! "x\n\n")) (by decide) ?_
  exact h _ _ _ (b! "b") (.bool true) hp (by decide) (by decide) ⟨by decide, by decide, textMap_says.2 (by decide +kernel)⟩ (by decide +kernel)

/-- C85 is false for sequences too. -/
theorem C85_push_false : ¬ ∀ (x : Bytes) (doc doc' : Document) (val : Val), Parsed x doc → startsItem false x = true → StandsSeq (newItem (b! " ") val ++ b! "\n") [.scalar val.reads] →
    doc.edit doc.root (.push val) = .ok doc' → Stable doc' := by
  intro h
  have hp : Parsed (b! "- [1] # c\n") (docOfText (b! "- [1] # c\n")) := ⟨30, by decide +kernel⟩
  refine unstable_item (doc := (docOfText (b! "- [1] # c\n")).after 0 (.push (.bool true))) (out := b! "- [1]\n- true # c\n") (by decide +kernel)
    (textSeq_says (l := [.seq (.cons (.scalar (.number (b! "1"))) .nil), .scalar (.string (b! "true # c"))]).2 (by decide +kernel))
    (L := [2, 6]) (by decide +kernel) (n := 1) rfl rfl (by decide +kernel) (a' := .bool true) (by decide) ?_
  exact h _ _ _ (.bool true) hp (by decide) ⟨by decide, by decide, textSeq_says.2 (by decide +kernel)⟩ (by decide +kernel)

theorem top_inserts {e : Bytes × Val} : ∀ {es : List (Bytes × Val)} {doc : Document} {items : Items Nat}, TopColl true doc items → StandsMap (items.render true .block ++ [NL]) items.entriesC.list →
    ((es ++ [e]).map (·.1)).Nodup → (∀ a ∈ es ++ [e], a.1 ∉ items.entriesC.list.map (·.1)) → (∀ a ∈ es, StandsMap (newEntry a ++ [NL]) [(a.1, .scalar a.2.reads)]) →
    startsItem true (newEntry e ++ doc.suffix) = true → TextMap (newEntry e ++ doc.suffix) [(e.1, .scalar e.2.reads)] →
    ∃ doc' items', doc.inserts (es ++ [e]) = .ok doc' ∧ TopColl true doc' items' ∧ doc'.suffix = doc.suffix ∧
      items'.render true .block = items.render true .block ++ (es ++ [e]).flatMap (fun a => [NL] ++ newEntry a) ∧
      items'.entriesC.list = items.entriesC.list ++ (es ++ [e]).map (fun a => (a.1, .scalar a.2.reads)) ∧
      TextMap (items'.render true .block ++ doc.suffix) items'.entriesC.list
  | [], doc, items, h, hst, _, hk, _, hs, he => by
    obtain ⟨doc', items', h1, h2, h3, h4, h5⟩ := h.insert (hk e (by simp))
    refine ⟨doc', items', ?_, h3, h2, ?_, ?_, ?_⟩
    · rw [List.nil_append, Document.inserts, h1]; rfl
    · rw [h4]; simp
    · rw [h5]; rfl
    · rw [h4, h5]
      have := hst.before hs he
      rwa [← List.append_assoc] at this
  | a :: es, doc, items, h, hst, hnd, hk, hes, hs, he => by
    obtain ⟨doc', items', h1, h2, h3, h4, h5⟩ := h.insert (hk a (by simp))
    have hst' : StandsMap (items'.render true .block ++ [NL]) items'.entriesC.list := by
      rw [h4, h5]
      have := C73_together hst (hes a (by simp))
      rwa [← List.append_assoc] at this
    rw [List.cons_append, List.map_cons, List.nodup_cons] at hnd
    obtain ⟨doc2, items2, g1, g2, g3, g4, g5, g6⟩ := top_inserts (e := e) (es := es) h3 hst' hnd.2 (by
      intro b hb
      rw [h5, List.map_append, List.mem_append, not_or]
      refine ⟨hk b (by simp only [List.cons_append, List.mem_cons]; exact .inr hb), ?_⟩
      intro hm
      rw [List.map_cons, List.map_nil, List.mem_singleton] at hm
      exact hnd.1 (hm ▸ List.mem_map_of_mem hb)) (fun b hb => hes b (by simp [hb])) (by rw [h2]; exact hs) (by rw [h2]; exact he)
    refine ⟨doc2, items2, ?_, g2, by rw [g3, h2], ?_, ?_, by rw [← h2]; exact g6⟩
    · rw [List.cons_append, Document.inserts, h1]; exact g1
    · rw [g4, h4]; simp
    · rw [g5, h5]; simp

/-- C85, what holds: entries are inserted into a text that starts with a key in the first column.  `P` is the text of the mapping, `R` what is written after it.  If with a line break after it `P`
stands on its own (see C73), and so do the new entries, and the last of them with `R` after it is read as itself, then what is written is read as the document. -/
theorem C85_inserts_partial {x : Bytes} {doc : Document} (h : Parsed x doc) (hs : startsItem true x = true) {l : Entries} (hl : Reads doc.data doc.root (.map l)) {P R : Bytes}
    (hP : valueText doc.data doc.root = .ok P) (hR : doc.write = .ok (P ++ R)) (hst : StandsMap (P ++ b! "\n") l.list) {es : List (Bytes × Val)} {e : Bytes × Val}
    (hnd : ((es ++ [e]).map (·.1)).Nodup) (hk : ∀ a ∈ es ++ [e], a.1 ∉ l.list.map (·.1)) (hes : ∀ a ∈ es, StandsMap (newEntry a ++ b! "\n") [(a.1, .scalar a.2.reads)])
    (he1 : startsItem true (newEntry e ++ R) = true) (he : TextMap (newEntry e ++ R) [(e.1, .scalar e.2.reads)]) :
    ∃ doc' l', doc.inserts (es ++ [e]) = .ok doc' ∧ doc'.write = .ok (P ++ (es ++ [e]).flatMap (fun a => b! "\n" ++ newEntry a) ++ R) ∧
      Reads doc'.data doc'.root (.map l') ∧ l'.list = l.list ++ (es ++ [e]).map (fun a => (a.1, .scalar a.2.reads)) ∧ Stable doc' := by
  obtain ⟨items, ht⟩ := parsed_top h hs ⟨_, hl, rfl⟩
  obtain rfl := Except.ok.inj (hP.symm.trans ht.text)
  obtain rfl := List.append_cancel_left (Except.ok.inj (hR.symm.trans ht.write))
  obtain rfl : l = items.entriesC := by
    have := Reads.unique hl ht.reads
    cases this; rfl
  obtain ⟨doc', items', h1, h2, h3, h4, h5, h6⟩ := top_inserts ht hst hnd hk hes he1 he
  have hw : doc'.write = .ok (items'.render true .block ++ doc.suffix) := by rw [h2.write, h3]
  refine ⟨doc', _, h1, by rw [hw, h4], h2.reads, h5, ?_⟩
  obtain ⟨doc2, es2, e1, e2, e3⟩ := h6
  exact ⟨_, doc2, _, hw, e1, h2.reads, by rw [← entries_ext e3]; exact e2⟩

/-- The new items of a sequence; `auto` is the white space before the last value. -/
def newItems : Bytes → List Val → List (Bytes × Val)
  | _, [] => []
  | auto, v :: vs => (newItem auto v, v) :: newItems (v.sepText auto) vs

theorem top_pushes {v : Val} : ∀ {vs : List Val} {doc : Document} {items : Items Nat} {auto : Bytes}, TopColl false doc items → pushPre .auto items = auto →
    StandsSeq (items.render false .block ++ [NL]) items.elemsC.list →
    (∀ pre a, newItems auto (vs ++ [v]) = pre ++ [a] → (∀ b ∈ pre, StandsSeq (b.1 ++ [NL]) [.scalar b.2.reads]) ∧ startsItem false (a.1 ++ doc.suffix) = true ∧ TextSeq (a.1 ++ doc.suffix) [.scalar a.2.reads]) →
    ∃ doc' items', doc.pushes (vs ++ [v]) = .ok doc' ∧ TopColl false doc' items' ∧ doc'.suffix = doc.suffix ∧
      items'.render false .block = items.render false .block ++ (newItems auto (vs ++ [v])).flatMap (fun a => [NL] ++ a.1) ∧
      items'.elemsC.list = items.elemsC.list ++ (vs ++ [v]).map (fun a => .scalar a.reads) ∧
      TextSeq (items'.render false .block ++ doc.suffix) items'.elemsC.list
  | [], doc, items, auto, h, ha, hst, hn => by
    obtain ⟨doc', items', h1, h2, h3, h4, h5, h6⟩ := h.push v
    rw [ha] at h4 h5
    obtain ⟨-, hs, he⟩ := hn [] _ rfl
    refine ⟨doc', items', ?_, h3, h2, ?_, ?_, ?_⟩
    · rw [List.nil_append, Document.pushes, h1]; rfl
    · rw [h5]; simp [newItems]
    · rw [h6]; rfl
    · rw [h5, h6]
      have := hst.before hs he
      rwa [← List.append_assoc] at this
  | a :: vs, doc, items, auto, h, ha, hst, hn => by
    obtain ⟨doc', items', h1, h2, h3, h4, h5, h6⟩ := h.push a
    rw [ha] at h4 h5
    have hlast : ∃ pre b, newItems (a.sepText auto) (vs ++ [v]) = pre ++ [b] := by
      rcases List.eq_nil_or_concat (newItems (a.sepText auto) (vs ++ [v])) with hc | ⟨pre, b, hc⟩
      · cases vs <;> cases hc
      · exact ⟨pre, b, by rw [hc, List.concat_eq_append]⟩
    obtain ⟨pre0, b0, hpre⟩ := hlast
    have hst' : StandsSeq (items'.render false .block ++ [NL]) items'.elemsC.list := by
      have hfirst := (hn ((newItem auto a, a) :: pre0) b0 (by rw [List.cons_append, newItems, hpre]; rfl)).1 (newItem auto a, a) (by simp)
      rw [h5, h6]
      have : StandsSeq (items.render false .block ++ [NL] ++ (newItem auto a ++ [NL])) (items.elemsC.list ++ [.scalar a.reads]) := by
        refine ⟨starts_append hst.start _, by rw [List.getLast?_append, hfirst.last]; rfl, ?_⟩
        have := hst.before (starts_append hfirst.start _) hfirst.reads
        simpa only [List.append_assoc] using this
      rwa [← List.append_assoc] at this
    obtain ⟨doc2, items2, g1, g2, g3, g4, g5, g6⟩ := top_pushes (v := v) (vs := vs) h3 h4 hst' (by
      intro pre b hb
      obtain ⟨k1, k2, k3⟩ := hn ((newItem auto a, a) :: pre) b (by rw [List.cons_append, newItems, hb]; rfl)
      rw [h2]
      exact ⟨fun c hc => k1 c (by simp [hc]), k2, k3⟩)
    refine ⟨doc2, items2, ?_, g2, by rw [g3, h2], ?_, ?_, by rw [← h2]; exact g6⟩
    · rw [List.cons_append, Document.pushes, h1]; exact g1
    · rw [g4, h5]; simp [newItems]
    · rw [g5, h6]; simp

theorem TopColl.auto {doc : Document} {items : Items Nat} (h : TopColl false doc items) {L : List Nat} (hL : seqValues doc.data doc.root = .ok L) {w : Nat}
    (hw : L.getLast? = some w) {auto : Bytes} (ha : doc.data.pre w = .ok auto) : pushPre .auto items = auto := by
  have hu : (Tree.node doc.root [] false 0 .block items).find doc.root = some (.node doc.root [] false 0 .block items) := by rw [Tree.find, if_pos rfl]
  obtain ⟨p, hn⟩ := h.1.at hu
  obtain rfl := Except.ok.inj (hL.symm.trans (seqValues_node hn.rep))
  rw [List.getLast?_map] at hw
  cases hlast : items.pairs.getLast? with
  | none => rw [hlast] at hw; cases hw
  | some q =>
    rw [hlast] at hw
    cases hw
    rw [List.getLast?_eq_getElem?] at hlast
    obtain ⟨_, hq⟩ := h.1.at (Tree.find_trans h.1.nodup hu (Tree.find_pair hn.nodup hlast))
    rw [← List.getLast?_eq_getElem?] at hlast
    rw [pre_of hq.get] at ha
    cases ha
    simp [pushPre, hlast]

/-- C85 for sequences, what holds: as for mappings.  `auto` is the white space before the last value of the sequence, which is repeated before the new ones (C20). -/
theorem C85_pushes_partial {x : Bytes} {doc : Document} (h : Parsed x doc) (hs : startsItem false x = true) {l : Elems} (hl : Reads doc.data doc.root (.seq l)) {P R : Bytes}
    (hP : valueText doc.data doc.root = .ok P) (hR : doc.write = .ok (P ++ R)) (hst : StandsSeq (P ++ b! "\n") l.list) {L : List Nat} (hL : seqValues doc.data doc.root = .ok L) {w : Nat}
    (hw : L.getLast? = some w) {auto : Bytes} (ha : doc.data.pre w = .ok auto) {vs : List Val} {v : Val}
    (hn : ∀ pre a, newItems auto (vs ++ [v]) = pre ++ [a] → (∀ b ∈ pre, StandsSeq (b.1 ++ b! "\n") [.scalar b.2.reads]) ∧ startsItem false (a.1 ++ R) = true ∧ TextSeq (a.1 ++ R) [.scalar a.2.reads]) :
    ∃ doc' l', doc.pushes (vs ++ [v]) = .ok doc' ∧ doc'.write = .ok (P ++ (newItems auto (vs ++ [v])).flatMap (fun a => b! "\n" ++ a.1) ++ R) ∧
        Reads doc'.data doc'.root (.seq l') ∧ l'.list = l.list ++ (vs ++ [v]).map (fun a => .scalar a.reads) ∧ Stable doc' := by
  obtain ⟨items, ht⟩ := parsed_top h hs ⟨_, hl, rfl⟩
  obtain rfl := Except.ok.inj (hP.symm.trans ht.text)
  obtain rfl := List.append_cancel_left (Except.ok.inj (hR.symm.trans ht.write))
  obtain rfl : l = items.elemsC := by
    have := Reads.unique hl ht.readsSeq
    cases this; rfl
  obtain ⟨doc', items', h1, h2, h3, h4, h5, h6⟩ := top_pushes ht (ht.auto hL hw ha) hst hn
  have hw : doc'.write = .ok (items'.render false .block ++ doc.suffix) := by rw [h2.write, h3]
  refine ⟨doc', _, h1, by rw [hw, h4], h2.readsSeq, h5, ?_⟩
  obtain ⟨doc2, es2, e1, e2, e3⟩ := h6
  exact ⟨_, doc2, _, hw, e1, h2.readsSeq, by rw [← elems_ext e3]; exact e2⟩

/-! ### Values that can be added -/

/-- The text of one line is read as a string, with a line break or nothing after it. -/
def plainItem (s : Bytes) : Bool :=
  s != [] && !isIndicator (s.headD 0) && !dashes (s ++ b! "\n") && noKeySep s && !numberLine s && plainValue s == .string s

/-- The value is written as a text that is read as the value, with a line break or nothing after it. -/
def Val.kept : Val → Bool
  | .bool _ => true
  | .number text _ => isNumber text
  | .str s => match preferred s with
    | .bare => plainItem s
    | .single => true
    | .double => !s.contains DQ && !s.contains BSL
  | _ => false

theorem Val.kept_token {v : Val} (h : v.kept = true) {R : Bytes} (hR : R.headD NL = NL) : Token false R (v.newText 0) v.reads ∧ isWs ((v.newText 0).headD 0) = false ∧
    (v.newText 0).headD 0 ≠ HASH ∧ v.newText 0 ≠ [] := by
  have q1 : R.headD 0 ≠ COLON ∧ R.headD 0 ≠ SQ := by
    cases R with
    | nil => exact ⟨by decide, by decide⟩
    | cons b R => obtain rfl : b = NL := hR; exact ⟨(by decide : NL ≠ COLON), (by decide : NL ≠ SQ)⟩
  cases v with
  | null s => cases h
  | block l b => cases h
  | bool v =>
    cases v
    · exact ⟨plain_token (s := b! "false") hR (by decide) (by decide) (by decide), (by decide : isWs 102 = false), (by decide : (102 : UInt8) ≠ HASH), by decide⟩
    · exact ⟨plain_token (s := b! "true") hR (by decide) (by decide) (by decide), (by decide : isWs 116 = false), (by decide : (116 : UInt8) ≠ HASH), by decide⟩
  | number s hint =>
    have h : isNumber s = true := h
    refine ⟨.number h (head_lineEnds hR), ?_⟩
    show isWs (s.headD 0) = false ∧ s.headD 0 ≠ HASH ∧ s ≠ []
    cases s with
    | nil => exact absurd h (by decide)
    | cons b s =>
      have := isNumber_chars h b (List.mem_cons_self ..)
      have key : ∀ b : Fin 256, (numChar (UInt8.ofNat b) || UInt8.ofNat b == DASH) = true → isWs (UInt8.ofNat b) = false ∧ UInt8.ofNat b ≠ HASH := by decide +kernel
      have := key ⟨b.toNat, b.toNat_lt⟩ (by simpa using this)
      simp only [UInt8.ofNat_toNat] at this
      exact ⟨this.1, this.2, by simp⟩
  | str s =>
    have e : Val.newText 0 (.str s) = quoted (preferred s) s := rfl
    rw [e, show Val.reads (.str s) = .string s from rfl]
    have h : (match preferred s with | .bare => plainItem s | .single => true | .double => !s.contains DQ && !s.contains BSL) = true := h
    cases hp : preferred s with
    | single =>
      refine ⟨.quoted (.single s) (fun _ => q1.1) (fun _ => q1.2), ?_⟩
      show isWs SQ = false ∧ SQ ≠ HASH ∧ quoteSingle s ≠ []
      exact ⟨by decide, by decide, by simp [quoteSingle]⟩
    | double =>
      rw [hp] at h
      simp only [Bool.and_eq_true, Bool.not_eq_true', List.contains_eq_mem, decide_eq_false_iff_not] at h
      refine ⟨.quoted (inQuotes_double h.1 h.2) (fun _ => q1.1) (fun _ => q1.2), ?_⟩
      show isWs DQ = false ∧ DQ ≠ HASH ∧ quoteDouble s ≠ []
      exact ⟨by decide, by decide, by simp [quoteDouble]⟩
    | bare =>
      rw [hp] at h
      simp only [plainItem, Bool.and_eq_true, Bool.not_eq_true', bne_iff_ne, ne_eq, beq_iff_eq] at h
      obtain ⟨⟨⟨⟨⟨h1, h2⟩, h3⟩, h4⟩, h5⟩, h6⟩ := h
      rw [quoted]
      refine ⟨?_, ?_, ?_, h1⟩
      · rw [← h6]
        refine .plain (fun k hk => ⟨rfl, ?_⟩) ?_
        · cases hl : lineEnds (s.drop k) with
          | false => rfl
          | true =>
            have : numberLine s = true := by
              simp only [numberLine, List.any_eq_true, Bool.and_eq_true, List.mem_range]
              rcases Nat.lt_or_ge k (s.length + 1) with hlt | hge
              · exact ⟨k, hlt, hk, hl⟩
              · rw [List.take_of_length_le (by omega)] at hk
                exact ⟨s.length, by omega, by rwa [List.take_length], by rw [List.drop_length]; rfl⟩
            rw [h5] at this; cases this
        · have hd : dashes (s ++ R) = false := by
            cases R with
            | nil =>
              rw [List.append_nil]
              cases s with
              | nil => exact absurd rfl h1
              | cons b s =>
                cases s with
                | nil => simp only [dashes, List.tail_cons, List.headD_nil, (by decide : isWs 0 = false), Bool.and_false]
                | cons c s => exact h3
            | cons b R =>
              obtain rfl : b = NL := hR
              cases s with
              | nil => exact absurd rfl h1
              | cons b s =>
                cases s with
                | nil => exact h3
                | cons c s => exact h3
          simp only [plainText, h2, h4, hd, hR, List.contains_eq_mem, preferred_line hp, Bool.not_false, Bool.false_eq_true, beq_self_eq_true, if_false, Bool.and_true, decide_false]
      · cases hw : isWs (s.headD 0) with
        | false => rfl
        | true => rw [isIndicator, hw] at h2; cases h2
      · intro hc
        rw [hc] at h2
        exact absurd h2 (by decide)

theorem Val.kept_sep {v : Val} (h : v.kept = true) (auto : Bytes) : v.sepText auto = auto := by
  cases v <;> first | rfl | cases h

/-- The value of an item: white space, and a scalar after it. -/
theorem lone_scalar {H A T R : Bytes} {a : AnyV} {s : Spot} (hs : s.inline = false) (hA : gap A = true) (ht : Token false R T a) (h1 : isWs (T.headD 0) = false) (h2 : T.headD 0 ≠ HASH) (h3 : T ≠ []) :
    FullGap (H ++ A ++ T ++ R) H.length (H ++ A).length ∧ Sits (H ++ A ++ T ++ R) contentView s (.scalar a) (H ++ A).length (H ++ A ++ T).length := by
  obtain ⟨b, T', rfl⟩ : ∃ b T', T = b :: T' := by
    cases T with
    | nil => exact absurd rfl h3
    | cons b T => exact ⟨b, T, rfl⟩
  have hg : (H ++ A ++ (b :: T') ++ R).getD (H ++ A).length 0 = b := by
    rw [List.append_assoc (H ++ A), List.getD_eq_getElem?_getD, List.getElem?_append_right (Nat.le_refl _)]; simp
  refine ⟨⟨⟨by simp, by simp, .inl ?_⟩, by rw [hg]; exact h1, by rw [hg]; exact h2⟩, .scalar rfl (by simp) (by simp) ?_⟩
  · have : slice (H ++ A ++ (b :: T') ++ R) H.length (H ++ A).length = A := by
      rw [slice, List.append_assoc, List.append_assoc, List.drop_left, List.length_append, Nat.add_sub_cancel_left, List.take_left]
    rw [this]; exact hA
  · rw [hs, List.drop_left]
    have : slice (H ++ A ++ (b :: T') ++ R) (H ++ A).length (H ++ A ++ (b :: T')).length = b :: T' := by
      rw [slice, List.append_assoc (H ++ A), List.drop_left, List.length_append (as := H ++ A), Nat.add_sub_cancel_left, List.take_left]
    rw [this]; exact ht

theorem kept_map {k : Bytes} {v : Val} (hk : keyBlock k = true) (hp : k.headD 0 ≠ PCT) (hv : v.kept = true) {R : Bytes} (hb : blank R = true) (hR : R.headD NL = NL) :
    startsItem true (newEntry (k, v) ++ R) = true ∧ TextMap (newEntry (k, v) ++ R) [(k, .scalar v.reads)] := by
  obtain ⟨t1, t2, t3, t4⟩ := v.kept_token hv hR
  have e : newEntry (k, v) ++ R = k ++ [COLON] ++ [SP] ++ v.newText 0 ++ R := by rw [newEntry, Val.kept_sep hv]
  have e2 : k ++ [COLON] ++ [SP] ++ v.newText 0 ++ R = k ++ [COLON] ++ ([SP] ++ v.newText 0 ++ R) := by simp
  have hst : startsItem true (newEntry (k, v) ++ R) = true := by rw [e, e2]; exact key_item hk hp rfl
  refine ⟨hst, ?_⟩
  rw [map_rows hst, e]
  obtain ⟨g1, g2⟩ := lone_scalar (H := k ++ [COLON]) (A := [SP]) (s := .item 0 (some k)) rfl (by decide) t1 t2 t3 t4
  have hh : Head (k ++ [COLON] ++ [SP] ++ v.newText 0 ++ R) true (some k) 0 (k ++ [COLON]).length := by rw [e2]; exact key_at hk (.inr rfl)
  have g3 := full_blank (p := k ++ [COLON] ++ [SP] ++ v.newText 0) hb
  exact ⟨_, .last rfl hh g1 g2 g3 (no_more _ _ _), g3⟩

theorem kept_entry {k : Bytes} {v : Val} (hk : keyBlock k = true) (hp : k.headD 0 ≠ PCT) (hv : v.kept = true) : StandsMap (newEntry (k, v) ++ b! "\n") [(k, .scalar v.reads)] := by
  have hst := (kept_map hk hp hv (R := b! "\n") rfl rfl).1
  have hlast : (newEntry (k, v) ++ b! "\n").getLast? = some NL := by rw [List.getLast?_append]; rfl
  refine ⟨hst, hlast, ?_⟩
  rw [map_rows (starts_append hst _)]
  obtain ⟨t1, t2, t3, t4⟩ := v.kept_token hv (R := b! "\nz: 0\n") rfl
  have hz : TextMap (b! "z: 0\n") [(b! "z", .scalar (.number (b! "0")))] := textMap_says.2 (by decide +kernel)
  obtain ⟨hi, r1, g1⟩ := (map_rows (by decide +kernel)).1 hz
  have r2 := (r1.shove (p := newEntry (k, v) ++ b! "\n") (.inr hlast)).later (m := true) (by decide +kernel) (by simp)
  have e : newEntry (k, v) ++ b! "\n" ++ b! "z: 0\n" = k ++ [COLON] ++ [SP] ++ v.newText 0 ++ b! "\nz: 0\n" := by rw [newEntry, Val.kept_sep hv]; simp [COLON, SP]
  obtain ⟨g1', g2⟩ := lone_scalar (H := k ++ [COLON]) (A := [SP]) (s := .item 0 (some k)) rfl (by decide) t1 t2 t3 t4
  have hh : Head (k ++ [COLON] ++ [SP] ++ v.newText 0 ++ b! "\nz: 0\n") true (some k) 0 (k ++ [COLON]).length := by
    rw [show k ++ [COLON] ++ [SP] ++ v.newText 0 ++ b! "\nz: 0\n" = k ++ [COLON] ++ ([SP] ++ v.newText 0 ++ b! "\nz: 0\n") by simp]
    exact key_at hk (.inr rfl)
  have g3 := full_before (p := k ++ [COLON] ++ [SP] ++ v.newText 0) (g := b! "\n") (x := b! "z: 0\n") rfl rfl (Nat.zero_le _) (by decide)
  have g4 : FullGap (newEntry (k, v) ++ b! "\n" ++ b! "z: 0\n") ((newEntry (k, v) ++ b! "\n").length + hi) (newEntry (k, v) ++ b! "\n" ++ b! "z: 0\n").length := by
    rw [List.length_append (bs := b! "z: 0\n")]; exact sh_full.2 g1
  refine ⟨_, .more rfl (by rw [e]; exact hh) (by rw [e]; exact g1') (by rw [e]; exact g2) ?_ r2, g4⟩
  have e3 : k ++ [COLON] ++ [SP] ++ v.newText 0 = newEntry (k, v) := by rw [newEntry, Val.kept_sep hv]
  rw [e3] at g3 ⊢
  exact g3

theorem kept_seq {A : Bytes} {v : Val} (hA : gap A = true) (hw : isWs (A.headD 0) = true) (hv : v.kept = true) {R : Bytes} (hb : blank R = true) (hR : R.headD NL = NL) :
    startsItem false (newItem A v ++ R) = true ∧ TextSeq (newItem A v ++ R) [.scalar v.reads] := by
  obtain ⟨t1, t2, t3, t4⟩ := v.kept_token hv hR
  have e : newItem A v ++ R = [DASH] ++ A ++ v.newText 0 ++ R := by rw [newItem, Val.kept_sep hv]
  have e2 : [DASH] ++ A ++ v.newText 0 ++ R = DASH :: (A ++ v.newText 0 ++ R) := by simp
  have hws : isWs ((A ++ v.newText 0 ++ R).headD 0) = true := by
    cases A with
    | nil => exact absurd hw (by decide)
    | cons b A => exact hw
  have hst : startsItem false (newItem A v ++ R) = true := by rw [e, e2]; exact dash_starts hws
  refine ⟨hst, ?_⟩
  rw [seq_rows hst, e]
  obtain ⟨g1, g2⟩ := lone_scalar (H := [DASH]) (A := A) (s := .item 0 none) rfl hA t1 t2 t3 t4
  have hh : Head ([DASH] ++ A ++ v.newText 0 ++ R) true none 0 [DASH].length := by rw [e2]; exact dash_head hws
  have g3 := full_blank (p := [DASH] ++ A ++ v.newText 0) hb
  exact ⟨_, .last rfl hh g1 g2 g3 (no_more _ _ _), g3⟩

theorem kept_item {A : Bytes} {v : Val} (hA : gap A = true) (hw : isWs (A.headD 0) = true) (hv : v.kept = true) : StandsSeq (newItem A v ++ b! "\n") [.scalar v.reads] := by
  have hst := (kept_seq hA hw hv (R := b! "\n") rfl rfl).1
  have hlast : (newItem A v ++ b! "\n").getLast? = some NL := by rw [List.getLast?_append]; rfl
  refine ⟨hst, hlast, ?_⟩
  rw [seq_rows (starts_append hst _)]
  obtain ⟨t1, t2, t3, t4⟩ := v.kept_token hv (R := b! "\n- 0\n") rfl
  have hz : TextSeq (b! "- 0\n") [.scalar (.number (b! "0"))] := textSeq_says.2 (by decide +kernel)
  obtain ⟨hi, r1, g1⟩ := (seq_rows (by decide +kernel)).1 hz
  have r2 := (r1.shove (p := newItem A v ++ b! "\n") (.inr hlast)).later (m := false) (by decide +kernel) (by simp)
  have e : newItem A v ++ b! "\n" ++ b! "- 0\n" = [DASH] ++ A ++ v.newText 0 ++ b! "\n- 0\n" := by rw [newItem, Val.kept_sep hv]; simp [DASH]
  obtain ⟨g1', g2⟩ := lone_scalar (H := [DASH]) (A := A) (s := .item 0 none) rfl hA t1 t2 t3 t4
  have hh : Head ([DASH] ++ A ++ v.newText 0 ++ b! "\n- 0\n") true none 0 [DASH].length := by
    rw [show [DASH] ++ A ++ v.newText 0 ++ b! "\n- 0\n" = DASH :: (A ++ v.newText 0 ++ b! "\n- 0\n") by simp]
    exact dash_head (by
      cases A with
      | nil => exact absurd hw (by decide)
      | cons b A => exact hw)
  have g3 := full_before (p := [DASH] ++ A ++ v.newText 0) (g := b! "\n") (x := b! "- 0\n") rfl rfl (Nat.zero_le _) (by decide)
  have g4 : FullGap (newItem A v ++ b! "\n" ++ b! "- 0\n") ((newItem A v ++ b! "\n").length + hi) (newItem A v ++ b! "\n" ++ b! "- 0\n").length := by
    rw [List.length_append (bs := b! "- 0\n")]; exact sh_full.2 g1
  refine ⟨_, .more rfl (by rw [e]; exact hh) (by rw [e]; exact g1') (by rw [e]; exact g2) ?_ r2, g4⟩
  have e3 : [DASH] ++ A ++ v.newText 0 = newItem A v := by rw [newItem, Val.kept_sep hv]
  rw [e3] at g3 ⊢
  exact g3

/-- C85, the same for booleans, numbers and strings that are written as texts that stand for them.  After the mapping there are white space and comments, from the next line on. -/
theorem C85_entries_partial {x : Bytes} {doc : Document} (h : Parsed x doc) (hs : startsItem true x = true) {l : Entries} (hl : Reads doc.data doc.root (.map l)) {P R : Bytes}
    (hP : valueText doc.data doc.root = .ok P) (hR : doc.write = .ok (P ++ R)) (hst : StandsMap (P ++ b! "\n") l.list) (hb : blank R = true) (hn : R.headD NL = NL) {es : List (Bytes × Val)}
    (hne : es ≠ []) (hnd : (es.map (·.1)).Nodup) (hk : ∀ a ∈ es, a.1 ∉ l.list.map (·.1)) (hes : ∀ a ∈ es, keyBlock a.1 = true ∧ a.1.headD 0 ≠ PCT ∧ a.2.kept = true) :
    ∃ doc' l', doc.inserts es = .ok doc' ∧ doc'.write = .ok (P ++ es.flatMap (fun a => b! "\n" ++ newEntry a) ++ R) ∧
      Reads doc'.data doc'.root (.map l') ∧ l'.list = l.list ++ es.map (fun a => (a.1, .scalar a.2.reads)) ∧ Stable doc' := by
  rcases List.eq_nil_or_concat es with rfl | ⟨es', e, rfl⟩
  · exact absurd rfl hne
  · rw [List.concat_eq_append] at *
    obtain ⟨k1, k2, k3⟩ := hes e (by simp)
    obtain ⟨r1, r2⟩ := kept_map k1 k2 k3 hb hn
    exact C85_inserts_partial h hs hl hP hR hst hnd hk (fun a ha => by
      obtain ⟨k1, k2, k3⟩ := hes a (by simp [ha])
      exact kept_entry k1 k2 k3) r1 r2

theorem newItems_kept {A : Bytes} : ∀ {vs : List Val}, (∀ v ∈ vs, v.kept = true) → newItems A vs = vs.map fun v => (newItem A v, v)
  | [], _ => rfl
  | v :: vs, h => by rw [newItems, Val.kept_sep (h v (by simp)), newItems_kept (fun w hw => h w (by simp [hw])), List.map_cons]

/-- C85 for sequences, the same. -/
theorem C85_items_partial {x : Bytes} {doc : Document} (h : Parsed x doc) (hs : startsItem false x = true) {l : Elems} (hl : Reads doc.data doc.root (.seq l)) {P R : Bytes}
    (hP : valueText doc.data doc.root = .ok P) (hR : doc.write = .ok (P ++ R)) (hst : StandsSeq (P ++ b! "\n") l.list) (hb : blank R = true) (hn : R.headD NL = NL)
    {L : List Nat} (hL : seqValues doc.data doc.root = .ok L) {w : Nat} (hw : L.getLast? = some w) {auto : Bytes} (ha : doc.data.pre w = .ok auto) (hg : gap auto = true)
    (hws : isWs (auto.headD 0) = true) {vs : List Val} (hne : vs ≠ []) (hvs : ∀ v ∈ vs, v.kept = true) :
    ∃ doc' l', doc.pushes vs = .ok doc' ∧ doc'.write = .ok (P ++ vs.flatMap (fun v => b! "\n" ++ newItem auto v) ++ R) ∧
      Reads doc'.data doc'.root (.seq l') ∧ l'.list = l.list ++ vs.map (fun a => .scalar a.reads) ∧ Stable doc' := by
  rcases List.eq_nil_or_concat vs with rfl | ⟨vs', v, rfl⟩
  · exact absurd rfl hne
  · rw [List.concat_eq_append] at *
    have := C85_pushes_partial h hs hl hP hR hst hL hw ha (vs := vs') (v := v) (by
      intro pre a hpa
      rw [newItems_kept hvs, List.map_append] at hpa
      obtain ⟨hpre, hpa⟩ := List.append_inj' hpa rfl
      subst hpre
      obtain rfl : (newItem auto v, v) = a := by simpa using hpa
      obtain ⟨r1, r2⟩ := kept_seq hg hws (hvs v (by simp)) hb hn
      refine ⟨fun b hb => ?_, r1, r2⟩
      obtain ⟨v', hv', rfl⟩ := List.mem_map.1 hb
      exact kept_item hg hws (hvs v' (by simp [hv'])))
    rwa [newItems_kept hvs, List.flatMap_map] at this

/-! Examples. -/

/-- Three entries after a mapping with a nested one, before an empty line and a comment. -/
example : ∃ doc doc' l', Parsed (b! "a: [1]\nb:\n  c: x\n\n# end\n") doc ∧ doc.inserts [(b! "d", .bool true), (b! "e f", .str (b! "it's")), (b! "g", .str (b! "y z"))] = .ok doc' ∧
    doc'.write = .ok (b! "a: [1]\nb:\n  c: x\nd: true\ne f: \"it's\"\ng: y z\n\n# end\n") ∧ Reads doc'.data doc'.root (.map l') ∧ Stable doc' := by
  have hp : Parsed (b! "a: [1]\nb:\n  c: x\n\n# end\n") (docOfText (b! "a: [1]\nb:\n  c: x\n\n# end\n")) := ⟨40, by decide +kernel⟩
  obtain ⟨doc2, h1, h2⟩ := C57_accepts.2 ((says_iff (x := b! "a: [1]\nb:\n  c: x\n\n# end\n")
    (c := .map (.cons (b! "a") (.seq (.cons (.scalar (.number (b! "1"))) .nil)) (.cons (b! "b") (.map (.cons (b! "c") (.scalar (.string (b! "x"))) .nil)) .nil)))).1 (by decide +kernel))
  obtain rfl : doc2 = docOfText (b! "a: [1]\nb:\n  c: x\n\n# end\n") := by
    have : fromSlice (b! "a: [1]\nb:\n  c: x\n\n# end\n") = .ok (docOfText (b! "a: [1]\nb:\n  c: x\n\n# end\n")) := by decide +kernel
    exact Except.ok.inj (h1.symm.trans this)
  obtain ⟨doc', l', g1, g2, g3, -, g5⟩ := C85_entries_partial hp (by decide) h2 (P := b! "a: [1]\nb:\n  c: x") (R := b! "\n\n# end\n") (by decide +kernel) (by decide +kernel)
    ⟨by decide, by decide, textMap_says.2 (by decide +kernel)⟩ (by decide) (by decide) (es := [(b! "d", .bool true), (b! "e f", .str (b! "it's")), (b! "g", .str (b! "y z"))])
    (by decide) (by decide) (by decide) (by decide +kernel)
  exact ⟨_, doc', l', hp, g1, g2, g3, g5⟩

/-- Two items after a sequence, each with two spaces before it, like the last one. -/
example : ∃ doc doc' l', Parsed (b! "- x\n-  - 2\n") doc ∧ doc.pushes [.number (b! "3") .i8, .str (b! "4")] = .ok doc' ∧
    doc'.write = .ok (b! "- x\n-  - 2\n-  3\n-  '4'\n") ∧ Reads doc'.data doc'.root (.seq l') ∧ Stable doc' := by
  have hp : Parsed (b! "- x\n-  - 2\n") (docOfText (b! "- x\n-  - 2\n")) := ⟨40, by decide +kernel⟩
  obtain ⟨doc2, h1, h2⟩ := C57_accepts.2 ((says_iff (x := b! "- x\n-  - 2\n")
    (c := .seq (.cons (.scalar (.string (b! "x"))) (.cons (.seq (.cons (.scalar (.number (b! "2"))) .nil)) .nil)))).1 (by decide +kernel))
  obtain rfl : doc2 = docOfText (b! "- x\n-  - 2\n") := by
    have : fromSlice (b! "- x\n-  - 2\n") = .ok (docOfText (b! "- x\n-  - 2\n")) := by decide +kernel
    exact Except.ok.inj (h1.symm.trans this)
  obtain ⟨doc', l', g1, g2, g3, -, g5⟩ := C85_items_partial hp (by decide) h2 (P := b! "- x\n-  - 2") (R := b! "\n") (by decide +kernel) (by decide +kernel)
    ⟨by decide, by decide, textSeq_says.2 (by decide +kernel)⟩ (by decide) (by decide) (L := [2, 4]) (by decide +kernel) (w := 4) rfl (auto := b! "  ") (by decide +kernel) (by decide) (by decide)
    (vs := [.number (b! "3") .i8, .str (b! "4")]) (by decide) (by decide +kernel)
  exact ⟨_, doc', l', hp, g1, g2, g3, g5⟩

end Verif
