import Verif.AgainDoc
import Verif.Props.Echo
/-
Reading again what was written for a text that was not changed (C61).
-/
namespace Verif

/-- What is written for the document is accepted, and says the same. -/
def Stable (doc : Document) : Prop :=
  ∃ out doc' c, doc.write = .ok out ∧ fromSlice out = .ok doc' ∧ Reads doc.data doc.root c ∧ Reads doc'.data doc'.root c

/-- What the text says, if it is accepted. -/
def says (x : Bytes) : Option Content := match pparseF (x.length + 6) x with | .ok r => some r.1.content | .error _ => none

theorem says_iff {x : Bytes} {c : Content} : says x = some c ↔ Accepts x c := by
  rw [← C57_accepts]
  unfold says fromSlice
  rw [parseF_refine]
  cases pparseF (x.length + 6) x with
  | error e => exact ⟨(fun h => by cases h), (fun ⟨_, h, _⟩ => by cases h)⟩
  | ok r =>
    refine ⟨fun h => ?_, fun ⟨doc, h1, h2⟩ => ?_⟩
    · cases h; exact ⟨_, rfl, docOf_reads _ _⟩
    · cases h1; exact congrArg some ((docOf_reads r.1 r.2).unique h2)

theorem unstable {x out : Bytes} {doc : Document} (h : Parsed x doc) (hr : rewritten x = .ok out) (hs : says x ≠ says out) : ¬ Stable doc := by
  rintro ⟨out', doc', c, h1, h2, h3, h4⟩
  rw [parsed_iff] at h
  have hr : doc.write = .ok out := by unfold rewritten at hr; rw [h] at hr; exact hr
  rw [hr] at h1
  cases h1
  exact hs (by rw [says_iff.2 (C57_accepts.1 ⟨doc, h, h3⟩), says_iff.2 (C57_accepts.1 ⟨doc', h2, h4⟩)])

/-- C61 is false.  What is written here is refused: the bracket is on the last line of the block scalar. -/
theorem C61_false : ¬ ∀ x doc, Parsed x doc → Stable doc := by
  intro h
  obtain ⟨doc, hp⟩ := parsed_of_accepts (x := b! "{a: |-\n c\n}") (by decide)
  exact unstable hp (out := b! "{a: |-\n c}") (by decide) (by decide) (h _ _ hp)

/-- Other texts for which C61 fails.  A second `---` is taken for a header; after `|` and a line break there is one more; a comma is written into
the block scalar; the first row is moved to the left together with its header, the others are not; a comment with a `: ` made the rest of the line a value. -/
theorem C61_more_false :
    (rewritten (b! "------") = .ok (b! "---") ∧ says (b! "------") ≠ says (b! "---")) ∧
    (rewritten (b! "|\n") = .ok (b! "|\n\n") ∧ says (b! "|\n") ≠ says (b! "|\n\n")) ∧
    (rewritten (b! "[|\n b\n,'a']") = .ok (b! "[|\n b,\n'a']") ∧ says (b! "[|\n b\n,'a']") ≠ says (b! "[|\n b,\n'a']")) ∧
    (rewritten (b! "--- - a\n    - b") = .ok (b! " - a\n    - b") ∧ says (b! "--- - a\n    - b") ≠ says (b! " - a\n    - b")) ∧
    (rewritten (b! " - {a: 1\n}- b") = .ok (b! " - {a: 1}- b") ∧ says (b! " - {a: 1\n}- b") ≠ says (b! " - {a: 1}- b")) ∧
    (rewritten (b! "z:\na:{b:1 # x: y\n}\n") = .ok (b! "z:\na:{b:1}\n") ∧ says (b! "z:\na:{b:1 # x: y\n}\n") ≠ says (b! "z:\na:{b:1}\n")) := by
  decide +kernel

/-- What is written may be written in another way again, even where C61 holds. -/
theorem C61_again_false : rewritten (b! "{a: 1 b: 2 }") = .ok (b! "{a: 1,b: 2 }") ∧ rewritten (b! "{a: 1,b: 2 }") = .ok (b! "{a: 1,b: 2}") := by
  decide +kernel

/-- C61 for texts that are an inline collection, like JSON: if none of the values is a block scalar, then what is written is accepted and says the same. -/
theorem C61_inline_partial {x : Bytes} {doc : Document} (h : Parsed x doc)
    (hb : (skipBlank false (body x)).headD 0 = LBR ∨ (skipBlank false (body x)).headD 0 = LCB)
    (hl : ∀ v s, Live doc v → valueText doc.data v = .ok s → s.headD 0 ≠ PIPE ∧ s.headD 0 ≠ GT) : Stable doc := by
  obtain ⟨f, hf⟩ := h
  rw [parseF_refine] at hf
  cases hp : pparseF f x with
  | error e => rw [hp] at hf; cases hf
  | ok r =>
    obtain ⟨t, suffix⟩ := r
    rw [hp] at hf
    cases hf
    have hh := docOf_holds t suffix
    have hn : t.all notLines := by
      refine Tree.all_unlabel 0 (Tree.all_of_find hh.nodup fun v i p s hv => ?_)
      obtain ⟨q, ha⟩ := hh.at hv
      exact hl v _ ((hh.live_iff v).2 ⟨_, hv⟩) ha.text
    obtain ⟨doc', h1, h2⟩ := accepted (again_of hp hb hn)
    exact ⟨_, doc', _, docOf_write t suffix, h1, docOf_reads t suffix, h2⟩

private theorem no_lines {doc : Document} (h : (List.range doc.data.slab.slots.length).all (fun v => match valueText doc.data v with
    | .ok s => s.headD 0 != PIPE && s.headD 0 != GT | .error _ => true) = true) :
    ∀ v s, Live doc v → valueText doc.data v = .ok s → s.headD 0 ≠ PIPE ∧ s.headD 0 ≠ GT := by
  intro v s _ hs
  by_cases hv : v < doc.data.slab.slots.length
  · have := List.all_eq_true.1 h v (List.mem_range.2 hv)
    simpa [hs] using this
  · exfalso
    revert hs
    simp [valueText, Data.raw, Data.entry, Slab.get, List.getElem?_eq_none (Nat.le_of_not_lt hv), bind, Except.bind]

/-- Commas are added, white space and comments are lost, and so is the `---`. -/
example : rewritten (b! "--- # x\n[{a: 1 # y\n b: 'c' },,[~\t] 2] # z") = .ok (b! " # x\n[{a: 1,b: 'c' },,[~\t], 2] # z") ∧
    Stable (docOfText (b! "--- # x\n[{a: 1 # y\n b: 'c' },,[~\t] 2] # z")) :=
  ⟨by decide +kernel, C61_inline_partial (x := b! "--- # x\n[{a: 1 # y\n b: 'c' },,[~\t] 2] # z") ⟨60, by decide +kernel⟩ (by decide +kernel) (no_lines (by decide +kernel))⟩

/-- C61 for texts laid out in lines, like most block documents. -/
theorem C61_lines_partial {x : Bytes} {doc : Document} (h : Parsed x doc) (hl : Lined x doc) : Stable doc := by
  obtain ⟨f, hf⟩ := h
  rw [parseF_refine] at hf
  cases hp : pparseF f x with
  | error e => rw [hp] at hf; cases hf
  | ok r =>
    obtain ⟨t, suffix⟩ := r
    rw [hp] at hf
    cases hf
    have hh := docOf_holds t suffix
    suffices hs : ∃ b : Bool, (b = true → ∀ i, peekAt x i = COLON → peekAt x (i + 1) ≠ HASH) ∧ t.neat b by
      obtain ⟨b, h1, h2⟩ := hs
      obtain ⟨doc', h1, h2⟩ := accepted (again_lines hp h1 h2 hl.start hl.once)
      exact ⟨_, doc', _, docOf_write t suffix, h1, docOf_reads t suffix, h2⟩
    have hlive : ∀ y w, (t.label 0).find y = some w → Live (docOf t suffix) y := fun y w hy => (hh.live_iff y).2 ⟨w, hy⟩
    rcases hl.holes with h0 | ⟨h0, h1⟩
    · refine ⟨false, (fun h => by cases h), Tree.neat_unlabel 0 (Tree.neat_of (L := Live (docOf t suffix)) (fun v s hv hs => ⟨hl.lines v s hv hs, fun _ hn => ?_⟩) hl.inline
        (fun c k i hc h1 h2 h3 => ⟨hl.rows c i hc ⟨k, h1, h2, h3⟩, (fun h => by cases h)⟩) hh.rep hh.nodup hlive)⟩
      exact h0 v hv (by rw [hs, hn])
    · exact ⟨true, fun _ i h2 h3 => h0 i (peek_some h2 (by decide)) (peek_some h3 (by decide)),
        Tree.neat_unlabel 0 (Tree.neat_of (L := Live (docOf t suffix)) (fun v s hv hs => ⟨hl.lines v s hv hs, (fun h => by cases h)⟩) hl.inline
        (fun c k i hc h2 h3 h4 => ⟨hl.rows c i hc ⟨k, h2, h3, h4⟩, fun _ key v s h5 h6 => h1 c i hc ⟨k, h2, h3, h4⟩ key v s h5 h6⟩) hh.rep hh.nodup hlive)⟩

/-- The conditions of `Lined`, checked for all ids. -/
private def children (d : Data) (v : Nat) : List Nat :=
  (match seqValues d v with | .ok l => l | .error _ => []) ++ (match mapEntries d v with | .ok l => l.map (·.2) | .error _ => [])

private def under (d : Data) : Nat → List Nat → List Nat
  | 0, s => s
  | n + 1, s => under d n (s ++ (s.flatMap (children d)).filter (!s.contains ·))

private def later (d : Data) (c : Nat) : List Nat :=
  match d.raw c with
  | .ok (.sequence k) | .ok (.mapping k) => if k.kind = .block then k.items.tail else []
  | _ => []

private def spacedB (d : Data) (i : Nat) : Bool :=
  let text (v : Nat) := match valueText d v with | .ok s => (prefixOf d v ++ s).isEmpty || isWs ((prefixOf d v ++ s).headD 0) | .error _ => true
  match d.raw i with
  | .ok (.sequenceItem v) => text v
  | .ok (.mappingItem key v) => text v && key.write.headD 0 != DQ && key.write.headD 0 != SQ
  | _ => true

private def noText (d : Data) (v : Nat) : Bool := match valueText d v with | .ok s => s.isEmpty | .error _ => false

private def isLines (d : Data) (v : Nat) : Bool := match valueText d v with | .ok s => s.headD 0 == PIPE || s.headD 0 == GT | .error _ => false

private def emptyLines (d : Data) (v : Nat) : Bool := match valueText d v with | .ok s => blank (s.dropWhile (· != NL)) | .error _ => false

private def flows (d : Data) (v : Nat) : Bool := match valueText d v with | .ok s => s.headD 0 == LBR || s.headD 0 == LCB | .error _ => false

private def linedB (x : Bytes) (doc : Document) : Bool :=
  let d := doc.data
  let ids := List.range d.slab.slots.length
  (!hasHeader x || (leadBlank (body x)).contains NL) && !hasHeader (body x) &&
  ids.all (fun c => (later d c).all fun i => (prefixOf d i).contains NL) &&
  ids.all (fun v => !isLines d v || !emptyLines d v) &&
  ids.all (fun c => !flows d c || (let s := under d 10 [c]; s.contains c && s.all fun v => !isLines d v && (children d v).all s.contains)) &&
  (ids.all (fun v => !noText d v) ||
    (List.range x.length).all (fun i => !(x[i]? == some COLON && x[i + 1]? == some HASH)) && ids.all (fun c => (later d c).all (spacedB d)))

private theorem id_lt {d : Data} {v : Nat} {r : Raw} (h : d.raw v = .ok r) : v < d.slab.slots.length := by
  refine Nat.lt_of_not_le fun hv => ?_
  revert h
  simp [Data.raw, Data.entry, Slab.get, List.getElem?_eq_none hv, bind, Except.bind]

private theorem text_lt {d : Data} {v : Nat} {s : Bytes} (h : valueText d v = .ok s) : v < d.slab.slots.length := by
  cases hr : d.raw v with
  | error e => simp [valueText, hr, bind, Except.bind] at h
  | ok r => exact id_lt hr

private theorem later_iff {d : Data} {c i : Nat} (h : LaterItem d c i) : c < d.slab.slots.length ∧ i ∈ later d c := by
  obtain ⟨k, h1, h2, h3⟩ := h
  rcases h1 with h1 | h1
  · exact ⟨id_lt h1, by simp [later, h1, h2, h3]⟩
  · exact ⟨id_lt h1, by simp [later, h1, h2, h3]⟩

private theorem lined_of {x : Bytes} {doc : Document} (h : linedB x doc = true) : Lined x doc := by
  simp only [linedB, Bool.and_eq_true, Bool.or_eq_true, Bool.not_eq_true', List.all_eq_true, List.mem_range, List.contains_iff_mem] at h
  obtain ⟨⟨⟨⟨⟨h1, h2⟩, h3⟩, h4⟩, h5⟩, h6⟩ := h
  refine ⟨h1, h2, fun c i _ hi => h3 c (later_iff hi).1 i (later_iff hi).2, fun v s _ hs hb => ?_, fun c v s _ hc hb hs => ?_, ?_⟩
  · rcases h4 v (text_lt hs) with h | h
    · exfalso
      simp only [isLines, hs, Bool.or_eq_false_iff, beq_eq_false_iff_ne] at h
      exact hb.elim h.1 h.2
    · simpa [emptyLines, hs] using h
  · have hf : ∃ o, valueText doc.data c = .ok o ∧ (o.headD 0 = LBR ∨ o.headD 0 = LCB) := by
      refine Classical.byContradiction fun hn => hc fun o ho => ?_
      refine ⟨fun h => hn ⟨o, ho, .inl h⟩, fun h => hn ⟨o, ho, .inr h⟩⟩
    obtain ⟨o, ho, hf⟩ := hf
    rcases h5 c (text_lt ho) with h | ⟨g1, g2⟩
    · exfalso
      simp only [flows, ho, Bool.or_eq_false_iff, beq_eq_false_iff_ne] at h
      exact hf.elim h.1 h.2
    · have hmem : v ∈ under doc.data 10 [c] := by
        clear hs
        induction hb with
        | self => exact g1
        | step _ hc ih =>
          refine (g2 _ ih).2 _ ?_
          rcases hc with ⟨l, _, h1, h2⟩ | ⟨l, k, _, h1, h2⟩
          · simp [children, h1, h2]
          · simp only [children, h1, List.mem_append]
            exact .inr (List.mem_map.2 ⟨_, h2, rfl⟩)
      have := (g2 v hmem).1
      simpa [isLines, hs] using this
  · rcases h6 with h6 | ⟨h6, h7⟩
    · refine .inl fun v _ hv => ?_
      have := h6 v (text_lt hv)
      simp [noText, hv] at this
    · refine .inr ⟨fun i e1 e2 => ?_, fun c i _ hi => ?_⟩
      · have := h6 i (List.getElem?_eq_some_iff.1 e1).1
        simp [e1, e2] at this
      · have := h7 c (later_iff hi).1 i (later_iff hi).2
        intro key v s hr hs
        rcases hr with hr | hr
        · simp only [spacedB, hr, hs] at this
          refine ⟨by simpa using this, fun h => ?_⟩
          rw [hr] at h; cases h
        · simp only [spacedB, hr, hs] at this
          simp only [Bool.and_eq_true, Bool.or_eq_true, List.isEmpty_iff, bne_iff_ne] at this
          exact ⟨this.1.1, fun _ => ⟨this.1.2, this.2⟩⟩

/-- A header, comments, a sequence in a mapping, a block scalar, an inline mapping and a key without a value.  The `---` and some white space are lost. -/
example : rewritten (b! "---\n# x\na:\n  - 1 # one\n  - |\n    b\n\n    c\n\n  - {d: 'e' ,f: ~ }\nk:\nz: 2\n") =
      .ok (b! "\n# x\na:\n  - 1 # one\n  - |\n    b\n\n    c\n\n  - {d: 'e',f: ~ }\nk:\nz: 2\n") ∧
    Stable (docOfText (b! "---\n# x\na:\n  - 1 # one\n  - |\n    b\n\n    c\n\n  - {d: 'e' ,f: ~ }\nk:\nz: 2\n")) :=
  ⟨by decide +kernel, C61_lines_partial (x := b! "---\n# x\na:\n  - 1 # one\n  - |\n    b\n\n    c\n\n  - {d: 'e' ,f: ~ }\nk:\nz: 2\n") ⟨120, by decide +kernel⟩
    (lined_of (by decide +kernel))⟩

end Verif
