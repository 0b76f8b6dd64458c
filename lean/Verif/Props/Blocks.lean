import Verif.Props.Grammar
import Verif.Props.Samples
/-
Line breaks at the end of block scalars (C33), and their lines (C53).
-/
namespace Verif

/-- C33 is false: without an indicator all line breaks at the end are kept instead of one; and in a block scalar that is not indented a line break at the end is
kept although the indicator says that there is none. -/
theorem C33_chomp_false :
    (∃ doc, fromSlice (b! "a: |\n  x\n\n\n") = .ok doc ∧
      Reads doc.data doc.root (.map (.cons (b! "a") (.scalar (.string (b! "x\n\n\n"))) .nil))) ∧
    (∃ doc, fromSlice (b! "a: >\n  x\n\nb: c\n") = .ok doc ∧
      Reads doc.data doc.root (.map (.cons (b! "a") (.scalar (.string (b! "x\n\n"))) (.cons (b! "b") (.scalar (.string (b! "c"))) .nil)))) ∧
    ∃ doc, fromSlice (b! "|-\nfoo\n") = .ok doc ∧ Reads doc.data doc.root (.scalar (.string (b! "foo\n"))) := by
  refine ⟨⟨docOfText (b! "a: |\n  x\n\n\n"), by decide, [(b! "a", 2)], ⟨by decide, by decide⟩, 2, [], rfl, ⟨by decide, rfl⟩, rfl⟩,
    ⟨docOfText (b! "a: >\n  x\n\nb: c\n"), by decide, [(b! "a", 2), (b! "b", 4)], ⟨by decide, by decide⟩, 2, [(b! "b", 4)], rfl, ⟨by decide, rfl⟩,
      4, [], rfl, ⟨by decide, rfl⟩, rfl⟩, docOfText (b! "|-\nfoo\n"), by decide, ⟨by decide, rfl⟩⟩

/-- The line breaks at the end of a block scalar with `tail` after its last line. -/
def finalBreaks (tail : Bytes) : Chomp → Bytes
  | .strip => []
  | .clip => if NL ∈ tail then [NL] else []
  | .keep => List.replicate (tail.count NL) NL

/-- C33: the literal or folded block scalar `b` that is the value of a key and is indented, with `tail` after its last line: with `-` there is no line break
at the end of the value, with `+` there are all of `tail`, and without an indicator, if there are at most one, it is kept. -/
theorem C33_chomp_partial {key tail : Bytes} {b : Blk} (hk : keyBlock key = true) (hp : hd key ≠ PCT) (hb : b.ok = true)
    (ht : blank tail = true) (h0 : tail = [] ∨ hd tail = NL) (ha : b.after tail = true) :
    ∃ doc, fromSlice (key ++ b! ": " ++ b.text 0 ++ tail) = .ok doc ∧
      Reads doc.data doc.root (.map (.cons key (.scalar (.string (b.first ++ linesValue b.folded b.lines ++ finalBreaks tail b.chomp))) .nil)) ∧
      doc.write = .ok (key ++ b! ": " ++ b.text 0 ++ tail) := by
  have hk' := hk
  simp only [keyBlock, Bool.and_eq_true, Bool.not_eq_true', bne_iff_ne] at hk'
  obtain ⟨⟨⟨⟨⟨k1, k2⟩, k3⟩, k4⟩, k5⟩, k6⟩ := hk'
  obtain ⟨x, k, rfl⟩ : ∃ x k, key = x :: k := by
    cases key with
    | nil => cases k1
    | cons x k => exact ⟨x, k, rfl⟩
  have e : (⟨[], 0, .coll true (.cons [] (.here 0) (x :: k) (.block b) .nil), tail⟩ : Page).text = x :: k ++ b! ": " ++ b.text 0 ++ tail := by
    simp [Page.text, Y.text, Ys.text, Y.col, Place.sep, COLON, SP]
  obtain ⟨doc, h1, h2, h3⟩ := C47_documents (p := ⟨[], 0, .coll true (.cons [] (.here 0) (x :: k) (.block b) .nil), tail⟩) (by
    simp only [Page.ok, Bool.and_eq_true, bne_iff_ne, ne_eq, Bool.not_eq_true']
    refine ⟨⟨⟨⟨rfl, ?_⟩, ?_, ?_⟩, ?_⟩, ?_⟩
    · simp [Y.ok, Ys.ok, Ys.isNil, hk, Y.isFlow, Place.ok, hb, Ys.beforeOk]
    · simp only [afterOk, ht, Bool.true_and, Bool.or_eq_true, List.isEmpty_iff, beq_iff_eq]; exact .inl h0
    · exact ha
    · exact hp
    · show (DASH == x && _) = false
      rw [show (DASH == x) = false from beq_eq_false_iff_ne.2 (Ne.symm k3)]; rfl)
  rw [e] at h1 h3
  refine ⟨doc, h1, ?_, h3⟩
  have hv : b.value = b.first ++ linesValue b.folded b.lines ++ finalBreaks tail b.chomp := by
    rw [Blk.value]
    congr 1
    simp only [Blk.after, Bool.and_eq_true, Bool.or_eq_true, beq_iff_eq] at ha
    have ha := ha.2
    simp only [Blk.ok, Bool.and_eq_true, Bool.or_eq_true, decide_eq_true_eq] at hb
    have hb := hb.2
    cases hc : b.chomp with
    | strip => rfl
    | keep => rw [hc] at ha; rw [Chomp.final, finalBreaks, (ha.resolve_left (by decide)).1]
    | clip =>
      rw [hc] at ha hb
      have ha := (ha.resolve_left (by decide)).1
      have hb := hb.resolve_left (by decide)
      rw [Chomp.final, finalBreaks]
      split
      · next h => have := List.count_pos_iff.2 h; rw [show b.breaks = 1 by omega]; rfl
      · next h => have := List.count_eq_zero.2 h; rw [show b.breaks = 0 by omega]; rfl
  rw [← hv]
  exact (h2 _).2 rfl

/-- `a: >-`, two lines, blank lines and a comment. -/
example : ∃ doc, fromSlice (b! "a: >-\n  x\n  y\n\n# z\n") = .ok doc ∧ Reads doc.data doc.root (.map (.cons (b! "a") (.scalar (.string (b! "x y"))) .nil)) := by
  obtain ⟨doc, h1, h2, _⟩ := C33_chomp_partial (key := b! "a") (b := ⟨true, .strip, [], 1, b! "x", [(0, b! "y")], 0⟩) (tail := b! "\n\n# z\n")
    (by decide) (by decide) (by decide) (by decide) (by decide) (by decide)
  exact ⟨doc, h1, h2⟩

/-- `a: |+` with all line breaks. -/
example : ∃ doc, fromSlice (b! "a: |+\n x\n\n y\n\n\n") = .ok doc ∧ Reads doc.data doc.root (.map (.cons (b! "a") (.scalar (.string (b! "x\n\ny\n\n\n"))) .nil)) := by
  obtain ⟨doc, h1, h2, _⟩ := C33_chomp_partial (key := b! "a") (b := ⟨false, .keep, [], 0, b! "x", [(1, b! "y")], 3⟩) (tail := b! "\n\n\n")
    (by decide) (by decide) (by decide) (by decide) (by decide) (by decide)
  exact ⟨doc, h1, h2⟩

/-- `a: |` with one line break. -/
example : ∃ doc, fromSlice (b! "a: |\n x\n") = .ok doc ∧ Reads doc.data doc.root (.map (.cons (b! "a") (.scalar (.string (b! "x\n"))) .nil)) := by
  obtain ⟨doc, h1, h2, _⟩ := C33_chomp_partial (key := b! "a") (b := ⟨false, .clip, [], 0, b! "x", [], 1⟩) (tail := b! "\n")
    (by decide) (by decide) (by decide) (by decide) (by decide) (by decide)
  exact ⟨doc, h1, h2⟩

/-! ### C53 -/

/-- C53 is false: the indentation of lines that are further to the right than the first, and the white space at the end of lines, are lost; so are blank lines in
folded block scalars. -/
theorem C53_lines_false :
    (∃ doc, fromSlice (b! "|\n if x:\n   y\n") = .ok doc ∧ asAny doc.data doc.root = .ok (.string (b! "if x:\ny\n"))) ∧
    (∃ doc, fromSlice (b! "|\n x \n y\n") = .ok doc ∧ asAny doc.data doc.root = .ok (.string (b! "x\ny\n"))) ∧
    ∃ doc, fromSlice (b! ">\n x\n\n y\n") = .ok doc ∧ asAny doc.data doc.root = .ok (.string (b! "x y\n")) :=
  ⟨⟨docOfText (b! "|\n if x:\n   y\n"), by decide, by decide⟩, ⟨docOfText (b! "|\n x \n y\n"), by decide, by decide⟩,
    ⟨docOfText (b! ">\n x\n\n y\n"), by decide, by decide⟩⟩

/-- A line of a block scalar: the number of blank lines before it, further indentation, what is on it, and white space at its end. -/
structure Row where
  blanks : Nat
  pad : List Nat
  core : Bytes
  trail : List Nat

/-- The white space may be any of Unicode except line breaks. -/
def Row.ok (r : Row) : Prop := blkLine r.core = true ∧ ∀ w ∈ r.pad ++ r.trail, w ∈ whites ∧ w ≠ 10

/-- The text of the line. -/
def Row.text (r : Row) : Bytes := r.pad.flatMap utf8 ++ (r.core ++ r.trail.flatMap utf8)

/-- The first byte of a white space character is not one that continues another. -/
theorem white_head {w : Nat} (h : w ∈ whites) (hn : w ≠ 10) : ∃ b r, utf8 w = b :: r ∧ (b < 0x80 ∨ 0xC0 ≤ b) ∧ b ≠ HASH ∧ NL ∉ b :: r := by
  have hall : ∀ w ∈ whites, w ≠ 10 → ((utf8 w).headD 0x80 < 0x80 ∨ 0xC0 ≤ (utf8 w).headD 0x80) ∧ (utf8 w).headD 0x80 ≠ HASH ∧ NL ∉ utf8 w := by decide
  obtain ⟨h1, h2, h3⟩ := hall w h hn
  cases hu : utf8 w with
  | nil =>
    rw [hu] at h1
    exact absurd h1 (by decide)
  | cons b r => rw [hu] at h1 h2 h3; exact ⟨b, r, rfl, h1, h2, h3⟩

theorem flat_head {ws : List Nat} (h : ∀ w ∈ ws, w ∈ whites ∧ w ≠ 10) :
    (ws.flatMap utf8 = [] ∨ ∃ b r, ws.flatMap utf8 = b :: r ∧ (b < 0x80 ∨ 0xC0 ≤ b)) ∧ NL ∉ ws.flatMap utf8 ∧ HASH ∉ ws.flatMap utf8 := by
  refine ⟨?_, ?_, ?_⟩
  · cases ws with
    | nil => exact .inl rfl
    | cons w ws =>
      obtain ⟨h1, h2⟩ := h w (by simp)
      obtain ⟨b, r, e, hb, _⟩ := white_head h1 h2
      exact .inr ⟨b, r ++ ws.flatMap utf8, by rw [List.flatMap_cons, e]; rfl, hb⟩
  · intro hm
    obtain ⟨w, hw, hm⟩ := List.mem_flatMap.1 hm
    obtain ⟨b, r, e, _, _, hn⟩ := white_head (h w hw).1 (h w hw).2
    exact hn (e ▸ hm)
  · intro hm
    obtain ⟨w, hw, hm⟩ := List.mem_flatMap.1 hm
    have : ∀ w ∈ whites, HASH ∉ utf8 w := by decide
    exact this w (h w hw).1 hm

theorem Row.trim {r : Row} (h : r.ok) : Verif.trim r.text = r.core := by
  obtain ⟨h1, h2⟩ := blkLine_white h.1
  have hn := (blkLine_iff h.1).1
  unfold Verif.trim Row.text
  rw [trimGo_whites (fun w hw => (h.2 w (by simp [hw])).1), trimGo_none (uniWsLen_next h1 hn (flat_head (fun w hw => h.2 w (by simp [hw]))).1),
    List.reverse_append, trimGo_whitesRev (fun w hw => (h.2 w (by simp [hw])).1), trimGo_none h2, List.reverse_reverse]

theorem Row.core_trail {r : Row} (h : r.ok) : r.core ++ r.trail.flatMap utf8 ≠ [] ∧ NL ∉ r.core ++ r.trail.flatMap utf8 ∧ stopWs (r.core ++ r.trail.flatMap utf8) := by
  obtain ⟨l1, l2, l3, _⟩ := blkLine_iff h.1
  refine ⟨by simp [l1], ?_, by unfold stopWs; rw [hd_append l1]; exact l3⟩
  rw [List.mem_append]
  rintro (hm | hm)
  · exact l2 hm
  · exact (flat_head (fun w hw => h.2 w (by simp [hw]))).2.1 hm

theorem Row.raw {r : Row} (h : r.ok) : RawLine r.text := by
  obtain ⟨l1, l2, l3⟩ := Row.core_trail h
  obtain ⟨_, p2, p3⟩ := flat_head (ws := r.pad) (fun w hw => h.2 w (by simp [hw]))
  unfold Row.text
  generalize r.pad.flatMap utf8 = p at p2 p3
  generalize r.core ++ r.trail.flatMap utf8 = q at l1 l2 l3
  refine ⟨p.takeWhile isOtherWs, p.dropWhile isOtherWs ++ q, by rw [← List.append_assoc, List.takeWhile_append_dropWhile], fun b hb => ?_, ?_, by simp [l1], ?_⟩
  · have := List.all_eq_true.1 (List.all_takeWhile (l := p) (p := isOtherWs)) b hb
    exact this
  · rw [List.mem_append]
    rintro (hm | hm)
    · exact p2 ((List.dropWhile_suffix _).subset hm)
    · exact l2 hm
  · cases hd' : p.dropWhile isOtherWs with
    | nil => exact l3
    | cons b t =>
      have hb : b ∈ p := (List.dropWhile_suffix isOtherWs).subset (by rw [hd']; simp)
      have hw := List.head_dropWhile_not (p := isOtherWs) (l := p) (by rw [hd']; simp)
      simp only [hd', List.head_cons] at hw
      refine ⟨?_, ?_⟩
      · show isWs b = false
        rw [isWs, hw, Bool.false_or, beq_eq_false_iff_ne]
        rintro rfl; exact p2 hb
      · show b ≠ HASH
        rintro rfl; exact p3 hb

/-- The block scalar with these lines, the first of which says how far to the right the scalar is. -/
def blockOf (folded : Bool) (chomp : Chomp) (column : Nat) (first : Row) (rows : List Row) (breaks : Nat) : Bytes :=
  [if folded then GT else PIPE] ++ chomp.text ++ NL :: List.replicate column SP ++ first.text ++
    rows.flatMap (fun r => List.replicate (r.blanks + 1) NL ++ List.replicate column SP ++ r.text) ++ List.replicate breaks NL

/-- C53, what is read: a block scalar is read as what is on its lines without the white space around it, joined by line breaks (as many as there are) or, if
folded, by one space; and the line breaks at its end unless the indicator is `-`.  What is missing is the white space. -/
theorem C53_lines_partial {folded : Bool} {chomp : Chomp} {column : Nat} {first : Row} {rows : List Row} {breaks : Nat} (h0 : 0 < column)
    (h1 : first.ok) (hf0 : first.pad = []) (h2 : ∀ r ∈ rows, r.ok) (h3 : 0 < breaks ∨ folded = false) :
    ∃ doc, fromSlice (blockOf folded chomp column first rows breaks) = .ok doc ∧
      asAny doc.data doc.root = .ok (.string (first.core ++ rows.flatMap (fun r => (if folded then [SP] else List.replicate (r.blanks + 1) NL) ++ r.core) ++
        if chomp = .strip then [] else List.replicate breaks NL)) := by
  obtain ⟨more, rfl⟩ : ∃ m, column = 0 + 1 + m := ⟨column - 1, by omega⟩
  let b : Blk := ⟨folded, chomp, [], more, first.text, rows.map fun r => (r.blanks, r.text), breaks⟩
  have htext : blockOf folded chomp (0 + 1 + more) first rows breaks = b.text 0 ++ List.replicate breaks NL := by
    have : ∀ rows : List Row, linesText (0 + 1 + more) (rows.map fun r => (r.blanks, r.text)) =
        rows.flatMap (fun r => List.replicate (r.blanks + 1) NL ++ List.replicate (0 + 1 + more) SP ++ r.text) := by
      intro rows
      induction rows with
      | nil => rfl
      | cons r rows ih => rw [List.map_cons, linesText, ih]; simp
    show _ = [if folded then GT else PIPE] ++ chomp.text ++ [] ++ linesText (0 + 1 + more) ((0, first.text) :: _) ++ _
    rw [linesText, this]; simp [blockOf]
  have hval : linesValue folded (trimmed b.lines) = rows.flatMap (fun r => (if folded then [SP] else List.replicate (r.blanks + 1) NL) ++ r.core) := by
    show linesValue folded (trimmed (rows.map fun r => (r.blanks, r.text))) = _
    clear htext
    induction rows with
    | nil => rfl
    | cons r rows ih =>
      have ih := ih (fun r hr => h2 r (by simp [hr]))
      simp only [trimmed, List.map_cons, linesValue, List.flatMap_cons] at ih ⊢
      rw [ih, Row.trim (h2 r (by simp))]
  have hft0 : first.text = first.core ++ first.trail.flatMap utf8 := by rw [Row.text, hf0]; rfl
  have hf := hft0 ▸ Row.core_trail h1
  have hb : b.Raws := by
    refine ⟨rfl, by simp [b], .inl rfl, hf, ?_⟩
    intro p hp
    obtain ⟨r, hr, rfl⟩ := List.mem_map.1 hp
    exact Row.raw (h2 r hr)
  have hft : Verif.trim b.first = first.core := Row.trim h1
  rw [htext]
  generalize hinp : b.text 0 ++ List.replicate breaks NL = inp
  have hd0 : inp.drop (0 + (b.text 0).length) = List.replicate breaks NL := by rw [← hinp]; simp
  have hw : wsGo false (List.replicate breaks NL) = (breaks, breaks) := by
    have := wsGo_breaks (j := breaks) (k := 0) (s := []) ⟨rfl, by decide⟩
    simpa using this
  have e1 : wsEnd inp (0 + (b.text 0).length) = inp.length := by rw [wsEnd, hd0, hw, ← hinp]; simp
  have e2 : wsNl inp (0 + (b.text 0).length) = breaks := by rw [wsNl, hd0, hw]
  have hend : indentFrom inp (wsEnd inp (0 + (b.text 0).length)) ≤ 0 ∨ (List.replicate breaks NL = [] ∧ b.folded = false) := by
    rcases Nat.eq_zero_or_pos breaks with rfl | hp
    · exact .inr ⟨rfl, h3.resolve_left (by omega)⟩
    · left
      obtain ⟨k, rfl⟩ : ∃ k, breaks = k + 1 := ⟨breaks - 1, by omega⟩
      have h4 : inp.drop ((b.text 0).length + k) = NL :: List.replicate 0 SP ++ [] := by
        rw [← hinp, List.drop_append, List.replicate_succ']; simp
      have := (Col.line h4).indentFrom
      have hl : inp.length = (b.text 0).length + k + (0 + 1) := by rw [← hinp]; simp; omega
      rw [e1, hl, this]; exact Nat.le_refl _
  have hh : inp.drop 0 = b.text 0 ++ List.replicate breaks NL := by rw [← hinp]; rfl
  have hr : List.replicate breaks NL = [] ∨ hd (List.replicate breaks NL) = NL := by
    cases breaks with
    | zero => exact .inl rfl
    | succ k => exact .inr rfl
  have hlead := lead_mono (f := inp.length + 5) (lead_raw (inl := false) (tab := true) hh hb hr hend) (by omega)
  rw [e1, e2, hval, hft] at hlead
  have ha : peekAt inp 0 = if folded then GT else PIPE := by rw [peek_of hh]; rfl
  have hs : startOfDocument (inp.length + 6) inp = .ok ([], 0) := by
    have hw : wsEnd inp 0 = 0 ∧ wsStr inp 0 = [] := ws_none hh (by
      refine ⟨?_, ?_⟩
      · show isWs (if folded then GT else PIPE) = false
        cases folded <;> rfl
      · show (if folded then GT else PIPE) ≠ HASH
        cases folded <;> decide)
    have e1 : ((if folded then GT else PIPE) == PCT) = false := by cases folded <;> rfl
    have e2 : ((if folded then GT else PIPE) == DASH) = false := by cases folded <;> rfl
    simp only [startOfDocument, startLoop, hw.1, hw.2, ha, e1, e2, Bool.false_and, Bool.false_eq_true, if_false]
  have hp : pparseF (inp.length + 6) inp = .ok (.leaf () [] (.string ⟨.multiline b.header, first.core ++ rows.flatMap (fun r => (if folded then [SP] else
      List.replicate (r.blanks + 1) NL) ++ r.core) ++ (if chomp = .strip then [] else List.replicate breaks NL), b.body 0⟩), wsStr inp (0 + (b.text 0).length)) := by
    simp only [pparseF, hs, bind, Except.bind, pvalue, hlead, pure, Except.pure, wsOr]
    rfl
  refine ⟨_, by rw [fromSlice, parseF_refine, hp], ?_⟩
  have := docOf_holds (.leaf () [] (.string ⟨.multiline b.header, first.core ++ rows.flatMap (fun r => (if folded then [SP] else
      List.replicate (r.blanks + 1) NL) ++ r.core) ++ (if chomp = .strip then [] else List.replicate breaks NL), b.body 0⟩)) (wsStr inp (0 + (b.text 0).length))
  rw [this.root]
  exact asAny_leaf this.rep

/-- Indentation and white space at the end of a line, among it a no-break space. -/
example : ∃ doc, fromSlice (b! "|\n  a\t\n\n    b\u00a0\n  \tc\n") = .ok doc ∧ asAny doc.data doc.root = .ok (.string (b! "a\n\nb\nc\n")) := by
  obtain ⟨doc, h1, h2⟩ := C53_lines_partial (folded := false) (chomp := .clip) (column := 2) (first := ⟨0, [], b! "a", [9]⟩)
    (rows := [⟨1, [32, 32], b! "b", [0xA0]⟩, ⟨0, [9], b! "c", []⟩]) (breaks := 1) (by decide) ⟨by decide, by decide⟩ rfl
    (by simp only [List.mem_cons, List.not_mem_nil, or_false]; rintro r (rfl | rfl) <;> exact ⟨by decide, by decide⟩) (.inl (by decide))
  exact ⟨doc, h1, h2⟩

end Verif
