import Verif.Keep
import Verif.Props.Parser
/-
What unedited documents are written as (C01, C07, C44, C45).
-/
namespace Verif

/-- Whatever relation allows what the parser does to its input holds between the input and what is written. -/
theorem parsed_keep {inp : Bytes} {R : Bytes → Bytes → Prop} (A : Allows inp R) {doc : Document} (h : Parsed inp doc) :
    ∃ out, doc.write = .ok out ∧ R (body inp) out := by
  obtain ⟨f, hf⟩ := h
  rw [parseF_refine] at hf
  cases hp : pparseF f inp with
  | error e => rw [hp] at hf; cases hf
  | ok r =>
    obtain ⟨t, suffix⟩ := r
    rw [hp] at hf
    cases hf
    refine ⟨_, (docOf_holds t suffix).write, ?_⟩
    rw [show (t.label 0).text = t.text by rw [Tree.text, Tree.text, Tree.label_render, Tree.label_pre]]
    exact parse_keep A hp

theorem wsStr_ascii {inp : Bytes} (h : HASH ∉ inp) (n : Nat) : ∀ c ∈ wsStr inp n, isWs c = true := by
  have hb := wsStr_blank inp n
  have hh : HASH ∉ wsStr inp n := fun hm => h (List.mem_of_mem_drop (List.mem_of_mem_take hm))
  generalize wsStr inp n = w at hb hh
  unfold blank at hb
  induction w with
  | nil => simp
  | cons b r ih =>
    simp only [List.mem_cons, not_or] at hh
    rw [blankGo, if_neg (by simpa using fun h => hh.1 h.symm), Bool.and_eq_true] at hb
    intro c hc
    rcases List.mem_cons.1 hc with rfl | hc
    · exact hb.1
    · exact ih hb.2 hh.2 c hc

theorem isWs_ascii {b : UInt8} (h : isWs b = true) : b < 0x80 := by
  rcases (isWs_iff b).1 h with h | h
  · rw [h]; decide
  · exact otherWs_ascii h

theorem wsStr_lossy {inp : Bytes} (h : validUtf8 inp = true ∨ HASH ∉ inp) {n : Nat} (hn : n ≤ inp.length) (hc : Cut inp n) :
    lossy (wsStr inp n) = wsStr inp n := by
  rcases h with h | h
  · exact lossy_valid (valid_slice h hc (wsEnd_cut hn hc))
  · exact lossy_valid (valid_of_ascii fun c hm => isWs_ascii (wsStr_ascii h n c hm))

/-! ### C01 -/

/-- C01 is false.  A `---` before the document is lost. -/
theorem C01_roundtrip_false : ¬ ∀ x doc, Parsed x doc → doc.write = .ok x := by
  intro h
  have h1 : fromSlice (b! "---\nfoo") = .ok (docOf (.leaf () (b! "\n") (.string ⟨.bare, b! "foo", b! "foo"⟩)) []) := by decide
  have := h _ _ (parsed_iff.2 h1)
  revert this
  decide

/-- Is `x` accepted? -/
def accepts (x : Bytes) : Bool := match fromSlice x with | .ok _ => true | .error _ => false

theorem parsed_of_accepts {x : Bytes} (h : accepts x = true) : ∃ doc, Parsed x doc := by
  unfold accepts at h
  split at h
  · next doc hd => exact ⟨doc, parsed_iff.2 hd⟩
  · cases h

/-- What happens to `x` when it is parsed and written. -/
def rewritten (x : Bytes) : Except Stop Bytes := do (← fromSlice x).write

/-- The other deviations from C01, all for accepted documents: directives are lost, missing commas are added, white space
and comments in inline mappings are lost, a comma moves before the line break after a block scalar, a NUL becomes
a colon, an empty block scalar repeats the line breaks after it, and a comment that is not UTF-8 changes. -/
theorem C01_more_false :
    rewritten (b! "%YAML 1.2\nfoo") = .ok (b! "\nfoo") ∧
    rewritten (b! "[1 2]") = .ok (b! "[1, 2]") ∧
    rewritten (b! "{a: 1 b: 2}") = .ok (b! "{a: 1,b: 2}") ∧
    rewritten (b! "{a: 1 }") = .ok (b! "{a: 1}") ∧
    rewritten (b! "{a: 1 # c\n}") = .ok (b! "{a: 1}") ∧
    rewritten (b! "[|\n a\n,b]") = .ok (b! "[|\n a,\nb]") ∧
    rewritten (b! "{a\x00b}") = .ok (b! "{a:b}") ∧
    rewritten (b! "|\n") = .ok (b! "|\n\n") ∧
    rewritten (b! "- a\n#" ++ [0xFF] ++ b! "\n- b") = .ok (b! "- a\n#�\n- b") := by decide

/-- C01, the part that holds without inline collections: a document with no `[`, `{` or header, in which every
block scalar has a body, and which is UTF-8 or has no comments, is written back byte for byte. -/
theorem C01_block_partial (x : Bytes) (doc : Document) (h : Parsed x doc) (hh : hasHeader x = false) (hf : followed x = true)
    (hu : validUtf8 x = true ∨ HASH ∉ x) (hs : LBR ∉ x) (hm : LCB ∉ x) : doc.write = .ok x := by
  have A : Allows x (fun a b => b = a) := {
    refl := fun _ => rfl
    append := fun h1 h2 => by rw [h1, h2]
    comma := fun h => by rcases h with h | h <;> contradiction
    lost := fun h => absurd h hm
    nul := fun h => absurd h hm
    dup := fun h => by rw [hf] at h; cases h
    lossy := fun n hn hc => wsStr_lossy hu hn hc
    swap := fun _ h => absurd h hs }
  obtain ⟨out, h1, h2⟩ := parsed_keep A h
  rw [h1, h2, body_eq hh]

example : ∃ doc x, x = b! "# é\na: 1\nb:\n  - x: y\n    z: ''\n  - |\n    u\n    v\n  - \"w\"\n" ∧ Parsed x doc ∧ hasHeader x = false ∧
    followed x = true ∧ validUtf8 x = true ∧ LBR ∉ x ∧ LCB ∉ x := by
  obtain ⟨doc, h⟩ := parsed_of_accepts
    (x := b! "# é\na: 1\nb:\n  - x: y\n    z: ''\n  - |\n    u\n    v\n  - \"w\"\n") (by decide)
  exact ⟨doc, _, rfl, h, by decide, by decide, by decide, by decide, by decide⟩

/-- Nothing about `#`, commas or NUL bytes tells the texts apart, and what is written is not longer; then they are equal. -/
structure Tidied (x out : Bytes) : Prop where
  hash : out.count HASH ≤ x.count HASH
  rest : out.count HASH = x.count HASH → x.count COMMA ≤ out.count COMMA ∧ out.count 0 ≤ x.count 0 ∧
    (out.count COMMA = x.count COMMA → out.count 0 = x.count 0 → out.length ≤ x.length ∧ (out.length = x.length → out = x))

theorem Tidied.append {a b c d : Bytes} (h1 : Tidied a b) (h2 : Tidied c d) : Tidied (a ++ c) (b ++ d) := by
  have a1 := h1.hash
  have a2 := h2.hash
  refine ⟨by simp only [List.count_append]; omega, ?_⟩
  simp only [List.count_append, List.length_append]
  intro h
  obtain ⟨b1, b2, b3⟩ := h1.rest (by omega)
  obtain ⟨c1, c2, c3⟩ := h2.rest (by omega)
  refine ⟨by omega, by omega, fun e1 e2 => ?_⟩
  obtain ⟨b4, b5⟩ := b3 (by omega) (by omega)
  obtain ⟨c4, c5⟩ := c3 (by omega) (by omega)
  exact ⟨by omega, fun e => by rw [b5 (by omega), c5 (by omega)]⟩

theorem Tidied.refl (a : Bytes) : Tidied a a := ⟨Nat.le_refl _, fun _ => ⟨Nat.le_refl _, Nat.le_refl _, fun _ _ => ⟨Nat.le_refl _, fun _ => rfl⟩⟩⟩

theorem Tidied.of_ws {inp : Bytes} (n : Nat) : Tidied (wsStr inp n) [] := by
  by_cases hh : HASH ∈ wsStr inp n
  · have : 0 < (wsStr inp n).count HASH := List.count_pos_iff.2 hh
    exact ⟨by simp, fun h => by simp at h; omega⟩
  · have hall : ∀ c ∈ wsStr inp n, isWs c = true := by
      have hb := wsStr_blank inp n
      generalize wsStr inp n = w at hb hh
      unfold blank at hb
      induction w with
      | nil => simp
      | cons b r ih =>
        simp only [List.mem_cons, not_or] at hh
        rw [blankGo, if_neg (by simpa using fun h => hh.1 h.symm), Bool.and_eq_true] at hb
        intro c hc
        rcases List.mem_cons.1 hc with rfl | hc
        · exact hb.1
        · exact ih hb.2 hh.2 c hc
    refine ⟨by simp, fun _ => ⟨?_, by simp, fun _ _ => ⟨by simp, fun h => (List.eq_nil_of_length_eq_zero h.symm).symm⟩⟩⟩
    rw [List.count_eq_zero.2 fun hm => absurd (hall _ hm) (by decide)]
    simp

/-- C01, the part that holds with inline collections: unless what is written has fewer `#`, more commas, fewer NUL bytes
or fewer bytes in all than the input, it is the input.  In other words, no deviations are possible but lost comments, added
commas, replaced NUL bytes and lost white space, if the document has no header, no block scalar without a body, no comma after
white space, and is UTF-8 or has no comments. -/
theorem C01_inline_partial (x : Bytes) (doc : Document) (h : Parsed x doc) (hh : hasHeader x = false) (hf : followed x = true)
    (hc : noWsComma x = true) (hu : validUtf8 x = true ∨ HASH ∉ x) :
    ∃ out, doc.write = .ok out ∧ (out = x ∨ out.count HASH < x.count HASH ∨ x.count COMMA < out.count COMMA ∨
      out.count 0 < x.count 0 ∨ out.length < x.length) := by
  have A : Allows x Tidied := {
    refl := Tidied.refl
    append := Tidied.append
    comma := fun _ => ⟨by decide, fun _ => ⟨by decide, by decide, fun h => absurd h (by decide)⟩⟩
    lost := fun _ n _ _ => Tidied.of_ws n
    nul := fun _ _ => ⟨by decide, fun _ => ⟨by decide, by decide, fun _ h => absurd h (by decide)⟩⟩
    dup := fun h => by rw [hf] at h; cases h
    lossy := fun n hn hc => by rw [wsStr_lossy hu hn hc]; exact Tidied.refl _
    swap := fun h => by rw [hc] at h; cases h }
  obtain ⟨out, h1, h2⟩ := parsed_keep A h
  rw [body_eq hh] at h2
  refine ⟨out, h1, ?_⟩
  have h3 := h2.hash
  have h4 := h2.rest
  by_cases e1 : out.count HASH = x.count HASH
  · obtain ⟨h5, h6, h7⟩ := h4 e1
    by_cases e2 : out.count COMMA = x.count COMMA
    · by_cases e3 : out.count 0 = x.count 0
      · obtain ⟨h8, h9⟩ := h7 e2 e3
        by_cases e4 : out.length = x.length
        · exact .inl (h9 e4)
        · exact .inr (.inr (.inr (.inr (by omega))))
      · exact .inr (.inr (.inr (.inl (by omega))))
    · exact .inr (.inr (.inl (by omega)))
  · exact .inr (.inl (by omega))

example : ∃ doc, Parsed (b! "a: [1, {b: c, d: [e]}, \"f\"] # g\nh: |\n  i\n  j\nk: l\n") doc ∧
    hasHeader (b! "a: [1, {b: c, d: [e]}, \"f\"] # g\nh: |\n  i\n  j\nk: l\n") = false ∧
    followed (b! "a: [1, {b: c, d: [e]}, \"f\"] # g\nh: |\n  i\n  j\nk: l\n") = true ∧
    noWsComma (b! "a: [1, {b: c, d: [e]}, \"f\"] # g\nh: |\n  i\n  j\nk: l\n") = true := by
  obtain ⟨doc, h⟩ := parsed_of_accepts (x := b! "a: [1, {b: c, d: [e]}, \"f\"] # g\nh: |\n  i\n  j\nk: l\n") (by decide)
  exact ⟨doc, h, by decide, by decide, by decide⟩

/-! ### C07: everything is consumed -/

/-- `out` has all of `x`, in order, except that blank text may be lost or repeated, commas added, and NUL bytes may have become
colons. -/
inductive Kept : Bytes → Bytes → Prop
  | nil : Kept [] []
  | same (b : UInt8) {x y} : Kept x y → Kept (b :: x) (b :: y)
  | lose (w : Bytes) {x y} : blank w = true → Kept x y → Kept (w ++ x) y
  | add (w : Bytes) {x y} : blank w = true → Kept x y → Kept x (w ++ y)
  | comma {x y} : Kept x y → Kept x (COMMA :: y)
  | nul {x y} : Kept x y → Kept (0 :: x) (COLON :: y)

theorem Kept.refl : ∀ a : Bytes, Kept a a
  | [] => .nil
  | b :: r => .same b (Kept.refl r)

theorem Kept.append {a b c d : Bytes} (h1 : Kept a b) (h2 : Kept c d) : Kept (a ++ c) (b ++ d) := by
  induction h1 with
  | nil => exact h2
  | same b _ ih => exact .same b ih
  | lose w hw _ ih => rw [List.append_assoc]; exact .lose w hw ih
  | add w hw _ ih => rw [List.append_assoc]; exact .add w hw ih
  | comma _ ih => exact .comma ih
  | nul _ ih => exact .nul ih

theorem Kept.swap {a b : Bytes} (ha : blank a = true) (hb : blank b = true) : Kept a b := by
  have := Kept.lose a ha (Kept.add b hb .nil)
  simpa using this

theorem allows_kept (x : Bytes) : Allows x Kept where
  refl := Kept.refl
  append := Kept.append
  comma := fun _ => .comma .nil
  lost := fun _ n _ _ => .swap (wsStr_blank x n) rfl
  nul := fun _ _ => .nul .nil
  dup := fun _ n _ _ => .swap rfl (wsStr_blank x n)
  lossy := fun n _ _ => .swap (wsStr_blank x n) (blankGo_lossy (wsStr_blank x n))
  swap := fun _ _ n _ _ o ho => by
    have hb : blank o = true := by
      rcases ho with rfl | rfl
      · exact wsStr_blank x n
      · exact blankGo_lossy (wsStr_blank x n)
    refine .lose _ (wsStr_blank x n) (.same _ ?_)
    have := Kept.add o hb .nil
    simpa using this

/-- C07: nothing after the header of an accepted document is ignored but white space and comments: all of it is in what is
written, and in order. -/
theorem C07_consumed (x : Bytes) (doc : Document) (h : Parsed x doc) : ∃ out, doc.write = .ok out ∧ Kept (body x) out :=
  parsed_keep (allows_kept x) h

/-- The bytes that are not white space, comma, colon or NUL. -/
def content (s : Bytes) : Bytes := s.filter fun b => !(isWs b || b == COMMA || b == COLON || b == 0)

/-- C07, without comments: exactly the same content is written, byte for byte. -/
theorem C07_content (x : Bytes) (doc : Document) (h : Parsed x doc) (hh : HASH ∉ x) :
    ∃ out, doc.write = .ok out ∧ content out = content (body x) := by
  have hw : ∀ n, content (wsStr x n) = [] := fun n => by
    unfold content
    rw [List.filter_eq_nil_iff]
    intro c hc
    simp [wsStr_ascii hh n c hc]
  have A : Allows x (fun a b => content b = content a) := {
    refl := fun _ => rfl
    append := fun h1 h2 => by unfold content at *; rw [List.filter_append, List.filter_append, h1, h2]
    comma := fun _ => rfl
    lost := fun _ n _ _ => (hw n).symm
    nul := fun _ _ => rfl
    dup := fun _ n _ _ => hw n
    lossy := fun n hn hc => by rw [wsStr_lossy (.inr hh) hn hc]
    swap := fun _ _ n hn hc o ho => by
      have : o = wsStr x n := by rcases ho with h | h <;> simp [h, wsStr_lossy (.inr hh) hn hc]
      rw [this]
      have h1 := hw n
      unfold content at *
      rw [List.filter_append, h1, List.filter_cons]
      simpa using h1 }
  exact parsed_keep A h

example : rewritten (b! "---\n[1, {a: 1 , c: [d e]}, [2 3]]") = .ok (b! "\n[1, {a: 1, c: [d e]}, [2, 3]]") := by decide

/-! ### C44 -/

/-- C44 is false: a comment before a sequence item goes through `Display`. -/
theorem C44_bytes_false : ¬ ∀ x doc, Parsed x doc → hasHeader x = false → followed x = true → LBR ∉ x → LCB ∉ x → doc.write = .ok x := by
  intro h
  have h1 : ∃ doc, fromSlice (b! "- a\n#" ++ [0xFF] ++ b! "\n- b") = .ok doc ∧
      doc.write ≠ .ok (b! "- a\n#" ++ [0xFF] ++ b! "\n- b") := ⟨_, by rfl, by decide⟩
  obtain ⟨doc, h1, h2⟩ := h1
  exact h2 (h _ _ (parsed_iff.2 h1) (by decide) (by decide) (by decide) (by decide))

/-- C44, the part that holds: bytes outside of comments, valid or not, are written unchanged.  Missing: comments before
sequence items. -/
theorem C44_bytes_partial (x : Bytes) (doc : Document) (h : Parsed x doc) (hc : HASH ∉ x) :
    (hasHeader x = false → followed x = true → LBR ∉ x → LCB ∉ x → doc.write = .ok x) ∧
    ∃ out, doc.write = .ok out ∧ content out = content (body x) :=
  ⟨fun hh hf hs hm => C01_block_partial x doc h hh hf (.inr hc) hs hm, C07_content x doc h hc⟩

example : ∃ doc, Parsed (b! "a: " ++ [0xFF, 0x80] ++ b! "\n" ++ [0xC3] ++ b! ": [b, " ++ [0xFE] ++ b! "]") doc := parsed_of_accepts (by decide)

/-! ### C45 -/

/-- C45 is false: `---` and directives are not written. -/
theorem C45_header_false : ¬ ∀ x doc out, Parsed x doc → hasHeader x = true → doc.write = .ok out → hasHeader out = true := by
  intro h
  have h1 : ∃ doc, fromSlice (b! "---\nfoo") = .ok doc ∧ doc.write = .ok (b! "\nfoo") := ⟨_, by rfl, by decide⟩
  obtain ⟨doc, h1, h2⟩ := h1
  exact absurd (h _ _ _ (parsed_iff.2 h1) (by decide) h2) (by decide)

/-- What does happen to a document with a header: what follows the header is written, and nothing else. -/
theorem C45_header_partial (x : Bytes) (doc : Document) (h : Parsed x doc) (hf : followed x = true)
    (hu : validUtf8 x = true ∨ HASH ∉ x) (hs : LBR ∉ x) (hm : LCB ∉ x) : doc.write = .ok (body x) := by
  have A : Allows x (fun a b => b = a) := {
    refl := fun _ => rfl
    append := fun h1 h2 => by rw [h1, h2]
    comma := fun h => by rcases h with h | h <;> contradiction
    lost := fun h => absurd h hm
    nul := fun h => absurd h hm
    dup := fun h => by rw [hf] at h; cases h
    lossy := fun n hn hc => wsStr_lossy hu hn hc
    swap := fun _ h => absurd h hs }
  obtain ⟨out, h1, h2⟩ := parsed_keep A h
  rw [h1, h2]

example : body (b! "%YAML 1.2\n# c\n---\na: b\n") = b! "\na: b\n" := by decide

end Verif
