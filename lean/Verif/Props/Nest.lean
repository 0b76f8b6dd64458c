import Verif.LaidEdits
/-
C87: an entry inserted into a block mapping anywhere in a document, or an item pushed to a block sequence, is read back.  It is written on a line of its own after the last value of the
collection, in the column of the collection.  Whether it is taken for an item of the collection there depends on what the collection ends with, and on what follows.
-/
namespace Verif

/-! ### When no key goes on after the place -/

/-- There is no colon after the place. -/
theorem KeysEnd.noColon {inp : Bytes} {d : Nat} (h : COLON ∉ inp.drop d) : KeysEnd inp d := by
  intro c k lo q _ _ _ hq
  rcases Nat.lt_or_ge q d with h1 | h1
  · exact h1
  · refine absurd (List.mem_of_getElem? (i := q - d) ?_) h
    rw [List.getElem?_drop, show d + (q - d) = q by omega]
    exact hq.2.1

/-- The line ends there, and there are no quotes before. -/
theorem KeysEnd.plain {inp : Bytes} {d : Nat} (h : inp[d]? = some NL) (h1 : DQ ∉ inp.take d) (h2 : SQ ∉ inp.take d) : KeysEnd inp d := by
  intro c k lo q _ _ hlo hq
  rcases Nat.lt_or_ge q d with g | g
  · exact g
  exfalso
  have hdl := (List.getElem?_eq_some_iff.1 h).1
  obtain ⟨q1, q2, q3⟩ := hq
  rcases q3 with q3 | ⟨q3, _, _, q4, _⟩
  · have hlt : lo < q := by omega
    have hin : inp.getD lo 0 ∈ inp.take d := by
      rw [List.getD_eq_getElem?_getD, List.getElem?_eq_getElem (by omega)]
      exact List.mem_take_iff_getElem.2 ⟨lo, by omega, rfl⟩
    have hh := inQuotes_hd q3
    rw [show hd (slice inp lo q) = _ from slice_headD hlt] at hh
    rcases hh with hh | hh
    · rw [hh] at hin; exact h1 hin
    · rw [hh] at hin; exact h2 hin
  · rcases Nat.eq_or_lt_of_le g with rfl | g
    · rw [h] at q2; exact absurd q2 (by decide)
    · refine q4 ?_
      rw [← q3]
      have : (slice inp lo q)[d - lo]? = some NL := by
        rw [slice, List.getElem?_take, if_pos (by omega), List.getElem?_drop, show lo + (d - lo) = d by omega]
        exact h
      exact List.mem_of_getElem? this

theorem laterKey_block {k : Bytes} (h : keyBlock k = true) : laterKey k = true := by
  obtain ⟨h1, h2, h3, h4, h5, h6⟩ := keyBlock_mem h
  refine laterKey_iff.2 ⟨h1, h5, h6, ?_, ?_, ?_⟩
  · cases hw : isWs (k.headD 0) with
    | false => rfl
    | true => rw [isIndicator, hw] at h2; cases h2
  · intro hc
    rw [hc] at h2
    exact absurd h2 (by decide)
  · exact h3

theorem lineBreak_endsLine {inp : Bytes} {d : Nat} (h : inp[d]? = some NL) : (inp.drop d).headD NL = NL ∧ endsLine (inp.drop d) = true := by
  have : (inp.drop d).head? = some NL := by rw [List.head?_drop]; exact h
  have h1 : (inp.drop d).headD NL = NL := by rw [List.headD_eq_head?_getD, this]; rfl
  exact ⟨h1, lineEnds_endsLine (head_lineEnds h1)⟩

theorem Val.kept_text {v : Val} (h : v.kept = true) (n : Nat) : v.newText n = v.newText 0 := by
  cases v with
  | bool b => cases b <;> rfl
  | _ => first | rfl | cases h

theorem Val.kept_nul {v : Val} (h : v.kept = true) : (v.newText 0).headD 0 ≠ 0 := by
  obtain ⟨-, -, -, hne⟩ := Val.kept_token h (R := []) rfl
  cases v with
  | null s => cases h
  | block l b => cases h
  | bool v => cases v <;> decide
  | number s hint =>
    have h : isNumber s = true := h
    show s.headD 0 ≠ 0
    cases s with
    | nil => exact absurd h (by decide)
    | cons b s =>
      rintro rfl
      exact (numChar_ws (isNumber_chars h 0 (List.mem_cons_self ..))).2 rfl
  | str s =>
    show (quoted (preferred s) s).headD 0 ≠ 0
    cases hp : preferred s with
    | single => exact (by decide : SQ ≠ 0)
    | double => exact (by decide : DQ ≠ 0)
    | bare =>
      show s.headD 0 ≠ 0
      cases s with
      | nil =>
        rw [show Val.newText 0 (.str []) = quoted (preferred []) [] from rfl, hp] at hne
        exact absurd rfl hne
      | cons b s =>
        rintro rfl
        have : hasControl (0 :: s) = true := by
          simp only [hasControl, Bool.or_eq_true, List.any_eq_true]
          exact .inl ⟨0, List.mem_cons_self .., by decide⟩
        simp [preferred, this] at hp

/-! ### What does not hold -/

theorem unstable_none {doc : Document} {out : Bytes} (hw : doc.write = .ok out) (hs : says out = none) : ¬ Stable doc := by
  rintro ⟨out', doc', c, g1, g2, g3, g4⟩
  obtain rfl := Except.ok.inj (hw.symm.trans g1)
  rw [says_iff.2 (C57_accepts.1 ⟨doc', g2, g4⟩)] at hs
  cases hs

theorem ReadsSeq.length {d : Data} : ∀ {es : Elems} {l : List Nat}, ReadsSeq d l es → l.length = es.list.length
  | .nil, _, h => by obtain rfl := h; rfl
  | .cons v rest, _, ⟨x, l', h1, h2, h3⟩ => by subst h1; simp [Elems.list, h3.length]

/-- C87 is false: a mapping that starts in the column of the sequence it is in goes on with what is pushed to the sequence. -/
theorem C87_column_false : ¬ ∀ (inp : Bytes) (doc doc' : Document) (x : Nat) (val : Val) (C : Coll), Parsed inp doc → doc.write = .ok inp → Live doc x → doc.data.sequence x = .ok C → C.kind = .block →
    val.kept = true → doc.edit x (.push val) = .ok doc' → Stable doc' := by
  intro h
  refine unstable_none (doc := (docOfText (b! "-\na: 1\n")).after 0 (.push (.bool true))) (out := b! "-\na: 1\n-\ntrue\n") (by decide +kernel) (by decide +kernel) ?_
  exact h (b! "-\na: 1\n") (docOfText (b! "-\na: 1\n")) _ 0 (.bool true) ⟨0, .block, [1]⟩ ⟨40, by decide +kernel⟩ (by decide +kernel) .self (by decide +kernel) rfl rfl (by decide +kernel)

theorem unstable_length {doc : Document} {out : Bytes} {l : List Content} {L : List Nat} (hw : doc.write = .ok out) (hs : TextSeq out l) (hL : seqValues doc.data doc.root = .ok L)
    (hne : L.length ≠ l.length) : ¬ Stable doc := by
  rintro ⟨out', doc', c, g1, g2, g3, g4⟩
  obtain rfl := Except.ok.inj (hw.symm.trans g1)
  obtain ⟨doc2, es, e1, e2, rfl⟩ := hs
  obtain rfl := Except.ok.inj (g2.symm.trans e1)
  obtain rfl := Reads.unique g4 e2
  obtain ⟨L', i1, i2⟩ := g3
  obtain rfl : L' = L := Except.ok.inj (i1.2.symm.trans hL)
  exact hne i2.length

/-- `Closes` for the documents of the examples. -/
def closesB (d : Data) (c : Nat) (m f : Bool) (w : Nat) : Bool :=
  (match valueText d w with | .ok t => (f || !t.isEmpty) && t.headD 0 != PIPE && t.headD 0 != GT | .error _ => true) &&
    (match d.mapping w with | .ok C => C.kind != .block || c < C.indent | .error _ => true) &&
    (match d.sequence w with | .ok C => C.kind != .block || (if m then c ≤ C.indent else c < C.indent) | .error _ => true)

theorem closesB_closes {d : Data} {c : Nat} {m f : Bool} {w : Nat} (h : closesB d c m f w = true) : Closes d c m f w := by
  simp only [closesB, Bool.and_eq_true] at h
  obtain ⟨⟨h1, h2⟩, h3⟩ := h
  refine ⟨fun t ht => ?_, fun C hC hk => ?_, fun C hC hk => ?_⟩
  · rw [ht] at h1
    simp only [Bool.and_eq_true, Bool.or_eq_true, Bool.not_eq_true', bne_iff_ne] at h1
    obtain ⟨⟨h1, h4⟩, h5⟩ := h1
    refine ⟨fun he => ?_, .inl ⟨h4, h5⟩⟩
    subst he
    simpa using h1
  · rw [hC] at h2
    simpa [hk] using h2
  · rw [hC] at h3
    cases m <;> simpa [hk] using h3

/-- All the values that `x` ends with, for the documents of the examples. -/
def endsB (d : Data) (c : Nat) (m f : Bool) : Nat → Nat → Bool
  | 0, _ => false
  | n + 1, x => match lastIn d x with
    | none => true
    | some w => closesB d c m f w && endsB d c m f n w

theorem endsB_all {d : Data} {c : Nat} {m f : Bool} : ∀ {n : Nat} {x : Nat}, endsB d c m f n x = true → ∀ w, EndsWith d x w → closesB d c m f w = true
  | 0, _, h, _, _ => by cases h
  | n + 1, x, h, w, hw => by
    rw [endsB] at h
    cases hw with
    | last hl =>
      rw [hl] at h
      simp only [Bool.and_eq_true] at h
      exact h.1
    | inner hl hi =>
      rw [hl] at h
      simp only [Bool.and_eq_true] at h
      exact endsB_all h.2 _ hi

theorem endsB_ends {d : Data} {c : Nat} {m f : Bool} {n : Nat} {x : Nat} (h : endsB d c m f n x = true) : ∀ w, EndsWith d x w → Closes d c m f w :=
  fun w hw => closesB_closes (endsB_all h w hw)

theorem endsB_plain {d : Data} {c : Nat} {m f : Bool} {n : Nat} {x : Nat} (h : endsB d c m f n x = true) (w : Nat) (hw : EndsWith d x w) (t : Bytes) (ht : valueText d w = .ok t) :
    (t = [] → f = true) ∧ t.headD 0 ≠ PIPE ∧ t.headD 0 ≠ GT := by
  have h1 := endsB_all h w hw
  simp only [closesB, ht, Bool.and_eq_true, Bool.or_eq_true, Bool.not_eq_true', bne_iff_ne] at h1
  obtain ⟨⟨⟨⟨h1, h4⟩, h5⟩, -⟩, -⟩ := h1
  refine ⟨fun he => ?_, h4, h5⟩
  subst he
  simpa using h1

/-- C87 is false: the new item becomes the value of an item without one. -/
theorem C87_missing_false : ¬ ∀ (inp : Bytes) (doc doc' : Document) (x : Nat) (val : Val) (C : Coll), Parsed inp doc → doc.write = .ok inp → Live doc x → doc.data.sequence x = .ok C → C.kind = .block →
    val.kept = true → doc.edit x (.push val) = .ok doc' → (∀ w, EndsWith doc.data x w → Closes doc.data C.indent false true w) → Stable doc' := by
  intro h
  refine unstable_length (doc := (docOfText (b! "- 1\n-\n")).after 0 (.push (.bool true))) (out := b! "- 1\n-\n\n-\ntrue") (by decide +kernel)
    (textSeq_says (l := [.scalar (.number (b! "1")), .seq (.cons (.scalar (.bool true)) .nil)]).2 (by decide +kernel)) (L := [2, 4, 6]) (by decide +kernel) (by decide) ?_
  exact h (b! "- 1\n-\n") (docOfText (b! "- 1\n-\n")) _ 0 (.bool true) ⟨0, .block, [1, 3]⟩ ⟨40, by decide +kernel⟩ (by decide +kernel) .self (by decide +kernel) rfl rfl (by decide +kernel)
    (endsB_ends (n := 3) (by decide +kernel))

/-! ### Inserting -/

/-- C87, what holds for entries: a text that is written as it was read.  `x` is a block mapping anywhere in it, which is at `b` to `d`, does not end with a block scalar
(or with one that keeps no line breaks, see `Strips`), and whose values are further to the right; it may end with a missing value if the new key can be the first key of a mapping (`f`).  A new entry whose value is written as it will be read, followed by the end
of the line, goes after it and is read back, and everything else is read as before.  Not covered: block scalars and missing values as new values, and block scalars before the new entry that keep
line breaks. -/
theorem C87_insert_partial {inp : Bytes} {doc : Document} (h : Parsed inp doc) (hw : doc.write = .ok inp) (hh : hasHeader inp = false) (hf : followed inp = true)
    (hc : noWsComma inp = true ∨ LBR ∉ inp) (hu : validUtf8 inp = true ∨ HASH ∉ inp) {x : Nat} (hx : Live doc x) {old : Bytes} (ho : valueText doc.data x = .ok old) (hn : old.headD 0 ≠ 0)
    {C : Coll} {f : Bool} (hC : doc.data.mapping x = .ok C) (hk : C.kind = .block) (hends : ∀ w, EndsWith doc.data x w → Closes doc.data C.indent true f w) :
    ∃ b d, b < d ∧ d ≤ inp.length ∧ old = slice inp b d ∧ ReadFrom inp doc x b d ∧ C.indent = columnAt inp b ∧
      ∀ key val, mapGet doc.data x key = .ok none → laterKey key = true → (f = true → keyBlock key = true ∧ isWs ((val.sepText (b! " ")).headD 0) = true) → gap (val.sepText (b! " ")) = true → Token false (inp.drop d) (val.newText C.indent) val.reads →
        (val.newText C.indent).headD 0 ≠ 0 → d < inp.length → endsLine (inp.drop d) = true → KeysEnd inp d →
        ∀ out, out = inp.take d ++ (b! "\n" ++ List.replicate C.indent SP ++ key ++ b! ":" ++ val.sepText (b! " ") ++ val.newText C.indent) ++ inp.drop d → hasHeader out = false →
        ∃ doc', doc.edit x (.insert key val) = .ok doc' ∧ doc'.write = .ok out ∧ Stable doc' ∧
          ∀ l, Reads doc.data x (.map l) → ∃ l', Reads doc'.data x (.map l') ∧ l'.list = l.list ++ [(key, .scalar val.reads)] := by
  obtain ⟨t, e0, hl⟩ := h.laid hw hh
  obtain ⟨b, d, h1, h2, h3, h4, h5, hall⟩ := hl.insert hh hf hc hu hx ho hn hC hk hends
  refine ⟨b, d, h1, h2, h3, h4, h5, fun key val a1 a2 a3 a4 a5 a6 a7 a8 a9 out a10 a11 => ?_⟩
  obtain ⟨doc', g1, ⟨t', e1, g2⟩, g3⟩ := hall key val a1 a2 a3 a4 a5 a6 a7 a8 a9 out a10
  exact ⟨doc', g1, g2.write, g2.stable a11, g3⟩

/-- C87 for values that are kept as they are (see C85), at the end of a line. -/
theorem C87_insert_kept {inp : Bytes} {doc : Document} (h : Parsed inp doc) (hw : doc.write = .ok inp) (hh : hasHeader inp = false) (hf : followed inp = true)
    (hc : noWsComma inp = true ∨ LBR ∉ inp) (hu : validUtf8 inp = true ∨ HASH ∉ inp) {x : Nat} (hx : Live doc x) {old : Bytes} (ho : valueText doc.data x = .ok old) (hn : old.headD 0 ≠ 0)
    {C : Coll} (hC : doc.data.mapping x = .ok C) (hk : C.kind = .block) (hends : ∀ w, EndsWith doc.data x w → Closes doc.data C.indent true true w) :
    ∃ b d, b < d ∧ d ≤ inp.length ∧ old = slice inp b d ∧ ReadFrom inp doc x b d ∧
      ∀ key val, mapGet doc.data x key = .ok none → keyBlock key = true → val.kept = true → inp[d]? = some NL → (DQ ∉ inp.take d ∧ SQ ∉ inp.take d ∨ COLON ∉ inp.drop d) →
        ∀ out, out = inp.take d ++ (b! "\n" ++ List.replicate C.indent SP ++ key ++ b! ": " ++ val.newText 0) ++ inp.drop d → hasHeader out = false →
        ∃ doc', doc.edit x (.insert key val) = .ok doc' ∧ doc'.write = .ok out ∧ Stable doc' := by
  obtain ⟨b, d, h1, h2, h3, h4, h5, h6⟩ := C87_insert_partial h hw hh hf hc hu hx ho hn hC hk hends
  refine ⟨b, d, h1, h2, h3, h4, ?_⟩
  intro key val k1 k2 k3 k4 k5 out ho hh'
  obtain ⟨l1, l2⟩ := lineBreak_endsLine k4
  obtain ⟨t1, t2, t3, t4⟩ := Val.kept_token k3 l1
  have e := Val.kept_text k3 C.indent
  have hkeys : KeysEnd inp d := by
    rcases k5 with k5 | k5
    · exact .plain k4 k5.1 k5.2
    · exact .noColon k5
  obtain ⟨doc', g1, g2, g3, -⟩ := h6 key val k1 (laterKey_block k2) (fun _ => ⟨k2, by rw [Val.kept_sep k3]; decide⟩) (by rw [Val.kept_sep k3]; decide) (by rw [e]; exact t1) (by rw [e]; exact Val.kept_nul k3)
    (List.getElem?_eq_some_iff.1 k4).1 l2 hkeys out (by rw [ho, e, Val.kept_sep k3]; simp) hh'
  exact ⟨doc', g1, g2, g3⟩

/-- C87 for a mapping in a mapping, which ends with another one. -/
example : ∃ doc doc', Parsed (b! "a:\n  b: 1\n  c:\n    d: 2\ne: 3\n") doc ∧ doc.edit 2 (.insert (b! "f") (.bool true)) = .ok doc' ∧
    doc'.write = .ok (b! "a:\n  b: 1\n  c:\n    d: 2\n  f: true\ne: 3\n") ∧ Stable doc' := by
  have hp : Parsed (b! "a:\n  b: 1\n  c:\n    d: 2\ne: 3\n") (docOfText (b! "a:\n  b: 1\n  c:\n    d: 2\ne: 3\n")) := ⟨60, by decide +kernel⟩
  obtain ⟨b, d, h1, h2, h3, -, h5, h6⟩ := C87_insert_partial (f := false) hp (by decide +kernel) (by decide +kernel) (by decide +kernel) (.inr (by decide)) (.inr (by decide)) (x := 2)
    (.viaMap [(b! "a", 2), (b! "e", 10)] (b! "a") .self (by decide +kernel) (by decide +kernel) (by decide)) (old := b! "b: 1\n  c:\n    d: 2") (by decide +kernel) (by decide)
    (C := ⟨2, .block, [3, 5]⟩) (by decide +kernel) rfl (endsB_ends (n := 4) (by decide +kernel))
  obtain ⟨rfl, rfl⟩ : b = 5 ∧ d = 23 :=
    (by decide +kernel : ∀ d ≤ 29, ∀ b < d, (b! "b: 1\n  c:\n    d: 2") = slice (b! "a:\n  b: 1\n  c:\n    d: 2\ne: 3\n") b d → b = 5 ∧ d = 23) d h2 b h1 h3
  obtain ⟨doc', g1, g2, g3, -⟩ := h6 (b! "f") (.bool true) (by decide +kernel) (by decide) (fun h => by cases h) (by decide) ((Val.kept_token (v := .bool true) rfl (by decide)).1) (by decide) (by decide)
    (by decide) (.plain (by decide) (by decide) (by decide)) _ rfl (by decide +kernel)
  exact ⟨_, doc', hp, g1, g2, g3⟩

/-- … and for a mapping that ends with a missing value. -/
example : ∃ doc doc', Parsed (b! "a:\n  b: 1\n  c:\nd: 2\n") doc ∧ doc.edit 2 (.insert (b! "e") (.bool true)) = .ok doc' ∧
    doc'.write = .ok (b! "a:\n  b: 1\n  c:\n  e: true\nd: 2\n") ∧ Stable doc' := by
  have hp : Parsed (b! "a:\n  b: 1\n  c:\nd: 2\n") (docOfText (b! "a:\n  b: 1\n  c:\nd: 2\n")) := ⟨60, by decide +kernel⟩
  obtain ⟨b, d, h1, h2, h3, -, h6⟩ := C87_insert_kept hp (by decide +kernel) (by decide +kernel) (by decide +kernel) (.inr (by decide)) (.inr (by decide)) (x := 2)
    (.viaMap [(b! "a", 2), (b! "d", 8)] (b! "a") .self (by decide +kernel) (by decide +kernel) (by decide)) (old := b! "b: 1\n  c:") (by decide +kernel) (by decide)
    (C := ⟨2, .block, [3, 5]⟩) (by decide +kernel) rfl (endsB_ends (n := 4) (by decide +kernel))
  obtain ⟨rfl, rfl⟩ : b = 5 ∧ d = 14 :=
    (by decide +kernel : ∀ d ≤ 20, ∀ b < d, (b! "b: 1\n  c:") = slice (b! "a:\n  b: 1\n  c:\nd: 2\n") b d → b = 5 ∧ d = 14) d h2 b h1 h3
  obtain ⟨doc', g1, g2, g3⟩ := h6 (b! "e") (.bool true) (by decide +kernel) (by decide) rfl (by decide) (.inl (by decide)) _ rfl (by decide +kernel)
  exact ⟨_, doc', hp, g1, g2, g3⟩

/-- … and for a mapping that ends with a block scalar, which keeps no line breaks. -/
example : ∃ doc doc', Parsed (b! "a:\n  b: |-\n    x\n    y\nc: 3\n") doc ∧ doc.edit 2 (.insert (b! "d") (.bool true)) = .ok doc' ∧
    doc'.write = .ok (b! "a:\n  b: |-\n    x\n    y\n  d: true\nc: 3\n") ∧ Stable doc' := by
  have hp : Parsed (b! "a:\n  b: |-\n    x\n    y\nc: 3\n") (docOfText (b! "a:\n  b: |-\n    x\n    y\nc: 3\n")) := ⟨60, by decide +kernel⟩
  obtain ⟨b, d, h1, h2, h3, -, h6⟩ := C87_insert_kept hp (by decide +kernel) (by decide +kernel) (by decide +kernel) (.inr (by decide)) (.inr (by decide)) (x := 2)
    (.viaMap [(b! "a", 2), (b! "c", 6)] (b! "a") .self (by decide +kernel) (by decide +kernel) (by decide)) (old := b! "b: |-\n    x\n    y") (by decide +kernel) (by decide)
    (C := ⟨2, .block, [3]⟩) (by decide +kernel) rfl (fun w hw => by
      have hl4 : lastIn (docOfText (b! "a:\n  b: |-\n    x\n    y\nc: 3\n")).data 4 = none := by decide +kernel
      have hl2 : lastIn (docOfText (b! "a:\n  b: |-\n    x\n    y\nc: 3\n")).data 2 = some 4 := by decide +kernel
      obtain rfl : w = 4 := by
        cases hw with
        | last hl => exact (Option.some.inj (hl2.symm.trans hl)).symm
        | inner hl hi =>
          obtain rfl := Option.some.inj (hl2.symm.trans hl)
          cases hi with
          | last hl => rw [hl4] at hl; cases hl
          | inner hl => rw [hl4] at hl; cases hl
      refine ⟨fun t ht => ⟨fun _ => rfl, .inr ⟨.string (b! "x\ny"), by decide +kernel, ?_⟩⟩, fun C hC => ?_, fun C hC => ?_⟩
      · rw [show valueText (docOfText (b! "a:\n  b: |-\n    x\n    y\nc: 3\n")).data 4 = .ok (b! "|-\n    x\n    y") by decide +kernel] at ht
        obtain rfl := Except.ok.inj ht
        exact ⟨by decide, by decide, by decide +kernel, fun v hv => by cases hv; decide⟩
      · rw [show (docOfText (b! "a:\n  b: |-\n    x\n    y\nc: 3\n")).data.mapping 4 = .error .panic by decide +kernel] at hC; cases hC
      · rw [show (docOfText (b! "a:\n  b: |-\n    x\n    y\nc: 3\n")).data.sequence 4 = .error .panic by decide +kernel] at hC; cases hC)
  obtain ⟨rfl, rfl⟩ : b = 5 ∧ d = 22 :=
    (by decide +kernel : ∀ d ≤ 28, ∀ b < d, (b! "b: |-\n    x\n    y") = slice (b! "a:\n  b: |-\n    x\n    y\nc: 3\n") b d → b = 5 ∧ d = 22) d h2 b h1 h3
  obtain ⟨doc', g1, g2, g3⟩ := h6 (b! "d") (.bool true) (by decide +kernel) (by decide) rfl (by decide) (.inl (by decide)) _ rfl (by decide +kernel)
  exact ⟨_, doc', hp, g1, g2, g3⟩

/-! ### Pushing -/

/-- C87, what holds for items: likewise for a block sequence, and `auto` is the white space before its last value. -/
theorem C87_push_partial {inp : Bytes} {doc : Document} (h : Parsed inp doc) (hw : doc.write = .ok inp) (hh : hasHeader inp = false) (hf : followed inp = true)
    (hc : noWsComma inp = true ∨ LBR ∉ inp) (hu : validUtf8 inp = true ∨ HASH ∉ inp) {x : Nat} (hx : Live doc x) {old : Bytes} (ho : valueText doc.data x = .ok old) (hn : old.headD 0 ≠ 0)
    {C : Coll} (hC : doc.data.sequence x = .ok C) (hk : C.kind = .block) (hends : ∀ w, EndsWith doc.data x w → Closes doc.data C.indent false false w)
    {w : Nat} (hlast : lastIn doc.data x = some w) {auto : Bytes} (hauto : doc.data.pre w = .ok auto) :
    ∃ b d, b < d ∧ d ≤ inp.length ∧ old = slice inp b d ∧ ReadFrom inp doc x b d ∧ C.indent = columnAt inp b ∧
      ∀ val, gap (val.sepText auto) = true → Token false (inp.drop d) (val.newText C.indent) val.reads →
        (val.newText C.indent).headD 0 ≠ 0 → d < inp.length → endsLine (inp.drop d) = true → KeysEnd inp d →
        ∀ out, out = inp.take d ++ (b! "\n" ++ List.replicate C.indent SP ++ b! "-" ++ val.sepText auto ++ val.newText C.indent) ++ inp.drop d → hasHeader out = false →
        ∃ doc', doc.edit x (.push val) = .ok doc' ∧ doc'.write = .ok out ∧ Stable doc' ∧
          ∀ l, Reads doc.data x (.seq l) → ∃ l', Reads doc'.data x (.seq l') ∧ l'.list = l.list ++ [.scalar val.reads] := by
  obtain ⟨t, e0, hl⟩ := h.laid hw hh
  obtain ⟨b, d, h1, h2, h3, h4, h5, hall⟩ := hl.push hh hf hc hu hx ho hn hC hk hends hlast hauto
  refine ⟨b, d, h1, h2, h3, h4, h5, fun val a1 a2 a3 a4 a5 a6 out a7 a8 => ?_⟩
  obtain ⟨doc', g1, ⟨t', e1, g2⟩, g3⟩ := hall val a1 a2 a3 a4 a5 a6 out a7
  exact ⟨doc', g1, g2.write, g2.stable a8, g3⟩

/-- C87 for values that are kept as they are, at the end of a line. -/
theorem C87_push_kept {inp : Bytes} {doc : Document} (h : Parsed inp doc) (hw : doc.write = .ok inp) (hh : hasHeader inp = false) (hf : followed inp = true)
    (hc : noWsComma inp = true ∨ LBR ∉ inp) (hu : validUtf8 inp = true ∨ HASH ∉ inp) {x : Nat} (hx : Live doc x) {old : Bytes} (ho : valueText doc.data x = .ok old) (hn : old.headD 0 ≠ 0)
    {C : Coll} (hC : doc.data.sequence x = .ok C) (hk : C.kind = .block) (hends : ∀ w, EndsWith doc.data x w → Closes doc.data C.indent false false w)
    {w : Nat} (hlast : lastIn doc.data x = some w) {auto : Bytes} (hauto : doc.data.pre w = .ok auto) (hg : gap auto = true) :
    ∃ b d, b < d ∧ d ≤ inp.length ∧ old = slice inp b d ∧ ReadFrom inp doc x b d ∧
      ∀ val, val.kept = true → inp[d]? = some NL → (DQ ∉ inp.take d ∧ SQ ∉ inp.take d ∨ COLON ∉ inp.drop d) →
        ∀ out, out = inp.take d ++ (b! "\n" ++ List.replicate C.indent SP ++ b! "-" ++ auto ++ val.newText 0) ++ inp.drop d → hasHeader out = false →
        ∃ doc', doc.edit x (.push val) = .ok doc' ∧ doc'.write = .ok out ∧ Stable doc' := by
  obtain ⟨b, d, h1, h2, h3, h4, h5, h6⟩ := C87_push_partial h hw hh hf hc hu hx ho hn hC hk hends hlast hauto
  refine ⟨b, d, h1, h2, h3, h4, ?_⟩
  intro val k3 k4 k5 out ho hh'
  obtain ⟨l1, l2⟩ := lineBreak_endsLine k4
  obtain ⟨t1, t2, t3, t4⟩ := Val.kept_token k3 l1
  have e := Val.kept_text k3 C.indent
  have hkeys : KeysEnd inp d := by
    rcases k5 with k5 | k5
    · exact .plain k4 k5.1 k5.2
    · exact .noColon k5
  obtain ⟨doc', g1, g2, g3, -⟩ := h6 val (by rw [Val.kept_sep k3]; exact hg) (by rw [e]; exact t1) (by rw [e]; exact Val.kept_nul k3)
    (List.getElem?_eq_some_iff.1 k4).1 l2 hkeys out (by rw [ho, e, Val.kept_sep k3]) hh'
  exact ⟨doc', g1, g2, g3⟩

/-- C87 for a sequence in a sequence. -/
example : ∃ doc doc', Parsed (b! "- - 1\n  - b: 2\n- 3\n") doc ∧ doc.edit 2 (.push (.bool true)) = .ok doc' ∧ doc'.write = .ok (b! "- - 1\n  - b: 2\n  - true\n- 3\n") ∧ Stable doc' := by
  have hp : Parsed (b! "- - 1\n  - b: 2\n- 3\n") (docOfText (b! "- - 1\n  - b: 2\n- 3\n")) := ⟨60, by decide +kernel⟩
  obtain ⟨b, d, h1, h2, h3, -, h6⟩ := C87_push_kept hp (by decide +kernel) (by decide +kernel) (by decide +kernel) (.inr (by decide)) (.inr (by decide)) (x := 2)
    (.viaSeq [2, 10] .self (by decide +kernel) (by decide +kernel) (by decide)) (old := b! "- 1\n  - b: 2") (by decide +kernel) (by decide)
    (C := ⟨2, .block, [3, 5]⟩) (by decide +kernel) rfl (endsB_ends (n := 4) (by decide +kernel)) (w := 6) (by decide +kernel) (auto := b! " ") (by decide +kernel) (by decide)
  obtain ⟨rfl, rfl⟩ : b = 2 ∧ d = 14 :=
    (by decide +kernel : ∀ d ≤ 19, ∀ b < d, (b! "- 1\n  - b: 2") = slice (b! "- - 1\n  - b: 2\n- 3\n") b d → b = 2 ∧ d = 14) d h2 b h1 h3
  obtain ⟨doc', g1, g2, g3⟩ := h6 (.bool true) rfl (by decide) (.inl (by decide)) _ rfl (by decide +kernel)
  exact ⟨_, doc', hp, g1, g2, g3⟩

end Verif
