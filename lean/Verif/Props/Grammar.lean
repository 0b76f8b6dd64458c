import Verif.Props.Ints
import Verif.Props.RoundTrip
/-
Documents of the grammar (C13, C32, C47, C48).
-/
namespace Verif

theorem asAny_scalar {d : Data} {x : Nat} {a : AnyV} (h : asAny d x = .ok a) (hs : a.isScalar = true) :
    asMapping d x = .ok none ∧ asSequence d x = .ok none := by
  unfold asAny at h
  unfold asMapping asSequence
  cases hr : d.raw x with
  | error e => rw [hr] at h; cases h
  | ok r =>
    rw [hr] at h
    cases r <;> simp_all [bind, Except.bind, pure, Except.pure]
    all_goals subst h; cases hs

theorem map_not_seq {d : Data} {x : Nat} (h : asMapping d x = .ok (some x)) : asSequence d x = .ok none := by
  unfold asMapping at h
  unfold asSequence
  cases hr : d.raw x with
  | error e => rw [hr] at h; cases h
  | ok r => rw [hr] at h; cases r <;> simp_all [bind, Except.bind, pure, Except.pure]

mutual
/-- What a value says is determined. -/
theorem Reads.unique {d : Data} : ∀ {a b : Content} {x : Nat}, Reads d x a → Reads d x b → a = b
  | .scalar a, .scalar b, x, h1, h2 => by
    have := h1.1.symm.trans h2.1
    cases this; rfl
  | .scalar a, .map b, x, h1, ⟨_, h2, _⟩ => by have := (asAny_scalar h1.1 h1.2).1.symm.trans h2.1; cases this
  | .scalar a, .seq b, x, h1, ⟨_, h2, _⟩ => by have := (asAny_scalar h1.1 h1.2).2.symm.trans h2.1; cases this
  | .map b, .scalar a, x, ⟨_, h2, _⟩, h1 => by have := (asAny_scalar h1.1 h1.2).1.symm.trans h2.1; cases this
  | .seq b, .scalar a, x, ⟨_, h2, _⟩, h1 => by have := (asAny_scalar h1.1 h1.2).2.symm.trans h2.1; cases this
  | .map a, .seq b, x, ⟨_, h1, _⟩, ⟨_, h2, _⟩ => by have := (map_not_seq h1.1).symm.trans h2.1; cases this
  | .seq b, .map a, x, ⟨_, h2, _⟩, ⟨_, h1, _⟩ => by have := (map_not_seq h1.1).symm.trans h2.1; cases this
  | .map a, .map b, x, ⟨l, h1, h3⟩, ⟨l', h2, h4⟩ => by
    have := h1.2.symm.trans h2.2
    cases this
    rw [ReadsMap.unique h3 h4]
  | .seq a, .seq b, x, ⟨l, h1, h3⟩, ⟨l', h2, h4⟩ => by
    have := h1.2.symm.trans h2.2
    cases this
    rw [ReadsSeq.unique h3 h4]
theorem ReadsMap.unique {d : Data} : ∀ {a b : Entries} {l : List (Bytes × Nat)}, ReadsMap d l a → ReadsMap d l b → a = b
  | .nil, .nil, l, _, _ => rfl
  | .nil, .cons _ _ _, l, h1, ⟨_, _, h2, _⟩ => by rw [show l = [] from h1] at h2; cases h2
  | .cons _ _ _, .nil, l, ⟨_, _, h2, _⟩, h1 => by rw [show l = [] from h1] at h2; cases h2
  | .cons k v r, .cons k' v' r', l, ⟨x, l1, h1, h2, h3⟩, ⟨x', l2, h1', h2', h3'⟩ => by
    rw [h1] at h1'; cases h1'
    rw [Reads.unique h2 h2', ReadsMap.unique h3 h3']
theorem ReadsSeq.unique {d : Data} : ∀ {a b : Elems} {l : List Nat}, ReadsSeq d l a → ReadsSeq d l b → a = b
  | .nil, .nil, l, _, _ => rfl
  | .nil, .cons _ _, l, h1, ⟨_, _, h2, _⟩ => by rw [show l = [] from h1] at h2; cases h2
  | .cons _ _, .nil, l, ⟨_, _, h2, _⟩, h1 => by rw [show l = [] from h1] at h2; cases h2
  | .cons v r, .cons v' r', l, ⟨x, l1, h1, h2, h3⟩, ⟨x', l2, h1', h2', h3'⟩ => by
    rw [h1] at h1'; cases h1'
    rw [Reads.unique h2 h2', ReadsSeq.unique h3 h3']
end

/-! ### C47 -/

/-- C47: every document of the grammar — nested mappings and sequences in block and inline style, with any consistent
indentation, comments, blank lines, quotes, block scalars and keys without a value — is accepted, reads as what it says and as nothing else, and is written back
unchanged. -/
theorem C47_documents {p : Page} (hp : p.ok false = true) :
    ∃ doc, fromSlice p.text = .ok doc ∧ (∀ c, Reads doc.data doc.root c ↔ c = p.body.val) ∧ doc.write = .ok p.text := by
  obtain ⟨doc, h1, h2⟩ := parse_page hp
  exact ⟨doc, parsed_iff.1 h1, fun c => ⟨fun h => h.unique h2.reads, fun h => h ▸ h2.reads⟩, h2.write⟩

/-- What the sample of `Verif.Grammar` says. -/
def sampleContent : Content :=
  .map (.cons (b! "a") (.scalar (.number (b! "-12.5e3"))) (.cons (b! "list of things") (.seq
    (.cons (.map (.cons (b! "x") (.scalar (.string (b! "it's"))) (.cons (b! "y") (.scalar .null) .nil)))
    (.cons (.map (.cons (b! "k") (.seq (.cons (.scalar (.number (b! "1"))) (.cons (.scalar (.string (b! "p\tq"))) .nil))) (.cons (b! "l") (.seq .nil) .nil)))
    (.cons (.seq (.cons (.seq (.cons (.scalar (.string (b! "http://x y"))) .nil)) .nil)) .nil))))
    (.cons (b! "level") (.seq (.cons (.scalar .null) (.cons (.scalar (.string (b! "one\n\n- two\nthree: 3\n\n"))) (.cons (.scalar (.string (b! "x y"))) .nil))))
    (.cons (b! "none") (.scalar .null) (.cons (b! "last") (.scalar (.string (b! "end\n"))) .nil)))))

set_option maxRecDepth 4000 in
example : ∃ doc, fromSlice samplePage.text = .ok doc ∧ Reads doc.data doc.root sampleContent ∧ doc.write = .ok samplePage.text := by
  obtain ⟨doc, h1, h2, h3⟩ := C47_documents (p := samplePage) (by decide)
  exact ⟨doc, h1, (h2 _).2 (by decide), h3⟩

/-! ### C48 -/

theorem flow_hd {m : Bool} {items : Fs} : hd (F.coll m items).text = if m then LCB else LBR := by
  rw [F.text]; rfl

/-- C48: every inline collection, nested as one likes, with any white space and comments before its items and after its
colons, is accepted, reads as what it says and as nothing else, and is written back unchanged. -/
theorem C48_inline {m : Bool} {items : Fs} (h : items.ok m = true) :
    ∃ doc, fromSlice (F.coll m items).text = .ok doc ∧ (∀ c, Reads doc.data doc.root c ↔ c = (F.coll m items).val) ∧
      doc.write = .ok (F.coll m items).text := by
  have hh := flow_hd (m := m) (items := items)
  have hok : Page.ok false ⟨[], 0, .flow (.coll m items), []⟩ = true := by
    simp only [Page.ok, Bool.and_eq_true, bne_iff_ne, ne_eq, Bool.not_eq_true']
    refine ⟨⟨⟨⟨rfl, ?_⟩, rfl, rfl⟩, ?_⟩, ?_⟩
    · rw [Y.ok, F.ok]; exact h
    · rw [Y.text]; show ¬ hd (F.coll m items).text = PCT; rw [hh]; cases m <;> decide
    · rw [Y.text, F.text]; cases m <;> rfl
  have := C47_documents hok
  simpa [Page.text, Y.text, Y.val] using this

/-- `{ k: [1, ['two']], l: {}}`. -/
example : ∃ doc, fromSlice (b! "{ k: [1, ['two']], l: {}}") = .ok doc ∧
    Reads doc.data doc.root (.map (.cons (b! "k") (.seq (.cons (.scalar (.number (b! "1"))) (.cons (.seq (.cons (.scalar (.string (b! "two"))) .nil)) .nil)))
      (.cons (b! "l") (.map .nil) .nil))) ∧ doc.write = .ok (b! "{ k: [1, ['two']], l: {}}") := by
  obtain ⟨doc, h1, h2, h3⟩ := C48_inline (m := true) (items := .cons (b! " ") (b! "k") (b! " ") (.coll false (.cons [] [] [] (.atom (.plain (b! "1")))
    (.cons (b! " ") [] [] (.coll false (.cons [] [] [] (.atom (.single (b! "two"))) .nil)) .nil))) (.cons (b! " ") (b! "l") (b! " ") (.coll true .nil) .nil)) (by decide)
  exact ⟨doc, h1, (h2 _).2 (by decide), h3⟩

/-! ### C32 -/

/-- Documents of one scalar. -/
theorem parse_atom {a : Atom} (ha : a.ok false = true) (h1 : hd a.text ≠ PCT) (h2 : (b! "---").isPrefixOf a.text = false) :
    ∃ doc, fromSlice a.text = .ok doc ∧ asAny doc.data doc.root = .ok a.value := by
  obtain ⟨doc, h, hr, _⟩ := C47_documents (p := ⟨[], 0, .flow (.atom a), []⟩) (by
    simp only [Page.ok, Bool.and_eq_true, bne_iff_ne, ne_eq, Bool.not_eq_true']
    exact ⟨⟨⟨⟨rfl, ha⟩, rfl, rfl⟩, h1⟩, h2⟩)
  refine ⟨doc, ?_, ((hr _).2 rfl).1⟩
  simpa [Page.text, Y.text, F.text] using h

theorem isNumber_first {s : Bytes} (h : isNumber s = true) : hd s = DASH ∨ isDigit (hd s) = true ∨ hd s = 46 := by
  cases s with
  | nil => revert h; decide
  | cons b r =>
    show b = DASH ∨ isDigit b = true ∨ b = 46
    by_cases hb : b = DASH
    · exact .inl hb
    · right
      cases hd : isDigit b with
      | true => exact .inl rfl
      | false =>
        right
        simp only [isNumber, List.head?_cons, Option.some.injEq, hb, if_false, List.takeWhile_cons, hd, Bool.false_eq_true, List.dropWhile_cons,
          decide_eq_true_eq, ne_eq, not_true_eq_false, false_or] at h
        exact h.2

theorem lower_word {s w : Bytes} (h : s.map lower = w) (hw : w ≠ []) (h1 : ∀ b, lower b = hd w → b ≠ DASH ∧ isDigit b = false ∧ b ≠ 46) : isNumber s = false := by
  cases s with
  | nil => exact absurd h.symm hw
  | cons b r =>
    cases hn : isNumber (b :: r) with
    | false => rfl
    | true =>
      subst h
      obtain ⟨a1, a2, a3⟩ := h1 b rfl
      rcases isNumber_first hn with h | h | h
      · exact absurd h a1
      · rw [show hd (b :: r) = b from rfl, a2] at h; cases h
      · exact absurd h a3

theorem lower_first {c : UInt8} (hc : c = 110 ∨ c = 116 ∨ c = 102) : ∀ b, lower b = c → b ≠ DASH ∧ isDigit b = false ∧ b ≠ 46 := by
  intro b hb
  refine ⟨?_, ?_, ?_⟩
  · rintro rfl; subst hb; revert hc; decide
  · cases hd : isDigit b with
    | false => rfl
    | true =>
      exfalso
      rw [isDigit] at hd
      simp only [Bool.and_eq_true, decide_eq_true_eq] at hd
      have : lower b = b := by
        unfold lower
        rw [if_neg]
        simp only [Bool.and_eq_true, decide_eq_true_eq, not_and]
        intro h1
        exfalso
        have h2 : b ≤ 57 := hd.2
        have : (65 : UInt8) ≤ 57 := UInt8.le_trans h1 h2
        revert this; decide
      rw [this] at hb; subst hb
      rcases hc with rfl | rfl | rfl <;> revert hd <;> decide
  · rintro rfl; subst hb; revert hc; decide

/-- C32: a document of one plain scalar is null exactly if it is `~` or `null` in any case, a boolean exactly if it is
`true` or `false` in any case, a number exactly if it looks like one, and otherwise a string; numbers and strings are exactly
the text. -/
theorem C32_plain {s : Bytes} (hs : plainBlock s = true) (h1 : hd s ≠ PCT) (h2 : (b! "---").isPrefixOf s = false) :
    ∃ doc a, fromSlice s = .ok doc ∧ asAny doc.data doc.root = .ok a ∧
      (a = .null ↔ s = b! "~" ∨ s.map lower = b! "null") ∧
      (a = .bool true ↔ s.map lower = b! "true") ∧ (a = .bool false ↔ s.map lower = b! "false") ∧
      (a = .number s ↔ isNumber s = true) ∧
      (a = .null ∨ (∃ b, a = .bool b) ∨ a = .number s ∨ a = .string s) := by
  obtain ⟨doc, hd1, hd2⟩ := parse_atom (a := .plain s) hs h1 h2
  refine ⟨doc, _, hd1, hd2, ?_⟩
  simp only [Atom.value, plainValue]
  by_cases hn : isNumber s = true
  · have e1 : ¬ (s = b! "~" ∨ s.map lower = b! "null") := by
      rintro (h | h)
      · subst h; revert hn; decide
      · rw [lower_word h (by decide) (lower_first (.inl rfl))] at hn; cases hn
    have e2 : ¬ s.map lower = b! "true" := fun h => by rw [lower_word h (by decide) (lower_first (.inr (.inl rfl)))] at hn; cases hn
    have e3 : ¬ s.map lower = b! "false" := fun h => by rw [lower_word h (by decide) (lower_first (.inr (.inr rfl)))] at hn; cases hn
    simp only [hn, if_true, e1, e2, e3]
    simp
  · simp only [hn, Bool.false_eq_true, if_false]
    by_cases e1 : s = b! "~" ∨ s.map lower = b! "null"
    · have e2 : ¬ s.map lower = b! "true" := by
        intro h; rcases e1 with rfl | e1
        · revert h; decide
        · rw [e1] at h; revert h; decide
      have e3 : ¬ s.map lower = b! "false" := by
        intro h; rcases e1 with rfl | e1
        · revert h; decide
        · rw [e1] at h; revert h; decide
      simp [e1, e2, e3]
    · by_cases e2 : s.map lower = b! "true"
      · have e3 : ¬ s.map lower = b! "false" := by rw [e2]; decide
        have e0 := (not_or.1 e1).1
        simp [e0, e2]
      · by_cases e3 : s.map lower = b! "false"
        · have e0 := (not_or.1 e1).1
          simp [e0, e3]
        · simp only [e1, if_false, e2, e3]
          simp

example : ∃ doc, fromSlice (b! "NuLL") = .ok doc ∧ asAny doc.data doc.root = .ok .null := by
  obtain ⟨doc, a, h1, h2, h3, _⟩ := C32_plain (s := b! "NuLL") (by decide) (by decide) (by decide)
  exact ⟨doc, h1, by rw [h2, h3.2 (.inr (by decide))]⟩

example : ∃ doc, fromSlice (b! "a - b #: c!") = .ok doc ∧ asAny doc.data doc.root ≠ .ok .null := by
  refine ⟨_, rfl, by decide⟩

/-! ### C13 -/

theorem numeral_byte {b : UInt8} (h : isDigit b = true ∨ b = DASH) :
    b ≠ NL ∧ b ≠ COLON ∧ isWs b = false ∧ isIndicator b = false ∧ b ≠ PCT := by
  rcases h with h | rfl
  · simp only [isDigit, Bool.and_eq_true, decide_eq_true_eq] at h
    have : ∀ k, k < 58 → 48 ≤ k → UInt8.ofNat k ≠ NL ∧ UInt8.ofNat k ≠ COLON ∧ isWs (UInt8.ofNat k) = false ∧ isIndicator (UInt8.ofNat k) = false ∧
        UInt8.ofNat k ≠ PCT := by decide
    have := this b.toNat (by have := UInt8.le_iff_toNat_le.1 h.2; have e : (57 : UInt8).toNat = 57 := rfl; omega) (by have := UInt8.le_iff_toNat_le.1 h.1; exact this)
    simpa using this
  · decide

theorem noKeySep_of : ∀ {s : Bytes}, (∀ b ∈ s, b ≠ COLON) → noKeySep s = true
  | [], _ => rfl
  | b :: r, h => by
    rw [noKeySep, beq_eq_false_iff_ne.2 (h b (by simp)), noKeySep_of fun c hc => h c (List.mem_cons_of_mem _ hc)]; rfl

theorem intText_bytes (x : Int) : ∃ b r, intText x = b :: r ∧ (isDigit b = true ∨ b = DASH) ∧ (∀ c ∈ r, isDigit c = true) ∧ (b = DASH → r ≠ []) := by
  cases x with
  | ofNat n =>
    obtain ⟨b, r, h1, h2⟩ := natText_cons n
    refine ⟨b, r, h1, .inl h2, fun c hc => digitsF_digits c (f := n + 1) (n := n) ?_, fun h => absurd h (digit_ne h2).2.1⟩
    rw [← natText, h1]; exact List.mem_cons_of_mem _ hc
  | negSucc n => exact ⟨DASH, natText (n + 1), rfl, .inr rfl, digitsF_digits, fun _ => natText_ne _⟩

theorem plainBlock_int (x : Int) : plainBlock (intText x) = true ∧ hd (intText x) ≠ PCT ∧ (b! "---").isPrefixOf (intText x) = false := by
  obtain ⟨b, r, h1, h2, h3, h4⟩ := intText_bytes x
  rw [h1]
  have hall : ∀ c ∈ b :: r, isDigit c = true ∨ c = DASH := by
    intro c hc
    rcases List.mem_cons.1 hc with rfl | hc
    · exact h2
    · exact .inl (h3 c hc)
  have hb := numeral_byte h2
  have hd1 : dashed (b :: r) = false := by
    cases hq : b == DASH with
    | false => simp only [dashed, List.head?_cons]; rw [show (some b == some DASH) = (b == DASH) from rfl, hq]; rfl
    | true =>
      cases r with
      | nil => exact absurd rfl (h4 (by simpa using hq))
      | cons c r =>
        have := (numeral_byte (.inl (h3 c (by simp)))).2.2.1
        simp [dashed, this]
  have hlast : isWs ((b :: r).getLastD 0) = false := by
    rw [List.getLastD_eq_getLast?, List.getLast?_eq_some_getLast (l := b :: r) (by simp)]
    exact (numeral_byte (hall _ (List.getLast_mem _))).2.2.1
  refine ⟨?_, hb.2.2.2.2, ?_⟩
  · have hnl : (b :: r).contains NL = false := by
      cases hq : (b :: r).contains NL with
      | false => rfl
      | true =>
        have := List.mem_of_elem_eq_true hq
        exact absurd rfl (numeral_byte (hall _ this)).1
    simp only [plainBlock, hnl, noKeySep_of fun c hc => (numeral_byte (hall c hc)).2.1, hlast, hd1, Bool.and_eq_true, Bool.not_false, and_true]
    exact ⟨rfl, by show (!isIndicator b) = true; rw [hb.2.2.2.1]; rfl⟩
  · cases r with
    | nil => simp [List.isPrefixOf]
    | cons c r =>
      have := (digit_ne (h3 c (by simp))).2.1
      have : (45 == c) = false := by rw [beq_eq_false_iff_ne]; exact fun h => this h.symm
      simp [List.isPrefixOf, this]

/-- C13: the text of an integer, on its own, is a number that reads as the integer. -/
theorem C13_alone (n : IntTy) (x : Int) (hx : n.min ≤ x ∧ x ≤ n.max) :
    ∃ doc, fromSlice (intText x) = .ok doc ∧ asNumber doc.data doc.root = .ok (some (intText x)) ∧ asInt n doc.data doc.root = .ok (some x) := by
  obtain ⟨h1, h2, h3⟩ := plainBlock_int x
  obtain ⟨doc, h4, h5⟩ := parse_atom (a := .plain (intText x)) h1 h2 h3
  rw [Atom.value, plainValue, isNumber_intText, if_pos rfl] at h5
  refine ⟨doc, h4, ?_, by rw [asInt_of_any h5, lexParse_intText, if_pos hx]⟩
  unfold asAny at h5
  unfold asNumber
  cases hr : doc.data.raw doc.root with
  | error e => rw [hr] at h5; cases h5
  | ok r => rw [hr] at h5; cases r <;> simp_all [bind, Except.bind, pure, Except.pure]

example : intText (-120) = b! "-120" ∧ IntTy.i8.min ≤ -120 := by decide

end Verif
