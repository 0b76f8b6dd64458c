import Verif.FlowDocs
import Verif.Lines
import Verif.Props.Nest
/-
C92: an entry inserted into an inline mapping anywhere in a document, or an item pushed to an inline sequence, is read back.  It is written after the last value of the collection, with a comma before it
and on a line of its own.
-/
namespace Verif

/-! ### When the conditions are met -/

/-- There is no colon before the place. -/
theorem KeysEnd.noColonBefore {inp : Bytes} {b : Nat} (h : COLON ∉ inp.take b) : KeysEnd inp b := by
  intro c k lo q hc hg hlo _
  have := hg.le
  refine absurd (List.mem_of_getElem? (i := c) ?_) h
  rw [List.getElem?_take, if_pos (by omega)]
  exact hc

/-- From the end of a key or a line to the place there are only white space, dashes before it, and opening brackets; and there are no quotes before the place. -/
theorem KeysEnd.opened {inp : Bytes} {b : Nat} (hb : b ≤ inp.length) (h1 : DQ ∉ inp.take b) (h2 : SQ ∉ inp.take b) {p : Nat} (hp : p < b) (h3 : inp[p]? = some NL ∨ KeyEnd inp p)
    (h4 : ∀ i, p < i → i < b → isIndicator (inp.getD i 0) = true ∨ dashes (inp.drop i) = true) : KeysEnd inp b := by
  intro c k lo q hc hg hlo hq
  rcases Nat.lt_or_ge q b with g | g
  · exact g
  exfalso
  obtain ⟨q1, q2, q3⟩ := hq
  rcases q3 with q3 | ⟨q3, q5, q6, q4, q7, q8⟩
  · have hlt : lo < q := by omega
    have hin : inp.getD lo 0 ∈ inp.take b := by
      rw [List.getD_eq_getElem?_getD, List.getElem?_eq_getElem (by omega)]
      exact List.mem_take_iff_getElem.2 ⟨lo, by omega, rfl⟩
    have hh := inQuotes_hd q3
    rw [show hd (slice inp lo q) = _ from slice_headD hlt] at hh
    rcases hh with hh | hh
    · rw [hh] at hin; exact h1 hin
    · rw [hh] at hin; exact h2 hin
  · rcases Nat.lt_or_ge p lo with g1 | g1
    · rcases h4 lo g1 hlo with h | h
      · rw [h] at q5; cases q5
      · rw [h] at q6; cases q6
    · rcases h3 with h3 | h3
      · refine q4 ?_
        rw [← q3]
        have : (slice inp lo q)[p - lo]? = some NL := by
          rw [slice, List.getElem?_take, if_pos (by omega), List.getElem?_drop, show lo + (p - lo) = p by omega]
          exact h3
        exact List.mem_of_getElem? this
      · exact q8 p g1 (by omega) h3

/-- There are no opening brackets before the place. -/
theorem outer_top {α : Type} {inp : Bytes} {V : View α} {s : Spot} {x : α} {lo : Nat} {s' : Spot} {y : α} {b d E : Nat} (h : Outer inp V s x lo s' y b d E) (h1 : LBR ∉ inp.take b)
    (h2 : LCB ∉ inp.take b) : s' ≠ .flow ∧ E = d := by
  rcases h with h | ⟨h0, s1, z, l1, g1, g2, _, _, g3⟩
  · exact h
  · exfalso
    have hlt : l1 < b := by
      cases g3 with
      | here => exact absurd h0 g1
      | item h h' => have := h.lt; have := h'.le; omega
    have : ∀ {v : UInt8}, inp[l1]? = some v → v ∈ inp.take b := by
      intro v hv
      refine List.mem_of_getElem? (i := l1) ?_
      rw [List.getElem?_take, if_pos hlt]
      exact hv
    rcases g2 with g2 | g2
    · exact h1 (this g2)
    · exact h2 (this g2)

theorem line_after {inp : Bytes} {d : Nat} (h : inp[d]? = some NL ∨ d = inp.length) : ∀ g, FullGap inp d g → NL ∈ slice inp d g ∨ g = inp.length := by
  intro g hg
  have hle := hg.le
  rcases h with h | h
  · left
    have hne : d ≠ g := by
      rintro rfl
      have := hg.2.1
      rw [List.getD_eq_getElem?_getD, h] at this
      exact absurd this (by decide)
    refine List.mem_of_getElem? (i := 0) ?_
    rw [slice, List.getElem?_take, if_pos (by omega), List.getElem?_drop]
    exact h
  · right
    have := hg.1.2.1
    omega

/-- The string without quotes in an inline collection. -/
def plainCell (s : Bytes) : Bool :=
  s != [] && !isIndicator (s.headD 0) && !s.any isCtl && (List.range (s.length + 1)).all (fun k => !isNumber (s.take k)) && plainValue s == .string s

/-- The value is written as a text that is read as the value in an inline collection, with a comma or a closing bracket after it. -/
def Val.keptIn : Val → Bool
  | .bool _ => true
  | .number text _ => isNumber text
  | .str s => match preferred s with
    | .bare => plainCell s
    | .single => true
    | .double => !s.contains DQ && !s.contains BSL
  | _ => false

theorem plain_cell {rest s : Bytes} (hr : isCtl (rest.headD 0) = true) (h1 : isIndicator (s.headD 0) = false) (h2 : s.any isCtl = false)
    (h3 : (List.range (s.length + 1)).all (fun k => !isNumber (s.take k)) = true) : Token true rest s (plainValue s) := by
  refine .plain (fun k hk => ?_) ?_
  · exfalso
    rw [List.all_eq_true] at h3
    rcases Nat.lt_or_ge k (s.length + 1) with h | h
    · have := h3 k (List.mem_range.2 h)
      simp [hk] at this
    · have := h3 s.length (List.mem_range.2 (by omega))
      rw [List.take_of_length_le (by omega)] at hk
      simp [hk] at this
  · unfold plainText
    simp only [h1, h2, hr, Bool.not_false, if_true, Bool.and_true]

theorem isCtl_not {b : UInt8} (h : isCtl b = true) : b ≠ SQ ∧ ¬ (numChar b = true ∨ b = DASH) := by
  have key : ∀ b : Fin 256, isCtl (UInt8.ofNat b) = true → UInt8.ofNat b ≠ SQ ∧ ¬ (numChar (UInt8.ofNat b) = true ∨ UInt8.ofNat b = DASH) := by decide +kernel
  have := key ⟨b.toNat, b.toNat_lt⟩
  simp only [UInt8.ofNat_toNat] at this
  exact this h

theorem Val.keptIn_token {v : Val} (h : v.keptIn = true) {R : Bytes} (hR : isCtl (R.headD 0) = true) : Token true R (v.newText 0) v.reads ∧ (v.newText 0).headD 0 ≠ 0 := by
  obtain ⟨hq, hn⟩ := isCtl_not hR
  cases v with
  | null s => cases h
  | block l b => cases h
  | bool v =>
    cases v
    · exact ⟨plain_cell (s := b! "false") hR (by decide) (by decide) (by decide), by decide⟩
    · exact ⟨plain_cell (s := b! "true") hR (by decide) (by decide) (by decide), by decide⟩
  | number s hint =>
    have h : isNumber s = true := h
    show Token true R s (.number s) ∧ s.headD 0 ≠ 0
    refine ⟨.number h ?_, ?_⟩
    · rw [if_pos rfl]
      cases hx : isNumber (s ++ [R.headD 0]) with
      | false => rfl
      | true => exact absurd (isNumber_chars hx _ (by simp)) hn
    · cases s with
      | nil => exact absurd h (by decide)
      | cons b s =>
        rintro rfl
        exact (numChar_ws (isNumber_chars h 0 (List.mem_cons_self ..))).2 rfl
  | str s =>
    have h : (match preferred s with | .bare => plainCell s | .single => true | .double => !s.contains DQ && !s.contains BSL) = true := h
    show Token true R (quoted (preferred s) s) (.string s) ∧ (quoted (preferred s) s).headD 0 ≠ 0
    cases hp : preferred s with
    | single => exact ⟨.quoted (.single s) (fun h => by cases h) (fun _ => hq), (by decide : SQ ≠ 0)⟩
    | double =>
      rw [hp] at h
      simp only [Bool.and_eq_true, Bool.not_eq_true', List.contains_eq_mem, decide_eq_false_iff_not] at h
      exact ⟨.quoted (inQuotes_double h.1 h.2) (fun h => by cases h) (fun h => absurd h (by decide : DQ ≠ SQ)), (by decide : DQ ≠ 0)⟩
    | bare =>
      rw [hp] at h
      simp only [plainCell, Bool.and_eq_true, Bool.not_eq_true', beq_iff_eq, bne_iff_ne] at h
      obtain ⟨⟨⟨⟨h0, h1⟩, h2⟩, h3⟩, h4⟩ := h
      rw [quoted]
      refine ⟨by rw [← h4]; exact plain_cell hR h1 h2 h3, ?_⟩
      cases s with
      | nil => exact absurd rfl h0
      | cons b s =>
        rintro rfl
        exact absurd h2 (by simp [isCtl])

theorem Val.keptIn_sep {v : Val} (h : v.keptIn = true) (auto : Bytes) : v.sepText auto = auto := by
  cases v <;> first | rfl | cases h

theorem closing_ctl {inp c w : Bytes} {tr : Bool} {e d : Nat} {B : UInt8} (hB : isCtl B = true) (hed : e < d) (h : slice inp e d = (if tr then [COMMA] else []) ++ w ++ [B]) (hc : c = inp.drop e)
    (hw : tr = true ∨ w = []) : isCtl (c.headD 0) = true := by
  subst hc
  have h1 := congrArg (fun l : Bytes => l.headD 0) h
  rw [slice_headD hed, List.getD_eq_getElem?_getD, ← List.head?_drop] at h1
  rw [List.headD_eq_head?_getD, h1]
  rcases hw with rfl | rfl
  · exact (by decide : isCtl COMMA = true)
  · cases tr
    · exact hB
    · exact (by decide : isCtl COMMA = true)

/-! ### What does not hold -/

/-- C92 is false: a string with a comma is written without quotes, and read as two. -/
theorem C92_comma_false : ¬ ∀ (inp : Bytes) (doc doc' : Document) (x : Nat) (s : Bytes) (C : Coll), Parsed inp doc → doc.write = .ok inp → Live doc x → doc.data.sequence x = .ok C → C.kind = .inline false [] →
    doc.edit x (.push (.str s)) = .ok doc' → Stable doc' := by
  intro h
  refine unstable_length (doc := (docOfText (b! "[1, 2]\n")).after 0 (.push (.str (b! "a, b")))) (out := b! "[1, 2,\na, b]\n") (by decide +kernel)
    (textSeq_says (l := [.scalar (.number (b! "1")), .scalar (.number (b! "2")), .scalar (.string (b! "a")), .scalar (.string (b! "b"))]).2 (by decide +kernel)) (L := [2, 4, 6]) (by decide +kernel) (by decide) ?_
  exact h (b! "[1, 2]\n") (docOfText (b! "[1, 2]\n")) _ 0 (b! "a, b") ⟨0, .inline false [], [1, 3]⟩ ⟨40, by decide +kernel⟩ (by decide +kernel) .self (by decide +kernel) rfl (by decide +kernel)

/-- C92 is false: white space before the closing bracket becomes part of a string. -/
theorem C92_space_false : ¬ ∀ (inp : Bytes) (doc doc' : Document) (x : Nat) (val : Val) (C : Coll) (w : Bytes), Parsed inp doc → doc.write = .ok inp → Live doc x → doc.data.sequence x = .ok C →
    C.kind = .inline false w → val.keptIn = true → doc.edit x (.push val) = .ok doc' → Stable doc' := by
  intro h
  have hfin := h (b! "[1, 2 ]\n") (docOfText (b! "[1, 2 ]\n")) ((docOfText (b! "[1, 2 ]\n")).after 0 (.push (.str (b! "x")))) 0 (.str (b! "x")) ⟨0, .inline false (b! " "), [1, 3]⟩ (b! " ") ⟨40, by decide +kernel⟩
    (by decide +kernel) .self (by decide +kernel) rfl (by decide +kernel) (by decide +kernel)
  obtain ⟨out, doc2, c, h1, h2, h3, h4⟩ := hfin
  obtain rfl : b! "[1, 2,\nx ]\n" = out :=
    Except.ok.inj ((show ((docOfText (b! "[1, 2 ]\n")).after 0 (.push (.str (b! "x")))).write = .ok (b! "[1, 2,\nx ]\n") by decide +kernel).symm.trans h1)
  obtain ⟨doc3, g1, g2⟩ := C57_accepts.2 ((says_iff (x := b! "[1, 2,\nx ]\n")
    (c := .seq (.cons (.scalar (.number (b! "1"))) (.cons (.scalar (.number (b! "2"))) (.cons (.scalar (.string (b! "x "))) .nil))))).1 (by decide +kernel))
  obtain rfl := Except.ok.inj (h2.symm.trans g1)
  obtain rfl := Reads.unique h4 g2
  obtain ⟨L, k1, k2⟩ := h3
  obtain rfl : [2, 4, 6] = L := Except.ok.inj ((show seqValues _ _ = .ok [2, 4, 6] by decide +kernel).symm.trans k1.2)
  obtain ⟨_, _, e1, -, _, _, e2, -, _, _, e3, k3, -⟩ := k2
  cases e1; cases e2; cases e3
  exact absurd k3.1 (by decide +kernel)

/-! ### Inserting -/

/-- C92, what holds for entries: a text that is written as it was read.  `x` is an inline mapping anywhere in it, at `b` to `d`, whose last value ends at `e` (`tr`: there is a comma after it, `w`: the white
space before the closing bracket) and is not a missing value or a block scalar.  A new entry whose key and value are written as they will be read goes there and is read back, and everything else
is read as before, if the outermost inline collection around is at the end of a line.  Not covered: empty mappings, and missing values and block scalars, as new values or as the last one. -/
theorem C92_insert_partial {inp : Bytes} {doc : Document} (h : Parsed inp doc) (hw : doc.write = .ok inp) (hh : hasHeader inp = false) (hf : followed inp = true)
    (hc : noWsComma inp = true ∨ LBR ∉ inp) (hu : validUtf8 inp = true ∨ HASH ∉ inp) {x : Nat} (hx : Live doc x) {C : Coll} {tr : Bool} {w : Bytes} (hC : doc.data.mapping x = .ok C)
    (hk : C.kind = .inline tr w) {L : List (Bytes × Nat)} (hL : mapEntries doc.data x = .ok L) {lk : Bytes} {z : Nat} (hz : L.getLast? = some (lk, z)) {zt : Bytes} (hzt : valueText doc.data z = .ok zt)
    (z0 : zt.headD 0 ≠ 0) (z1 : zt.headD 0 ≠ PIPE) (z2 : zt.headD 0 ≠ GT) :
    ∃ r s b e d E, b < e ∧ e < d ∧ d ≤ inp.length ∧ valueText doc.data x = .ok (slice inp b d) ∧ ReadFrom inp doc x b d ∧ slice inp e d = (if tr then b! "," else []) ++ w ++ b! "}" ∧
      inp.drop r = skipBlank false inp ∧ Within inp doc.data.view .block doc.root r s x b ∧ Outer inp doc.data.view .block doc.root r s x b d E ∧
      ∀ key val, mapGet doc.data x key = .ok none → keyFlow key = true → gap (val.sepText (b! " ")) = true → Token true (inp.drop e) (val.newText 0) val.reads → (val.newText 0).headD 0 ≠ 0 →
        (∀ g, FullGap inp E g → NL ∈ slice inp d g ∨ g = inp.length) → KeysEnd inp b → (s = .flow → Apart inp b) →
        ∀ out, out = inp.take e ++ (b! ",\n" ++ key ++ b! ":" ++ val.sepText (b! " ") ++ val.newText 0) ++ inp.drop e → hasHeader out = false →
        ∃ doc', doc.edit x (.insert key val) = .ok doc' ∧ doc'.write = .ok out ∧ Stable doc' ∧
          ∀ l, Reads doc.data x (.map l) → ∃ l', Reads doc'.data x (.map l') ∧ l'.list = l.list ++ [(key, .scalar val.reads)] := by
  obtain ⟨t, e0, hl⟩ := h.laid hw hh
  obtain ⟨r, s, b, e, d, E, h1, h2, h3, h4, h5, h6, h7, h8, h9, hall⟩ := hl.insertFlow hh hf hc hu hx hC hk (lastFlow_map hL hz) hzt z0 z1 z2
  refine ⟨r, s, b, e, d, E, h1, h2, h3, h4, h5, h6, h7, h8, h9, fun key val a1 a2 a3 a4 a5 a6 a7 a8 out a9 a10 => ?_⟩
  obtain ⟨doc', g1, ⟨t', e1, g2⟩, g3⟩ := hall key val a1 a2 a3 a4 a5 a6 a7 a8 out a9
  exact ⟨doc', g1, g2.write, g2.stable a10, g3⟩

/-- C92 for values that are kept as they are in an inline collection, in mappings that are not in an inline collection, at the end of a line, and without white space before the closing bracket or with
a comma after the last value. -/
theorem C92_insert_kept {inp : Bytes} {doc : Document} (h : Parsed inp doc) (hw : doc.write = .ok inp) (hh : hasHeader inp = false) (hf : followed inp = true)
    (hc : noWsComma inp = true ∨ LBR ∉ inp) (hu : validUtf8 inp = true ∨ HASH ∉ inp) {x : Nat} (hx : Live doc x) {C : Coll} {tr : Bool} {w : Bytes} (hC : doc.data.mapping x = .ok C)
    (hk : C.kind = .inline tr w) (hend : tr = true ∨ w = []) {L : List (Bytes × Nat)} (hL : mapEntries doc.data x = .ok L) {lk : Bytes} {z : Nat} (hz : L.getLast? = some (lk, z)) {zt : Bytes}
    (hzt : valueText doc.data z = .ok zt) (z0 : zt.headD 0 ≠ 0) (z1 : zt.headD 0 ≠ PIPE) (z2 : zt.headD 0 ≠ GT) :
    ∃ b e d, b < e ∧ e < d ∧ d ≤ inp.length ∧ valueText doc.data x = .ok (slice inp b d) ∧ ReadFrom inp doc x b d ∧ slice inp e d = (if tr then b! "," else []) ++ w ++ b! "}" ∧
      ∀ key val, mapGet doc.data x key = .ok none → keyFlow key = true → val.keptIn = true → LBR ∉ inp.take b → LCB ∉ inp.take b → inp[d]? = some NL ∨ d = inp.length → KeysEnd inp b →
        ∀ out, out = inp.take e ++ (b! ",\n" ++ key ++ b! ": " ++ val.newText 0) ++ inp.drop e → hasHeader out = false →
        ∃ doc', doc.edit x (.insert key val) = .ok doc' ∧ doc'.write = .ok out ∧ Stable doc' := by
  obtain ⟨r, s, b, e, d, E, h1, h2, h3, h4, h5, h6, h7, h8, h9, hall⟩ := C92_insert_partial h hw hh hf hc hu hx hC hk hL hz hzt z0 z1 z2
  refine ⟨b, e, d, h1, h2, h3, h4, h5, h6, ?_⟩
  intro key val k1 k2 k3 k4 k5 k6 k7 out ho hh'
  obtain ⟨n1, rfl⟩ := outer_top h9 k4 k5
  obtain ⟨t1, t2⟩ := Val.keptIn_token k3 (closing_ctl (by decide) h2 h6 rfl hend)
  obtain ⟨doc', g1, g2, g3, -⟩ := hall key val k1 k2 (by rw [Val.keptIn_sep k3]; decide) t1 t2 (line_after k6) k7 (fun h => absurd h n1) out (by rw [ho, Val.keptIn_sep k3]; simp) hh'
  exact ⟨doc', g1, g2, g3⟩

/-- C92 for an inline mapping in a sequence in a mapping. -/
example : ∃ doc doc', Parsed (b! "a:\n  - {x: 1, y: [2, 3]}\nb: 4\n") doc ∧ doc.edit 4 (.insert (b! "z") (.str (b! "t"))) = .ok doc' ∧
    doc'.write = .ok (b! "a:\n  - {x: 1, y: [2, 3],\nz: t}\nb: 4\n") ∧ Stable doc' := by
  have hp : Parsed (b! "a:\n  - {x: 1, y: [2, 3]}\nb: 4\n") (docOfText (b! "a:\n  - {x: 1, y: [2, 3]}\nb: 4\n")) := ⟨90, by decide +kernel⟩
  obtain ⟨b, e, d, h1, h2, h3, h4, -, h5, h6⟩ := C92_insert_kept hp (by decide +kernel) (by decide +kernel) (by decide +kernel) (.inl (by decide)) (.inr (by decide)) (x := 4)
    (.viaSeq (x := 2) [4] (.viaMap [(b! "a", 2), (b! "b", 14)] (b! "a") .self (by decide +kernel) (by decide +kernel) (by decide)) (by decide +kernel) (by decide +kernel) (by decide))
    (C := ⟨0, .inline false [], [5, 7]⟩) (by decide +kernel) rfl (.inr rfl) (L := [(b! "x", 6), (b! "y", 8)]) (by decide +kernel) rfl (zt := b! "[2, 3]") (by decide +kernel) (by decide) (by decide) (by decide)
  have h4' : (b! "{x: 1, y: [2, 3]}") = slice (b! "a:\n  - {x: 1, y: [2, 3]}\nb: 4\n") b d :=
    Except.ok.inj ((show valueText _ _ = .ok (b! "{x: 1, y: [2, 3]}") by decide +kernel).symm.trans h4)
  obtain ⟨rfl, rfl⟩ : b = 7 ∧ d = 24 :=
    (by decide +kernel : ∀ d ≤ 30, ∀ b < d, (b! "{x: 1, y: [2, 3]}") = slice (b! "a:\n  - {x: 1, y: [2, 3]}\nb: 4\n") b d → b = 7 ∧ d = 24) d h3 b (by omega) h4'
  obtain rfl : e = 23 := (by decide +kernel : ∀ e < 24, slice (b! "a:\n  - {x: 1, y: [2, 3]}\nb: 4\n") e 24 = b! "}" → e = 23) e h2 h5
  obtain ⟨doc', g1, g2, g3⟩ := h6 (b! "z") (.str (b! "t")) (by decide +kernel) (by decide) (by decide +kernel) (by decide) (by decide) (.inl (by decide))
    (.opened (by decide) (by decide) (by decide) (p := 2) (by decide) (.inl (by decide))
      (fun i h1 h2 => (by decide : ∀ i < 7, 2 < i → isIndicator ((b! "a:\n  - {x: 1, y: [2, 3]}\nb: 4\n").getD i 0) = true ∨ dashes ((b! "a:\n  - {x: 1, y: [2, 3]}\nb: 4\n").drop i) = true) i h2 h1))
    _ rfl (by decide +kernel)
  exact ⟨_, doc', hp, g1, g2, g3⟩

/-! ### Pushing -/

/-- C92, what holds for items: likewise for an inline sequence, where the new value must be written without white space before it.  This depends on `auto`, the white space before the last value. -/
theorem C92_push_partial {inp : Bytes} {doc : Document} (h : Parsed inp doc) (hw : doc.write = .ok inp) (hh : hasHeader inp = false) (hf : followed inp = true)
    (hc : noWsComma inp = true ∨ LBR ∉ inp) (hu : validUtf8 inp = true ∨ HASH ∉ inp) {x : Nat} (hx : Live doc x) {C : Coll} {tr : Bool} {w : Bytes} (hC : doc.data.sequence x = .ok C)
    (hk : C.kind = .inline tr w) {L : List Nat} (hL : seqValues doc.data x = .ok L) {z : Nat} (hz : L.getLast? = some z) {zt : Bytes} (hzt : valueText doc.data z = .ok zt)
    (z0 : zt.headD 0 ≠ 0) (z1 : zt.headD 0 ≠ PIPE) (z2 : zt.headD 0 ≠ GT) {auto : Bytes} (hauto : doc.data.pre z = .ok auto) :
    ∃ r s b e d E, b < e ∧ e < d ∧ d ≤ inp.length ∧ valueText doc.data x = .ok (slice inp b d) ∧ ReadFrom inp doc x b d ∧ slice inp e d = (if tr then b! "," else []) ++ w ++ b! "]" ∧
      inp.drop r = skipBlank false inp ∧ Within inp doc.data.view .block doc.root r s x b ∧ Outer inp doc.data.view .block doc.root r s x b d E ∧
      ∀ val, val.sepText auto = [] → Token true (inp.drop e) (val.newText 0) val.reads → (val.newText 0).headD 0 ≠ 0 →
        (∀ g, FullGap inp E g → NL ∈ slice inp d g ∨ g = inp.length) → KeysEnd inp b → (s = .flow → Apart inp b) →
        ∀ out, out = inp.take e ++ (b! ",\n" ++ val.newText 0) ++ inp.drop e → hasHeader out = false →
        ∃ doc', doc.edit x (.push val) = .ok doc' ∧ doc'.write = .ok out ∧ Stable doc' ∧
          ∀ l, Reads doc.data x (.seq l) → ∃ l', Reads doc'.data x (.seq l') ∧ l'.list = l.list ++ [.scalar val.reads] := by
  obtain ⟨t, e0, hl⟩ := h.laid hw hh
  obtain ⟨r, s, b, e, d, E, h1, h2, h3, h4, h5, h6, h7, h8, h9, hall⟩ := hl.pushFlow hh hf hc hu hx hC hk (lastFlow_seq hL hz) hzt z0 z1 z2 hauto
  refine ⟨r, s, b, e, d, E, h1, h2, h3, h4, h5, h6, h7, h8, h9, fun val a1 a2 a3 a4 a5 a6 out a7 a8 => ?_⟩
  obtain ⟨doc', g1, ⟨t', e1, g2⟩, g3⟩ := hall val a1 a2 a3 a4 a5 a6 out a7
  exact ⟨doc', g1, g2.write, g2.stable a8, g3⟩

/-- C92 for values that are kept as they are in an inline collection: as for mappings. -/
theorem C92_push_kept {inp : Bytes} {doc : Document} (h : Parsed inp doc) (hw : doc.write = .ok inp) (hh : hasHeader inp = false) (hf : followed inp = true)
    (hc : noWsComma inp = true ∨ LBR ∉ inp) (hu : validUtf8 inp = true ∨ HASH ∉ inp) {x : Nat} (hx : Live doc x) {C : Coll} {tr : Bool} {w : Bytes} (hC : doc.data.sequence x = .ok C)
    (hk : C.kind = .inline tr w) (hend : tr = true ∨ w = []) {L : List Nat} (hL : seqValues doc.data x = .ok L) {z : Nat} (hz : L.getLast? = some z) {zt : Bytes} (hzt : valueText doc.data z = .ok zt)
    (z0 : zt.headD 0 ≠ 0) (z1 : zt.headD 0 ≠ PIPE) (z2 : zt.headD 0 ≠ GT) (hauto : doc.data.pre z = .ok []) :
    ∃ b e d, b < e ∧ e < d ∧ d ≤ inp.length ∧ valueText doc.data x = .ok (slice inp b d) ∧ ReadFrom inp doc x b d ∧ slice inp e d = (if tr then b! "," else []) ++ w ++ b! "]" ∧
      ∀ val, val.keptIn = true → LBR ∉ inp.take b → LCB ∉ inp.take b → inp[d]? = some NL ∨ d = inp.length → KeysEnd inp b →
        ∀ out, out = inp.take e ++ (b! ",\n" ++ val.newText 0) ++ inp.drop e → hasHeader out = false →
        ∃ doc', doc.edit x (.push val) = .ok doc' ∧ doc'.write = .ok out ∧ Stable doc' := by
  obtain ⟨r, s, b, e, d, E, h1, h2, h3, h4, h5, h6, h7, h8, h9, hall⟩ := C92_push_partial h hw hh hf hc hu hx hC hk hL hz hzt z0 z1 z2 hauto
  refine ⟨b, e, d, h1, h2, h3, h4, h5, h6, ?_⟩
  intro val k3 k4 k5 k6 k7 out ho hh'
  obtain ⟨n1, rfl⟩ := outer_top h9 k4 k5
  obtain ⟨t1, t2⟩ := Val.keptIn_token k3 (closing_ctl (by decide) h2 h6 rfl hend)
  obtain ⟨doc', g1, g2, g3, -⟩ := hall val (Val.keptIn_sep k3 _) t1 t2 (line_after k6) k7 (fun h => absurd h n1) out ho hh'
  exact ⟨doc', g1, g2, g3⟩

/-- C92 for a list in brackets with a comma after its last item. -/
example : ∃ doc doc', Parsed (b! "a: [1, 'x',\n  ]\nb: 4\n") doc ∧ doc.edit 2 (.push (.number (b! "7") .u8)) = .ok doc' ∧
    doc'.write = .ok (b! "a: [1, 'x',\n7,\n  ]\nb: 4\n") ∧ Stable doc' := by
  have hp : Parsed (b! "a: [1, 'x',\n  ]\nb: 4\n") (docOfText (b! "a: [1, 'x',\n  ]\nb: 4\n")) := ⟨60, by decide +kernel⟩
  obtain ⟨b, e, d, h1, h2, h3, h4, -, h5, h6⟩ := C92_push_kept hp (by decide +kernel) (by decide +kernel) (by decide +kernel) (.inl (by decide)) (.inr (by decide)) (x := 2)
    (.viaMap [(b! "a", 2), (b! "b", 8)] (b! "a") .self (by decide +kernel) (by decide +kernel) (by decide))
    (C := ⟨0, .inline true (b! "\n  "), [3, 5]⟩) (by decide +kernel) rfl (.inl rfl) (L := [4, 6]) (by decide +kernel) rfl (zt := b! "'x'") (by decide +kernel) (by decide) (by decide) (by decide) (by decide +kernel)
  have h4' : (b! "[1, 'x',\n  ]") = slice (b! "a: [1, 'x',\n  ]\nb: 4\n") b d := Except.ok.inj ((show valueText _ _ = .ok (b! "[1, 'x',\n  ]") by decide +kernel).symm.trans h4)
  obtain ⟨rfl, rfl⟩ : b = 3 ∧ d = 15 :=
    (by decide +kernel : ∀ d ≤ 21, ∀ b < d, (b! "[1, 'x',\n  ]") = slice (b! "a: [1, 'x',\n  ]\nb: 4\n") b d → b = 3 ∧ d = 15) d h3 b (by omega) h4'
  obtain rfl : e = 10 := (by decide +kernel : ∀ e < 15, slice (b! "a: [1, 'x',\n  ]\nb: 4\n") e 15 = b! ",\n  ]" → e = 10) e h2 h5
  obtain ⟨doc', g1, g2, g3⟩ := h6 (.number (b! "7") .u8) rfl (by decide) (by decide) (.inl (by decide))
    (.opened (by decide) (by decide) (by decide) (p := 1) (by decide) (.inr (by decide))
      (fun i h1 h2 => (by decide : ∀ i < 3, 1 < i → isIndicator ((b! "a: [1, 'x',\n  ]\nb: 4\n").getD i 0) = true ∨ dashes ((b! "a: [1, 'x',\n  ]\nb: 4\n").drop i) = true) i h2 h1)) _ rfl (by decide +kernel)
  exact ⟨_, doc', hp, g1, g2, g3⟩

end Verif
