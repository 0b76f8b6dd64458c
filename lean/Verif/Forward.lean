import Verif.Grammar
import Verif.Keep
import Verif.Finish
/-
What the parser does on texts of the grammar of `Verif.Grammar`: scanning.
-/
namespace Verif

/-! ### Positions -/

section
variable {inp : Bytes} {n : Nat}

theorem drop_add {x s : Bytes} (h : inp.drop n = x ++ s) : inp.drop (n + x.length) = s := by
  rw [← List.drop_drop, h]; simp

theorem peek_of {s : Bytes} (h : inp.drop n = s) : peekAt inp n = hd s := by unfold peekAt; rw [h]
theorem peek_cons {b : UInt8} {s : Bytes} (h : inp.drop n = b :: s) : peekAt inp n = b := by unfold peekAt; rw [h]; rfl
theorem lt_of_cons {b : UInt8} {s : Bytes} (h : inp.drop n = b :: s) : n < inp.length := by
  have := congrArg List.length h; simp at this; omega
theorem bump_cons {b : UInt8} {s : Bytes} (h : inp.drop n = b :: s) : bump inp n 1 = n + 1 := bump_one (lt_of_cons h)
theorem drop_cons {b : UInt8} {s : Bytes} (h : inp.drop n = b :: s) : inp.drop (n + 1) = s := drop_add (x := [b]) h
theorem slice_of {x s : Bytes} (h : inp.drop n = x ++ s) : slice inp n (n + x.length) = x := by
  unfold slice; rw [h]; simp
end

/-! ### White space -/

/-- Does not start with white space or a comment. -/
def stopWs (s : Bytes) : Prop := isWs (hd s) = false ∧ hd s ≠ HASH

theorem stopWs_nil : stopWs [] := ⟨by decide, by decide⟩

theorem wsGo_append : ∀ {w s : Bytes}, (∀ b ∈ w, isWs b = true) → stopWs s → (wsGo false (w ++ s)).1 = w.length
  | [], s, _, h => by
    cases s with
    | nil => rfl
    | cons b r =>
      have h1 : isWs b = false := h.1
      have h2 : b ≠ HASH := h.2
      simp only [isWs, Bool.or_eq_false_iff, beq_eq_false_iff_ne] at h1
      simp [wsGo, h2, h1.1, h1.2]
  | b :: w, s, hw, h => by
    have ih := wsGo_append (w := w) (fun b hb => hw b (by simp [hb])) h
    have hb := hw b (by simp)
    have hne : (b == HASH) = false := by
      cases hq : b == HASH with
      | false => rfl
      | true => rw [beq_iff_eq] at hq; subst hq; revert hb; decide
    simp only [isWs, Bool.or_eq_true] at hb
    rw [List.cons_append, wsGo]
    simp only [hne, Bool.false_eq_true, if_false]
    cases h1 : b == NL with
    | true => simp [ih]
    | false => simp [hb.resolve_right (by simp [h1]), ih]

theorem wsGo_blank : ∀ {c : Bool} {w : Bytes}, blankGo c w = true → (wsGo c w).1 = w.length
  | c, [], _ => by cases c <;> rfl
  | true, b :: w, h => by
    rw [blankGo] at h
    rw [wsGo]
    cases h1 : b == NL with
    | true => simp [bne, h1] at h; simp [wsGo_blank h]
    | false => simp [bne, h1] at h; simp [wsGo_blank h]
  | false, b :: w, h => by
    rw [blankGo] at h
    rw [wsGo]
    split at h
    · next h2 => simp [h2, wsGo_blank h]
    · next h2 =>
      simp only [Bool.and_eq_true, isWs, Bool.or_eq_true] at h
      simp only [h2]
      cases h1 : b == NL with
      | true => simp [wsGo_blank h.2]
      | false => simp [h.1.resolve_right (by simp [h1]), wsGo_blank h.2]

theorem ws_of {inp : Bytes} {n : Nat} {w s : Bytes} (h : inp.drop n = w ++ s) (hg : (wsGo false (w ++ s)).1 = w.length) :
    wsEnd inp n = n + w.length ∧ wsStr inp n = w := by
  have h1 : wsEnd inp n = n + w.length := by unfold wsEnd; rw [h, hg]
  exact ⟨h1, by unfold wsStr; rw [h1]; exact slice_of h⟩

theorem ws_none {inp : Bytes} {n : Nat} {s : Bytes} (h : inp.drop n = s) (hs : stopWs s) : wsEnd inp n = n ∧ wsStr inp n = [] :=
  ws_of (w := []) h (wsGo_append (by simp) hs)

/-! ### Columns -/

/-- There are `c` characters before `n` on its line, all of them ASCII. -/
def Col (inp : Bytes) (n c : Nat) : Prop :=
  ∃ p : Bytes, p.length = c ∧ (∀ b ∈ p, b < 0x80 ∧ b ≠ NL) ∧ (inp.take n = p ∨ ∃ a, inp.take n = a ++ NL :: p)

theorem chars_ascii_length : ∀ {p : Bytes}, (∀ b ∈ p, b < 0x80) → (chars p).length = p.length
  | [], _ => rfl
  | b :: p, h => by
    rw [chars_ascii (h b (by simp))]
    simp [chars_ascii_length (p := p) (fun b hb => h b (by simp [hb]))]

theorem takeWhile_all {p : UInt8 → Bool} : ∀ {l : Bytes}, (∀ b ∈ l, p b = true) → l.takeWhile p = l
  | [], _ => rfl
  | b :: l, h => by rw [List.takeWhile_cons, h b (by simp)]; simp [takeWhile_all (l := l) (fun b hb => h b (by simp [hb]))]

theorem takeWhile_stop {p : UInt8 → Bool} {x : UInt8} (hx : p x = false) : ∀ {l r : Bytes}, (∀ b ∈ l, p b = true) →
    (l ++ x :: r).takeWhile p = l
  | [], r, _ => by simp [hx]
  | b :: l, r, h => by
    rw [List.cons_append, List.takeWhile_cons, h b (by simp)]; simp [takeWhile_stop hx (l := l) (fun b hb => h b (by simp [hb]))]

theorem lastLine_line {p : Bytes} (h : ∀ b ∈ p, b ≠ NL) : lastLine p = p := by
  unfold lastLine; rw [takeWhile_all (by simpa using h)]; simp

theorem lastLine_nl {a p : Bytes} (h : ∀ b ∈ p, b ≠ NL) : lastLine (a ++ NL :: p) = p := by
  unfold lastLine
  rw [List.reverse_append, List.reverse_cons, List.append_assoc, List.singleton_append, takeWhile_stop (by decide) (by simpa using h)]; simp

theorem Col.indentFrom {inp : Bytes} {n c : Nat} (h : Col inp n c) : indentFrom inp n = c := by
  obtain ⟨p, h1, h2, h3⟩ := h
  have : lastLine (inp.take n) = p := by
    rcases h3 with h3 | ⟨a, h3⟩
    · rw [h3, lastLine_line (fun b hb => (h2 b hb).2)]
    · rw [h3, lastLine_nl (fun b hb => (h2 b hb).2)]
  unfold Verif.indentFrom countIndent
  rw [this, chars_ascii_length (fun b hb => (h2 b hb).1), h1]

theorem take_add {inp : Bytes} {n : Nat} {x s : Bytes} (h : inp.drop n = x ++ s) : inp.take (n + x.length) = inp.take n ++ x := by
  rw [List.take_add, h]; simp

theorem Col.zero (inp : Bytes) : Col inp 0 0 := ⟨[], rfl, by simp, by simp⟩

theorem Col.next {inp : Bytes} {n c : Nat} (h : Col inp n c) {x s : Bytes} (hx : inp.drop n = x ++ s)
    (ha : ∀ b ∈ x, b < 0x80 ∧ b ≠ NL) : Col inp (n + x.length) (c + x.length) := by
  obtain ⟨p, h1, h2, h3⟩ := h
  refine ⟨p ++ x, by simp [h1], fun b hb => (List.mem_append.1 hb).elim (h2 b) (ha b), ?_⟩
  rw [take_add hx]
  rcases h3 with h3 | ⟨a, h3⟩
  · exact .inl (by rw [h3])
  · exact .inr ⟨a, by rw [h3]; simp⟩

theorem Col.line {inp : Bytes} {n k : Nat} {s : Bytes} (hx : inp.drop n = NL :: List.replicate k SP ++ s) :
    Col inp (n + (k + 1)) k := by
  refine ⟨List.replicate k SP, by simp, ?_, .inr ⟨inp.take n, ?_⟩⟩
  · intro b hb; rw [List.eq_of_mem_replicate hb]; decide
  · have := take_add hx; simpa using this

/-! ### Numbers -/

theorem isDigit_dot {b : UInt8} (h : isDigit b = true) : (b == 46) = false ∧ (b == 101) = false ∧ (b == 69) = false := by
  refine ⟨?_, ?_, ?_⟩ <;> (rw [beq_eq_false_iff_ne]; rintro rfl; revert h; decide)

/-- After the exponent. -/
theorem numGo_exp : ∀ (hn : Bool) (t : Bytes), t.drop (numGo false false hn t).1 = t.dropWhile isDigit
  | _, [] => rfl
  | hn, b :: t => by
    rw [numGo]
    cases h : isDigit b with
    | true => simp [h, numGo_exp true t]
    | false => simp [h]

/-- After the point. -/
theorem numGo_frac : ∀ (hn : Bool) (t : Bytes), t.drop (numGo false true hn t).1 =
    (let b := t.takeWhile isDigit; let r := t.dropWhile isDigit
     if (r.head? = some 101 ∨ r.head? = some 69) ∧ (hn = true ∨ b ≠ []) then r.tail.dropWhile isDigit else r)
  | _, [] => by simp [numGo]
  | hn, b :: t => by
    rw [numGo]
    cases h : isDigit b with
    | true =>
      obtain ⟨_, h2, h3⟩ := isDigit_dot h
      simp [h, h2, h3, numGo_frac true t]
    | false =>
      by_cases he : b = 101 ∨ b = 69
      · have he' : (b == 101 || b == 69) = true := by simpa using he
        cases hn with
        | true => simp [h, he', he, numGo_exp]
        | false => simp [h, he']
      · have he' : (b == 101 || b == 69) = false := by simpa using he
        simp [h, he', he]

/-- What is left after a number. -/
def numRest (hn : Bool) (s : Bytes) : Bytes :=
  let a := s.takeWhile isDigit
  let r := s.dropWhile isDigit
  let dot := r.head? = some 46
  let b := if dot then r.tail.takeWhile isDigit else []
  let r := if dot then r.tail.dropWhile isDigit else r
  if (r.head? = some 101 ∨ r.head? = some 69) ∧ (hn = true ∨ a ≠ [] ∨ b ≠ []) then r.tail.dropWhile isDigit else r

theorem numGo_rest : ∀ (hn : Bool) (t : Bytes), t.drop (numGo true true hn t).1 = numRest hn t
  | _, [] => by simp [numGo, numRest]
  | hn, b :: t => by
    rw [numGo]
    cases h : isDigit b with
    | true =>
      obtain ⟨h1, h2, h3⟩ := isDigit_dot h
      simp [h, h1, h2, h3, numGo_rest true t, numRest]
    | false =>
      by_cases hd : b = 46
      · subst hd
        simp [numRest, h, numGo_frac]
      · by_cases he : b = 101 ∨ b = 69
        · have he' : (b == 101 || b == 69) = true := by simpa using he
          cases hn with
          | true => simp [h, he', he, hd, numGo_exp, numRest]
          | false => simp [h, he', hd, numRest]
        · have he' : (b == 101 || b == 69) = false := by simpa using he
          simp [h, he', he, hd, numRest]

/-- Without the sign. -/
def unsigned (s : Bytes) : Bytes := if s.head? = some DASH then s.tail else s

theorem isNumber_iff (s : Bytes) : isNumber s = true ↔ (numGo true true false (unsigned s)).1 = (unsigned s).length ∧ unsigned s ≠ [] := by
  have hr := numGo_rest false (unsigned s)
  have hle := (numGo_spec true true false (unsigned s)).1
  have h1 : (numGo true true false (unsigned s)).1 = (unsigned s).length ↔ numRest false (unsigned s) = [] := by
    rw [← hr, List.drop_eq_nil_iff]; omega
  rw [h1]
  unfold isNumber
  simp only [decide_eq_true_eq]
  change (_ ∧ ((unsigned s).takeWhile isDigit ≠ [] ∨ _)) ↔ _
  have h2 : ∀ t : Bytes, numRest false t = [] → ((t.takeWhile isDigit ≠ [] ∨ (t.dropWhile isDigit).head? = some 46) ↔ t ≠ []) := by
    intro t ht
    cases t with
    | nil => simp
    | cons b t =>
      simp only [ne_eq, reduceCtorEq, not_false_eq_true, iff_true]
      refine Classical.byContradiction fun hc => ?_
      simp only [not_or, Classical.not_not] at hc
      have hb : isDigit b = false := by
        cases hb : isDigit b with
        | false => rfl
        | true => have := hc.1; simp [hb] at this
      simp [numRest, hb] at ht
      have := hc.2
      simp [hb] at this
      simp [this] at ht
  have h3 : numRest false (unsigned s) = (
      let s := unsigned s
      let a := s.takeWhile isDigit
      let r := s.dropWhile isDigit
      let dot := r.head? = some 46
      let b := if dot then r.tail.takeWhile isDigit else []
      let r := if dot then r.tail.dropWhile isDigit else r
      let e := (r.head? = some 101 ∨ r.head? = some 69) ∧ (a ≠ [] ∨ b ≠ [])
      if e then r.tail.dropWhile isDigit else r) := by
    simp only [numRest, Bool.false_eq_true, false_or]
  constructor
  · rintro ⟨ha, hb⟩
    rw [h3]
    exact ⟨ha, (h2 _ (h3.trans ha)).1 hb⟩
  · rintro ⟨ha, hb⟩
    exact ⟨h3.symm.trans ha, (h2 _ ha).2 hb⟩

/-- Does not go on like a number. -/
def stopNum (s : Bytes) : Prop := isDigit (hd s) = false ∧ hd s ≠ 46 ∧ hd s ≠ 101 ∧ hd s ≠ 69

/-- Text after a number does not change it. -/
theorem numGo_append : ∀ {wd we hn : Bool} {t s : Bytes}, stopNum s ∨ (numGo wd we hn t).1 < t.length →
    numGo wd we hn (t ++ s) = numGo wd we hn t
  | wd, we, hn, [], s, h => by
    cases s with
    | nil => rfl
    | cons b s =>
      rcases h with h | h
      · have h1 : isDigit b = false := h.1
        have h2 : b ≠ 46 := h.2.1
        have h3 : b ≠ 101 := h.2.2.1
        have h4 : b ≠ 69 := h.2.2.2
        simp [numGo, h1, h2, h3, h4]
      · simp at h
  | wd, we, hn, b :: t, s, h => by
    rw [List.cons_append, numGo, numGo]
    rw [numGo] at h
    split
    · next h1 =>
      rw [if_pos h1] at h
      rw [numGo_append (t := t) (h.imp id (fun h => by simpa using h))]
    · next h1 =>
      rw [if_neg h1] at h
      split
      · next h2 =>
        rw [if_pos h2] at h
        rw [numGo_append (t := t) (h.imp id (fun h => by simpa using h))]
      · next h2 =>
        rw [if_neg h2] at h
        split
        · next h3 =>
          rw [if_pos h3] at h
          rw [numGo_append (t := t) (h.imp id (fun h => by simpa using h))]
        · rfl

theorem unsigned_eq (s : Bytes) : unsigned s = if hd s = DASH ∧ s ≠ [] then s.drop 1 else s := by
  cases s with
  | nil => rfl
  | cons b s => simp [unsigned, hd]

theorem unsigned_length (s : Bytes) : (unsigned s).length = s.length - (if s.head? = some DASH then 1 else 0) := by
  unfold unsigned; split <;> simp

theorem number_eq {inp : Bytes} {tab : Bool} {n : Nat} {s rest : Bytes} (h : inp.drop n = s ++ rest) (hs : s ≠ []) :
    let k := (numGo true true false (unsigned s ++ rest)).1
    let e := n + (s.length - (unsigned s).length) + k
    ∃ hint, inp.drop (n + (s.length - (unsigned s).length)) = unsigned s ++ rest ∧
      number inp tab n = if k = 0 then (e, none)
        else if tab && !isEol (inp.drop e) then (e, none) else (e, some (.number (slice inp n e) hint)) := by
  cases s with
  | nil => exact absurd rfl hs
  | cons b s =>
    rw [List.cons_append] at h
    by_cases hb : b = DASH
    · subst hb
      have hd := drop_cons h
      refine ⟨if (numGo true true false (s ++ rest)).2 then .f64 else .i64, ?_, ?_⟩
      · simpa [unsigned] using hd
      · simp [number, peek_cons h, bump_cons h, hd, unsigned]
    · have hb' : (b == DASH) = false := by simpa using hb
      have hu : unsigned (b :: s) = b :: s := by simp [unsigned, hb]
      refine ⟨if (numGo true true false (b :: s ++ rest)).2 then .f64 else .u64, ?_, ?_⟩
      · simpa [hu] using h
      · simp only [number, peek_cons h, hb', hu, Bool.false_eq_true, if_false, Nat.sub_self, Nat.add_zero, h, List.cons_append]

theorem stopNum_of {s : Bytes} (h : hd s = 0 ∨ isWs (hd s) = true ∨ isCtl (hd s) = true) : stopNum s := by
  unfold stopNum
  generalize hd s = b at h
  have key : ∀ b : UInt8, (isDigit b = true ∨ b = 46 ∨ b = 101 ∨ b = 69) → b ≠ 0 ∧ isWs b = false ∧ isCtl b = false := by
    intro b hb
    rcases hb with hb | rfl | rfl | rfl
    · refine ⟨?_, ?_, ?_⟩
      · rintro rfl; revert hb; decide
      · cases hq : isWs b with
        | false => rfl
        | true =>
          simp only [isWs, isOtherWs, Bool.or_eq_true, beq_iff_eq] at hq
          rcases hq with (((rfl | rfl) | rfl) | rfl) | rfl <;> revert hb <;> decide
      · cases hq : isCtl b with
        | false => rfl
        | true =>
          simp only [isCtl, Bool.or_eq_true, beq_iff_eq] at hq
          rcases hq with (((rfl | rfl) | rfl) | rfl) | rfl <;> revert hb <;> decide
    all_goals decide
  refine ⟨?_, ?_, ?_, ?_⟩
  · cases hb : isDigit b with
    | false => rfl
    | true => have := key b (.inl hb); simp_all
  all_goals
    rintro rfl
    revert h; decide

theorem isEol_ws : ∀ {w : Bytes}, w = [] ∨ hd w = NL → isEol w = true
  | [], _ => rfl
  | b :: w, h => by
    have : b = NL := by simpa [hd] using h
    simp [isEol, this]

theorem isEol_text : ∀ {r rest : Bytes}, r ≠ [] → NL ∉ r → isWs (r.getLastD 0) = false → isEol (r ++ rest) = false
  | [b], rest, _, h1, h2 => by
    have h2 : isWs b = false := h2
    simp only [isWs, Bool.or_eq_false_iff] at h2
    simp [isEol, h2.1, h2.2]
  | b :: c :: r, rest, _, h1, h2 => by
    have ih := isEol_text (r := c :: r) (rest := rest) (by simp) (by simp_all) (by simpa using h2)
    have hb : (b == NL) = false := by
      rw [beq_eq_false_iff_ne]; rintro rfl; exact h1 (by simp)
    rw [List.cons_append, isEol, hb, ih]; simp

theorem noKeySep_drop : ∀ {s : Bytes} (j : Nat), noKeySep s = true → noKeySep (s.drop j) = true
  | [], j, h => by simpa using h
  | b :: s, 0, h => h
  | b :: s, j + 1, h => by
    rw [noKeySep, Bool.and_eq_true] at h
    exact noKeySep_drop j h.2

/-- A plain text has no key in it. -/
theorem keyGo_plain : ∀ {r rest : Bytes}, NL ∉ r → noKeySep r = true → rest = [] ∨ hd rest = NL →
    keyGo (r ++ rest) = (r.length, false)
  | [], rest, _, _, h => by
    cases rest with
    | nil => rfl
    | cons b rest =>
      have : b = NL := by simpa [hd] using h
      simp [keyGo, this]
  | b :: r, rest, h1, h2, h => by
    rw [noKeySep, Bool.and_eq_true] at h2
    have ih := keyGo_plain (r := r) (fun hm => h1 (by simp [hm])) h2.2 h
    have hb : (b == NL) = false := by rw [beq_eq_false_iff_ne]; rintro rfl; exact h1 (by simp)
    have hc : (b == COLON && (isWs ((r ++ rest).headD 0) || (r ++ rest).headD 0 == 0)) = false := by
      have := h2.1
      cases r with
      | nil =>
        cases hb2 : b == COLON with
        | false => rfl
        | true => simp [hb2] at this
      | cons c r => simpa [Decidable.imp_iff_not_or] using this
    rw [List.cons_append, keyGo, hb, hc, ih]; simp

theorem ctlGo_plain : ∀ {r rest : Bytes}, r.any isCtl = false → isCtl (hd rest) = true → ctlGo (r ++ rest) = r.length
  | [], rest, _, h => by
    cases rest with
    | nil => rfl
    | cons b rest =>
      have h : isCtl b = true := h
      simp [ctlGo, h]
  | b :: r, rest, h1, h => by
    rw [List.any_cons, Bool.or_eq_false_iff] at h1
    rw [List.cons_append, ctlGo, h1.1, ctlGo_plain h1.2 h]; simp

/-- Text and reading of a scalar. -/
def Scalar.value : Scalar → AnyV
  | .null _ => .null
  | .bool b _ => .bool b
  | .number s _ => .number s
  | .string s => .string s.id

/-- The scalar is written and read as `a`. -/
def Scalar.fits (sc : Scalar) (a : Atom) : Prop := sc.write = a.text ∧ sc.value = a.value

theorem plainScalar_fits {s : Bytes} (h : isNumber s = false) : (plainScalar s).fits (.plain s) := by
  refine ⟨plainScalar_write s, ?_⟩
  have e1 : ∀ t : Bytes, eqIgnoreCase s t = (s.map lower == t.map lower) := fun _ => rfl
  have m1 : (b! "null").map lower = b! "null" := by decide
  have m2 : (b! "true").map lower = b! "true" := by decide
  have m3 : (b! "false").map lower = b! "false" := by decide
  simp only [plainScalar, Atom.value, plainValue, h, e1, m1, m2, m3, beq_iff_eq]
  by_cases h1 : s = b! "~"
  · simp [h1, Scalar.value]
  · by_cases h2 : s.map lower = b! "null"
    · simp [h2, h1, Scalar.value]
    · by_cases h3 : s.map lower = b! "true"
      · simp [h3, h1, Scalar.value]
      · by_cases h4 : s.map lower = b! "false"
        · simp [h4, h1, Scalar.value]
        · simp [h1, h2, h3, h4, Scalar.value]

theorem number_fits {s : Bytes} (h : isNumber s = true) (hint : Hint) : (Scalar.number s hint).fits (.plain s) := by
  refine ⟨rfl, ?_⟩
  simp [Atom.value, plainValue, h, Scalar.value]

/-- What may follow a value. -/
def follow (inl : Bool) (rest : Bytes) : Prop :=
  if inl then hd rest = COMMA ∨ hd rest = RBR ∨ hd rest = RCB else rest = [] ∨ hd rest = NL

theorem follow_stopNum {inl : Bool} {rest : Bytes} (h : follow inl rest) : stopNum rest := by
  apply stopNum_of
  cases inl with
  | true =>
    simp only [follow, if_true] at h
    rcases h with h | h | h <;> rw [h] <;> decide
  | false =>
    simp only [follow, Bool.false_eq_true, if_false] at h
    rcases h with rfl | h
    · decide
    · rw [h]; decide

theorem indicator_ne {b : UInt8} (h : isIndicator b = false) : (b == HASH) = false ∧ (b == DQ) = false ∧ (b == SQ) = false ∧
    (b == LBR) = false ∧ (b == LCB) = false ∧ (b == GT) = false ∧ (b == PIPE) = false ∧ isWs b = false := by
  simp only [isIndicator, Bool.or_eq_false_iff] at h
  simp_all

theorem getLastD_drop {s : Bytes} {j : Nat} (h : j < s.length) : (s.drop j).getLastD 0 = s.getLastD 0 := by
  rw [List.getLastD_eq_getLast?, List.getLastD_eq_getLast?, List.getLast?_drop, if_neg (by omega)]

/-- A number. -/
theorem number_yes {inp : Bytes} {inl : Bool} {n : Nat} {s rest : Bytes} (h : inp.drop n = s ++ rest) (hs : s ≠ [])
    (hn : isNumber s = true) (hf : follow inl rest) : ∃ hint, number inp (!inl) n = (n + s.length, some (.number s hint)) := by
  obtain ⟨hint, h1, h2⟩ := number_eq (tab := !inl) h hs
  obtain ⟨hk, hu⟩ := (isNumber_iff s).1 hn
  have hk' := numGo_append (wd := true) (we := true) (hn := false) (t := unsigned s) (.inl (follow_stopNum hf))
  rw [hk', hk] at h2
  have hl : (unsigned s).length ≤ s.length := by unfold unsigned; split <;> simp
  have hl0 : (unsigned s).length ≠ 0 := by simpa using hu
  have he : n + (s.length - (unsigned s).length) + (unsigned s).length = n + s.length := by omega
  rw [he, if_neg hl0, drop_add h, slice_of h] at h2
  refine ⟨hint, ?_⟩
  rw [h2]
  cases inl with
  | true => rfl
  | false =>
    simp only [follow, Bool.false_eq_true, if_false] at hf
    rw [isEol_ws hf]; rfl

/-- Not a number. -/
theorem number_no {inp : Bytes} {inl : Bool} {n : Nat} {s rest : Bytes} (h : inp.drop n = s ++ rest)
    (hn : isNumber s = false) (hf : follow inl rest) (ha : (Atom.plain s).ok inl = true) :
    ∃ j, j ≤ s.length ∧ number inp (!inl) n = (n + j, none) := by
  have hs : s ≠ [] := by
    rintro rfl
    cases inl <;> simp [Atom.ok, plainFlow, plainBlock] at ha
  obtain ⟨hint, h1, h2⟩ := number_eq (tab := !inl) h hs
  have hnum : ¬ isNumber s = true := by simp [hn]
  rw [isNumber_iff] at hnum
  have hk' := numGo_append (wd := true) (we := true) (hn := false) (t := unsigned s) (.inl (follow_stopNum hf))
  rw [hk'] at h2
  have hle := (numGo_spec true true false (unsigned s)).1
  have hl : (unsigned s).length ≤ s.length := by unfold unsigned; split <;> simp
  generalize hkd : (numGo true true false (unsigned s)).1 = k at *
  refine ⟨s.length - (unsigned s).length + k, by omega, ?_⟩
  rw [h2, Nat.add_assoc]
  by_cases hk0 : k = 0
  · rw [if_pos hk0]
  · rw [if_neg hk0]
    have hlt : k < (unsigned s).length := by
      rcases Nat.lt_or_ge k (unsigned s).length with h | h
      · exact h
      · exact absurd ⟨by omega, by rintro h0; rw [h0] at hle; simp at hle; exact hk0 hle⟩ hnum
    cases inl with
    | false =>
      have hd' : inp.drop (n + (s.length - (unsigned s).length + k)) = s.drop (s.length - (unsigned s).length + k) ++ rest := by
        rw [← List.drop_drop, h, List.drop_append_of_le_length (by omega)]
      simp only [Atom.ok, Bool.false_eq_true, if_false, plainBlock, Bool.and_eq_true, Bool.not_eq_true'] at ha
      have heol : isEol (inp.drop (n + (s.length - (unsigned s).length + k))) = false := by
        rw [hd']
        apply isEol_text
        · rw [ne_eq, List.drop_eq_nil_iff]; omega
        · intro hm
          have := List.mem_of_mem_drop hm
          have h3 := ha.1.1.2
          simp [this] at h3
        · rw [getLastD_drop (by omega)]; exact ha.2
      rw [heol]; rfl
    | true =>
      exfalso
      simp only [Atom.ok, if_true, plainFlow, Bool.and_eq_true, hn, Bool.false_or, Bool.not_eq_true'] at ha
      have h3 := ha.2
      change isDigit (hd (unsigned s)) = false ∧ (hd (unsigned s) != 46) = true at h3
      cases hu : unsigned s with
      | nil => rw [hu] at hlt; simp at hlt
      | cons b t =>
        rw [hu] at h3 hkd
        have h4 : isDigit b = false := h3.1
        have h5 : b ≠ 46 := by have := h3.2; simpa [hd] using this
        simp [numGo, h4, h5] at hkd
        omega

/-- A plain scalar is read as such. -/
theorem lead_plain {inp : Bytes} {inl : Bool} {n : Nat} {s rest : Bytes} (h : inp.drop n = s ++ rest)
    (hf : follow inl rest) (ha : (Atom.plain s).ok inl = true) :
    ∃ sc : Scalar, sc.fits (.plain s) ∧ ∀ f, lead f inp inl (!inl) n = .ok (.scalar sc none (n + s.length)) := by
  have hs : s ≠ [] := by
    rintro rfl
    cases inl <;> simp [Atom.ok, plainFlow, plainBlock] at ha
  have hp : peekAt inp n = hd s := by
    rw [peek_of h]; cases s with
    | nil => exact absurd rfl hs
    | cons => rfl
  have hind : isIndicator (hd s) = false := by
    cases inl <;> simp only [Atom.ok, Bool.false_eq_true, if_false, if_true, plainBlock, plainFlow, Bool.and_eq_true, Bool.not_eq_true'] at ha
    · exact ha.1.1.1.1.2
    · exact ha.1.1.1.2
  have hdash : (hd s == DASH && isWs (peekAt inp (n + 1)) && !inl) = false := by
    cases inl with
    | true => simp
    | false =>
      cases s with
      | nil => exact absurd rfl hs
      | cons b t =>
        have hb : hd (b :: t) = b := rfl
        rw [hb]
        cases hbd : b == DASH with
        | false => rfl
        | true =>
          rw [beq_iff_eq] at hbd; subst hbd
          simp only [Atom.ok, Bool.false_eq_true, if_false, plainBlock, Bool.and_eq_true, Bool.not_eq_true'] at ha
          have hda := ha.1.1.1.2
          cases t with
          | nil => simp [dashed] at hda
          | cons c t =>
            have hc : isWs c = false := by simpa [dashed] using hda
            have : peekAt inp (n + 1) = c := peek_cons (drop_cons h)
            rw [this, hc]; rfl
  obtain ⟨i1, i2, i3, i4, i5, i6, i7, i8⟩ := indicator_ne hind
  cases hn : isNumber s with
  | true =>
    obtain ⟨hint, hnum⟩ := number_yes h hs hn hf
    refine ⟨_, number_fits hn hint, fun f => ?_⟩
    simp only [lead, hp, hdash, i2, i3, i4, i5, i6, i7, hnum, Bool.false_eq_true, if_false, Bool.or_self]
    rfl
  | false =>
    obtain ⟨j, hj, hnum⟩ := number_no h hn hf ha
    refine ⟨_, plainScalar_fits hn, fun f => ?_⟩
    have hdj : inp.drop (n + j) = s.drop j ++ rest := by rw [← List.drop_drop, h, List.drop_append_of_le_length hj]
    have hlen : n + j + (s.drop j).length = n + s.length := by simp; omega
    simp only [lead, hp, hdash, i2, i3, i4, i5, i6, i7, hnum, Bool.false_eq_true, if_false, Bool.or_self, hdj]
    cases inl with
    | true =>
      simp only [Atom.ok, if_true, plainFlow, Bool.and_eq_true, Bool.not_eq_true'] at ha
      have hctl : isCtl (hd rest) = true := by
        simp only [follow, if_true] at hf
        rcases hf with hf | hf | hf <;> rw [hf] <;> decide
      have hany : (s.drop j).any isCtl = false := by
        have := ha.1.1.2
        rw [List.any_eq_false] at this ⊢
        exact fun b hb => this b (List.mem_of_mem_drop hb)
      rw [ctlGo_plain hany hctl, hlen, slice_of h]
      rfl
    | false =>
      simp only [Atom.ok, Bool.false_eq_true, if_false, plainBlock, Bool.and_eq_true, Bool.not_eq_true'] at ha
      simp only [follow, Bool.false_eq_true, if_false] at hf
      rw [keyGo_plain (fun hm => by have := List.mem_of_mem_drop hm; have h3 := ha.1.1.2; simp [this] at h3)
        (noKeySep_drop j ha.1.2) hf]
      simp only [hlen, slice_of h]
      rfl

/-! ### Quoted strings -/

theorem Atom.text_single (s : Bytes) : (Atom.single s).text = escapeSingle s := by
  rw [Atom.text, escapeSingle, escapeSingleBody_eq]; rfl
theorem Atom.text_double (s : Bytes) : (Atom.double s).text = escapeDouble s := by
  rw [Atom.text, escapeDouble, escapeDoubleBody_eq]; rfl

theorem sqEsc_body {rest : Bytes} (hr : hd rest ≠ SQ) : ∀ {s scratch : Bytes} {k f : Nat}, s.length < f →
    sqEsc f (escapeSingleBody s ++ SQ :: rest) scratch k = .ok (scratch ++ s, k + (escapeSingleBody s).length)
  | [], scratch, k, f, hf => by
    obtain ⟨f, rfl⟩ : ∃ g, f = g + 1 := ⟨f - 1, by omega⟩
    have : (List.head? rest).getD 0 ≠ SQ := by simpa using hr
    simp [escapeSingleBody, sqEsc, this]
  | b :: s, scratch, k, f, hf => by
    obtain ⟨f, rfl⟩ : ∃ g, f = g + 1 := ⟨f - 1, by omega⟩
    have ih := fun sc k => sqEsc_body hr (s := s) (scratch := sc) (k := k) (f := f) (by simp at hf; omega)
    by_cases hb : b = SQ
    · subst hb
      simp [escapeSingleBody, sqEsc, ih]
      omega
    · have hb' : (b == SQ) = false := by simpa using hb
      simp [escapeSingleBody, sqEsc, ih, hb']
      omega

theorem sqScan_body {rest : Bytes} (hr : hd rest ≠ SQ) : ∀ {s : Bytes} {k f : Nat}, s.length < f →
    ∃ a b esc, s = a ++ b ∧ escapeSingleBody s = a ++ escapeSingleBody b ∧ (esc = false → b = []) ∧
      sqScan f (escapeSingleBody s ++ SQ :: rest) k = .ok (k + a.length, esc)
  | [], k, f, hf => by
    obtain ⟨f, rfl⟩ : ∃ g, f = g + 1 := ⟨f - 1, by omega⟩
    have : (List.head? rest).getD 0 ≠ SQ := by simpa using hr
    exact ⟨[], [], false, rfl, rfl, fun _ => rfl, by simp [escapeSingleBody, sqScan, this]⟩
  | b :: s, k, f, hf => by
    obtain ⟨f, rfl⟩ : ∃ g, f = g + 1 := ⟨f - 1, by omega⟩
    by_cases hb : b = SQ
    · subst hb
      exact ⟨[], SQ :: s, true, rfl, rfl, (fun h => by cases h), by simp [escapeSingleBody, sqScan]⟩
    · have hb' : (b == SQ) = false := by simpa using hb
      obtain ⟨a, c, esc, h1, h2, h3, h4⟩ := sqScan_body hr (s := s) (k := k + 1) (f := f) (by simp at hf; omega)
      refine ⟨b :: a, c, esc, by rw [h1]; rfl, ?_, h3, ?_⟩
      · simp [escapeSingleBody, hb', h2]
      · simp [escapeSingleBody, sqScan, hb', h4]
        omega

theorem singleQuoted_text {inp : Bytes} {n f : Nat} {s rest : Bytes} (h : inp.drop n = escapeSingle s ++ rest) (hr : hd rest ≠ SQ)
    (hf : s.length < f) : singleQuoted f inp n = .ok (⟨.original, s, escapeSingle s⟩, n + (escapeSingle s).length) := by
  have h0 : inp.drop n = SQ :: (escapeSingleBody s ++ SQ :: rest) := by rw [h]; simp [escapeSingle]
  have h1 := drop_cons h0
  obtain ⟨a, b, esc, e1, e2, e3, e4⟩ := sqScan_body hr (s := s) (k := 0) hf
  have hsl := slice_of h
  have h2 : inp.drop (n + 1 + a.length) = escapeSingleBody b ++ SQ :: rest := by
    apply drop_add (x := a); rw [h1, e2]; simp
  have h3 := drop_add h2
  have hsa : slice inp (n + 1) (n + 1 + a.length) = a := slice_of (x := a) (s := escapeSingleBody b ++ SQ :: rest) (by rw [h1, e2]; simp)
  have hlen : (escapeSingle s).length = a.length + (escapeSingleBody b).length + 2 := by simp [escapeSingle, e2]; omega
  have hend : n + 1 + a.length + (escapeSingleBody b).length + 1 = n + (escapeSingle s).length := by omega
  simp only [singleQuoted, bump_cons h0, h1, e4, Nat.zero_add]
  cases esc with
  | true =>
    have e5 := sqEsc_body hr (s := b) (scratch := a) (k := 0) (f := f) (by rw [e1] at hf; simp at hf; omega)
    simp only [Nat.zero_add] at e5
    simp only [bind, Except.bind, if_true, h2, hsa, e5, bump_cons h3, hend, hsl, ← e1]
    rfl
  | false =>
    have hb := e3 rfl
    subst hb
    simp only [escapeSingleBody, List.length_nil, Nat.add_zero, List.append_nil] at *
    subst e1
    have hne : n + 1 + s.length ≠ inp.length := by have := lt_of_cons h3; omega
    simp only [bind, Except.bind, Bool.false_eq_true, if_false, hsa, if_neg hne, bump_cons h3, hend, hsl]
    rfl

theorem hexVal_hex : ∀ k, k < 16 → hexVal (if k < 10 then UInt8.ofNat (48 + k) else UInt8.ofNat (87 + k)) = some k := by decide

/-- How the escape of a byte looks. -/
def escapeShape (b : UInt8) (e : Bytes) : Bool :=
  b == DQ || (match e with | [x, c] => x == BSL && simpleEscape c == some b | _ => false) || (e == BSL :: 120 :: hex2 b && b.toNat < 128)

theorem escapeByte_shape {b : UInt8} {e : Bytes} (h : escapeByte b = some e) : escapeShape b e = true := by
  have key : ∀ k, k < 256 → (match escapeByte (UInt8.ofNat k) with | some e => escapeShape (UInt8.ofNat k) e | none => true) = true := by
    set_option maxRecDepth 100000 in decide
  have := key b.toNat b.toNat_lt
  rw [UInt8.ofNat_toNat, h] at this
  exact this

theorem unescape_hex {inp : Bytes} {start n : Nat} {b : UInt8} {rest : Bytes} (hb : b.toNat < 128)
    (h0 : inp.drop n = 120 :: (hex2 b ++ rest)) : unescape inp start n = .ok ([b], n + 3) := by
  have h1 := drop_cons h0
  rw [hex2] at h1
  simp only [List.cons_append, List.nil_append] at h1
  have h2 := drop_cons h1
  have h3 := drop_cons h2
  have hx : simpleEscape 120 = none := by decide
  simp only [unescape, peek_cons h0, hx, beq_self_eq_true, if_true, bump_cons h0, unescapeUnicode, peek_cons h1, peek_cons h2,
    hexVal_hex _ (show b.toNat / 16 < 16 by omega), hexVal_hex _ (show b.toNat % 16 < 16 by omega), bump_cons h1, bump_cons h2]
  have hv : (0 * 16 + b.toNat / 16) * 16 + b.toNat % 16 = b.toNat := by omega
  rw [hv, if_neg (by omega), encodeCp, if_pos hb, UInt8.ofNat_toNat]

/-- What an escape decodes to. -/
theorem unescape_escape {inp : Bytes} {start n : Nat} {b : UInt8} {e rest : Bytes} (he : escapeByte b = some (BSL :: e)) (hq : b ≠ DQ)
    (h : inp.drop n = e ++ rest) : unescape inp start n = .ok ([b], n + e.length) := by
  have hs := escapeByte_shape he
  unfold escapeShape at hs
  rw [beq_eq_false_iff_ne.2 hq, Bool.false_or, Bool.or_eq_true] at hs
  rcases hs with hs | hs
  · cases e with
    | nil => cases hs
    | cons c e =>
      cases e with
      | cons => cases hs
      | nil =>
        have hc : simpleEscape c = some b := by
          have := ((Bool.and_eq_true _ _).mp hs).2
          simpa using this
        have h : inp.drop n = c :: rest := h
        simp only [unescape, peek_cons h, hc, bump_cons h]; rfl
  · rw [Bool.and_eq_true, beq_iff_eq, decide_eq_true_eq] at hs
    have he : e = 120 :: hex2 b := by have := hs.1; injection this
    subst he
    exact unescape_hex hs.2 h

theorem escapeByte_bsl {b : UInt8} {e : Bytes} (h : escapeByte b = some e) : ∃ e', e = BSL :: e' := by
  unfold escapeByte at h
  repeat' split at h
  all_goals first
    | (injection h with h; exact ⟨_, h.symm⟩)
    | cases h

theorem escapeByte_none {b : UInt8} (h : escapeByte b = none) : (b == DQ || b == 0) = false := by
  rw [Bool.or_eq_false_iff, beq_eq_false_iff_ne, beq_eq_false_iff_ne]
  constructor <;> (rintro rfl; revert h; decide)

theorem dqEsc_body {inp rest : Bytes} : ∀ {s scratch : Bytes} {n f : Nat}, DQ ∉ s → BSL ∉ s → s.length < f →
    inp.drop n = escapeDoubleBody s ++ DQ :: rest →
    dqEsc inp f n scratch = .ok (scratch ++ s, n + (escapeDoubleBody s).length)
  | [], scratch, n, f, _, _, hf, h => by
    obtain ⟨f, rfl⟩ : ∃ g, f = g + 1 := ⟨f - 1, by omega⟩
    have h : inp.drop n = DQ :: rest := h
    simp [dqEsc, peek_cons h, escapeDoubleBody]
  | b :: s, scratch, n, f, hq, hbs, hf, h => by
    obtain ⟨f, rfl⟩ : ∃ g, f = g + 1 := ⟨f - 1, by omega⟩
    have ih := fun sc n => dqEsc_body (inp := inp) (rest := rest) (s := s) (scratch := sc) (n := n) (f := f)
      (fun hm => hq (by simp [hm])) (fun hm => hbs (by simp [hm])) (by simp at hf; omega)
    have hbq : b ≠ DQ := by rintro rfl; exact hq (by simp)
    have hbb : (b == BSL) = false := by rw [beq_eq_false_iff_ne]; rintro rfl; exact hbs (by simp)
    cases he : escapeByte b with
    | none =>
      have h : inp.drop n = b :: (escapeDoubleBody s ++ DQ :: rest) := by rw [h]; simp [escapeDoubleBody, he]
      simp only [dqEsc, peek_cons h, escapeByte_none he, hbb, bump_cons h, ih _ _ (drop_cons h), Bool.false_eq_true, if_false]
      simp [escapeDoubleBody, he]; omega
    | some e =>
      obtain ⟨e', rfl⟩ := escapeByte_bsl he
      have h : inp.drop n = BSL :: (e' ++ (escapeDoubleBody s ++ DQ :: rest)) := by rw [h]; simp [escapeDoubleBody, he]
      have h1 := drop_cons h
      have hc : (BSL == DQ || BSL == 0) = false := by decide
      simp only [dqEsc, peek_cons h, hc, Bool.false_eq_true, if_false, beq_self_eq_true, if_true, bump_cons h, unescape_escape he hbq h1,
        bind, Except.bind, ih _ _ (drop_add h1)]
      simp [escapeDoubleBody, he]; omega

theorem dqScan_body {rest : Bytes} : ∀ {s : Bytes}, DQ ∉ s → BSL ∉ s →
    ∃ a b esc, s = a ++ b ∧ escapeDoubleBody s = a ++ escapeDoubleBody b ∧ (esc = false → b = []) ∧
      dqScan (escapeDoubleBody s ++ DQ :: rest) = (a.length, esc)
  | [], _, _ => ⟨[], [], false, rfl, rfl, fun _ => rfl, by simp [escapeDoubleBody, dqScan]⟩
  | b :: s, hq, hbs => by
    have hbb : (b == BSL) = false := by rw [beq_eq_false_iff_ne]; rintro rfl; exact hbs (by simp)
    cases he : escapeByte b with
    | none =>
      obtain ⟨a, c, esc, h1, h2, h3, h4⟩ := dqScan_body (rest := rest) (s := s) (fun hm => hq (by simp [hm])) (fun hm => hbs (by simp [hm]))
      refine ⟨b :: a, c, esc, by rw [h1]; rfl, by simp [escapeDoubleBody, he, h2], h3, ?_⟩
      have : escapeDoubleBody (b :: s) ++ DQ :: rest = b :: (escapeDoubleBody s ++ DQ :: rest) := by simp [escapeDoubleBody, he]
      rw [this, dqScan, escapeByte_none he, hbb, h4]; simp
    | some e =>
      obtain ⟨e', rfl⟩ := escapeByte_bsl he
      refine ⟨[], b :: s, true, rfl, rfl, (fun h => by cases h), ?_⟩
      have : escapeDoubleBody (b :: s) ++ DQ :: rest = BSL :: (e' ++ escapeDoubleBody s ++ DQ :: rest) := by simp [escapeDoubleBody, he]
      rw [this, dqScan]; rfl

theorem doubleQuoted_text {inp : Bytes} {n f : Nat} {s rest : Bytes} (h : inp.drop n = escapeDouble s ++ rest)
    (hq : DQ ∉ s) (hb : BSL ∉ s) (hf : s.length < f) :
    doubleQuoted f inp n = .ok (⟨.original, s, escapeDouble s⟩, n + (escapeDouble s).length) := by
  have h0 : inp.drop n = DQ :: (escapeDoubleBody s ++ DQ :: rest) := by rw [h]; simp [escapeDouble]
  have h1 := drop_cons h0
  obtain ⟨a, b, esc, e1, e2, e3, e4⟩ := dqScan_body (rest := rest) hq hb
  have hsl := slice_of h
  have h2 : inp.drop (n + 1 + a.length) = escapeDoubleBody b ++ DQ :: rest := by
    apply drop_add (x := a); rw [h1, e2]; simp
  have h3 := drop_add h2
  have hsa : slice inp (n + 1) (n + 1 + a.length) = a := slice_of (x := a) (s := escapeDoubleBody b ++ DQ :: rest) (by rw [h1, e2]; simp)
  have hlen : (escapeDouble s).length = a.length + (escapeDoubleBody b).length + 2 := by simp [escapeDouble, e2]; omega
  have hend : n + 1 + a.length + (escapeDoubleBody b).length + 1 = n + (escapeDouble s).length := by omega
  simp only [doubleQuoted, bump_cons h0, h1, e4]
  cases esc with
  | true =>
    have e5 := dqEsc_body (inp := inp) (rest := rest) (s := b) (scratch := a) (n := n + 1 + a.length) (f := f)
      (fun hm => hq (by simp [e1, hm])) (fun hm => hb (by simp [e1, hm])) (by rw [e1] at hf; simp at hf; omega) h2
    simp only [bind, Except.bind, if_true, hsa, e5, bump_cons h3, hend, hsl, ← e1]
    rfl
  | false =>
    have hb := e3 rfl
    subst hb
    simp only [escapeDoubleBody, List.length_nil, Nat.add_zero, List.append_nil] at *
    subst e1
    have hne : n + 1 + s.length ≠ inp.length := by have := lt_of_cons h3; omega
    simp only [Bool.false_eq_true, if_false, hsa, if_neg hne, bump_cons h3, hend, hsl]
    rfl

/-! ### Escapes -/

theorem encodeCp_eq {n : Nat} (hv : n.isValidChar) (h : n < 65536) : encodeCp n = String.utf8EncodeChar (Char.ofNat n) := by
  have hn : (Char.ofNat n).val.toNat = n := by
    rw [Char.ofNat, dif_pos hv]; rfl
  unfold encodeCp String.utf8EncodeChar
  simp only [hn]
  split
  · rw [if_pos (by omega)]
  · split
    · rw [if_neg (by omega), if_pos (by omega), Nat.mod_eq_of_lt (show n / 64 < 32 by omega), Nat.add_comm 0xC0, Nat.add_comm 0x80]
    · rw [if_neg (by omega), if_neg (by omega), if_pos (by omega), Nat.mod_eq_of_lt (show n / 4096 < 16 by omega), Nat.add_comm 0xE0, Nat.add_comm 0x80,
        Nat.add_comm 0x80]

theorem digit16_all : ∀ b : Fin 256, digit16 (UInt8.ofNat b) = hexVal (UInt8.ofNat b) := by decide +kernel

theorem digit16_eq (b : UInt8) : digit16 b = hexVal b := by
  have := digit16_all ⟨b.toNat, b.toNat_lt⟩
  rwa [UInt8.ofNat_toNat] at this

theorem hexVal_lt {b : UInt8} {v : Nat} (h : hexVal b = some v) : v < 16 := by
  rw [← digit16_eq, digit16, List.idxOf?] at h
  exact (List.findIdx?_eq_some_iff_getElem.1 h).1

theorem number16_lt : ∀ {ds : Bytes} {v : Nat}, number16 ds = some v → v < 16 ^ ds.length
  | [], v, h => by simp [number16] at h; subst h; decide
  | b :: r, v, h => by
    simp only [number16, bind, Option.bind] at h
    cases h1 : digit16 b with
    | none => simp [h1] at h
    | some x =>
      cases h2 : number16 r with
      | none => simp [h1, h2] at h
      | some y =>
        simp [h1, h2] at h
        have := number16_lt h2
        rw [digit16_eq] at h1
        have h3 := hexVal_lt h1
        subst h
        rw [List.length_cons, Nat.pow_succ]
        have : x * 16 ^ r.length + 16 ^ r.length ≤ 16 * 16 ^ r.length := by
          rw [← Nat.succ_mul]; exact Nat.mul_le_mul_right _ h3
        omega

theorem unescapeUnicode_digits {inp rest : Bytes} {start : Nat} {err : ErrKind} : ∀ {ds : Bytes} {n c v : Nat}, number16 ds = some v →
    inp.drop n = ds ++ rest → unescapeUnicode inp start err ds.length n c = unescapeUnicode inp start err 0 (n + ds.length) (c * 16 ^ ds.length + v)
  | [], n, c, v, h, _ => by simp [number16] at h; subst h; simp
  | b :: r, n, c, v, h, hd => by
    have hd : inp.drop n = b :: (r ++ rest) := hd
    simp only [number16, bind, Option.bind] at h
    cases h1 : digit16 b with
    | none => simp [h1] at h
    | some x =>
      cases h2 : number16 r with
      | none => simp [h1, h2] at h
      | some y =>
        simp [h1, h2] at h
        subst h
        rw [digit16_eq] at h1
        have ih := unescapeUnicode_digits (start := start) (err := err) (c := c * 16 + x) h2 (drop_cons hd)
        have hu : unescapeUnicode inp start err (r.length + 1) n c = unescapeUnicode inp start err r.length (n + 1) (c * 16 + x) := by
          rw [unescapeUnicode]; simp only [peek_cons hd, h1, bump_cons hd]
        rw [List.length_cons, hu, ih, Nat.add_assoc n 1, Nat.add_comm 1, Nat.add_mul, Nat.mul_assoc, ← Nat.pow_succ', Nat.add_assoc]

theorem unescapeUnicode_char {inp rest : Bytes} {start : Nat} {err : ErrKind} {ds : Bytes} {n : Nat} {c : Char} (h : charOf ds = some c)
    (hd : inp.drop n = ds ++ rest) (hl : ds.length ≤ 4) :
    unescapeUnicode inp start err ds.length n 0 = .ok (String.utf8EncodeChar c, n + ds.length) := by
  simp only [charOf, bind, Option.bind] at h
  cases h1 : number16 ds with
  | none => simp [h1] at h
  | some v =>
    simp only [h1] at h
    split at h
    · rename_i hv
      injection h with h
      have h2 : v < 16 ^ 4 := Nat.lt_of_lt_of_le (number16_lt h1) (Nat.pow_le_pow_right (by decide) hl)
      rw [unescapeUnicode_digits h1 hd, unescapeUnicode, Nat.zero_mul, Nat.zero_add, if_neg (by rcases hv with hv | hv <;> omega), encodeCp_eq hv (by omega), h]
    · cases h

theorem simpleEscape_all : ∀ b : Fin 256, (letters.lookup (UInt8.ofNat b)).isSome = true → simpleEscape (UInt8.ofNat b) = letters.lookup (UInt8.ofNat b) := by
  decide +kernel

theorem simpleEscape_eq {c x : UInt8} (h : letters.lookup c = some x) : simpleEscape c = some x := by
  have := simpleEscape_all ⟨c.toNat, c.toNat_lt⟩
  simp only [UInt8.ofNat_toNat, h] at this
  exact this rfl

/-- What a piece that is an escape decodes to. -/
theorem unescape_piece {inp rest e : Bytes} {start n : Nat} {p : Piece} (ht : p.text = BSL :: e) (hk : p.ok = true) (h : inp.drop n = e ++ rest) :
    unescape inp start n = .ok (p.value, n + e.length) := by
  cases p with
  | byte b =>
    injection ht with ht
    subst ht
    exact absurd hk (by decide)
  | esc c =>
    injection ht with _ ht
    subst ht
    have h : inp.drop n = c :: rest := h
    rw [Piece.ok, Option.isSome_iff_exists] at hk
    obtain ⟨x, hx⟩ := hk
    simp only [unescape, peek_cons h, simpleEscape_eq hx, bump_cons h, Piece.value, hx]; rfl
  | hex a b =>
    injection ht with _ ht
    subst ht
    have h : inp.drop n = 120 :: ([a, b] ++ rest) := h
    rw [Piece.ok, Option.isSome_iff_exists] at hk
    obtain ⟨x, hx⟩ := hk
    have := unescapeUnicode_char (start := start) (err := .badHexEscape) hx (drop_cons h) (by simp)
    have hs : simpleEscape 120 = none := by decide
    simp only [unescape, peek_cons h, hs, bump_cons h, beq_self_eq_true, if_true, Piece.value, hx]
    exact this
  | uni a b c d =>
    injection ht with _ ht
    subst ht
    have h : inp.drop n = 117 :: ([a, b, c, d] ++ rest) := h
    rw [Piece.ok, Option.isSome_iff_exists] at hk
    obtain ⟨x, hx⟩ := hk
    have := unescapeUnicode_char (start := start) (err := .badUnicodeEscape) hx (drop_cons h) (by simp)
    have hs : simpleEscape 117 = none := by decide
    have hn : ((117 : UInt8) == 120) = false := by decide
    simp only [unescape, peek_cons h, hs, bump_cons h, hn, Bool.false_eq_true, if_false, beq_self_eq_true, if_true, Piece.value, hx]
    exact this

theorem Piece.cases_text (p : Piece) : (∃ b, p = .byte b) ∨ ∃ e, p.text = BSL :: e := by
  cases p with
  | byte b => exact .inl ⟨b, rfl⟩
  | esc c => exact .inr ⟨_, rfl⟩
  | hex => exact .inr ⟨_, rfl⟩
  | uni => exact .inr ⟨_, rfl⟩

theorem Piece.byte_ok {b : UInt8} (h : (Piece.byte b).ok = true) : (b == DQ || b == 0) = false ∧ (b == BSL) = false := by
  simp only [Piece.ok, Bool.and_eq_true, bne_iff_ne] at h
  rw [Bool.or_eq_false_iff, beq_eq_false_iff_ne, beq_eq_false_iff_ne, beq_eq_false_iff_ne]
  exact ⟨⟨h.1.1, h.2⟩, h.1.2⟩

theorem dqEsc_pieces {inp rest : Bytes} : ∀ {ps : List Piece} {scratch : Bytes} {n f : Nat}, ps.all Piece.ok = true → ps.length < f →
    inp.drop n = ps.flatMap Piece.text ++ DQ :: rest →
    dqEsc inp f n scratch = .ok (scratch ++ ps.flatMap Piece.value, n + (ps.flatMap Piece.text).length)
  | [], scratch, n, f, _, hf, h => by
    obtain ⟨f, rfl⟩ : ∃ g, f = g + 1 := ⟨f - 1, by omega⟩
    have h : inp.drop n = DQ :: rest := h
    simp [dqEsc, peek_cons h]
  | p :: ps, scratch, n, f, hk, hf, h => by
    obtain ⟨f, rfl⟩ : ∃ g, f = g + 1 := ⟨f - 1, by omega⟩
    rw [List.all_cons, Bool.and_eq_true] at hk
    have ih := fun sc n => dqEsc_pieces (inp := inp) (rest := rest) (ps := ps) (scratch := sc) (n := n) (f := f) hk.2 (by simp at hf; omega)
    rcases p.cases_text with ⟨b, rfl⟩ | ⟨e, he⟩
    · have h : inp.drop n = b :: (ps.flatMap Piece.text ++ DQ :: rest) := by rw [h]; simp [Piece.text]
      obtain ⟨h1, h2⟩ := Piece.byte_ok hk.1
      simp only [dqEsc, peek_cons h, h1, h2, bump_cons h, ih _ _ (drop_cons h), Bool.false_eq_true, if_false]
      simp [Piece.text, Piece.value]; omega
    · have h : inp.drop n = BSL :: (e ++ (ps.flatMap Piece.text ++ DQ :: rest)) := by rw [h]; simp [he]
      have h1 := drop_cons h
      have hc : (BSL == DQ || BSL == 0) = false := by decide
      simp only [dqEsc, peek_cons h, hc, Bool.false_eq_true, if_false, beq_self_eq_true, if_true, bump_cons h, unescape_piece he hk.1 h1,
        bind, Except.bind, ih _ _ (drop_add h1)]
      simp [he]; omega

theorem dqScan_pieces {rest : Bytes} : ∀ {ps : List Piece}, ps.all Piece.ok = true →
    ∃ (a : Bytes) (qs : List Piece) (esc : Bool), ps = a.map Piece.byte ++ qs ∧ (esc = false → qs = []) ∧ dqScan (ps.flatMap Piece.text ++ DQ :: rest) = (a.length, esc)
  | [], _ => ⟨[], [], false, rfl, fun _ => rfl, by simp [dqScan]⟩
  | p :: ps, hk => by
    rw [List.all_cons, Bool.and_eq_true] at hk
    rcases p.cases_text with ⟨b, rfl⟩ | ⟨e, he⟩
    · obtain ⟨a, qs, esc, h1, h2, h3⟩ := dqScan_pieces (rest := rest) hk.2
      obtain ⟨h4, h5⟩ := Piece.byte_ok hk.1
      refine ⟨b :: a, qs, esc, by rw [h1]; rfl, h2, ?_⟩
      have : (Piece.byte b :: ps).flatMap Piece.text ++ DQ :: rest = b :: (ps.flatMap Piece.text ++ DQ :: rest) := by simp [Piece.text]
      rw [this, dqScan, h4, h5, h3]; simp
    · refine ⟨[], p :: ps, true, rfl, (fun h => by cases h), ?_⟩
      have : (p :: ps).flatMap Piece.text ++ DQ :: rest = BSL :: (e ++ ps.flatMap Piece.text ++ DQ :: rest) := by simp [he]
      rw [this, dqScan]; rfl

theorem flatMap_byte_text (a : Bytes) : (a.map Piece.byte).flatMap Piece.text = a := by
  induction a with
  | nil => rfl
  | cons b a ih => simp only [List.map_cons, List.flatMap_cons, ih]; rfl

theorem flatMap_byte_value (a : Bytes) : (a.map Piece.byte).flatMap Piece.value = a := by
  induction a with
  | nil => rfl
  | cons b a ih => simp only [List.map_cons, List.flatMap_cons, ih]; rfl

theorem doubleQuoted_pieces {inp : Bytes} {n f : Nat} {ps : List Piece} {rest : Bytes} (h : inp.drop n = (Atom.pieces ps).text ++ rest)
    (hk : ps.all Piece.ok = true) (hf : ps.length < f) :
    doubleQuoted f inp n = .ok (⟨.original, ps.flatMap Piece.value, (Atom.pieces ps).text⟩, n + (Atom.pieces ps).text.length) := by
  have h0 : inp.drop n = DQ :: (ps.flatMap Piece.text ++ DQ :: rest) := by rw [h]; simp [Atom.text]
  have h1 := drop_cons h0
  obtain ⟨a, qs, esc, e1, e3, e4⟩ := dqScan_pieces (rest := rest) hk
  have hsl := slice_of h
  have e2 : ps.flatMap Piece.text = a ++ qs.flatMap Piece.text := by rw [e1, List.flatMap_append, flatMap_byte_text]
  have e2' : ps.flatMap Piece.value = a ++ qs.flatMap Piece.value := by rw [e1, List.flatMap_append, flatMap_byte_value]
  have h2 : inp.drop (n + 1 + a.length) = qs.flatMap Piece.text ++ DQ :: rest := by
    apply drop_add (x := a); rw [h1, e2]; simp
  have h3 := drop_add h2
  have hsa : slice inp (n + 1) (n + 1 + a.length) = a := slice_of (x := a) (s := qs.flatMap Piece.text ++ DQ :: rest) (by rw [h1, e2]; simp)
  have hlen : (Atom.pieces ps).text.length = a.length + (qs.flatMap Piece.text).length + 2 := by simp only [Atom.text, e2]; simp; omega
  have hend : n + 1 + a.length + (qs.flatMap Piece.text).length + 1 = n + (Atom.pieces ps).text.length := by omega
  simp only [doubleQuoted, bump_cons h0, h1, e4]
  have hq : qs.all Piece.ok = true := by rw [e1, List.all_append, Bool.and_eq_true] at hk; exact hk.2
  cases esc with
  | true =>
    have e5 := dqEsc_pieces (inp := inp) (rest := rest) (ps := qs) (scratch := a) (n := n + 1 + a.length) (f := f)
      hq (by rw [e1] at hf; simp at hf; omega) h2
    simp only [bind, Except.bind, if_true, hsa, e5, bump_cons h3, hend, hsl, ← e2']
    rfl
  | false =>
    have hb := e3 rfl
    subst hb
    simp only [List.flatMap_nil, List.length_nil, Nat.add_zero, List.append_nil] at h3 hend e2'
    have hne : n + 1 + a.length ≠ inp.length := by have := lt_of_cons h3; omega
    simp only [Bool.false_eq_true, if_false, hsa, if_neg hne, bump_cons h3, hend, hsl, e2']
    rfl

theorem follow_ne {inl : Bool} {rest : Bytes} (h : follow inl rest) : hd rest ≠ SQ ∧ hd rest ≠ COLON := by
  cases inl with
  | true =>
    simp only [follow, if_true] at h
    rcases h with h | h | h <;> rw [h] <;> decide
  | false =>
    simp only [follow, Bool.false_eq_true, if_false] at h
    rcases h with rfl | h
    · decide
    · rw [h]; decide

/-- What may follow a value that ends in a plain scalar, or does not. -/
def follows (inl plain : Bool) (rest : Bytes) : Prop := if plain then follow inl rest else hd rest ≠ SQ ∧ hd rest ≠ COLON

theorem follows_of {inl plain : Bool} {rest : Bytes} (h : follow inl rest) : follows inl plain rest := by
  unfold follows; split
  · exact h
  · exact follow_ne h

/-- A scalar is read as such. -/
theorem lead_atom {inp : Bytes} {inl : Bool} {n : Nat} {a : Atom} {rest : Bytes} (h : inp.drop n = a.text ++ rest)
    (hf : follows inl (F.atom a).isPlain rest) (ha : a.ok inl = true) :
    ∃ sc : Scalar, sc.fits a ∧ ∃ f0, ∀ f, f0 ≤ f → lead f inp inl (!inl) n = .ok (.scalar sc none (n + a.text.length)) := by
  cases a with
  | plain s =>
    obtain ⟨sc, h1, h2⟩ := lead_plain h hf ha
    exact ⟨sc, h1, 0, fun f _ => h2 f⟩
  | single s =>
    rw [Atom.text_single] at h ⊢
    have h0 : inp.drop n = SQ :: (escapeSingleBody s ++ SQ :: rest) := by rw [h]; simp [escapeSingle]
    refine ⟨.string ⟨.original, s, escapeSingle s⟩, ⟨(Atom.text_single s).symm, rfl⟩, s.length + 1, fun f hfu => ?_⟩
    have hq := singleQuoted_text h (hf).1 (f := f) (by omega)
    have hp : peekAt inp (n + (escapeSingle s).length) = hd rest := peek_of (drop_add h)
    have hc : (!inl && hd rest == COLON) = false := by rw [beq_eq_false_iff_ne.2 (hf).2, Bool.and_false]
    have e1 : (SQ == DASH) = false := by decide
    have e2 : (SQ == DQ) = false := by decide
    simp only [lead, peek_cons h0, e1, e2, Bool.false_and, Bool.false_eq_true, if_false, beq_self_eq_true, if_true, hq, bind, Except.bind, hp, hc]
    rfl
  | double s =>
    rw [Atom.text_double] at h ⊢
    simp only [Atom.ok, Bool.and_eq_true, Bool.not_eq_true'] at ha
    have hq1 : DQ ∉ s := fun hm => by have := ha.1; simp [hm] at this
    have hq2 : BSL ∉ s := fun hm => by have := ha.2; simp [hm] at this
    have h0 : inp.drop n = DQ :: (escapeDoubleBody s ++ DQ :: rest) := by rw [h]; simp [escapeDouble]
    refine ⟨.string ⟨.original, s, escapeDouble s⟩, ⟨(Atom.text_double s).symm, rfl⟩, s.length + 1, fun f hfu => ?_⟩
    have hq := doubleQuoted_text h hq1 hq2 (f := f) (by omega)
    have hp : peekAt inp (n + (escapeDouble s).length) = hd rest := peek_of (drop_add h)
    have hc : (!inl && hd rest == COLON) = false := by rw [beq_eq_false_iff_ne.2 (hf).2, Bool.and_false]
    have e1 : (DQ == DASH) = false := by decide
    simp only [lead, peek_cons h0, e1, Bool.false_and, Bool.false_eq_true, if_false, beq_self_eq_true, if_true, hq, bind, Except.bind, hp, hc]
    rfl
  | pieces ps =>
    have h0 : inp.drop n = DQ :: (ps.flatMap Piece.text ++ DQ :: rest) := by rw [h]; simp [Atom.text]
    refine ⟨.string ⟨.original, ps.flatMap Piece.value, (Atom.pieces ps).text⟩, ⟨rfl, rfl⟩, ps.length + 1, fun f hfu => ?_⟩
    have hq := doubleQuoted_pieces h ha (f := f) (by omega)
    have hp : peekAt inp (n + (Atom.pieces ps).text.length) = hd rest := peek_of (drop_add h)
    have hc : (!inl && hd rest == COLON) = false := by rw [beq_eq_false_iff_ne.2 (hf).2, Bool.and_false]
    have e1 : (DQ == DASH) = false := by decide
    simp only [lead, peek_cons h0, e1, Bool.false_and, Bool.false_eq_true, if_false, beq_self_eq_true, if_true, hq, bind, Except.bind, hp, hc]
    rfl

end Verif
