import Verif.ExactRules
/-
Errors, forwards: what fits the specification of `Verif.Fault` is refused as such.
-/
namespace Verif

section
variable (inp : Bytes)

/-- The error of the parser for values. -/
def BadV (s : Spot) (lo : Nat) (er : Stop) : Prop := ∀ st : PSt, st.spot = s → st.tabular = !st.inline → lo ≤ inp.length → wsEnd inp lo = lo →
  ∃ f0, ∀ f, f0 ≤ f → pvalue inp f st lo = .error er

/-- The loops with enough fuel. -/
def FSX (last tr : Bool) (ip : Bytes) (n : Nat) (e : Stop) : Prop := ∃ f0, ∀ f g, f0 ≤ f → f0 ≤ g → pflowSeqLoop (pvalue inp f) inp g last tr ip n = .error e
def FMX (last tr : Bool) (ip : Bytes) (st n : Nat) (e : Stop) : Prop := ∃ f0, ∀ f g, f0 ≤ f → f0 ≤ g → pflowMapLoop (pvalue inp f) inp g last tr ip st n = .error e
def BSX (ind : Nat) (ip : Bytes) (n : Nat) (e : Stop) : Prop := ∃ f0, ∀ f g, f0 ≤ f → f0 ≤ g → pseqLoop (pvalue inp f) inp ind g ip n = .error e
def BMX (ind st : Nat) (key : RStr) (ip : Bytes) (n : Nat) (e : Stop) : Prop := ∃ f0, ∀ f g, f0 ≤ f → f0 ≤ g → pmapLoop (pvalue inp f) inp ind g st key ip n = .error e

def BadRows (c : Nat) (first m : Bool) (lo : Nat) (er : Stop) : Prop :=
  columnAt inp lo = c ∧
  (m = false → inp[lo]? = some DASH ∧ (first = true → isWs (inp.getD (lo + 1) 0) = true) ∧ ∀ ip, BSX inp c ip lo er) ∧
  (m = true → ∃ q, (first = true → ∃ k, FirstKey inp k lo q) ∧ (first = false → ∃ key, nextMappingKey inp lo = (q, some key)) ∧
    ∀ key ip, BMX inp c lo key ip q er)

def BadCells (m last : Bool) (from_ n : Nat) (er : Stop) : Prop := n ≤ inp.length →
  (m = false → ∀ tr ip, n - ip.length = from_ → FSX inp last tr ip n er ∨
    ∃ items tr' w m, FSE inp last tr ip n items tr' w m ∧ peekAt inp m ≠ RBR ∧ er = .err (m - w.length) m .badSequenceTerminator) ∧
  (m = true → ∀ tr ip, FMX inp last tr ip from_ n er ∨
    ∃ items tr' w st' m, FME inp last tr ip from_ n items tr' w st' m ∧ peekAt inp m ≠ RCB ∧ er = .err st' m .badMappingTerminator)
end

section
variable {inp : Bytes}

theorem bad_escape {s : Spot} {lo stop : Nat} {k : ErrKind} {ps : List Piece} {rest : Bytes} (h1 : ps.all Piece.known = true)
    (h2 : inp.drop lo = DQ :: ps.flatMap Piece.text ++ BSL :: rest) (h3 : BadEscape inp (lo + 1 + (ps.flatMap Piece.text).length) stop k) :
    BadV inp s lo (.err (lo + 1 + (ps.flatMap Piece.text).length) stop k) := by
  intro st hs ht hlo hw
  obtain ⟨f, hl⟩ := lead_escape (inline := st.inline) (tab := st.tabular) h1 h2 h3
  refine ⟨inp.length + 1, fun g hg => ?_⟩
  obtain ⟨g, rfl, hg'⟩ := succ_of_le hg
  simp only [pvalue, lead_mono_err hl (fun h => by cases h) hg']
  rfl

theorem bad_dashes {s : Spot} {lo : Nat} {er : Stop} (hs' : s ≠ .flow) (h : BadRows inp (columnAt inp lo) true false lo er) : BadV inp s lo er := by
  intro st hs ht hlo hw
  subst hs
  have hi' := spot_not hs'
  obtain ⟨h1, h2, h3⟩ := h.2.1 rfl
  obtain ⟨f0, h3⟩ := h3 []
  refine ⟨f0 + 1, fun g hg => ?_⟩
  obtain ⟨g, rfl, hg'⟩ := succ_of_le hg
  have h3 : pseqLoop (pvalue inp g) inp (indentFrom inp lo) g [] lo = _ := h3 g g hg' hg'
  simp only [pvalue, lead_dash h1 (h2 rfl) hi', bind, Except.bind, psequence, h3]

theorem bad_keys {s : Spot} {lo : Nat} {er : Stop} (hs' : s.allows (columnAt inp lo)) (h : BadRows inp (columnAt inp lo) true true lo er) :
    BadV inp s lo er := by
  intro st hs ht hlo hw
  subst hs
  have hi' := spot_not hs'.1
  obtain ⟨q, h1, -, h3⟩ := h.2.2 rfl
  obtain ⟨k', h1⟩ := h1 rfl
  obtain ⟨key, h2, f, hl⟩ := lead_firstKey h1
  have hl : lead f inp st.inline st.tabular lo = .ok (.key key q) := by rw [ht, hi']; exact hl
  obtain ⟨f0, h3⟩ := h3 key []
  refine ⟨max inp.length f0 + 1, fun g hg => ?_⟩
  obtain ⟨g, rfl, hg'⟩ := succ_of_le hg
  have h3 : pmapLoop (pvalue inp g) inp (indentFrom inp lo) g lo key [] q = _ := h3 g g (by omega) (by omega)
  simp only [pvalue, lead_mono hl (show inp.length ≤ g by omega), bind, Except.bind, pmappingOrNul]
  cases hp : st.parentIndent with
  | none => simp only [pmappingOrNul.go, bind, Except.bind, h3]
  | some i =>
    have : i < indentFrom inp lo := hs'.2 i (spot_parent hi' hp)
    simp only [ge_iff_le, show ¬ indentFrom inp lo ≤ i by omega, if_false, pmappingOrNul.go, bind, Except.bind, h3]

theorem bad_brackets {s : Spot} {lo n : Nat} {er : Stop} (h1 : inp[lo]? = some LBR) (h2 : FullGap inp (lo + 1) n)
    (h : BadCells inp false false (lo + 1) n er) : BadV inp s lo er := by
  intro st hs ht hlo hw
  have hlt := (List.getElem?_eq_some_iff.1 h1).1
  have h3 := (h h2.le.2).1 rfl false (wsStr inp (lo + 1)) (by
    have := wsStr_length (inp := inp) (n := lo + 1) (by omega)
    have := le_wsEnd inp (lo + 1)
    rw [← h2.eq]; omega)
  rcases h3 with ⟨f0, h3⟩ | ⟨items, tr', w, m, ⟨f0, h3⟩, h4, rfl⟩
  · refine ⟨f0 + 1, fun g hg => ?_⟩
    obtain ⟨g, rfl, hg'⟩ := succ_of_le hg
    simp only [pvalue, lead_lbr h1, bind, Except.bind, pflowSeq, bump_one hlt, h2.eq, h3 g g hg' hg']
  · refine ⟨f0 + 1, fun g hg => ?_⟩
    obtain ⟨g, rfl, hg'⟩ := succ_of_le hg
    simp only [pvalue, lead_lbr h1, bind, Except.bind, pflowSeq, bump_one hlt, h2.eq, h3 g g hg' hg', beq_false_of_ne h4]
    rfl

theorem bad_braces {s : Spot} {lo n : Nat} {er : Stop} (h1 : inp[lo]? = some LCB) (h2 : FullGap inp (lo + 1) n)
    (h : BadCells inp true false (lo + 1) n er) : BadV inp s lo er := by
  intro st hs ht hlo hw
  have hlt := (List.getElem?_eq_some_iff.1 h1).1
  rcases (h h2.le.2).2 rfl false (wsStr inp (lo + 1)) with ⟨f0, h3⟩ | ⟨items, tr', w, st', m, ⟨f0, h3⟩, h4, rfl⟩
  · refine ⟨f0 + 1, fun g hg => ?_⟩
    obtain ⟨g, rfl, hg'⟩ := succ_of_le hg
    simp only [pvalue, lead_lcb h1, bind, Except.bind, pflowMap, bump_one hlt, h2.eq, h3 g g hg' hg']
  · refine ⟨f0 + 1, fun g hg => ?_⟩
    obtain ⟨g, rfl, hg'⟩ := succ_of_le hg
    simp only [pvalue, lead_lcb h1, bind, Except.bind, pflowMap, bump_one hlt, h2.eq, h3 g g hg' hg', beq_false_of_ne h4]
    rfl

/-- A value of an item. -/
theorem BadV.item {s : Spot} {lo hi : Nat} {er : Stop} (h : BadV inp s hi er) (st : PSt) (hs : st.spot = s) (ht : st.tabular = !st.inline)
    (hg : FullGap inp lo hi) : ∃ f0, ∀ f, f0 ≤ f → pvalue inp f st (wsEnd inp lo) = .error er := by
  rw [hg.eq]
  exact h st hs ht hg.le.2 hg.end

/-- The key of an item. -/
theorem head_key {first : Bool} {k : Bytes} {lo a : Nat} (h : Head inp first (some k) lo a) : ∃ q, a = q + 1 ∧ inp[q]? = some COLON ∧
    (first = true → ∃ k, FirstKey inp k lo q) ∧ (first = false → ∃ key, nextMappingKey inp lo = (q, some key)) := by
  obtain ⟨q, h1, h2⟩ := h
  cases first with
  | true => exact ⟨q, h1, h2.2.1, fun _ => ⟨k, h2⟩, (fun h => by cases h)⟩
  | false =>
    obtain ⟨key, _, g⟩ := LaterKey.next (by simpa using h2)
    exact ⟨q, h1, h2.2.1, (fun h => by cases h), fun _ => ⟨key, g⟩⟩

theorem bad_rowInside {c : Nat} {first : Bool} {key : Option Bytes} {lo a b : Nat} {er : Stop} (h1 : columnAt inp lo = c) (h2 : Head inp first key lo a)
    (h3 : FullGap inp a b) (h4 : BadV inp (.item c key) b er) : BadRows inp c first key.isSome lo er := by
  refine ⟨h1, fun hk => ?_, fun hk => ?_⟩
  · cases key with
    | some key => cases hk
    | none =>
    obtain ⟨g1, g2, rfl⟩ := h2
    refine ⟨g1, g2, fun ip => ?_⟩
    have hlt := (List.getElem?_eq_some_iff.1 g1).1
    obtain ⟨f0, e1⟩ := h4.item ⟨wsStr inp (lo + 1), false, true, none⟩ rfl rfl h3
    refine ⟨f0 + 1, fun f g hf hg => ?_⟩
    obtain ⟨g, rfl, hg'⟩ := succ_of_le hg
    simp only [pseqLoop, bump_one hlt, e1 f (by omega), bind, Except.bind]
  · cases key with
    | none => cases hk
    | some key =>
    obtain ⟨q, rfl, hq, u1, u2⟩ := head_key h2
    refine ⟨q, u1, u2, fun key ip => ?_⟩
    have hlt := (List.getElem?_eq_some_iff.1 hq).1
    obtain ⟨f0, e1⟩ := h4.item ⟨wsStr inp (q + 1), false, true, some c⟩ rfl rfl h3
    refine ⟨f0 + 1, fun f g hf hg => ?_⟩
    obtain ⟨g, rfl, hg'⟩ := succ_of_le hg
    simp only [pmapLoop, some_peek hq, bne_self_eq_false, Bool.false_eq_true, if_false, bump_one hlt, e1 f (by omega), bind, Except.bind]

theorem bad_rowLater {c : Nat} {first : Bool} {key : Option Bytes} {v : Content} {lo a b e lo' : Nat} {er : Stop} (h1 : columnAt inp lo = c)
    (h2 : Head inp first key lo a) (h3 : FullGap inp a b) (h4 : RunV inp (.item c key) v b e) (h5 : FullGap inp e lo')
    (h6 : BadRows inp c false key.isSome lo' er) : BadRows inp c first key.isSome lo er := by
  obtain ⟨r1, r2, r3⟩ := h6
  refine ⟨h1, fun hk => ?_, fun hk => ?_⟩
  · obtain ⟨s2, -, r4⟩ := r2 hk
    cases key with
    | some key => cases hk
    | none =>
    obtain ⟨g1, g2, rfl⟩ := h2
    refine ⟨g1, g2, fun ip => ?_⟩
    have hlt := (List.getElem?_eq_some_iff.1 g1).1
    obtain ⟨t, ws, m, ⟨f0, e1⟩, rfl, -, -, e4, -⟩ := h4.item ⟨wsStr inp (lo + 1), false, true, none⟩ rfl rfl h3
    obtain rfl := h5.unique e4
    obtain ⟨f1, r4⟩ := r4 (wsOr inp ws m).1
    have r1 : indentFrom inp (wsOr inp ws m).2 = c := r1
    refine ⟨max f0 f1 + 1, fun f g hf hg => ?_⟩
    obtain ⟨g, rfl, hg'⟩ := succ_of_le hg
    simp only [pseqLoop, bump_one hlt, e1 f (show f0 ≤ f by omega), bind, Except.bind]
    rw [if_neg (by simp [r1, some_peek s2])]
    simp only [r4 f g (by omega) (by omega)]
  · obtain ⟨q', -, s2, r4⟩ := r3 hk
    obtain ⟨key', s2⟩ := s2 rfl
    cases key with
    | none => cases hk
    | some key =>
    obtain ⟨q, rfl, hq, u1, u2⟩ := head_key h2
    refine ⟨q, u1, u2, fun key ip => ?_⟩
    have hlt := (List.getElem?_eq_some_iff.1 hq).1
    obtain ⟨t, ws, m, ⟨f0, e1⟩, rfl, -, -, e4, -⟩ := h4.item ⟨wsStr inp (q + 1), false, true, some c⟩ rfl rfl h3
    obtain rfl := h5.unique e4
    obtain ⟨f1, r4⟩ := r4 key' (wsOr inp ws m).1
    have r1 : indentFrom inp (wsOr inp ws m).2 = c := r1
    refine ⟨max f0 f1 + 1, fun f g hf hg => ?_⟩
    obtain ⟨g, rfl, hg'⟩ := succ_of_le hg
    simp only [pmapLoop, some_peek hq, bne_self_eq_false, Bool.false_eq_true, if_false, bump_one hlt, e1 f (show f0 ≤ f by omega), bind, Except.bind]
    rw [if_neg (by simp [r1])]
    simp only [s2, r4 f g (by omega) (by omega)]

theorem nothing_zero {q : Nat} (h : Nothing inp q) : peekAt inp q = 0 := by
  rcases h with rfl | h
  · unfold peekAt; rw [List.drop_length]; rfl
  · exact some_peek h

theorem bad_rowColon {c lo q : Nat} (h1 : columnAt inp lo = c) (h2 : lo < q) (h3 : q ≤ inp.length) (h4 : COLON ∉ slice inp lo q) (h5 : 0 ∉ slice inp lo q)
    (h6 : Nothing inp q) : BadRows inp c false true lo (.err lo (min (q + 1) inp.length) .badMappingSeparator) := by
  have hp := nothing_zero h6
  refine ⟨h1, (fun h => by cases h), fun _ => ⟨q, (fun h => by cases h), fun _ => ⟨_, nextKey_of h2 h3 h4 h5 (.inr hp)⟩, fun key ip => ⟨1, fun f g _ hg => ?_⟩⟩⟩
  obtain ⟨g, rfl, hg'⟩ := succ_of_le hg
  simp only [pmapLoop, hp]
  rfl

theorem bad_cellInside {last : Bool} {key : Option Bytes} {from_ n a b : Nat} {er : Stop} (h1 : Opens inp key.isSome n) (h2 : CellHead inp key n a)
    (h3 : FullGap inp a b) (h4 : BadV inp .flow b er) : BadCells inp key.isSome last from_ n er := by
  intro hn
  have ho := opens_not h1
  refine ⟨fun hk tr ip _ => .inl ?_, fun hk tr ip => .inl ?_⟩
  · cases key with
    | some key => cases hk
    | none =>
    obtain rfl : a = n := h2
    obtain ⟨f0, e1⟩ := h4.item ⟨wsStr inp a, true, false, none⟩ rfl rfl h3
    refine ⟨f0 + 1, fun f g hf hg => ?_⟩
    obtain ⟨g, rfl, hg'⟩ := succ_of_le hg
    simp only [pflowSeqLoop]
    rw [if_neg (by simpa [close] using ho), e1 f (by omega)]; rfl
  · cases key with
    | none => cases hk
    | some key =>
    obtain ⟨m0, rfl, hlt, hu⟩ := cellHead_some h2
    obtain ⟨f0, e1⟩ := h4.item ⟨wsStr inp (m0 + 1), true, false, none⟩ rfl rfl h3
    refine ⟨f0 + 1, fun f g hf hg => ?_⟩
    obtain ⟨g, rfl, hg'⟩ := succ_of_le hg
    simp only [pflowMapLoop]
    rw [if_neg (by simpa [close] using ho), hu]
    simp only [bump_one hlt, e1 f (show f0 ≤ f by omega)]; rfl

theorem bad_cellColon {last : Bool} {from_ n : Nat} (h1 : Opens inp true n) (h2 : COLON ∉ inp.drop n) (h3 : 0 ∉ inp.drop n) :
    BadCells inp true last from_ n (.err from_ inp.length .badMappingSeparator) := by
  intro hn
  have ho := opens_not h1
  refine ⟨(fun h => by cases h), fun _ tr ip => .inl ⟨1, fun f g hf hg => ?_⟩⟩
  obtain ⟨g, rfl, hg'⟩ := succ_of_le hg
  simp only [pflowMapLoop]
  rw [if_neg (by simpa [close] using ho), untilColon_end hn h2 h3]

theorem bad_cellNone {m last : Bool} {from_ n : Nat} (h : Nothing inp n) : BadCells inp m last from_ n (.err from_ n (terminator m)) := by
  intro hn
  have hp := nothing_zero h
  refine ⟨?_, ?_⟩
  · rintro rfl tr ip hf
    exact .inr ⟨_, _, _, _, (evalRules inp).fsStop (.inr hp), by rw [hp]; decide, by rw [hf]; rfl⟩
  · rintro rfl tr ip
    exact .inr ⟨_, _, _, _, _, (evalRules inp).fmStop (.inr hp), by rw [hp]; decide, rfl⟩

theorem bad_cellOther {key : Option Bytes} {v : Content} {from_ n a b e stop : Nat} (h1 : Opens inp key.isSome n) (h2 : CellHead inp key n a) (h3 : FullGap inp a b)
    (h4 : RunV inp .flow v b e) (h5 : FullGap inp e stop) (h6 : inp[stop]? ≠ some (close key.isSome)) :
    BadCells inp key.isSome true from_ n (.err (if key.isSome then from_ else e) stop (terminator key.isSome)) := by
  intro hn
  refine ⟨fun hk tr ip _ => .inr ?_, fun hk tr ip => .inr ?_⟩
  · cases key with
    | some key => cases hk
    | none =>
    obtain rfl : a = n := h2
    obtain ⟨t, ws, m, e1, rfl, e2, e3, e4, e5⟩ := h4.item ⟨wsStr inp a, true, false, none⟩ rfl rfl h3
    obtain rfl := h5.unique e4
    exact ⟨_, _, _, _, (evalRules inp).fsLast (tr := tr) (ip := ip) (opens_not h1) e1, fun h => h6 (peek_some h (by decide)), by rw [ws_length e2 e3 e5]; rfl⟩
  · cases key with
    | none => cases hk
    | some key =>
    obtain ⟨m0, rfl, hlt, hu⟩ := cellHead_some h2
    obtain ⟨t, ws, m, e1, rfl, -, -, e4, -⟩ := h4.item ⟨wsStr inp (m0 + 1), true, false, none⟩ rfl rfl h3
    rw [← bump_one hlt] at e1
    obtain rfl := h5.unique e4
    exact ⟨_, _, _, _, _, (evalRules inp).fmLast (tr := tr) (ip := ip) (st := from_) (opens_not h1) hu e1, fun h => h6 (peek_some (b := RCB) h (by decide)), rfl⟩

theorem bad_cellLater {last : Bool} {key : Option Bytes} {v : Content} {from_ n a b e from' n' : Nat} {er : Stop} (h1 : Opens inp key.isSome n)
    (h2 : CellHead inp key n a) (h3 : FullGap inp a b) (h4 : RunV inp .flow v b e) (h5 : NextCell inp key.isSome (atBlock inp b) e last from' n')
    (h6 : BadCells inp key.isSome last from' n' er) : BadCells inp key.isSome false from_ n er := by
  intro hn
  have ho := opens_not h1
  have hn' : n' ≤ inp.length := by
    obtain ⟨c, g1, ⟨_, g2, g3⟩ | ⟨_, _, _, g3⟩⟩ := h5
    · have := (List.getElem?_eq_some_iff.1 g2).1
      split at g3
      · omega
      · exact g3.2.le.2
    · exact g3.le.2
  obtain ⟨r1, r2⟩ := h6 hn'
  refine ⟨fun hk tr ip _ => ?_, fun hk tr ip => ?_⟩
  · have s1 := r1 hk
    cases key with
    | some key => cases hk
    | none =>
    obtain rfl : a = n := h2
    obtain ⟨t, ws, m, e1, rfl, e2, e3, e4, e5⟩ := h4.item ⟨wsStr inp a, true, false, none⟩ rfl rfl h3
    by_cases hc : peekAt inp m = COMMA
    · obtain ⟨st, u1, u2, u3⟩ := next_comma e2 e3 e5 hc
      obtain ⟨rfl, rfl, rfl⟩ := h5.unique u1
      have hlt := lt_of_peek (inp := inp) (n := m) (by rw [hc]; decide)
      rcases s1 true (wsOr inp ws (m + 1)).1 u3 with ⟨f1, g1⟩ | ⟨items, tr', w, m', g1, g2, g3⟩
      · left
        obtain ⟨f0, e1⟩ := e1
        refine ⟨max f0 f1 + 1, fun f g hf hg => ?_⟩
        obtain ⟨g, rfl, hg'⟩ := succ_of_le hg
        simp only [pflowSeqLoop]
        rw [if_neg (by simpa [close] using ho), e1 f (by omega)]
        simp only [bind, Except.bind, hc, beq_self_eq_true, if_true, Bool.not_true, Bool.false_eq_true, if_false, bump_one hlt, g1 f g (by omega) (by omega)]
      · exact .inr ⟨_, _, _, _, (evalRules inp).fsComma (tr := tr) (ip := ip) ho e1 hc (by rw [bump_one hlt]; exact g1), g2, g3⟩
    · have u1 := next_other e2 e3 e5 e4 hc
      obtain ⟨rfl, rfl, rfl⟩ := h5.unique u1
      rcases s1 false (wsOr inp ws m).1 (ws_length e2 e3 e5) with ⟨f1, g1⟩ | ⟨items, tr', w, m', g1, g2, g3⟩
      · left
        obtain ⟨f0, e1⟩ := e1
        refine ⟨max f0 f1 + 1, fun f g hf hg => ?_⟩
        obtain ⟨g, rfl, hg'⟩ := succ_of_le hg
        simp only [pflowSeqLoop]
        rw [if_neg (by simpa [close] using ho), e1 f (by omega)]
        simp only [bind, Except.bind, beq_eq_false_iff_ne.2 hc, Bool.not_false, Bool.false_eq_true, if_false, g1 f g (by omega) (by omega)]
      · exact .inr ⟨_, _, _, _, (evalRules inp).fsOther (tr := tr) (ip := ip) ho e1 hc g1, g2, g3⟩
  · have s1 := r2 hk
    cases key with
    | none => cases hk
    | some key =>
    obtain ⟨m0, rfl, hlt, hu⟩ := cellHead_some h2
    obtain ⟨t, ws, m, e1, rfl, -, -, e4, -⟩ := h4.item ⟨wsStr inp (m0 + 1), true, false, none⟩ rfl rfl h3
    rw [← bump_one hlt] at e1
    rcases map_next h5 e4 with ⟨hc, rfl, rfl, rfl⟩ | ⟨hc, rfl, rfl, hn1, hn2⟩
    · have hlt := lt_of_peek (inp := inp) (n := (wsOr inp ws m).2) (by rw [hc]; decide)
      rcases s1 true (wsStr inp ((wsOr inp ws m).2 + 1)) with ⟨f1, g1⟩ | ⟨items, tr', w, st', m', g1, g2, g3⟩
      · left
        obtain ⟨f0, e1⟩ := e1
        refine ⟨max f0 f1 + 1, fun f g hf hg => ?_⟩
        obtain ⟨g, rfl, hg'⟩ := succ_of_le hg
        simp only [pflowMapLoop]
        rw [if_neg (by simpa [close] using ho), hu]
        simp only [e1 f (show f0 ≤ f by omega), bind, Except.bind, hc, beq_self_eq_true, if_true, Bool.not_true, Bool.false_eq_true, if_false, bump_one hlt,
          g1 f g (by omega) (by omega)]
      · exact .inr ⟨_, _, _, _, _, (evalRules inp).fmComma (tr := tr) (ip := ip) (st := from_) ho hu e1 hc (by rw [bump_one hlt]; exact g1), g2, g3⟩
    · rcases s1 false (wsStr inp (wsOr inp ws m).2) with ⟨f1, g1⟩ | ⟨items, tr', w, st', m', g1, g2, g3⟩
      · left
        obtain ⟨f0, e1⟩ := e1
        refine ⟨max f0 f1 + 1, fun f g hf hg => ?_⟩
        obtain ⟨g, rfl, hg'⟩ := succ_of_le hg
        rw [hn1] at g1
        simp only [pflowMapLoop]
        rw [if_neg (by simpa [close] using ho), hu]
        simp only [e1 f (show f0 ≤ f by omega), bind, Except.bind, beq_eq_false_iff_ne.2 hc, Bool.not_false, Bool.false_eq_true, if_false,
          g1 f g (by omega) (by omega)]
      · rw [hn1] at g1
        exact .inr ⟨_, _, _, _, _, (evalRules inp).fmOther (tr := tr) (ip := ip) (st := from_) ho hu e1 hc g1, g2, g3⟩

mutual
theorem Broken.run {s : Spot} {lo a b : Nat} {k : ErrKind} : Broken inp s lo a b k → BadV inp s lo (.err a b k)
  | .escape h1 h2 h3 => bad_escape h1 h2 h3
  | .dashes h1 h2 => bad_dashes h1 h2.run
  | .keys h1 h2 => bad_keys h1 h2.run
  | .brackets h1 h2 h3 => bad_brackets h1 h2 h3.run
  | .braces h1 h2 h3 => bad_braces h1 h2 h3.run
theorem BrokenRows.run {c : Nat} {first m : Bool} {lo a b : Nat} {k : ErrKind} : BrokenRows inp c first m lo a b k → BadRows inp c first m lo (.err a b k)
  | .inside h1 h2 h3 h4 => bad_rowInside h1 h2 h3 h4.run
  | .later h1 h2 h3 h4 h5 h6 => bad_rowLater h1 h2 h3 h4.run h5 h6.run
  | .colon h1 h2 h3 h4 h5 h6 => bad_rowColon h1 h2 h3 h4 h5 h6
theorem BrokenCells.run {m last : Bool} {from_ n a b : Nat} {k : ErrKind} : BrokenCells inp m last from_ n a b k → BadCells inp m last from_ n (.err a b k)
  | .inside h1 h2 h3 h4 => bad_cellInside h1 h2 h3 h4.run
  | .later h1 h2 h3 h4 h5 h6 => bad_cellLater h1 h2 h3 h4.run h5 h6.run
  | .colon h1 h2 h3 => bad_cellColon h1 h2 h3
  | .none h => bad_cellNone h
  | .other h1 h2 h3 h4 h5 h6 => bad_cellOther h1 h2 h3 h4.run h5 h6
end
end

end Verif
