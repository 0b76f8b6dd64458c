import Verif.Rules
import Verif.Forward
import Verif.GrammarDocs
/-
What the first key of a parsed block mapping is.
-/
namespace Verif

/-! ### Strings in single quotes have one reading -/

theorem escapeSingleBody_unique : ∀ {a b r r' : Bytes}, hd r ≠ SQ → hd r' ≠ SQ → escapeSingleBody a ++ SQ :: r = escapeSingleBody b ++ SQ :: r' → a = b
  | [], [], _, _, _, _, _ => rfl
  | [], y :: b, r, r', h, _, e => by
    exfalso
    by_cases hy : y = SQ
    · subst hy
      simp only [escapeSingleBody, beq_self_eq_true, if_true, List.nil_append, List.cons_append, List.cons.injEq, true_and] at e
      rw [e] at h; exact h rfl
    · have hy' : (y == SQ) = false := by simpa using hy
      simp only [escapeSingleBody, hy', Bool.false_eq_true, if_false, List.nil_append, List.cons_append, List.cons.injEq] at e
      exact hy e.1.symm
  | x :: a, [], r, r', _, h, e => by
    exfalso
    by_cases hx : x = SQ
    · subst hx
      simp only [escapeSingleBody, beq_self_eq_true, if_true, List.nil_append, List.cons_append, List.cons.injEq, true_and] at e
      rw [← e] at h; exact h rfl
    · have hx' : (x == SQ) = false := by simpa using hx
      simp only [escapeSingleBody, hx', Bool.false_eq_true, if_false, List.nil_append, List.cons_append, List.cons.injEq] at e
      exact hx e.1
  | x :: a, y :: b, r, r', h, h', e => by
    by_cases hx : x = SQ
    · subst hx
      by_cases hy : y = SQ
      · subst hy
        simp only [escapeSingleBody, beq_self_eq_true, if_true, List.cons_append, List.cons.injEq, true_and] at e
        rw [escapeSingleBody_unique h h' e]
      · have hy' : (y == SQ) = false := by simpa using hy
        simp only [escapeSingleBody, beq_self_eq_true, if_true, hy', Bool.false_eq_true, if_false, List.cons_append, List.cons.injEq] at e
        exact absurd e.1.symm hy
    · have hx' : (x == SQ) = false := by simpa using hx
      by_cases hy : y = SQ
      · subst hy
        simp only [escapeSingleBody, beq_self_eq_true, if_true, hx', Bool.false_eq_true, if_false, List.cons_append, List.cons.injEq] at e
        exact absurd e.1 hx
      · have hy' : (y == SQ) = false := by simpa using hy
        simp only [escapeSingleBody, hx', hy', Bool.false_eq_true, if_false, List.cons_append, List.cons.injEq] at e
        rw [e.1, escapeSingleBody_unique h h' e.2]

/-! ### What was read as a string in single quotes is one -/

theorem sqEsc_sound : ∀ {f : Nat} {rest scratch s : Bytes} {k k' : Nat}, sqEsc f rest scratch k = .ok (s, k') →
    ∃ b r, s = scratch ++ b ∧ rest = escapeSingleBody b ++ SQ :: r ∧ k' = k + (escapeSingleBody b).length
  | 0, _, _, _, _, _, h => by cases h
  | f + 1, rest, scratch, s, k, k', h => by
    unfold sqEsc at h
    split at h
    · next h0 =>
      cases rest with
      | nil => exact absurd h0 (by decide)
      | cons c rest =>
        have hc : c = SQ := by simpa using h0
        subst hc
        split at h
        · next h1 =>
          cases rest with
          | nil => exact absurd h1 (by decide)
          | cons c rest =>
            have hc : c = SQ := by simpa using h1
            subst hc
            obtain ⟨b, r, e1, e2, e3⟩ := sqEsc_sound h
            refine ⟨SQ :: b, r, by rw [e1]; simp, ?_, by rw [e3]; simp [escapeSingleBody]; omega⟩
            have e2 : rest = escapeSingleBody b ++ SQ :: r := e2
            rw [e2]; simp [escapeSingleBody]
        · cases h
          exact ⟨[], rest, by simp, rfl, rfl⟩
    · next h0 =>
      obtain ⟨b, r, e1, e2, e3⟩ := sqEsc_sound h
      cases rest with
      | nil =>
        have : ([] : Bytes) = escapeSingleBody b ++ SQ :: r := e2
        simp at this
      | cons c rest =>
        have hc : c ≠ SQ := by simpa using h0
        have hc' : (c == SQ) = false := by simpa using hc
        refine ⟨c :: b, r, by rw [e1]; simp, ?_, by rw [e3]; simp [escapeSingleBody, hc']; omega⟩
        have e2 : rest = escapeSingleBody b ++ SQ :: r := e2
        rw [e2]; simp [escapeSingleBody, hc']

theorem sqScan_sound : ∀ {f : Nat} {rest : Bytes} {k k' : Nat} {esc : Bool}, sqScan f rest k = .ok (k', esc) →
    ∃ a r, SQ ∉ a ∧ rest = a ++ SQ :: r ∧ k' = k + a.length ∧ (esc = true ↔ hd r = SQ)
  | 0, _, _, _, _, h => by cases h
  | f + 1, rest, k, k', esc, h => by
    unfold sqScan at h
    split at h
    · next h0 =>
      cases rest with
      | nil => exact absurd h0 (by decide)
      | cons c rest =>
        have hc : c = SQ := by simpa using h0
        subst hc
        cases h
        exact ⟨[], rest, by simp, rfl, rfl, by simp⟩
    · next h0 =>
      obtain ⟨a, r, e0, e1, e2, e3⟩ := sqScan_sound h
      cases rest with
      | nil =>
        have : ([] : Bytes) = a ++ SQ :: r := e1
        simp at this
      | cons c rest =>
        have hc : c ≠ SQ := by simpa using h0
        have e1 : rest = a ++ SQ :: r := e1
        refine ⟨c :: a, r, ?_, by rw [e1]; rfl, by rw [e2]; simp; omega, e3⟩
        simp only [List.mem_cons, not_or]
        exact ⟨fun h => hc h.symm, e0⟩

theorem escapeSingleBody_append : ∀ {a b : Bytes}, SQ ∉ a → escapeSingleBody (a ++ b) = a ++ escapeSingleBody b
  | [], _, _ => rfl
  | x :: a, b, h => by
    simp only [List.mem_cons, not_or] at h
    have hx : (x == SQ) = false := by simpa using fun e => h.1 e.symm
    simp [escapeSingleBody, hx, escapeSingleBody_append h.2]

theorem singleQuoted_sound {f : Nat} {inp : Bytes} {n e : Nat} {s : RStr} (h0 : peekAt inp n = SQ) (h : singleQuoted f inp n = .ok (s, e)) :
    s.write = escapeSingle s.id ∧ inp.drop n = escapeSingle s.id ++ inp.drop e := by
  have hne : inp.drop n ≠ [] := by intro h1; unfold peekAt at h0; rw [h1] at h0; exact absurd h0 (by decide)
  obtain ⟨b, r, hbr⟩ := List.exists_cons_of_ne_nil hne
  have hb : b = SQ := by rw [← peek_cons hbr, h0]
  subst hb
  simp only [singleQuoted, bump_cons hbr, drop_cons hbr, bind, Except.bind] at h
  cases hs : sqScan f r 0 with
  | error x => rw [hs] at h; cases h
  | ok v =>
    obtain ⟨k, esc⟩ := v
    obtain ⟨a, r2, ha, e1, e2, e3⟩ := sqScan_sound hs
    have e2 : k = a.length := by omega
    subst e2
    rw [hs] at h
    have hd1 : inp.drop (n + 1) = a ++ SQ :: r2 := by rw [drop_cons hbr, e1]
    have hd2 := drop_add hd1
    have hsl : slice inp (n + 1) (n + 1 + a.length) = a := slice_of hd1
    simp only at h
    cases esc with
    | true =>
      simp only [if_true, hd2, hsl] at h
      cases hq : sqEsc f (SQ :: r2) a 0 with
      | error x => rw [hq] at h; cases h
      | ok v =>
        obtain ⟨s2, k2⟩ := v
        obtain ⟨b, r3, g1, g2, g3⟩ := sqEsc_sound hq
        rw [hq] at h
        have hd3 : inp.drop (n + 1 + a.length) = escapeSingleBody b ++ SQ :: r3 := by rw [hd2, g2]
        have hd4 := drop_add hd3
        have g3 : k2 = (escapeSingleBody b).length := by omega
        subst g3
        simp only [bump_cons hd4] at h
        cases h
        have hall : inp.drop n = escapeSingle (a ++ b) ++ r3 := by
          rw [hbr, e1, g2, escapeSingle, escapeSingleBody_append ha]; simp
        have hend : n + 1 + a.length + (escapeSingleBody b).length + 1 = n + (escapeSingle (a ++ b)).length := by
          rw [escapeSingle, escapeSingleBody_append ha]; simp; omega
        refine ⟨?_, ?_⟩
        · show slice inp n _ = escapeSingle s2
          rw [hend, slice_of hall, g1]
        · show inp.drop n = escapeSingle s2 ++ _
          rw [hend, drop_add hall, g1, hall]
    | false =>
      have hlt := lt_of_cons hd2
      have hne : n + 1 + a.length ≠ inp.length := by omega
      simp only [Bool.false_eq_true, if_false, hsl, if_neg hne, bump_cons hd2] at h
      cases h
      have hall : inp.drop n = escapeSingle a ++ r2 := by
        have := escapeSingleBody_append (b := []) ha
        rw [List.append_nil] at this
        rw [hbr, e1, escapeSingle, this]; simp [escapeSingleBody]
      have hend : n + 1 + a.length + 1 = n + (escapeSingle a).length := by
        have := escapeSingleBody_append (b := []) ha
        rw [List.append_nil] at this
        rw [escapeSingle, this]; simp [escapeSingleBody]; omega
      refine ⟨?_, ?_⟩
      · show slice inp n _ = escapeSingle a
        rw [hend, slice_of hall]
      · show inp.drop n = escapeSingle a ++ _
        rw [hend, drop_add hall, hall]

/-! ### Double quotes -/

theorem dqScan_sound : ∀ {s : Bytes} {k : Nat}, dqScan s = (k, false) → hd (s.drop k) = DQ ∨ hd (s.drop k) = 0
  | [], k, h => by cases h; right; rfl
  | b :: r, k, h => by
    unfold dqScan at h
    split at h
    · next h0 =>
      cases h
      simpa using h0
    · split at h
      · cases h
      · cases hr : dqScan r with
        | mk k' e =>
          rw [hr] at h
          cases h
          exact dqScan_sound (s := r) hr

theorem getLast_slice {inp : Bytes} {n m : Nat} (hnm : n ≤ m) (hm : m < inp.length) : ∃ a, slice inp n (m + 1) = a ++ [peekAt inp m] ∧ a.length = m - n := by
  refine ⟨slice inp n m, ?_, by simp [slice]; omega⟩
  have h1 : (inp.drop n).length = inp.length - n := by simp
  have h2 : m + 1 - n = (m - n) + 1 := by omega
  have h3 : (inp.drop n)[m - n]? = some (peekAt inp m) := by
    rw [List.getElem?_drop, show n + (m - n) = m by omega, peekAt]
    cases hd : inp.drop m with
    | nil => have := congrArg List.length hd; simp at this; omega
    | cons b r =>
      have := congrArg (·[0]?) hd
      simpa using this
  rw [slice, slice, h2, List.take_add_one, h3]; rfl

/-- Text read as a string in double quotes, with something after it: it ends in a double quote or NUL. -/
theorem doubleQuoted_last {f : Nat} {inp : Bytes} {n e : Nat} {s : RStr} (h0 : peekAt inp n = DQ) (h : doubleQuoted f inp n = .ok (s, e))
    (he : e < inp.length) : ∃ a c, a ≠ [] ∧ (c = DQ ∨ c = 0) ∧ s.write = a ++ [c] ∧ inp.drop n = s.write ++ inp.drop e := by
  have hne : inp.drop n ≠ [] := by intro h1; unfold peekAt at h0; rw [h1] at h0; exact absurd h0 (by decide)
  obtain ⟨b, r, hbr⟩ := List.exists_cons_of_ne_nil hne
  have key : ∀ m, n + 1 ≤ m → e = bump inp m 1 → (peekAt inp m = DQ ∨ peekAt inp m = 0) → s.write = slice inp n e →
      ∃ a c, a ≠ [] ∧ (c = DQ ∨ c = 0) ∧ s.write = a ++ [c] ∧ inp.drop n = s.write ++ inp.drop e := by
    intro m hm e1 hp hs
    have hlt : m < inp.length := by unfold bump at e1; omega
    have e2 : e = m + 1 := by unfold bump at e1; omega
    subst e2
    obtain ⟨a, ha, hl⟩ := getLast_slice (n := n) (by omega) hlt
    refine ⟨a, peekAt inp m, fun h => by rw [h] at hl; simp at hl; omega, hp, by rw [hs, ha], ?_⟩
    rw [hs, slice, show inp.drop (m + 1) = (inp.drop n).drop (m + 1 - n) by rw [List.drop_drop]; congr 1; omega, List.take_append_drop]
  simp only [doubleQuoted, bump_cons hbr, bind, Except.bind] at h
  cases hs : dqScan (inp.drop (n + 1)) with
  | mk k esc =>
    rw [hs] at h
    cases esc with
    | true =>
      simp only [if_true] at h
      cases hq : dqEsc inp f (n + 1 + k) (slice inp (n + 1) (n + 1 + k)) with
      | error x => rw [hq] at h; cases h
      | ok v =>
        obtain ⟨s2, m2⟩ := v
        rw [hq] at h
        cases h
        have hk := (dqScan_spec (inp.drop (n + 1))).1
        rw [hs, List.length_drop] at hk
        have hlt := lt_of_cons hbr
        have hd := dqEsc_spec (inp := inp) f (n := n + 1 + k) (scratch := slice inp (n + 1) (n + 1 + k)) (by simp only at hk; omega)
        rw [hq] at hd
        obtain ⟨g1, _, g3⟩ := hd
        simp only at g1 g3
        exact key m2 (by omega) rfl g3 rfl
    | false =>
      simp only [Bool.false_eq_true, if_false] at h
      cases h
      by_cases hm : n + 1 + k = inp.length
      · rw [if_pos hm] at he; unfold bump at he; omega
      · refine key (n + 1 + k) (by omega) (by rw [if_neg hm]) ?_ rfl
        have := dqScan_sound hs
        rwa [List.drop_drop] at this

theorem escapeOf_bytes (b : UInt8) : b ≠ DQ → DQ ∉ escapeOf b ∧ (0 : UInt8) ∉ escapeOf b :=
  byte_cases (p := fun b => b ≠ DQ → DQ ∉ escapeOf b ∧ (0 : UInt8) ∉ escapeOf b) (by set_option maxRecDepth 100000 in decide) b

/-- The key is what its text says, if it is in quotes. -/
def KeyOk (key : RStr) : Prop :=
  (∀ k r r', key.write ++ COLON :: r = quoteSingle k ++ r' → hd r' ≠ SQ → key.id = k) ∧
  (∀ k r r', DQ ∉ k → BSL ∉ k → key.write ++ COLON :: r = quoteDouble k ++ r' → key.id = k)

theorem quoteSingle_eq (k : Bytes) : quoteSingle k = escapeSingle k := by rw [escapeSingle, escapeSingleBody_eq]; rfl
theorem quoteDouble_eq (k : Bytes) : quoteDouble k = escapeDouble k := by rw [escapeDouble, escapeDoubleBody_eq]; rfl

theorem escapeDoubleBody_length (k : Bytes) : k.length ≤ (escapeDoubleBody k).length := by
  induction k with
  | nil => simp
  | cons b k ih =>
    have : 1 ≤ ((escapeByte b).getD [b]).length := by
      cases h : escapeByte b with
      | none => simp
      | some e => obtain ⟨e', rfl⟩ := escapeByte_bsl h; simp
    simp only [escapeDoubleBody, List.length_append, List.length_cons]
    omega

/-- The first key of a block mapping. -/
theorem lead_keyOk {inp : Bytes} {f : Nat} {i t : Bool} {n m : Nat} {key : RStr} (h : lead f inp i t n = .ok (.key key m)) : KeyOk key := by
  have h := lead_mono h (f := inp.length + 1) (by omega)
  simp only [lead, bind, Except.bind, pure, Except.pure] at h
  split at h
  · cases h
  · split at h
    · next ha =>
      have ha : peekAt inp n = DQ := by simpa using ha
      cases hq : doubleQuoted (inp.length + 1) inp n with
      | error x => rw [hq] at h; cases h
      | ok v =>
        obtain ⟨s, e⟩ := v
        rw [hq] at h
        simp only at h
        split at h
        · next hc =>
          cases h
          have hc : peekAt inp m = COLON := by rw [Bool.and_eq_true] at hc; exact beq_iff_eq.1 hc.2
          have hlt : m < inp.length := by
            apply Classical.byContradiction
            intro hx
            unfold peekAt at hc
            rw [List.drop_eq_nil_of_le (by omega)] at hc
            exact absurd hc (by decide)
          obtain ⟨a, c, h1, h2, h3, h4⟩ := doubleQuoted_last ha hq hlt
          have hhd : hd key.write = DQ := by
            rw [h3] at h4 ⊢
            have := peek_of h4
            rw [ha] at this
            cases a with
            | nil => exact absurd rfl h1
            | cons x a => exact this.symm
          refine ⟨fun k r r' e _ => ?_, fun k r r' k1 k2 e => ?_⟩
          · have := congrArg hd e
            rw [h3] at hhd this
            cases a with
            | nil => exact absurd rfl h1
            | cons x a =>
              have hx : x = DQ := hhd
              have this : x = SQ := this
              rw [hx] at this
              exact absurd this (by decide)
          · rcases List.append_eq_append_iff.1 e with ⟨z, e1, e2⟩ | ⟨z, e1, e2⟩
            · -- the key's text is shorter
              cases z with
              | nil =>
                rw [List.append_nil] at e1
                rw [← e1, quoteDouble_eq] at h4
                have := doubleQuoted_text h4 k1 k2 (f := inp.length + 1) (by
                  have := congrArg List.length h4
                  have h5 := escapeDoubleBody_length k
                  simp [escapeDouble] at this; omega)
                rw [hq] at this
                cases this
                rfl
              | cons z0 z =>
                exfalso
                rw [h3] at e1
                cases a with
                | nil => exact h1 rfl
                | cons x a =>
                  simp only [quoteDouble, List.append_assoc, List.cons_append, List.nil_append, List.cons.injEq] at e1
                  have e1 := e1.2
                  have hcm : c ∈ k.flatMap escapeOf := by
                    have h6 := congrArg List.dropLast e1
                    rw [List.dropLast_concat, show a ++ c :: z0 :: z = (a ++ [c]) ++ (z0 :: z) by simp, List.dropLast_append_of_ne_nil (by simp)] at h6
                    rw [h6]; simp
                  obtain ⟨b, hb1, hb2⟩ := List.mem_flatMap.1 hcm
                  have := escapeOf_bytes b (fun hb => k1 (hb ▸ hb1))
                  rcases h2 with rfl | rfl
                  · exact this.1 hb2
                  · exact this.2 hb2
            · rw [e1, List.append_assoc, quoteDouble_eq] at h4
              have := doubleQuoted_text h4 k1 k2 (f := inp.length + 1) (by
                have := congrArg List.length h4
                have h5 := escapeDoubleBody_length k
                simp [escapeDouble] at this; omega)
              rw [hq] at this
              cases this
              rfl
        · cases h
    · split at h
      · next ha =>
        have ha : peekAt inp n = SQ := by simpa using ha
        cases hq : singleQuoted (inp.length + 1) inp n with
        | error x => rw [hq] at h; cases h
        | ok v =>
          obtain ⟨s, e⟩ := v
          rw [hq] at h
          simp only at h
          split at h
          · cases h
            obtain ⟨h1, _⟩ := singleQuoted_sound ha hq
            refine ⟨fun k r r' e hr => ?_, fun k r r' _ _ e => ?_⟩
            · rw [h1, quoteSingle_eq] at e
              simp only [escapeSingle, List.append_assoc, List.cons_append, List.nil_append, List.cons.injEq, true_and] at e
              exact escapeSingleBody_unique (r := COLON :: r) (show COLON ≠ SQ by decide) hr e
            · have := congrArg hd e
              rw [h1] at this
              exact absurd (show SQ = DQ from this) (by decide)
          · cases h
      · next hq1 hq2 =>
        have hne : peekAt inp n ≠ DQ ∧ peekAt inp n ≠ SQ := ⟨by simpa using hq1, by simpa using hq2⟩
        have bare : ∀ m, KeyOk ⟨.bare, slice inp n m, slice inp n m⟩ := by
          intro m
          have hh : ∀ r, hd (slice inp n m ++ COLON :: r) = COLON ∨ hd (slice inp n m ++ COLON :: r) = peekAt inp n := by
            intro r
            unfold slice peekAt
            cases inp.drop n with
            | nil => left; simp
            | cons b x => cases m - n with
              | zero => left; simp
              | succ j => right; simp
          refine ⟨fun k r r' e _ => ?_, fun k r r' _ _ e => ?_⟩ <;>
            exfalso <;> have h1 := congrArg hd e <;> have h2 := hh r
          · have h1 : hd (slice inp n m ++ COLON :: r) = SQ := h1
            rw [h1] at h2
            rcases h2 with h2 | h2
            · exact absurd h2 (by decide)
            · exact hne.2 h2.symm
          · have h1 : hd (slice inp n m ++ COLON :: r) = DQ := h1
            rw [h1] at h2
            rcases h2 with h2 | h2
            · exact absurd h2 (by decide)
            · exact hne.1 h2.symm
        repeat' split at h
        all_goals first
          | (cases h; done)
          | (cases h; exact bare _)

/-! ### All block mappings of a parsed document -/

mutual
/-- The first entry of every block mapping has nothing before it, and its key is what its text says. -/
def Tree.keyed {α} : Tree α → Prop
  | .leaf _ _ _ => True
  | .node _ _ m _ k items => (m = true → k = .block → items.firstKey) ∧ items.keyed
def Items.keyed {α} : Items α → Prop
  | .nil => True
  | .cons _ _ _ v rest => v.keyed ∧ rest.keyed
def Items.firstKey {α} : Items α → Prop
  | .nil => True
  | .cons _ pre key _ _ => pre = [] ∧ KeyOk key
end

theorem keyedRules {inp : Bytes} : Rules inp (fun _ _ t _ _ => t.keyed) (fun _ _ _ _ items _ _ _ => items.keyed) (fun _ _ _ _ _ items _ _ _ _ => items.keyed)
    (fun _ _ _ items _ _ => items.keyed) (fun _ _ key ip _ items _ _ => items.keyed ∧ (ip = [] ∧ KeyOk key → items.firstKey)) where
  scalar := fun _ => trivial
  seq := fun _ h => ⟨(fun h => by cases h), h⟩
  flowSeq := fun _ h _ => ⟨(fun h => by cases h), h⟩
  flowMap := fun _ h _ => ⟨(fun _ h => by cases h), h⟩
  keyNull := fun _ _ _ => trivial
  keyMap := fun hl _ h => ⟨fun _ _ => h.2 ⟨rfl, lead_keyOk hl⟩, h.1⟩
  fsStop := fun _ => trivial
  fsLast := fun _ h => ⟨h, trivial⟩
  fsComma := fun _ h _ h2 => ⟨h, h2⟩
  fsOther := fun _ h _ h2 => ⟨h, h2⟩
  fmStop := fun _ => trivial
  fmLast := fun _ _ h => ⟨h, trivial⟩
  fmComma := fun _ _ h _ h2 => ⟨h, h2⟩
  fmOther := fun _ _ h _ h2 => ⟨h, h2⟩
  bsLast := fun _ h _ => ⟨h, trivial⟩
  bsMore := fun _ h _ _ h2 => ⟨h, h2⟩
  bmLast := fun _ h _ => ⟨⟨h, trivial⟩, id⟩
  bmEnd := fun _ h _ _ => ⟨⟨h, trivial⟩, id⟩
  bmMore := fun _ h _ _ h2 => ⟨⟨h, h2.1⟩, id⟩

mutual
theorem Tree.keyed_label (k : Nat) : ∀ {t : Tree Unit}, t.keyed → (t.label k).keyed
  | .leaf _ _ _, _ => trivial
  | .node _ _ m _ kd items, h => by
    refine ⟨fun h1 h2 => ?_, Items.keyed_label (k + 1) h.2⟩
    have := h.1 h1 h2
    cases items with
    | nil => trivial
    | cons _ _ _ _ _ => exact this
theorem Items.keyed_label (k : Nat) : ∀ {items : Items Unit}, items.keyed → (items.label k).keyed
  | .nil, _ => trivial
  | .cons _ _ _ _ _, h => ⟨Tree.keyed_label _ h.1, Items.keyed_label _ h.2⟩
end

mutual
theorem Tree.keyed_find {x : Nat} {u : Tree Nat} : ∀ {t : Tree Nat}, t.keyed → t.find x = some u → u.keyed
  | .leaf i p s, h, hf => by
    simp only [Tree.find] at hf
    split at hf
    · cases hf; trivial
    · cases hf
  | .node i p m ind k items, h, hf => by
    simp only [Tree.find] at hf
    split at hf
    · cases hf; exact h
    · exact Items.keyed_find h.2 hf
theorem Items.keyed_find {x : Nat} {u : Tree Nat} : ∀ {items : Items Nat}, items.keyed → items.find x = some u → u.keyed
  | .nil, _, hf => by simp only [Items.find] at hf; cases hf
  | .cons i p key v rest, h, hf => by
    simp only [Items.find] at hf
    cases hv : v.find x with
    | some w => rw [hv] at hf; cases hf; exact Tree.keyed_find h.1 hv
    | none => rw [hv] at hf; exact Items.keyed_find h.2 hf
end

theorem parsed_keyed {inp : Bytes} {doc : Document} (h : Parsed inp doc) : ∃ t, Holds doc t ∧ t.keyed := by
  obtain ⟨f, h⟩ := h
  rw [parseF_refine] at h
  cases hp : pparseF f inp with
  | error e => rw [hp] at h; cases h
  | ok r =>
    obtain ⟨t, suffix⟩ := r
    rw [hp] at h
    cases h
    refine ⟨_, docOf_holds t suffix, Tree.keyed_label 0 ?_⟩
    unfold pparseF at hp
    cases hs : startOfDocument f inp with
    | error e => simp only [hs, bind, Except.bind] at hp; cases hp
    | ok r =>
      obtain ⟨pre, n⟩ := r
      simp only [hs, bind, Except.bind] at hp
      cases hv : pvalue inp f ⟨pre, false, true, none⟩ n with
      | error e => rw [hv] at hp; cases hp
      | ok r =>
        obtain ⟨t', ws, m⟩ := r
        rw [hv] at hp
        simp only at hp
        split at hp
        · cases hp
          exact keyedRules.value f _ _ _ _ _ hv
        · cases hp

end Verif
