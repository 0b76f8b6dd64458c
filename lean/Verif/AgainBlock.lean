import Verif.AgainLines
/-
What is written for a block collection, read again.
-/
namespace Verif

/-- A block scalar has lines below its header. -/
def linesBelow (sc : Scalar) : Prop := hd sc.write = PIPE ∨ hd sc.write = GT → blank (sc.write.dropWhile (· != NL)) = false

/-- After the colon or dash there is white space, or nothing is written; the key is not in quotes. -/
def spaced {α : Type} (m : Bool) (key : RStr) (v : Tree α) : Prop :=
  (v.text = [] ∨ isWs (hd v.text) = true) ∧ (m = true → hd key.write ≠ DQ ∧ hd key.write ≠ SQ)

mutual
/-- Every item of a block collection but the first is on a line of its own, and there are no block scalars in inline collections.  `h`: values may be written as nothing, but
then the items are spaced. -/
def Tree.neat {α : Type} (h : Bool) : Tree α → Prop
  | .leaf _ _ sc => linesBelow sc ∧ (h = false → sc.write ≠ [])
  | .node _ _ _ _ (.inline _ _) items => items.all notLines
  | .node _ _ m _ .block items => items.neat h m true
def Items.neat {α : Type} (h m : Bool) : (first : Bool) → Items α → Prop
  | _, .nil => True
  | first, .cons _ p key v rest => (first = false → NL ∈ p ∧ (h = true → spaced m key v)) ∧ v.neat h ∧ rest.neat h m false
end

theorem hd_slice {inp : Bytes} {a n : Nat} {r : Bytes} (h : a ≤ n) (hn : n ≤ inp.length) (hr : hd r = peekAt inp n) : hd (slice inp a n ++ r) = peekAt inp a := by
  rcases Nat.eq_or_lt_of_le h with rfl | h
  · rw [slice_self]; exact hr
  · rw [← peek_slice h]
    cases hs : slice inp a n with
    | nil =>
      have := congrArg List.length hs
      rw [slice_length hn] at this; simp at this; omega
    | cons b r => rfl

theorem slice_nil {inp : Bytes} {a n : Nat} (h : a ≤ n) (hn : n ≤ inp.length) (hs : slice inp a n = []) : a = n := by
  have := congrArg List.length hs
  rw [slice_length hn] at this; simp at this; omega

theorem lastLine_same {a b : Bytes} (h : lastLine a = lastLine b) (x : Bytes) : lastLine (a ++ x) = lastLine (b ++ x) := by
  by_cases hx : NL ∈ x
  · rw [lastLine_next hx, lastLine_next hx]
  · rw [lastLine_keep hx, lastLine_keep hx, h]

/-- A scalar without text is at the end. -/
theorem Token.none {rest : Bytes} {a : AnyV} (h : Token false rest [] a) (hw : isWs (hd rest) = false) : rest = [] := by
  cases h with
  | number h1 => cases h1
  | plain h1 h2 =>
    unfold plainText at h2
    simp only [Bool.false_eq_true, if_false, Bool.and_eq_true] at h2
    cases rest with
    | nil => rfl
    | cons b r =>
      have : b = NL := by simpa using h2.2.1.2
      subst this
      exact absurd (show isWs NL = false from hw) (by decide)
  | quoted h1 =>
    generalize hs : ([] : Bytes) = s at h1
    cases h1 with
    | single s => simp [quoteSingle] at hs
    | double => cases hs

theorem inQuotes_hd {t s : Bytes} (h : InQuotes t s) : hd t = DQ ∨ hd t = SQ := by
  cases h with
  | single s => exact .inr rfl
  | double => exact .inl rfl

theorem dashes_key (k x y : Bytes) : dashes (k ++ COLON :: x) = dashes (k ++ COLON :: y) := by
  cases k with
  | nil => rfl
  | cons a k =>
    cases k with
    | nil => rfl
    | cons b k => rfl

section
variable {inp T : Bytes}

/-- The first key of a mapping is written as it was read. -/
theorem firstKey_along {k X : Bytes} {st n p : Nat} (h : FirstKey inp k st n) (ht : T.drop p = slice inp st n ++ COLON :: X) (hX : hd X = peekAt inp (n + 1)) :
    FirstKey T k p (p + (n - st)) := by
  obtain ⟨h1, h2, h3⟩ := h
  have hlt : n < inp.length := lt_of_peek (by rw [some_peek h2]; decide)
  have hl : (slice inp st n).length = n - st := slice_length (Nat.le_of_lt hlt)
  have hd1 := drop_add ht
  have hs := slice_of ht
  rw [hl] at hd1 hs
  have hinp : inp.drop st = slice inp st n ++ COLON :: inp.drop (n + 1) := by
    obtain ⟨i, rfl⟩ := Nat.le.dest h1
    unfold slice
    rw [Nat.add_sub_cancel_left]
    have : inp.drop (st + i) = COLON :: inp.drop (st + i + 1) := by
      rw [List.drop_eq_getElem_cons hlt]
      rw [List.getElem?_eq_getElem hlt] at h2
      rw [Option.some.inj h2]
    rw [← this, ← List.drop_drop, List.take_append_drop]
  have hpk : ∀ i, i ≤ n - st → peekAt T (p + i) = peekAt inp (st + i) := by
    intro i hi
    rw [peekAt_add, peekAt_add, ht, hinp]
    rcases Nat.eq_or_lt_of_le hi with rfl | hi
    · rw [← hl]; simp
    · rw [List.drop_append_of_le_length (by omega), List.drop_append_of_le_length (by omega)]
      cases hq : (slice inp st n).drop i with
      | nil =>
        have := congrArg List.length hq
        rw [List.length_drop, hl] at this; simp at this; omega
      | cons b r => rfl
  refine ⟨by omega, at_cons hd1, ?_⟩
  rw [hs]
  rcases h3 with h3 | ⟨h3, h4, h5, h6, h7, h8⟩
  · exact .inl h3
  · refine .inr ⟨h3, ?_, ?_, h6, ⟨at_cons hd1, ?_⟩, ?_⟩
    · have := hpk 0 (Nat.zero_le _)
      rw [getD_peek] at h4 ⊢
      rw [Nat.add_zero, Nat.add_zero] at this
      rw [this]; exact h4
    · rw [ht, dashes_key _ X (inp.drop (n + 1)), ← hinp]
      exact h5
    · have := h7.2
      rw [getD_peek] at this ⊢
      rw [peek_of (drop_cons hd1), hX]
      exact this
    · intro p' hp1 hp2 hk
      obtain ⟨i, rfl⟩ := Nat.le.dest hp1
      have e1 := hpk i (by omega)
      have e2 := hpk (i + 1) (by omega)
      refine h8 (st + i) (by omega) (by omega) ⟨peek_some (by rw [← e1]; exact some_peek hk.1) (by decide), ?_⟩
      have := hk.2
      rw [getD_peek] at this ⊢
      rw [← Nat.add_assoc] at e2
      rw [e2] at this
      exact this

end

section
variable (inp : Bytes) (h : Bool)

def BV (s : PSt) (n : Nat) (t : Tree Unit) (ws : Option Bytes) (m : Nat) : Prop :=
  s.inline = false → s.tabular = true → ∀ a, a ≤ inp.length → n = wsEnd inp a → s.pre = wsStr inp a → t.neat h →
  ∀ T p w' R', T.drop p = t.text ++ (w' ++ R') → p ≤ T.length → lastLine (T.take p ++ s.pre) = lastLine (inp.take n) →
    Next inp T h (wsOr inp ws m).1 (wsOr inp ws m).2 w' R' (p + t.text.length + w'.length) →
    hd (t.text ++ (w' ++ R')) = peekAt inp a ∧
    (t.text = [] → a = inp.length ∨ s.parentIndent.isSome = true ∧ (isWs (peekAt inp a) = true ∨ peekAt inp a = HASH)) ∧
    ∃ b e, FullGap T p b ∧ Sits T contentView s.spot t.content b e ∧ FullGap T e (p + t.text.length + w'.length)

def ABS (ind : Nat) (ip : Bytes) (n : Nat) (items : Items Unit) (w : Bytes) (m : Nat) : Prop :=
  ∀ first, (first = true → isWs (peekAt inp (n + 1)) = true) → columnAt inp n = ind → items.neat h false first → (first = false → NL ∈ ip) ∧
  ∀ T p w' R' out, items.render false .block = lossy ip ++ out → T.drop p = out ++ (w' ++ R') → lastLine (T.take p) = lastLine (inp.take n) →
    Next inp T h w m w' R' (p + out.length + w'.length) →
    hd (out ++ (w' ++ R')) = peekAt inp n ∧ (first = false → h = true → ∀ k z, ¬ FirstKey inp k n z) ∧
    ∃ hi, Rows T contentView ind first (items.contents false) p hi ∧ FullGap T hi (p + out.length + w'.length)

def ABM (ind st : Nat) (key : RStr) (ip : Bytes) (n : Nat) (items : Items Unit) (w : Bytes) (m : Nat) : Prop :=
  ∀ first, columnAt inp st = ind → st ≤ n → key.write = slice inp st n → (peekAt inp n = COLON → Head inp first (some key.id) st (n + 1)) →
  items.neat h true first → (first = false → NL ∈ ip) ∧
  ∀ T p w' R' out, items.render true .block = ip ++ out → T.drop p = out ++ (w' ++ R') → lastLine (T.take p) = lastLine (inp.take st) →
    Next inp T h w m w' R' (p + out.length + w'.length) →
    hd (out ++ (w' ++ R')) = peekAt inp st ∧ (first = false → h = true → ∀ k z, FirstKey inp k st z → ∃ k' z', FirstKey T k' p z') ∧
    ∃ hi, Rows T contentView ind first (items.contents true) p hi ∧ FullGap T hi (p + out.length + w'.length)
end

section
variable {inp : Bytes} {h : Bool}

theorem wsEnd_last : wsEnd inp inp.length = inp.length :=
  Nat.le_antisymm (wsEnd_le (Nat.le_refl _)) (le_wsEnd _ _)

theorem gap_at {a q : Nat} (hg : FullGap inp a q) (hq : q < inp.length) : gap (slice inp a q) = true := by
  rcases hg.1.2.2 with h1 | ⟨h1, -⟩
  · exact h1
  · omega

/-- A scalar that is not a block scalar. -/
theorem BV.text {s : PSt} {n m : Nat} {sc : Scalar} (h1 : n ≤ m) (h2 : m ≤ inp.length) (h3 : Token false (inp.drop m) (slice inp n m) sc.value)
    (h4 : sc.write = slice inp n m) : BV inp h s n (.leaf () s.pre sc) none m := by
  intro hi ht a ha hn hp hne T p w' R' hT hpT hl hx
  have hnl : n ≤ inp.length := by omega
  have hw : wsEnd inp n = n := by rw [hn]; exact wsEnd_idem _ _
  have hg : FullGap inp a n := by rw [hn]; exact FullGap.ws ha
  have hpre : s.pre = slice inp a n := by rw [hp, hn]; rfl
  have hlen : s.pre.length = n - a := by rw [hpre, slice_length hnl]
  have hwl : sc.write.length = m - n := by rw [h4, slice_length h2]
  have hq : (wsOr inp none m).1 = slice inp m (wsOr inp none m).2 := rfl
  have hqg : FullGap inp m (wsOr inp none m).2 := FullGap.ws h2
  rw [leaf_text] at hT hx ⊢
  rw [List.append_assoc] at hT
  have hT2 := drop_add hT
  have hT3 := drop_add hT2
  have hpk := hx.peek hq hqg.le.1
  have hpk2 : hd (sc.write ++ (w' ++ R')) = peekAt inp n := by rw [h4]; exact hd_slice h1 h2 hpk
  have hst := wsEnd_start hw
  have hT3l : p + s.pre.length + sc.write.length ≤ T.length := by
    have := congrArg List.length hT
    rw [List.length_drop, List.length_append, List.length_append] at this
    omega
  refine ⟨?_, ?_, p + s.pre.length, p + s.pre.length + sc.write.length, ?_, ?_, ?_⟩
  · rw [List.append_assoc, hpre]
    exact hd_slice hg.le.1 hnl hpk2
  · intro hnil
    left
    obtain ⟨e1, e2⟩ := List.append_eq_nil_iff.1 hnil
    have := slice_nil hg.le.1 hnl (by rw [← hpre]; exact e1)
    rw [h4] at e2
    have hnm := slice_nil h1 h2 e2
    rw [e2] at h3
    have h5 := h3.none (by rw [← hnm]; exact hst.1)
    have := congrArg List.length h5
    rw [List.length_drop] at this
    simp at this
    omega
  · by_cases hlt : n < inp.length
    · refine fullGap_at hT hpT ?_ (by rw [hpk2]; exact hst)
      rw [hpre]; exact gap_at hg hlt
    · have hnn : n = inp.length := by omega
      have e1 : sc.write = [] := by rw [h4, show m = n by omega, slice_self]
      have e2 : (wsOr inp none m).2 = inp.length := by have := hqg.le; omega
      cases hx with
      | done x1 x2 x3 =>
        have e3 : w' = [] := by rw [x2, hq, x1, show m = inp.length by omega, slice_self]
        rw [e1, e3, x3] at hT
        have := Next.full (T := T) (h := h) (w := s.pre) (e := a) (q := n) (w' := s.pre) (R' := []) (E := p) (Q := 0) (.done hnn rfl rfl) hpre hg (by rw [hT]; rfl) hpT
        exact this
      | more x1 => omega
  · refine .scalar (a := sc.value) rfl (by omega) hT3l ?_
    rw [hT3, slice_of hT2, spot_inline, hi, h4]
    exact h3.along hx hq hqg.le.1
  · have := hx.full hq hqg hT3 hT3l
    rw [List.length_append, ← Nat.add_assoc]
    exact this

/-- Double quotes that are not closed. -/
theorem BV.open {s : PSt} {n : Nat} {sc : Scalar} {ps : List Piece} (h0 : sc.value = .string (ps.flatMap Piece.reads)) (h1 : ps.all Piece.known = true)
    (h2 : inp.drop n = DQ :: ps.flatMap Piece.text) (h4 : sc.write = slice inp n inp.length) : BV inp h s n (.leaf () s.pre sc) none inp.length := by
  intro hi ht a ha hn hp hne T p w' R' hT hpT hl hx
  have hlt : n < inp.length := lt_of_cons h2
  have hnl : n ≤ inp.length := by omega
  have hw : wsEnd inp n = n := by rw [hn]; exact wsEnd_idem _ _
  have hg : FullGap inp a n := by rw [hn]; exact FullGap.ws ha
  have hpre : s.pre = slice inp a n := by rw [hp, hn]; rfl
  have hq : (wsOr inp none inp.length).2 = inp.length := wsEnd_last
  have hq1 : (wsOr inp none inp.length).1 = [] := by
    show slice inp inp.length (wsOr inp none inp.length).2 = []
    rw [hq, slice_self]
  have h4 : sc.write = DQ :: ps.flatMap Piece.text := by
    rw [h4, ← h2]; unfold slice; rw [List.take_of_length_le (by simp)]
  rw [leaf_text] at hT hx ⊢
  rw [List.append_assoc] at hT
  cases hx with
  | more x1 => omega
  | done x1 x2 x3 =>
  rw [hq1] at x2
  subst x2 x3
  have hT2 := drop_add hT
  have hst := wsEnd_start hw
  have hpk2 : hd (sc.write ++ ([] ++ [])) = peekAt inp n := by rw [h4, peek_of h2]; rfl
  have hlen : p + (s.pre ++ sc.write).length + ([] : Bytes).length = T.length := by
    have := congrArg List.length hT
    rw [List.length_drop] at this
    simp at this ⊢
    omega
  rw [hlen]
  refine ⟨?_, fun hnil => ?_, p + s.pre.length, T.length, ?_, ?_, ?_⟩
  · rw [List.append_assoc, hpre]
    exact hd_slice hg.le.1 hnl hpk2
  · rw [h4] at hnil
    exact absurd hnil (by simp)
  · refine fullGap_at hT hpT ?_ (by rw [hpk2]; exact hst)
    rw [hpre]; exact gap_at hg hlt
  · refine .open (ps := ps) (congrArg Content.scalar h0) ?_ h1 ?_
    · simp at hlen; omega
    · rw [hT2, h4]; simp
  · have := FullGap.ws (inp := T) (Nat.le_refl T.length)
    rwa [wsEnd_last] at this

/-- A block scalar with lines. -/
theorem BV.lines {s : PSt} {n e : Nat} {sc : Scalar} {v : Bytes} (h0 : sc.value = .string v) (h1 : BlockAt inp n v e) (he : e ≤ inp.length)
    (h2 : OneLine inp n → sc.write = slice inp n inp.length) (h3 : ¬ OneLine inp n → sc.write = slice inp n e) :
    BV inp h s n (.leaf () s.pre sc) (some (wsStr inp e)) (wsEnd inp e) := by
  intro hi ht a ha hn hp hne T p w' R' hT hpT hl hx
  have hb := h1.bounds
  have hnl : n ≤ inp.length := by omega
  have hw : wsEnd inp n = n := by rw [hn]; exact wsEnd_idem _ _
  have hg : FullGap inp a n := by rw [hn]; exact FullGap.ws ha
  have hpre : s.pre = slice inp a n := by rw [hp, hn]; rfl
  have hb0 : peekAt inp n = PIPE ∨ peekAt inp n = GT := by
    have := h1.atBlock
    unfold atBlock at this
    rw [getD_peek] at this
    simpa [or_comm] using this
  have ho : ¬ OneLine inp n := by
    intro ho
    have hs := h2 ho
    obtain ⟨l, l1, l2⟩ := ho
    have := hne.1 (by rw [hs, peek_slice (by omega)]; exact hb0)
    have hll := l2.le
    rw [hs, ← slice_append l1.1 hll.1, List.dropWhile_append_of_pos] at this
    · have hbl : blank ((slice inp l inp.length).dropWhile (· != NL)) = true := by
        rcases l1.2.2 with h5 | h5
        · rw [h5, slice_self]; rfl
        · have h6 := mem_slice (a := l) (b := inp.length) h5 (Nat.le_refl _) (lt_of_peek (by rw [some_peek h5]; decide))
          have h7 := peek_slice (inp := inp) (n := l) (m := inp.length) (lt_of_peek (by rw [some_peek h5]; decide))
          rw [some_peek h5] at h7
          have h8 : blank (slice inp l inp.length) = true := by
            rcases l2.1.2.2 with h | h
            · have := blankGo_glue (b := []) h rfl; rwa [List.append_nil] at this
            · exact h.2
          cases h9 : slice inp l inp.length with
          | nil => rfl
          | cons x y =>
            rw [h9] at h7 h8
            have h7 : x = NL := h7
            subst h7
            exact h8
      rw [hbl] at this
      cases this
    · intro x hx
      exact bne_iff_ne.2 fun hc => l1.2.1 (by rw [← hc]; exact hx)
  have h4 := h3 ho
  have hx : Next inp T h (wsStr inp e) (wsEnd inp e) w' R' (p + (Tree.leaf () s.pre sc).text.length + w'.length) := hx
  rw [leaf_text] at hT hx ⊢
  rw [List.append_assoc, h4] at hT
  have hT2 := drop_add hT
  have hlen : (slice inp n e).length = e - n := slice_length he
  have hplen : p + s.pre.length ≤ T.length := by
    have := congrArg List.length hT
    rw [List.length_drop, List.length_append] at this
    omega
  have M : Moved inp T h (wsStr inp e) n e (wsEnd inp e) w' R' (p + s.pre.length) _ := ⟨hx, rfl, FullGap.ws he, hT2, hplen, by omega⟩
  obtain ⟨s1, s2⟩ := M.stop
  have hst := wsEnd_start hw
  have hpk2 : hd (slice inp n e ++ (w' ++ R')) = peekAt inp n := by
    refine hd_slice (by omega) he (hx.peek rfl (FullGap.ws he).le.1)
  refine ⟨?_, fun hnil => ?_, p + s.pre.length, p + s.pre.length + (e - n), ?_, ?_, ?_⟩
  · rw [List.append_assoc, hpre, h4]
    exact hd_slice hg.le.1 hnl hpk2
  · rw [h4] at hnil
    have := slice_nil (by omega) he (List.append_eq_nil_iff.1 hnil).2
    omega
  · refine fullGap_at hT hpT ?_ (by rw [hpk2]; exact hst)
    rw [hpre]; exact gap_at hg (by omega)
  · exact .lines (v := v) (congrArg Content.scalar h0) (M.block h1)
  · have := hx.full rfl (FullGap.ws he) s1 s2
    rw [List.length_append, h4, hlen, ← Nat.add_assoc]
    exact this

end

end Verif
