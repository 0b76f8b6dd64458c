import Verif.Swap
/-
Scalars, keys, collections and texts after an exchange of white space and comments.
-/
namespace Verif
namespace Swap

variable {line : Bool} {p t t' q : Bytes}

/-- A position that is not in the part that is exchanged. -/
def Ok (line : Bool) (p t : Bytes) (k : Nat) : Prop := Bef line p k ∨ Aft line p t k

/-! ### Scalars -/

theorem token_mid {fl : Bool} {r y s : Bytes} {a : AnyV} (y' : Bytes) (hr : r ≠ []) (hn : fl = false → NL ∈ r) (h : Token fl (r ++ y) s a) :
    Token fl (r ++ y') s a := by
  have h0 : ∀ d, (r ++ y').headD d = (r ++ y).headD d := fun d => by
    cases r with
    | nil => exact absurd rfl hr
    | cons b r => rfl
  cases h with
  | number h1 h2 =>
    refine .number h1 ?_
    cases fl with
    | true => rw [h0]; exact h2
    | false =>
      simp only [Bool.false_eq_true, if_false] at h2 ⊢
      rw [Tail.lineEnds (hn rfl)] at h2 ⊢
      exact h2
  | plain h1 h2 =>
    refine .plain h1 ?_
    unfold plainText at h2 ⊢
    rw [h0, h0]
    cases fl with
    | true => exact h2
    | false =>
      rw [Tail.dashes_after (hn rfl)] at h2 ⊢
      exact h2
  | quoted h1 h2 h3 => exact .quoted h1 (by rw [h0]; exact h2) (by rw [h0]; exact h3)

theorem slice_head {x : Bytes} {a b : Nat} (h : a < b) (hb : b ≤ x.length) : (slice x a b).headD 0 = x.getD a 0 := by
  unfold slice
  have ha : a < x.length := by omega
  rw [List.drop_eq_getElem_cons ha, show b - a = (b - a - 1) + 1 by omega, List.take_succ_cons, List.getD_eq_getElem?_getD, List.getElem?_eq_getElem ha]
  rfl

theorem slice_empty {x : Bytes} {a b : Nat} (h : b ≤ a) : slice x a b = [] := by
  unfold slice
  rw [Nat.sub_eq_zero_of_le h, List.take_zero]

/-- What starts with a quote is in quotes. -/
theorem quoted_of {x : Bytes} {fl : Bool} {lo hi : Nat} {a : AnyV} (hlo : lo ≤ hi) (hhi : hi ≤ x.length) (h : Token fl (x.drop hi) (slice x lo hi) a)
    (hq : x.getD lo 0 = SQ ∨ x.getD lo 0 = DQ) : lo < hi ∧ ∃ s, a = .string s ∧ InQuotes (slice x lo hi) s := by
  have hne : lo < x.length := by
    rcases Nat.lt_or_ge lo x.length with h | h
    · exact h
    · rw [List.getD_eq_getElem?_getD, List.getElem?_eq_none h] at hq
      exact absurd hq (by decide)
  rcases Nat.lt_or_ge lo hi with hlt | hge
  · refine ⟨hlt, ?_⟩
    have hh := slice_head hlt hhi
    generalize hs : slice x lo hi = s at h hh
    cases h with
    | number h1 _ =>
      exfalso
      cases s with
      | nil => exact absurd h1 (by decide)
      | cons b s =>
        have hb : b = SQ ∨ b = DQ := by
          simp only [List.headD_cons] at hh
          rw [hh]
          exact hq
        rcases isNumber_chars h1 b (List.mem_cons_self ..) with h | h <;> rcases hb with rfl | rfl <;> exact absurd h (by decide)
    | plain _ h2 =>
      exfalso
      simp only [plainText, Bool.and_eq_true, Bool.not_eq_true'] at h2
      have := h2.1
      rw [hh] at this
      rcases hq with hq | hq <;> rw [hq] at this <;> exact absurd this (by decide)
    | quoted h1 _ _ => exact ⟨_, rfl, h1⟩
  · exfalso
    have he : lo = hi := by omega
    subst he
    rw [slice_empty (Nat.le_refl _)] at h
    have hd : ∀ d, (x.drop lo).headD d = x.getD lo 0 := fun d => by
      rw [List.drop_eq_getElem_cons hne, List.getD_eq_getElem?_getD, List.getElem?_eq_getElem hne]
      rfl
    generalize hs : ([] : Bytes) = s at h
    cases h with
    | number h1 _ => subst hs; exact absurd h1 (by decide)
    | plain _ h2 =>
      simp only [plainText, Bool.and_eq_true, Bool.not_eq_true'] at h2
      have := h2.2
      cases fl with
      | true =>
        simp only [if_true, Bool.and_eq_true, hd] at this
        have := this.2
        rcases hq with hq | hq <;> rw [hq] at this <;> exact absurd this (by decide)
      | false =>
        simp only [Bool.false_eq_true, if_false, Bool.and_eq_true, hd] at this
        have := this.1.2
        rcases hq with hq | hq <;> rw [hq] at this <;> exact absurd this (by decide)
    | quoted h1 _ _ =>
      cases h1 with
      | single s => simp [quoteSingle] at hs
      | double h1 h2 => simp at hs

theorem InQuotes.lastNot {s v : Bytes} (h : InQuotes s v) : s.getLast? ≠ some NL := by
  cases h with
  | single s => unfold quoteSingle; rw [List.getLast?_append]; simp; decide
  | double h1 h2 => rw [List.getLast?_append]; rcases h2 with rfl | rfl <;> simp <;> decide

theorem slice_last {x : Bytes} {a b : Nat} (h : a < b) (hb : b ≤ x.length) : (slice x a b).getLast? = x[b - 1]? := by
  unfold slice
  rw [List.getLast?_take, if_neg (by omega), List.getElem?_drop, show a + (b - a - 1) = b - 1 by omega]
  have : b - 1 < x.length := by omega
  rw [List.getElem?_eq_getElem this]
  rfl

theorem lastP (H : Swap line p t t' q) (hl : line = true) (hp : 0 < p.length) : p[p.length - 1]? = some NL := by
  rcases (H.lines hl).1 with h | h
  · rw [h] at hp; cases hp
  · rw [← List.getLast?_eq_getElem?]; exact h

variable (H : Swap line p t t' q)
include H

theorem scalarOff {s : Spot} {lo hi : Nat} {a : AnyV} (hlo : lo ≤ hi) (hhi : hi ≤ (p ++ (t ++ q)).length)
    (hw : isWs ((p ++ (t ++ q)).getD lo 0) = false) (h : Token s.inline ((p ++ (t ++ q)).drop hi) (slice (p ++ (t ++ q)) lo hi) a)
    (ho : ScalarOff (p ++ (t ++ q)) p.length (p.length + t.length) s lo hi) :
    Ok line p t hi ∧ f line p t t' lo ≤ f line p t t' hi ∧ f line p t t' hi ≤ (p ++ (t' ++ q)).length ∧
      Token s.inline ((p ++ (t' ++ q)).drop (f line p t t' hi)) (slice (p ++ (t' ++ q)) (f line p t t' lo) (f line p t t' hi)) a ∧
      ScalarOff (p ++ (t' ++ q)) p.length (p.length + t'.length) s (f line p t t' lo) (f line p t t' hi) := by
  rcases ho with ho | ⟨ho, h1⟩
  · have h2 := H.aft hw ho
    have h3 := h2.up hlo
    have h4 := h2.1
    refine ⟨.inr h3, by rw [f_aft h2, f_aft h3]; omega, ?_, by rw [dropA h3, sliceA h2 hlo]; exact h, .inl h2.f.1⟩
    rw [f_aft h3]
    simp only [List.length_append] at hhi ⊢
    omega
  · have fin : Bef line p hi → Token s.inline ((p ++ (t' ++ q)).drop hi) (slice (p ++ (t' ++ q)) lo hi) a →
        ((p ++ (t' ++ q)).getD lo 0 = SQ ∨ (p ++ (t' ++ q)).getD lo 0 = DQ ∨ hi < p.length ∧ (s.inline = false → NL ∈ slice (p ++ (t' ++ q)) hi p.length)) →
        Ok line p t hi ∧ f line p t t' lo ≤ f line p t t' hi ∧ f line p t t' hi ≤ (p ++ (t' ++ q)).length ∧
          Token s.inline ((p ++ (t' ++ q)).drop (f line p t t' hi)) (slice (p ++ (t' ++ q)) (f line p t t' lo) (f line p t t' hi)) a ∧
          ScalarOff (p ++ (t' ++ q)) p.length (p.length + t'.length) s (f line p t t' lo) (f line p t t' hi) := fun hb ht hs => by
      rw [f_bef hb, f_bef (hb.down hlo)]
      refine ⟨.inl hb, hlo, ?_, ht, .inr ⟨ho, hs⟩⟩
      rw [List.length_append]
      omega
    have hd : ∀ s : Bytes, (p ++ (s ++ q)).drop hi = p.drop hi ++ (s ++ q) := fun s => List.drop_append_of_le_length ho
    rw [← or_assoc] at h1
    rcases h1 with hq | ⟨h1, h2⟩
    · obtain ⟨hlt, v, rfl, hin⟩ := quoted_of hlo hhi h hq
      have hb : Bef line p hi := by
        rcases Nat.lt_or_ge hi p.length with h2 | h2
        · exact .inl h2
        · have he : hi = p.length := by omega
          cases hl : line with
          | false => exact .inr ⟨rfl, he⟩
          | true =>
            exfalso
            apply InQuotes.lastNot hin
            rw [slice_last hlt hhi, append_get (by omega), he]
            exact H.lastP hl (by omega)
      refine fin hb ?_ ?_
      · rw [sliceB (t := t) ho, hd]
        rcases Nat.lt_or_ge hi p.length with h2 | h2
        · rw [hd] at h
          have h0 : ∀ y y' : Bytes, (p.drop hi ++ y').headD 0 = (p.drop hi ++ y).headD 0 := fun y y' => by
            rw [List.drop_eq_getElem_cons h2]; rfl
          generalize hs : slice (p ++ (t ++ q)) lo hi = w at h hin
          generalize ha : AnyV.string v = a' at h
          cases h with
          | number h1 _ => cases ha
          | plain h1 h2 =>
            exfalso
            have := slice_head hlt hhi
            rw [hs] at this
            simp only [plainText, Bool.and_eq_true, Bool.not_eq_true'] at h2
            have h3 := h2.1
            rw [this] at h3
            rcases hq with hq | hq <;> rw [hq] at h3 <;> exact absurd h3 (by decide)
          | quoted h1 h2 h3 => exact .quoted h1 (by rw [h0 (t ++ q)]; exact h2) (by rw [h0 (t ++ q)]; exact h3)
        · have he : hi = p.length := by omega
          have hl : line = false := by
            rcases hb with hb | hb
            · omega
            · exact hb.1
          have h0 : ((p.drop hi) ++ (t' ++ q)).headD 0 ≠ COLON ∧ ((p.drop hi) ++ (t' ++ q)).headD 0 ≠ SQ := by
            obtain ⟨b, hb1, hb2⟩ := H.symm.wsAt hl
            rw [List.getElem?_append_right (Nat.le_refl _), Nat.sub_self] at hb1
            rw [he, List.drop_length, List.nil_append]
            cases hy : t' ++ q with
            | nil => rw [hy] at hb1; cases hb1
            | cons c y =>
              rw [hy] at hb1
              cases hb1
              refine ⟨?_, ?_⟩ <;> rintro rfl <;> exact absurd hb2 (by decide)
          exact .quoted hin (fun _ => h0.1) (fun _ => h0.2)
      · have hlt' : lo < p.length := by omega
        rw [List.getD_eq_getElem?_getD, getB (t := t) hlt', ← List.getD_eq_getElem?_getD]
        rcases hq with hq | hq
        · exact .inl hq
        · exact .inr (.inl hq)
    · refine fin (.inl h1) ?_ (.inr (.inr ⟨h1, fun hs => by rw [sliceB (Nat.le_refl _)]; exact h2 hs⟩))
      rw [sliceB (t := t) ho, hd]
      rw [hd] at h
      refine token_mid _ (fun h3 => by rw [List.drop_eq_nil_iff] at h3; omega) (fun hs => ?_) h
      have := h2 hs
      rw [append_slice (Nat.le_refl _)] at this
      unfold slice at this
      exact List.mem_of_mem_take this

/-! ### Block scalars after the exchange -/

omit H in
theorem breaksA {a b : Nat} (h : Aft line p t a) (hb : a ≤ b) : breaksIn (p ++ (t' ++ q)) (f line p t t' a) (f line p t t' b) = breaksIn (p ++ (t ++ q)) a b := by
  unfold breaksIn
  rw [sliceA h hb]

theorem lineA {a b : Nat} (ha : Aft line p t a) (h : LineAt (p ++ (t ++ q)) a b) : LineAt (p ++ (t' ++ q)) (f line p t t' a) (f line p t t' b) := by
  obtain ⟨h1, h2, h3⟩ := h
  have hb := ha.up h1
  refine ⟨?_, by rw [sliceA ha h1]; exact h2, ?_⟩
  · rw [f_aft ha, f_aft hb]
    omega
  · rcases h3 with h3 | h3
    · left; rw [h3]; exact H.len
    · right; rw [getA hb]; exact h3

omit H in
theorem ltA {a : Nat} (ha : Aft line p t a) (h : a < (p ++ (t ++ q)).length) : f line p t t' a < (p ++ (t' ++ q)).length := by
  rw [f_aft ha]
  have := ha.1
  simp only [List.length_append] at h ⊢
  omega

theorem rowsA {fo : Bool} {c i : Nat} {v : Bytes} {hi k : Nat} : BlockRows (p ++ (t ++ q)) fo c i v hi k → Aft line p t i →
    BlockRows (p ++ (t' ++ q)) fo c (f line p t t' i) v (f line p t t' hi) k
  | .last (q := q') h1 h2 h3 h4 h5, ha => by
    have he := ha.up h2.1
    obtain ⟨h6, -, h7⟩ := H.gap (.inr he) h4
    rw [← sliceA ha h2.1] at h3
    rw [← H.column h6] at h5
    have := BlockRows.last (folded := fo) (ltA ha h1) (H.lineA ha h2) h3 h7 h5
    rwa [breaksA he h4.le.1] at this
  | .final h1 h2 h3 h4 h5, ha => by
    have he := ha.up h2.1
    obtain ⟨h6, -, h7⟩ := H.gap (.inr he) h4
    rw [← sliceA ha h2.1] at h3
    rw [← H.column h6] at h5
    rw [H.len] at h5 h7
    have := BlockRows.final (folded := fo) (ltA ha h1) (H.lineA ha h2) h3 h7 h5
    rw [← H.len, breaksA he h4.le.1] at this
    exact this
  | .more (q := q') h1 h2 h3 h4 h5 h8, ha => by
    have he := ha.up h2.1
    obtain ⟨h6, -, h7⟩ := H.gap (.inr he) h4
    rw [← sliceA ha h2.1] at h3
    rw [← H.column h6] at h5
    have := BlockRows.more (folded := fo) (ltA ha h1) (H.lineA ha h2) h3 h7 h5 (rowsA h8 (he.up h4.le.1))
    rwa [breaksA he h4.le.1] at this

theorem bodyA {fo : Bool} {h : Nat} {v : Bytes} {hi k : Nat} (hb : BlockBody (p ++ (t ++ q)) fo h v hi k) (ha : Aft line p t h) :
    BlockBody (p ++ (t' ++ q)) fo (f line p t t' h) v (f line p t t' hi) k := by
  cases hb with
  | below h1 h2 h3 =>
    obtain ⟨h6, -, h7⟩ := H.gap (.inr ha) h1
    have h8 := H.rowsA h3 (ha.up h1.le.1)
    rw [← H.column h6] at h8
    exact .below h7 (by rw [breaksA ha h1.le.1]; exact h2) h8
  | nothing h1 h2 =>
    obtain ⟨h6, -, h7⟩ := H.gap (.inr ha) h1
    rw [← breaksA ha h1.le.1, H.len] at h2 ⊢
    rw [H.len] at h7
    exact .nothing h7 h2
  | beside h1 h2 h3 h4 h5 =>
    obtain ⟨h6, -, h7⟩ := H.gap (.inr ha) h1
    have he := ha.up h3.1
    obtain ⟨h8, -, h9⟩ := H.gap (.inr he) h5
    rw [← sliceA ha h3.1] at h4
    rw [← breaksA he h5.le.1, H.len]
    rw [H.len] at h9
    exact .beside h7 (by rw [breaksA ha h1.le.1]; exact h2) (H.lineA ha h3) h4 h9
  | both h1 h2 h3 h4 h5 h10 =>
    obtain ⟨h6, -, h7⟩ := H.gap (.inr ha) h1
    have he := ha.up h3.1
    obtain ⟨h8, -, h9⟩ := H.gap (.inr he) h5
    rw [← sliceA ha h3.1] at h4
    have h11 := H.rowsA h10 (he.up h5.le.1)
    rw [← H.column h8] at h11
    exact .both h7 (by rw [breaksA ha h1.le.1]; exact h2) (H.lineA ha h3) h4 h9 h11

theorem blockA {lo : Nat} {v : Bytes} {hi : Nat} (h : BlockAt (p ++ (t ++ q)) lo v hi) (ha : Aft line p t lo) :
    BlockAt (p ++ (t' ++ q)) (f line p t t' lo) v (f line p t t' hi) := by
  obtain ⟨fo, ch, h, k, w, h1, h2, h3, h4, h5, rfl⟩ := h
  have hh := ha.up (Nat.le_of_lt h1)
  refine ⟨fo, ch, f line p t t' h, k, w, ?_, ?_, by rw [sliceA ha (Nat.le_of_lt h1)]; exact h3, ?_, H.bodyA h5 hh, rfl⟩
  · rw [f_aft ha, f_aft hh]
    have := ha.1
    omega
  · rw [f_aft hh]
    have := hh.1
    simp only [List.length_append] at h2 ⊢
    omega
  · rw [List.getD_eq_getElem?_getD, getA hh, ← List.getD_eq_getElem?_getD]
    exact h4

/-! ### Block scalars before the exchange -/

omit H in
theorem breaksB {a b : Nat} (hb : b ≤ p.length) : breaksIn (p ++ (t' ++ q)) a b = breaksIn (p ++ (t ++ q)) a b := by
  unfold breaksIn
  rw [sliceB hb]

omit H in
theorem lineB {a b : Nat} (hb : b < p.length) (h : LineAt (p ++ (t ++ q)) a b) : LineAt (p ++ (t' ++ q)) a b := by
  obtain ⟨h1, h2, h3⟩ := h
  refine ⟨h1, by rw [sliceB (t := t) (by omega)]; exact h2, .inr ?_⟩
  rw [getB (t := t) hb]
  rcases h3 with h3 | h3
  · rw [List.length_append] at h3; omega
  · exact h3

omit H in
theorem lineNl {x : Bytes} {a b c : Nat} (hb : b < x.length) (h : LineAt x a b) (hc : b < c) : 0 < breaksIn x b c := by
  rcases h.2.2 with h | h
  · omega
  · unfold breaksIn slice
    refine List.count_pos_iff.2 ?_
    obtain ⟨h1, h2⟩ := List.getElem?_eq_some_iff.1 h
    rw [List.drop_eq_getElem_cons h1, h2, show c - b = (c - b - 1) + 1 by omega, List.take_succ_cons]
    exact List.mem_cons_self ..

theorem rowsB {fo : Bool} {c i : Nat} {v : Bytes} {hi k : Nat} {ch : Chomp} : BlockRows (p ++ (t ++ q)) fo c i v hi k → hi < p.length →
    (∀ j, FullGap (p ++ (t ++ q)) hi j → p.length ≤ j → (v ++ endBreaks ch k).getLast? ≠ some NL) →
    ∃ k', BlockRows (p ++ (t' ++ q)) fo c i v hi k' ∧ endBreaks ch k' = endBreaks ch k
  | .last (q := j) h1 h2 h3 h4 h5, hh, hF => by
    have hi' : i < (p ++ (t' ++ q)).length := by rw [List.length_append]; have := h2.1; omega
    have hl : hi < (p ++ (t ++ q)).length := by rw [List.length_append]; omega
    obtain ⟨h6, -, h7⟩ := H.gap (.inl (.inl hh)) h4
    rw [f_bef (.inl hh)] at h7
    rw [← sliceB (t' := t') (by omega)] at h3
    rw [← H.column h6] at h5
    rcases Nat.lt_or_ge j p.length with hj | hj
    · rw [f_bef (.inl hj)] at h5 h7
      exact ⟨_, .last hi' (lineB hh h2) h3 h7 h5, by rw [breaksB (by omega)]⟩
    · have hs := Tail.strip_of (lineNl hl h2 (by omega)) (hF j h4 hj)
      subst hs
      exact ⟨_, .last hi' (lineB hh h2) h3 h7 h5, rfl⟩
  | .final h1 h2 h3 h4 h5, hh, hF => by
    have hi' : i < (p ++ (t' ++ q)).length := by rw [List.length_append]; have := h2.1; omega
    have hl : hi < (p ++ (t ++ q)).length := by rw [List.length_append]; omega
    obtain ⟨h6, -, h7⟩ := H.gap (.inl (.inl hh)) h4
    rw [f_bef (.inl hh), H.len] at h7
    rw [← sliceB (t' := t') (by omega)] at h3
    rw [← H.column h6, H.len] at h5
    have hb := lineNl hl h2 hl
    have hF' := hF _ h4 (by rw [List.length_append]; omega)
    have hs := Tail.strip_of hb hF'
    subst hs
    cases fo with
    | true => exact ⟨_, .final hi' (lineB hh h2) h3 h7 h5, rfl⟩
    | false =>
      exfalso
      obtain ⟨m, hm⟩ : ∃ m, breaksIn (p ++ (t ++ q)) hi (p ++ (t ++ q)).length = m + 1 := ⟨_, (Nat.succ_pred_eq_of_pos hb).symm⟩
      rw [hm] at hF'
      simp only [endBreaks, if_true, List.append_nil, between, Bool.false_eq_true, if_false] at hF'
      apply hF'
      rw [List.replicate_succ', ← List.append_assoc, List.getLast?_append]
      rfl
  | .more (e := e) (q := j) h1 h2 h3 h4 h5 h8, hh, hF => by
    have hj := h8.le
    have hej := h4.le
    have hi' : i < (p ++ (t' ++ q)).length := by rw [List.length_append]; have := h2.1; omega
    obtain ⟨h6, -, h7⟩ := H.gap (.inl (.inl (show e < p.length by omega))) h4
    rw [f_bef (.inl (show e < p.length by omega)), f_bef (.inl (show j < p.length by omega))] at h7
    rw [← sliceB (t' := t') (by omega)] at h3
    rw [← H.column h6, f_bef (.inl (show j < p.length by omega))] at h5
    obtain ⟨k', h9, h10⟩ := rowsB (ch := ch) h8 hh (fun j hg hp => by have := hF j hg hp; rw [List.append_assoc] at this; exact Tail.suffix_last this)
    have := BlockRows.more (folded := fo) hi' (lineB (by omega) h2) h3 h7 h5 h9
    rw [breaksB (t := t) (by omega)] at this
    exact ⟨k', this, h10⟩

/-- A gap without line breaks does not go over the part that is exchanged. -/
theorem noBreak {a b : Nat} (ha : a < p.length) (h : FullGap (p ++ (t ++ q)) a b) (h0 : breaksIn (p ++ (t ++ q)) a b = 0) : b < p.length := by
  rcases H.wsEndB (Nat.le_of_lt ha) with ⟨h1, -⟩ | ⟨h1, -⟩
  · rw [h.eq] at h1; exact h1
  · exfalso
    rw [h.eq] at h1
    have hn : ∀ k, (p ++ (t ++ q))[k]? = some NL → a ≤ k → k < b → False := fun k hk h2 h3 => by
      unfold breaksIn at h0
      rw [List.count_eq_zero] at h0
      apply h0
      unfold slice
      refine List.mem_of_getElem? (i := k - a) ?_
      rw [List.getElem?_take_of_lt (by omega), List.getElem?_drop, show a + (k - a) = k by omega]
      exact hk
    have h2 := h1.1
    cases hl : line with
    | true =>
      have := H.lastP hl (by omega)
      exact hn (p.length - 1) (by rw [append_get (by omega)]; exact this) (by omega) (by omega)
    | false =>
      obtain ⟨r, hr⟩ := H.qne hl
      have h3 := h1.2 hl
      refine hn (p.length + t.length) ?_ (by omega) (by omega)
      rw [← List.append_assoc, ← List.length_append, List.getElem?_append_right (Nat.le_refl _), Nat.sub_self, hr]
      rfl

theorem bodyB {fo : Bool} {h : Nat} {v : Bytes} {hi k : Nat} {ch : Chomp} (hb : BlockBody (p ++ (t ++ q)) fo h v hi k) (hh : hi < p.length)
    (hF : ∀ j, FullGap (p ++ (t ++ q)) hi j → p.length ≤ j → (v ++ endBreaks ch k).getLast? ≠ some NL) :
    ∃ k', BlockBody (p ++ (t' ++ q)) fo h v hi k' ∧ endBreaks ch k' = endBreaks ch k := by
  have hle := hb.le
  have hp : h < p.length := by omega
  have hlen : p.length ≤ (p ++ (t ++ q)).length := by rw [List.length_append]; omega
  cases hb with
  | @below i _ _ _ h1 h2 h3 =>
    have hi' := h3.le
    obtain ⟨h6, -, h7⟩ := H.gap (.inl (.inl hp)) h1
    rw [f_bef (.inl hp), f_bef (.inl (show i < p.length by omega))] at h7
    obtain ⟨k', h8, h9⟩ := H.rowsB h3 hh hF
    rw [← H.column h6, f_bef (.inl (show i < p.length by omega))] at h8
    exact ⟨k', .below h7 (by rw [breaksB (t := t) (by omega)]; exact h2) h8, h9⟩
  | nothing h1 h2 =>
    have hs := Tail.strip_of h2 (hF _ h1 hlen)
    subst hs
    obtain ⟨-, -, h7⟩ := H.gap (.inl (.inl hp)) h1
    rw [f_bef (.inl hp), H.len] at h7
    refine ⟨_, .nothing h7 ?_, rfl⟩
    rcases Nat.eq_zero_or_pos (breaksIn (p ++ (t' ++ q)) h (p ++ (t' ++ q)).length) with h0 | h0
    · have := H.symm.noBreak hp h7 h0
      rw [List.length_append] at this
      omega
    · exact h0
  | @beside j e _ h1 h2 h3 h4 h5 =>
    have hj := H.noBreak hp h1 h2
    obtain ⟨-, -, h7⟩ := H.gap (.inl (.inl hp)) h1
    rw [f_bef (.inl hp), f_bef (.inl hj)] at h7
    have hl : hi < (p ++ (t ++ q)).length := by omega
    have hs := Tail.strip_of (lineNl hl h3 hl) (hF _ h5 hlen)
    subst hs
    obtain ⟨-, -, h9⟩ := H.gap (.inl (.inl hh)) h5
    rw [f_bef (.inl hh), H.len] at h9
    rw [← sliceB (t' := t') (by omega)] at h4
    exact ⟨_, .beside h7 (by rw [breaksB (t := t) (by omega)]; exact h2) (lineB hh h3) h4 h9, rfl⟩
  | @both j e i _ _ _ _ h1 h2 h3 h4 h5 h10 =>
    have hj := H.noBreak hp h1 h2
    have hei := h5.le
    have hii := h10.le
    obtain ⟨-, -, h7⟩ := H.gap (.inl (.inl hp)) h1
    rw [f_bef (.inl hp), f_bef (.inl hj)] at h7
    obtain ⟨h6, -, h9⟩ := H.gap (.inl (.inl (show e < p.length by omega))) h5
    rw [f_bef (.inl (show e < p.length by omega)), f_bef (.inl (show i < p.length by omega))] at h9
    obtain ⟨k', h11, h12⟩ := H.rowsB (ch := ch) h10 hh (fun j hg hp => by have := hF j hg hp; rw [List.append_assoc] at this; exact Tail.suffix_last this)
    rw [← H.column h6, f_bef (.inl (show i < p.length by omega))] at h11
    rw [← sliceB (t' := t') (by omega)] at h4
    exact ⟨k', .both h7 (by rw [breaksB (t := t) (by omega)]; exact h2) (lineB (by omega) h3) h4 h9 h11, h12⟩

theorem linesOff {lo : Nat} {v : Bytes} {hi : Nat} (hw : isWs ((p ++ (t ++ q)).getD lo 0) = false) (h : BlockAt (p ++ (t ++ q)) lo v hi)
    (ho : LinesOff (p ++ (t ++ q)) p.length (p.length + t.length) v lo hi) :
    Ok line p t hi ∧ BlockAt (p ++ (t' ++ q)) (f line p t t' lo) v (f line p t t' hi) ∧
      LinesOff (p ++ (t' ++ q)) p.length (p.length + t'.length) v (f line p t t' lo) (f line p t t' hi) := by
  have hle := h.le
  rcases ho with ho | ⟨ho, hF⟩
  · have h2 := H.aft hw ho
    exact ⟨.inr (h2.up hle), H.blockA h h2, .inl h2.f.1⟩
  · rw [f_bef (.inl ho), f_bef (.inl (show lo < p.length by omega))]
    refine ⟨.inl (.inl ho), ?_, .inr ⟨ho, fun j hg hj => ?_⟩⟩
    · obtain ⟨fo, ch, h, k, w, h1, h2, h3, h4, h5, rfl⟩ := h
      have h6 := h5.le
      obtain ⟨k', h7, h8⟩ := H.bodyB h5 ho hF
      refine ⟨fo, ch, h, k', w, h1, ?_, by rw [sliceB (t := t) (by omega)]; exact h3, ?_, h7, by rw [h8]⟩
      · rw [List.length_append]; omega
      · rw [List.getD_eq_getElem?_getD, getB (t := t) (by omega), ← List.getD_eq_getElem?_getD]
        exact h4
    · rcases H.wsEndB (Nat.le_of_lt ho) with ⟨h1, h2⟩ | ⟨h1, h2⟩
      · rw [hg.eq] at h2
        omega
      · have hg' := FullGap.ws (inp := p ++ (t ++ q)) (n := hi) (by rw [List.length_append]; omega)
        exact hF _ hg' (by have := h1.1; omega)

/-! ### Keys -/

/-- The end of a key before the exchange. -/
theorem keyEndB {k : Nat} (h : k < p.length) : KeyEnd (p ++ (t' ++ q)) k ↔ KeyEnd (p ++ (t ++ q)) k := by
  have main : ∀ {t t' : Bytes}, Swap line p t t' q → KeyEnd (p ++ (t ++ q)) k → KeyEnd (p ++ (t' ++ q)) k := fun {t t'} H hk => by
    obtain ⟨h1, h2⟩ := hk
    refine ⟨by rw [getB (t := t) h]; exact h1, ?_⟩
    obtain ⟨h3, h4⟩ := H.next h1 (by decide) (.inl (.inl h))
    rw [f_bef (.inl h)] at h4
    have := H.getWs h3
    rw [h4] at this
    rcases this with h5 | ⟨h5, -⟩
    · rw [h5]; exact h2
    · exact .inl h5
  exact ⟨main H.symm, main H⟩

omit H in
theorem getDA {k : Nat} (h : Aft line p t k) : (p ++ (t' ++ q)).getD (f line p t t' k) 0 = (p ++ (t ++ q)).getD k 0 := by
  rw [List.getD_eq_getElem?_getD, List.getD_eq_getElem?_getD, getA h]

omit H in
theorem f_succ {k : Nat} (h : Aft line p t k) : f line p t t' (k + 1) = f line p t t' k + 1 := by
  rw [f_aft h, f_aft (h.up (Nat.le_succ k))]
  have := h.1
  omega

omit H in
theorem keyEndA {k : Nat} (h : Aft line p t k) : KeyEnd (p ++ (t' ++ q)) (f line p t t' k) ↔ KeyEnd (p ++ (t ++ q)) k := by
  unfold KeyEnd
  rw [getA h, ← f_succ h, getDA (h.up (Nat.le_succ k))]

theorem firstKey {k : Bytes} {lo j : Nat} (hw : isWs ((p ++ (t ++ q)).getD lo 0) = false) (h : FirstKey (p ++ (t ++ q)) k lo j)
    (ho : KeyOff p.length (p.length + t.length) lo j) :
    Ok line p t j ∧ FirstKey (p ++ (t' ++ q)) k (f line p t t' lo) (f line p t t' j) ∧
      KeyOff p.length (p.length + t'.length) (f line p t t' lo) (f line p t t' j) := by
  obtain ⟨h1, h2, h3⟩ := h
  rcases ho with ho | ho
  · have ha := H.aft hw ho
    have hj := ha.up h1
    refine ⟨.inr hj, ⟨?_, by rw [getA hj]; exact h2, ?_⟩, .inl ha.f.1⟩
    · rw [f_aft ha, f_aft hj]; omega
    · rw [sliceA ha h1, getDA ha, dropA ha]
      rcases h3 with h3 | ⟨h3, h4, h5, h6, h7, h8⟩
      · exact .inl h3
      · refine .inr ⟨h3, h4, h5, h6, (keyEndA hj).2 h7, fun i h9 h10 h11 => ?_⟩
        have h0 := ha.1
        rw [f_aft ha] at h9
        rw [f_aft hj] at h10
        have hi : Aft line p t (i + t.length - t'.length) := ha.up (by omega)
        refine h8 _ (by omega) (by omega) ((keyEndA (t' := t') hi).1 ?_)
        rw [f_aft hi, show i + t.length - t'.length + t'.length - t.length = i by omega]
        exact h11
  · rw [f_bef (.inl ho), f_bef (.inl (show lo < p.length by omega))]
    refine ⟨.inl (.inl ho), ⟨h1, by rw [getB (t := t) ho]; exact h2, ?_⟩, .inr ho⟩
    rw [sliceB (t := t) (by omega)]
    rcases h3 with h3 | ⟨h3, h4, h5, h6, h7, h8⟩
    · exact .inl h3
    · refine .inr ⟨h3, ?_, ?_, h6, (H.keyEndB ho).2 h7, fun i h9 h10 h11 => h8 i h9 h10 ((H.keyEndB (by omega)).1 h11)⟩
      · rw [List.getD_eq_getElem?_getD, getB (t := t) (by omega), ← List.getD_eq_getElem?_getD]
        exact h4
      · have e : ∀ s : Bytes, (p ++ (s ++ q)).drop lo = p.drop lo ++ (s ++ q) := fun s => List.drop_append_of_le_length (by omega)
        rw [e] at h5 ⊢
        rcases Nat.lt_or_ge (lo + 1) p.length with h9 | h9
        · rw [List.drop_eq_getElem_cons (by omega : lo < p.length), List.drop_eq_getElem_cons h9] at h5 ⊢
          exact h5
        · have : lo = j := by omega
          subst this
          rw [append_get ho, List.getElem?_eq_getElem ho] at h2
          rw [List.drop_eq_getElem_cons ho]
          unfold dashes
          rw [List.cons_append, List.headD_cons, Option.some.inj h2]
          rfl

theorem cellKey {k : Bytes} {lo j : Nat} (hl : lo ≤ j) (hk : slice (p ++ (t ++ q)) lo j = k)
    (hw : isWs ((p ++ (t ++ q)).getD lo 0) = false) (ho : KeyOff p.length (p.length + t.length) lo j) :
    Ok line p t j ∧ f line p t t' lo + (j - lo) = f line p t t' j ∧ slice (p ++ (t' ++ q)) (f line p t t' lo) (f line p t t' j) = k ∧
      KeyOff p.length (p.length + t'.length) (f line p t t' lo) (f line p t t' j) := by
  rcases ho with ho | ho
  · have ha := H.aft hw ho
    have haj := ha.up hl
    refine ⟨.inr haj, ?_, by rw [sliceA ha hl]; exact hk, .inl ha.f.1⟩
    rw [f_aft ha, f_aft haj]
    have := ha.1
    omega
  · rw [f_bef (.inl ho), f_bef (.inl (show lo < p.length by omega))]
    exact ⟨.inl (.inl ho), by omega, by rw [sliceB (t := t) (by omega)]; exact hk, .inr ho⟩

theorem headOff {first : Bool} {k : Option Bytes} {lo a : Nat} (hw : isWs ((p ++ (t ++ q)).getD lo 0) = false) (hok : Ok line p t lo)
    (h : HeadOff (p ++ (t ++ q)) p.length (p.length + t.length) first k lo a) :
    Ok line p t a ∧ HeadOff (p ++ (t' ++ q)) p.length (p.length + t'.length) first k (f line p t t' lo) (f line p t t' a) := by
  obtain ⟨h, ho⟩ := h
  cases k with
  | none =>
    obtain ⟨h1, h2, rfl⟩ := h
    obtain ⟨h3, h4⟩ := H.next h1 (by decide) hok
    refine ⟨h3, ⟨by rw [H.get hw hok]; exact h1, fun hf => ?_, h4⟩, fun hc => nomatch hc⟩
    rw [← h4]
    rcases H.getWs h3 with h5 | ⟨h5, -⟩
    · rw [h5]; exact h2 hf
    · exact h5
  | some k =>
    obtain ⟨j, rfl, h1⟩ := h
    have ho := ho rfl
    rw [Nat.add_sub_cancel] at ho
    cases first with
    | true =>
      obtain ⟨h2, h3, h4⟩ := H.firstKey hw h1 ho
      obtain ⟨h5, h6⟩ := H.next h1.2.1 (by decide) h2
      exact ⟨h5, ⟨_, h6, h3⟩, fun _ => by rw [h6, Nat.add_sub_cancel]; exact h4⟩
    | false =>
      obtain ⟨g1, g2, g3, g4, g5⟩ := h1
      have hj : isWs ((p ++ (t ++ q)).getD j 0) = false := by rw [List.getD_eq_getElem?_getD, g2]; decide
      obtain ⟨h2, h3, h4, h7⟩ := H.cellKey (Nat.le_of_lt g1) g3 hw ho
      obtain ⟨h5, h6⟩ := H.next g2 (by decide) h2
      exact ⟨h5, ⟨_, h6, by omega, by rw [H.get hj h2]; exact g2, h4, g4, g5⟩, fun _ => by rw [h6, Nat.add_sub_cancel]; exact h7⟩

theorem cellOff {k : Option Bytes} {lo a : Nat} (hw : k.isSome = true → isWs ((p ++ (t ++ q)).getD lo 0) = false) (hok : Ok line p t lo)
    (h : CellOff (p ++ (t ++ q)) p.length (p.length + t.length) k lo a) :
    Ok line p t a ∧ CellOff (p ++ (t' ++ q)) p.length (p.length + t'.length) k (f line p t t' lo) (f line p t t' a) := by
  obtain ⟨h, ho⟩ := h
  cases k with
  | none =>
    have h : a = lo := h
    subst h
    exact ⟨hok, rfl, fun hc => nomatch hc⟩
  | some k =>
    obtain ⟨j, g1, g2, rfl, g3, g4, g5⟩ := h
    have ho := ho rfl
    rw [Nat.add_sub_cancel] at ho
    obtain ⟨b, hb, hbw⟩ : ∃ b, (p ++ (t ++ q))[j]? = some b ∧ isWs b = false := by
      rcases g2 with g2 | g2
      · exact ⟨_, g2, by decide⟩
      · exact ⟨_, g2, by decide⟩
    have hj : isWs ((p ++ (t ++ q)).getD j 0) = false := by rw [List.getD_eq_getElem?_getD, hb]; exact hbw
    obtain ⟨h2, h3, h4, h7⟩ := H.cellKey g1 g3 (hw rfl) ho
    obtain ⟨h5, h6⟩ := H.next hb hbw h2
    exact ⟨h5, ⟨_, by omega, by rw [H.get hj h2]; exact g2, h6, h4, g4, g5⟩, fun _ => by rw [h6, Nat.add_sub_cancel]; exact h7⟩

theorem goes {m : Bool} {c j : Nat} (hw : isWs ((p ++ (t ++ q)).getD j 0) = false) (hok : Ok line p t j) :
    Goes (p ++ (t' ++ q)) m c (f line p t t' j) ↔ Goes (p ++ (t ++ q)) m c j := by
  unfold Goes
  rw [H.column hok, H.getD hw hok, H.get hw hok]

theorem opens {m : Bool} {j : Nat} (hok : Ok line p t j) (h : Opens (p ++ (t ++ q)) m j) : Opens (p ++ (t' ++ q)) m (f line p t t' j) := by
  unfold Opens at h ⊢
  rcases H.getWs hok with h1 | ⟨h1, -⟩
  · rw [h1]; exact h
  · refine ⟨fun h2 => ?_, fun h2 => ?_⟩ <;> rw [h2] at h1
    · cases m <;> exact absurd h1 (by decide)
    · exact absurd h1 (by decide)

theorem nextCell {m blk : Bool} {e : Nat} {last : Bool} {start j : Nat} (hok : Ok line p t e) (h : NextCell (p ++ (t ++ q)) m blk e last start j) :
    Ok line p t j ∧ (m = true → isWs ((p ++ (t ++ q)).getD j 0) = false) ∧
      ∃ start', NextCell (p ++ (t' ++ q)) m blk (f line p t t' e) last start' (f line p t t' j) := by
  obtain ⟨c, h1, h2⟩ := h
  have hc : Ok line p t c ∧ (if m || blk then FullGap (p ++ (t' ++ q)) (f line p t t' e) (f line p t t' c) else f line p t t' c = f line p t t' e) := by
    cases hmb : (m || blk) with
    | true =>
      rw [hmb, if_pos rfl] at h1
      obtain ⟨h3, -, h4⟩ := H.gap hok h1
      exact ⟨h3, by rw [if_pos rfl]; exact h4⟩
    | false =>
      rw [hmb, if_neg (by decide)] at h1
      subst h1
      exact ⟨hok, by rw [if_neg (by decide)]⟩
  obtain ⟨hc, hc'⟩ := hc
  rcases h2 with ⟨h2, h3, h4⟩ | ⟨h2, h3, h4, h5⟩
  · have hcw : isWs ((p ++ (t ++ q)).getD c 0) = false := by rw [List.getD_eq_getElem?_getD, h3]; decide
    obtain ⟨h5, h6⟩ := H.next h3 (by decide) hc
    have h3' : (p ++ (t' ++ q))[f line p t t' c]? = some COMMA := by rw [H.get hcw hc]; exact h3
    cases hbm : (blk && !m) with
    | true =>
      rw [hbm, if_pos rfl] at h4
      obtain ⟨-, rfl⟩ := h4
      have hm : m = false := by
        rw [Bool.and_eq_true, Bool.not_eq_true'] at hbm
        exact hbm.2
      exact ⟨h5, fun h => (by rw [hm] at h; cases h), f line p t t' e + 1, _, hc', .inl ⟨h2, h3', by rw [hbm, if_pos rfl]; exact ⟨rfl, h6⟩⟩⟩
    | false =>
      rw [hbm] at h4
      simp only [Bool.false_eq_true, if_false] at h4
      obtain ⟨g1, g2, g3⟩ := H.gap h5 h4.2
      rw [h6] at g3
      refine ⟨g1, fun _ => g2, f line p t t' c + 1, _, hc', .inl ⟨h2, h3', ?_⟩⟩
      rw [hbm, if_neg (by decide)]
      exact ⟨rfl, g3⟩
  · obtain ⟨g1, g2, g3⟩ := H.gap hok h5
    refine ⟨g1, fun _ => g2, if m then f line p t t' c else f line p t t' e, _, hc', .inr ⟨h2, fun h6 => h3 ?_, rfl, g3⟩⟩
    have h7 : (p ++ (t' ++ q)).getD (f line p t t' c) 0 = COMMA := by rw [List.getD_eq_getElem?_getD, h6]; rfl
    rcases H.getWs hc with h8 | ⟨h8, -⟩
    · rw [h7, List.getD_eq_getElem?_getD] at h8
      cases hx : (p ++ (t ++ q))[c]? with
      | none => rw [hx] at h8; exact absurd h8 (by decide)
      | some b => rw [hx] at h8; exact congrArg some h8.symm
    · rw [h7] at h8
      exact absurd h8 (by decide)

theorem atBlock {j : Nat} (hw : isWs ((p ++ (t ++ q)).getD j 0) = false) (hok : Ok line p t j) :
    Verif.atBlock (p ++ (t' ++ q)) (f line p t t' j) = Verif.atBlock (p ++ (t ++ q)) j := by
  unfold Verif.atBlock
  rw [H.getD hw hok]

/-! ### Values -/

mutual
theorem clear {α : Type} {V : View α} : ∀ {s : Spot} {x : α} {lo hi : Nat}, Clear (p ++ (t ++ q)) p.length (p.length + t.length) V s x lo hi →
    Ok line p t lo → isWs ((p ++ (t ++ q)).getD lo 0) = false →
    Ok line p t hi ∧ Clear (p ++ (t' ++ q)) p.length (p.length + t'.length) V s x (f line p t t' lo) (f line p t t' hi)
  | _, _, _, _, .scalar h1 h2 h3 h4 h5, _, hw => by
    obtain ⟨g1, g2, g3, g4, g5⟩ := H.scalarOff h2 h3 hw h4 h5
    exact ⟨g1, .scalar h1 g2 g3 g4 g5⟩
  | _, _, _, _, .lines h1 h2 h3, _, hw => by
    obtain ⟨g1, g2, g3⟩ := H.linesOff hw h2 h3
    exact ⟨g1, .lines h1 g2 g3⟩
  | _, _, lo, _, .open h1 h2 h3 h4 h5, _, hw => by
    have ha := H.aft hw h5
    refine ⟨.inr (ha.up h2), ?_⟩
    rw [H.len]
    refine .open h1 ?_ h3 (by rw [dropA ha]; exact h4) ha.f.1
    rw [f_aft ha]
    simp only [List.length_append] at h2 ⊢
    omega
  | _, _, _, _, .empty h1 h2 h3 h4, hok, hw => by
    obtain ⟨-, g2, g3⟩ := H.firstKey hw h2 h4
    exact ⟨hok, .empty h1 g2 (by rw [H.column hok]; exact h3) g3⟩
  | _, _, _, _, .dashes h1 h2 h3, hok, hw => by
    obtain ⟨g1, g2⟩ := clearRows h3 hok hw
    rw [← H.column hok] at g2
    exact ⟨g1, .dashes h1 h2 g2⟩
  | _, _, _, _, .keys h1 h2 h3, hok, hw => by
    obtain ⟨g1, g2⟩ := clearRows h3 hok hw
    rw [← H.column hok] at g2 h2
    exact ⟨g1, .keys h1 h2 g2⟩
  | _, _, _, _, .brackets h1 h2 h3 h4, hok, hw => by
    obtain ⟨g1, g2⟩ := H.next h2 (by decide) hok
    obtain ⟨g3, g4, g5⟩ := H.gap g1 h3
    obtain ⟨g6, g7, b, hb, hbw⟩ := clearCells h4 g3 (fun _ => g4)
    obtain ⟨g8, g9⟩ := H.next hb hbw g6
    rw [g2] at g5
    rw [g9]
    exact ⟨g8, .brackets h1 (by rw [H.get hw hok]; exact h2) g5 g7⟩
  | _, _, _, _, .braces h1 h2 h3 h4, hok, hw => by
    obtain ⟨g1, g2⟩ := H.next h2 (by decide) hok
    obtain ⟨g3, g4, g5⟩ := H.gap g1 h3
    obtain ⟨g6, g7, b, hb, hbw⟩ := clearCells h4 g3 (fun _ => g4)
    obtain ⟨g8, g9⟩ := H.next hb hbw g6
    rw [g2] at g5
    rw [g9]
    exact ⟨g8, .braces h1 (by rw [H.get hw hok]; exact h2) g5 g7⟩
theorem clearRows {α : Type} {V : View α} : ∀ {c : Nat} {first : Bool} {l : List (Option Bytes × α)} {lo hi : Nat},
    ClearRows (p ++ (t ++ q)) p.length (p.length + t.length) V c first l lo hi → Ok line p t lo → isWs ((p ++ (t ++ q)).getD lo 0) = false →
    Ok line p t hi ∧ ClearRows (p ++ (t' ++ q)) p.length (p.length + t'.length) V c first l (f line p t t' lo) (f line p t t' hi)
  | _, _, _, _, _, .last h1 h2 h3 h4 h5 h6, hok, hw => by
    obtain ⟨g1, g2⟩ := H.headOff hw hok h2
    obtain ⟨g3, g4, g5⟩ := H.gap g1 h3
    obtain ⟨g6, g7⟩ := clear h4 g3 g4
    obtain ⟨g8, g9, g10⟩ := H.gap g6 h5
    exact ⟨g6, .last (by rw [H.column hok]; exact h1) g2 g5 g7 g10 (fun h => h6 ((H.goes g9 g8).1 h))⟩
  | _, _, _, _, _, .more h1 h2 h3 h4 h5 h6, hok, hw => by
    obtain ⟨g1, g2⟩ := H.headOff hw hok h2
    obtain ⟨g3, g4, g5⟩ := H.gap g1 h3
    obtain ⟨g6, g7⟩ := clear h4 g3 g4
    obtain ⟨g8, g9, g10⟩ := H.gap g6 h5
    obtain ⟨g11, g12⟩ := clearRows h6 g8 g9
    exact ⟨g11, .more (by rw [H.column hok]; exact h1) g2 g5 g7 g10 g12⟩
theorem clearCells {α : Type} {V : View α} : ∀ {m last : Bool} {l : List (Option Bytes × α)} {lo hi : Nat},
    ClearCells (p ++ (t ++ q)) p.length (p.length + t.length) V m last l lo hi → Ok line p t lo → (m = true → isWs ((p ++ (t ++ q)).getD lo 0) = false) →
    Ok line p t hi ∧ ClearCells (p ++ (t' ++ q)) p.length (p.length + t'.length) V m last l (f line p t t' lo) (f line p t t' hi) ∧
      ∃ b, (p ++ (t ++ q))[hi]? = some b ∧ isWs b = false
  | m, _, _, lo, _, .none h1, hok, _ => by
    have hc : isWs (close m) = false := by cases m <;> decide
    have hl : isWs ((p ++ (t ++ q)).getD lo 0) = false := by rw [List.getD_eq_getElem?_getD, h1]; exact hc
    exact ⟨hok, .none (by rw [H.get hl hok]; exact h1), _, h1, hc⟩
  | _, _, _, _, _, .final (k := k) h1 h2 h3 h4 h5 h6, hok, hw => by
    have hc : isWs (close k.isSome) = false := by cases k.isSome <;> decide
    obtain ⟨g1, g2⟩ := H.cellOff hw hok h2
    obtain ⟨g3, g4, g5⟩ := H.gap g1 h3
    obtain ⟨g6, g7⟩ := clear h4 g3 g4
    obtain ⟨g8, g9, g10⟩ := H.gap g6 h5
    exact ⟨g8, .final (H.opens hok h1) g2 g5 g7 g10 (by rw [H.get g9 g8]; exact h6), _, h6, hc⟩
  | _, _, _, _, _, .cell (b := b) h1 h2 h3 h4 h5 h6, hok, hw => by
    obtain ⟨g1, g2⟩ := H.cellOff hw hok h2
    obtain ⟨g3, g4, g5⟩ := H.gap g1 h3
    obtain ⟨g6, g7⟩ := clear h4 g3 g4
    obtain ⟨g8, g9, start', g10⟩ := H.nextCell g6 h5
    rw [← H.atBlock g4 g3] at g10
    obtain ⟨g11, g12, g13⟩ := clearCells h6 g8 g9
    exact ⟨g11, .cell (H.opens hok h1) g2 g5 g7 g10 g12, g13⟩
end

end Swap
end Verif
