import Verif.LeadLemmas
/-
The parser stays inside the input, stops between characters, and its errors have spans inside the
input.
-/
namespace Verif

/-- The white space `w` ends at `n`. -/
def EndsAt (inp : Bytes) (w : Bytes) (n : Nat) : Prop := w.length ≤ n ∧ Cut inp (n - w.length)

theorem endsAt_ws {inp : Bytes} {n : Nat} (hn : n ≤ inp.length) (hc : Cut inp n) : EndsAt inp (wsStr inp n) (wsEnd inp n) := by
  have h1 := wsStr_length hn
  have h2 := le_wsEnd inp n
  refine ⟨by omega, ?_⟩
  rw [show wsEnd inp n - (wsStr inp n).length = n by omega]; exact hc

/-- A position inside the input, between characters, at or after `n`. -/
def Pos (inp : Bytes) (n m : Nat) : Prop := n ≤ m ∧ m ≤ inp.length ∧ Cut inp m

theorem Pos.trans {inp : Bytes} {a b c : Nat} (h : Pos inp a b) (h' : Pos inp b c) : Pos inp a c :=
  ⟨Nat.le_trans h.1 h'.1, h'.2⟩
theorem Pos.refl {inp : Bytes} {n : Nat} (hn : n ≤ inp.length) (hc : Cut inp n) : Pos inp n n := ⟨Nat.le_refl _, hn, hc⟩
theorem Pos.ws {inp : Bytes} {n : Nat} (hn : n ≤ inp.length) (hc : Cut inp n) : Pos inp n (wsEnd inp n) :=
  ⟨le_wsEnd _ _, wsEnd_le hn, wsEnd_cut hn hc⟩
theorem Pos.next {inp : Bytes} {n : Nat} (hn : n ≤ inp.length) (h : peekAt inp n < 0x80) : Pos inp n (bump inp n 1) :=
  ⟨le_bump 1 hn, bump_le _ _ _, cut_bump h⟩

/-- What is known of a value read from `n`. -/
def ValueOK (inp : Bytes) (inline : Bool) (n : Nat) (r : Tree Unit × Option Bytes × Nat) : Prop :=
  Pos inp n r.2.2 ∧ (inline = true → ∀ w, r.2.1 = some w → ∃ ws0, ws0 ≤ inp.length ∧ Cut inp ws0 ∧ w = wsStr inp ws0 ∧
    r.2.2 = wsEnd inp ws0)

theorem ValueOK.wsOr {inp : Bytes} {inline : Bool} {n : Nat} {t : Tree Unit} {ws : Option Bytes} {m : Nat}
    (h : ValueOK inp inline n (t, ws, m)) : Pos inp n (wsOr inp ws m).2 := by
  cases ws with
  | none => exact h.1.trans (Pos.ws h.1.2.1 h.1.2.2)
  | some w => exact h.1

theorem ValueOK.wsOr_ends {inp : Bytes} {n : Nat} {t : Tree Unit} {ws : Option Bytes} {m : Nat}
    (h : ValueOK inp true n (t, ws, m)) : EndsAt inp (Verif.wsOr inp ws m).1 (Verif.wsOr inp ws m).2 := by
  cases ws with
  | none => exact endsAt_ws h.1.2.1 h.1.2.2
  | some w =>
    obtain ⟨ws0, h1, h2, h3, h4⟩ := h.2 rfl w rfl
    simp only at h4
    simp only [Verif.wsOr]
    rw [h3, h4]
    exact endsAt_ws h1 h2

/-- As above after a comma. -/
theorem ValueOK.wsOr_comma {inp : Bytes} {n : Nat} {t : Tree Unit} {ws : Option Bytes} {m : Nat}
    (h : ValueOK inp true n (t, ws, m)) (hc : peekAt inp m = COMMA) :
    EndsAt inp (Verif.wsOr inp ws (bump inp m 1)).1 (Verif.wsOr inp ws (bump inp m 1)).2 ∧
      Pos inp n (Verif.wsOr inp ws (bump inp m 1)).2 := by
  have ha : peekAt inp m < 0x80 := by rw [hc]; decide
  have hb : bump inp m 1 = m + 1 := bump_peek (by rw [hc]; decide)
  have hp := Pos.next h.1.2.1 ha
  cases ws with
  | none => exact ⟨endsAt_ws hp.2.1 hp.2.2, h.1.trans (hp.trans (Pos.ws hp.2.1 hp.2.2))⟩
  | some w =>
    refine ⟨?_, h.1.trans hp⟩
    obtain ⟨ws0, h1, h2, h3, h4⟩ := h.2 rfl w rfl
    simp only at h4
    simp only [Verif.wsOr]
    have hl := wsStr_length h1
    have hle := le_wsEnd inp ws0
    rw [hb]
    subst h3
    refine ⟨by omega, ?_⟩
    by_cases he : wsEnd inp ws0 = ws0
    · rw [show m + 1 - (wsStr inp ws0).length = m + 1 by omega]; exact cut_next ha
    · rw [show m + 1 - (wsStr inp ws0).length = ws0 + 1 by omega]; exact cut_next (wsEnd_head he)

/-- The hypothesis on recursive calls. -/
def RecBounds (inp : Bytes) (rec : PSt → Nat → PRes) : Prop :=
  ∀ (s : PSt) (n : Nat), n ≤ inp.length → Cut inp n → Outcome (ValueOK inp s.inline n) (Fails inp 0) (rec s n)

theorem colon_spec {inp : Bytes} {n : Nat} (hn : n ≤ inp.length) : n ≤ n + colonGo (inp.drop n) ∧
    n + colonGo (inp.drop n) ≤ inp.length ∧ (peekAt inp (n + colonGo (inp.drop n)) = COLON ∨ peekAt inp (n + colonGo (inp.drop n)) = 0) := by
  obtain ⟨h1, h2⟩ := colonGo_spec (inp.drop n)
  rw [List.length_drop] at h1
  exact ⟨by omega, by omega, by rw [peekAt_add]; exact h2⟩

theorem untilColon_spec {inp : Bytes} {n : Nat} {m : Nat} {key : Option RStr} (hn : n ≤ inp.length)
    (h : untilColon inp n = (m, key)) : n ≤ m ∧ m ≤ inp.length ∧ (peekAt inp m = COLON ∨ peekAt inp m = 0) ∧
      ((key = none ∧ m = inp.length) ∨ (key = some ⟨.bare, slice inp n m, slice inp n m⟩ ∧ m < inp.length)) := by
  obtain ⟨h1, h2, h3⟩ := colon_spec hn
  simp only [untilColon] at h
  split at h
  · next he => cases h; exact ⟨h1, h2, h3, .inl ⟨rfl, he⟩⟩
  · cases h; exact ⟨h1, h2, h3, .inr ⟨rfl, by omega⟩⟩

theorem nextMappingKey_spec {inp : Bytes} {n : Nat} {m : Nat} {key : Option RStr} (hn : n ≤ inp.length)
    (h : nextMappingKey inp n = (m, key)) : n ≤ m ∧ m ≤ inp.length ∧ (peekAt inp m = COLON ∨ peekAt inp m = 0) ∧
      ((key = none ∧ m = n) ∨ (key = some ⟨.bare, slice inp n m, slice inp n m⟩ ∧ n < m)) := by
  obtain ⟨h1, h2, h3⟩ := colon_spec hn
  simp only [nextMappingKey] at h
  have hl : (slice inp n (n + colonGo (inp.drop n))).length = colonGo (inp.drop n) := by rw [slice_length h2]; omega
  split at h
  · next he =>
    cases h
    refine ⟨h1, h2, h3, .inl ⟨rfl, ?_⟩⟩
    rw [List.isEmpty_iff] at he
    rw [he] at hl
    simp at hl
    omega
  · next he =>
    cases h
    refine ⟨h1, h2, h3, .inr ⟨rfl, ?_⟩⟩
    rw [List.isEmpty_iff] at he
    have : colonGo (inp.drop n) ≠ 0 := by
      intro h0
      rw [h0] at hl
      rw [h0] at he
      exact he (List.eq_nil_of_length_eq_zero hl)
    omega

section
variable {inp : Bytes} {rec : PSt → Nat → PRes}

theorem colon_ascii {n : Nat} (h : peekAt inp n = COLON ∨ peekAt inp n = 0) : peekAt inp n < 0x80 := by
  rcases h with h | h <;> rw [h] <;> decide

theorem pflowSeqLoop_bounds (H : RecBounds inp rec) : ∀ (f : Nat) (last tr : Bool) (ip : Bytes) (n : Nat),
    n ≤ inp.length → Cut inp n → EndsAt inp ip n →
    Outcome (fun r => Pos inp n r.2.2.2 ∧ EndsAt inp r.2.2.1 r.2.2.2) (Fails inp 0) (pflowSeqLoop rec inp f last tr ip n)
  | 0, _, _, _, _, _, _, _ => .inl rfl
  | f + 1, last, tr, ip, n, hn, hc, he => by
    unfold pflowSeqLoop
    split
    · exact ⟨Pos.refl hn hc, he⟩
    · have hw := Pos.ws hn hc
      refine Outcome.bind (H _ _ hw.2.1 hw.2.2) fun r hr => ?_
      obtain ⟨v, next, m⟩ := r
      simp only
      split
      · exact ⟨hw.trans hr.wsOr, hr.wsOr_ends⟩
      · by_cases hcm : peekAt inp m = COMMA
        · simp only [hcm, beq_self_eq_true, if_true]
          obtain ⟨h1, h2⟩ := hr.wsOr_comma hcm
          refine Outcome.bind (pflowSeqLoop_bounds H f _ _ _ _ h2.2.1 h2.2.2 h1) fun q hq => ?_
          exact ⟨hw.trans (h2.trans hq.1), hq.2⟩
        · have hcm' : (peekAt inp m == COMMA) = false := by simpa using hcm
          simp only [hcm', Bool.false_eq_true, if_false]
          have h2 := hr.wsOr
          refine Outcome.bind (pflowSeqLoop_bounds H f _ _ _ _ h2.2.1 h2.2.2 hr.wsOr_ends) fun q hq => ?_
          exact ⟨hw.trans (h2.trans hq.1), hq.2⟩

theorem pflowMapLoop_bounds (H : RecBounds inp rec) : ∀ (f : Nat) (last tr : Bool) (ip : Bytes) (st n : Nat),
    n ≤ inp.length → Cut inp n → st ≤ n → Cut inp st →
    Outcome (fun r => Pos inp n r.2.2.2.2 ∧ r.2.2.2.1 ≤ r.2.2.2.2 ∧ Cut inp r.2.2.2.1) (Fails inp 0)
      (pflowMapLoop rec inp f last tr ip st n)
  | 0, _, _, _, _, _, _, _, _, _ => .inl rfl
  | f + 1, last, tr, ip, st, n, hn, hc, hst, hcs => by
    unfold pflowMapLoop
    split
    · exact ⟨Pos.refl hn hc, hst, hcs⟩
    · cases hu : untilColon inp n with
      | mk m0 ko =>
      obtain ⟨u1, u2, u3, u4⟩ := untilColon_spec hn hu
      have ua := colon_ascii u3
      cases ko with
      | none => exact .inr ⟨st, m0, _, rfl, by omega, by omega, u2, hcs, .inr (.inl ua)⟩
      | some key =>
      simp only
      have hp : Pos inp n (bump inp m0 1) := ⟨by have := le_bump 1 u2; omega, bump_le _ _ _, cut_bump ua⟩
      have hw := hp.trans (Pos.ws hp.2.1 hp.2.2)
      refine Outcome.bind (H _ _ hw.2.1 hw.2.2) fun r hr => ?_
      obtain ⟨v, next, m⟩ := r
      simp only
      have hm := hw.trans hr.wsOr
      split
      · exact ⟨hm, by have := hm.1; simp only; omega, hcs⟩
      · have go : ∀ k c, Pos inp n k → Outcome (fun r => Pos inp n r.2.2.2.2 ∧ r.2.2.2.1 ≤ r.2.2.2.2 ∧ Cut inp r.2.2.2.1) (Fails inp 0)
            (do let (items, tr, w, st, n) ← pflowMapLoop rec inp f (!c) c (wsStr inp k) k (wsEnd inp k)
                return (Items.cons () ip key v items, tr, w, st, n)) := by
          intro k c hk
          have hw2 := Pos.ws hk.2.1 hk.2.2
          refine Outcome.bind (pflowMapLoop_bounds H f _ _ _ _ _ hw2.2.1 hw2.2.2 hw2.1 hk.2.2) fun q hq => ?_
          exact ⟨hk.trans (hw2.trans hq.1), hq.2⟩
        by_cases hcm : peekAt inp (wsOr inp next m).2 = COMMA
        · simp only [hcm, beq_self_eq_true, if_true]
          exact go _ true (hm.trans (Pos.next hm.2.1 (by rw [hcm]; decide)))
        · have hcm' : (peekAt inp (wsOr inp next m).2 == COMMA) = false := by simpa using hcm
          simp only [hcm', Bool.false_eq_true, if_false]
          exact go _ false hm

theorem pseqLoop_bounds (H : RecBounds inp rec) : ∀ (f ind : Nat) (ip : Bytes) (n : Nat),
    n ≤ inp.length → peekAt inp n = DASH →
    Outcome (fun r => Pos inp n r.2.2) (Fails inp 0) (pseqLoop rec inp ind f ip n)
  | 0, _, _, _, _, _ => .inl rfl
  | f + 1, ind, ip, n, hn, hd => by
    unfold pseqLoop
    have hp := Pos.next hn (by rw [hd]; decide : peekAt inp n < 0x80)
    have hw := hp.trans (Pos.ws hp.2.1 hp.2.2)
    refine Outcome.bind (H _ _ hw.2.1 hw.2.2) fun r hr => ?_
    obtain ⟨v, ws, m⟩ := r
    have hm := hw.trans hr.wsOr
    simp only
    split
    · exact hm
    · next hc =>
      simp only [Bool.or_eq_true, bne_iff_ne, not_or, Decidable.not_not] at hc
      refine Outcome.bind (pseqLoop_bounds H f ind _ _ hm.2.1 hc.2) fun q hq => ?_
      exact hm.trans hq

theorem pmapLoop_bounds (H : RecBounds inp rec) : ∀ (f ind st : Nat) (key : RStr) (ip : Bytes) (n : Nat),
    n ≤ inp.length → st ≤ n → Cut inp st → peekAt inp n = COLON ∨ peekAt inp n = 0 →
    Outcome (fun r => Pos inp n r.2.2) (Fails inp 0) (pmapLoop rec inp ind f st key ip n)
  | 0, _, _, _, _, _, _, _, _, _ => .inl rfl
  | f + 1, ind, st, key, ip, n, hn, hst, hcs, hd => by
    unfold pmapLoop
    have hp := Pos.next hn (colon_ascii hd)
    split
    · exact .inr ⟨st, _, _, rfl, by omega, by have := hp.1; omega, hp.2.1, hcs, .inr hp.2.2⟩
    · have hw := hp.trans (Pos.ws hp.2.1 hp.2.2)
      refine Outcome.bind (H _ _ hw.2.1 hw.2.2) fun r hr => ?_
      obtain ⟨v, ws, m⟩ := r
      have hm := hw.trans hr.wsOr
      simp only
      split
      · exact hm
      · cases hk : nextMappingKey inp (wsOr inp ws m).2 with
        | mk m0 ko =>
        obtain ⟨u1, u2, u3, u4⟩ := nextMappingKey_spec hm.2.1 hk
        have hm0 : Pos inp n m0 := ⟨by have := hm.1; omega, u2, .inl (colon_ascii u3)⟩
        cases ko with
        | none => exact hm0
        | some key' =>
          refine Outcome.bind (pmapLoop_bounds H f ind _ _ _ _ u2 u1 hm.2.2 u3) fun q hq => ?_
          exact hm0.trans hq
end

theorem pvalue_bounds (inp : Bytes) : ∀ f, RecBounds inp (pvalue inp f)
  | 0 => fun _ _ _ _ => .inl rfl
  | f + 1 => fun s n hn hc => by
    have H := pvalue_bounds inp f
    unfold pvalue
    refine Outcome.bind ((lead_spec hn).imp (fun _ h => h) (fun _ h => h.mono (Nat.zero_le _))) fun l hl => ?_
    cases hl with
    | seq h1 _ hi =>
      refine Outcome.bind (pseqLoop_bounds H f _ _ _ hn h1) fun q hq => ?_
      exact ⟨hq, fun h => by rw [hi] at h; cases h⟩
    | flowSeq h1 =>
      have hp := Pos.next hn (by rw [h1]; decide : peekAt inp n < 0x80)
      have hw := Pos.ws hp.2.1 hp.2.2
      refine Outcome.bind (pflowSeqLoop_bounds H f _ _ _ _ hw.2.1 hw.2.2 (endsAt_ws hp.2.1 hp.2.2)) fun q hq => ?_
      obtain ⟨items, tr, w, m⟩ := q
      simp only at hq ⊢
      have hm := hp.trans (hw.trans hq.1)
      split
      · next hr =>
        simp only [beq_iff_eq] at hr
        exact ⟨hm.trans (Pos.next hm.2.1 (by rw [hr]; decide)), fun _ w h => by cases h⟩
      · exact .inr ⟨_, _, _, rfl, by omega, by omega, hm.2.1, hq.2.2, .inr hm.2.2⟩
    | flowMap h1 =>
      have hp := Pos.next hn (by rw [h1]; decide : peekAt inp n < 0x80)
      have hw := Pos.ws hp.2.1 hp.2.2
      refine Outcome.bind (pflowMapLoop_bounds H f _ _ _ _ _ hw.2.1 hw.2.2 hw.1 hp.2.2) fun q hq => ?_
      obtain ⟨items, tr, w, st, m⟩ := q
      simp only at hq ⊢
      have hm := hp.trans (hw.trans hq.1)
      split
      · next hr =>
        simp only [beq_iff_eq] at hr
        exact ⟨hm.trans (Pos.next hm.2.1 (by rw [hr]; decide)), fun _ w h => by cases h⟩
      · exact .inr ⟨_, _, _, rfl, by omega, hq.2.1, hm.2.1, hq.2.2, .inr hm.2.2⟩
    | @key key m h1 h2 _ _ hi =>
      simp only [pmappingOrNul]
      have hm : m ≤ inp.length := Nat.le_of_lt (lt_of_peek (by rw [h2]; decide))
      have go : Outcome (ValueOK inp s.inline n) (Fails inp 0)
          (pmappingOrNul.go (pvalue inp f) inp f s n key m (indentFrom inp n)) := by
        refine Outcome.bind (pmapLoop_bounds H f _ _ _ _ _ hm h1 hc (.inl h2)) fun q hq => ?_
        exact ⟨⟨Nat.le_trans h1 hq.1, hq.2⟩, fun h => by rw [hi] at h; cases h⟩
      split
      · split
        · exact ⟨Pos.refl hn hc, fun h => by rw [hi] at h; cases h⟩
        · exact go
      · exact go
    | block h1 hb =>
      obtain ⟨st, stop, ws0, g1, g2, g3, g4, g5, g6, g7, g8, g9, g10, rfl, rfl, g13⟩ := hb.ex
      have := Pos.ws g9 g10
      exact ⟨⟨by have := this.1; simp only; omega, this.2⟩, fun _ w h => by cases h; exact ⟨ws0, g9, g10, rfl, rfl⟩⟩
    | scalar h1 h2 h3 _ _ => exact ⟨⟨h1, h2, h3 hc⟩, fun _ w h => by cases h⟩

theorem startLoop_spec {inp : Bytes} : ∀ (f n : Nat) (pre : Bytes), n ≤ inp.length → Cut inp n →
    Outcome (fun r => Pos inp n r.2) (fun e => e = .fuel) (startLoop inp f n pre)
  | 0, _, _, _, _ => rfl
  | f + 1, n, pre, hn, hc => by
    unfold startLoop
    split
    · obtain ⟨h1, h2⟩ := line_end hn
      have hw := Pos.ws h1 h2
      exact (startLoop_spec f _ _ hw.2.1 hw.2.2).imp (fun r hr => Pos.trans ⟨by have := hw.1; omega, hw.2⟩ hr) (fun _ h => h)
    · split
      · next h =>
        simp only [Bool.and_eq_true, beq_iff_eq] at h
        have hl := lt_of_peek (inp := inp) (n := n + 2) (by rw [h.2]; decide)
        have : bump inp n 3 = n + 2 + 1 := by unfold bump; omega
        have hp : Pos inp n (bump inp n 3) := ⟨by omega, bump_le _ _ _, by rw [this]; exact cut_next (by rw [h.2]; decide)⟩
        exact hp.trans (Pos.ws hp.2.1 hp.2.2)
      · exact Pos.refl hn hc

/-- The outcome of the parser with some fuel: a tree, an error with a good span, or not finished. -/
theorem pparseF_outcome (f : Nat) (inp : Bytes) : Outcome (fun _ => True) (Fails inp 0) (pparseF f inp) := by
  unfold pparseF
  have hw := Pos.ws (inp := inp) (n := 0) (Nat.zero_le _) (cut_zero inp)
  refine Outcome.bind ((startLoop_spec f _ _ hw.2.1 hw.2.2).imp (fun _ h => h) fun e he => .inl he) fun r hr => ?_
  refine Outcome.bind (pvalue_bounds inp f _ _ hr.2.1 hr.2.2) fun q hq => ?_
  obtain ⟨t, ws, m⟩ := q
  have hm := hq.wsOr
  simp only
  split
  · trivial
  · exact .inr ⟨_, _, _, rfl, by omega, hm.2.1, Nat.le_refl _, hm.2.2, .inr (cut_end inp)⟩

end Verif
