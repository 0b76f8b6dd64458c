import Verif.Fuel
/-
When the parser finishes: single-quoted scalars are the only thing it can get stuck in.
-/
namespace Verif

/-- Whether the text after an opening single quote has a closing one: a quote that is not doubled. -/
def closesQuote : Bytes → Bool
  | [] => false
  | [b] => b == SQ
  | b :: c :: r => if b == SQ then (if c == SQ then closesQuote r else true) else closesQuote (c :: r)

/-- Whether a value may start at `n`, judging by what is before it: at the start of the input, after white space,
`-`, `:` or a NUL byte, or anywhere after a `[`. -/
def mayStart (inp : Bytes) (n : Nat) : Bool :=
  n == 0 || isWs (peekAt inp (n - 1)) || peekAt inp (n - 1) == DASH || peekAt inp (n - 1) == COLON ||
    peekAt inp (n - 1) == 0 || (inp.take n).contains LBR

/-- A single quote at `n` is closed. -/
def ClosedAt (inp : Bytes) (n : Nat) : Prop := peekAt inp n = SQ → closesQuote (inp.drop (n + 1)) = true

/-- Has finished. -/
def Fin' {α : Type} (a : Except Stop α) : Prop := a ≠ .error .fuel

theorem Fin'.bind {α β : Type} {a : Except Stop α} {k : α → Except Stop β} (h : Fin' a) (hk : ∀ x, a = .ok x → Fin' (k x)) :
    Fin' (a >>= k) := by
  cases a with
  | error e => intro hc; apply h; cases hc; rfl
  | ok x => exact hk x rfl

theorem Fin'.pure {α : Type} (a : α) : Fin' (Except.ok a : Except Stop α) := fun h => by cases h

theorem sqEsc_fin : ∀ (f : Nat) (rest s : Bytes) (k : Nat), rest.length ≤ f → closesQuote rest = true → Fin' (sqEsc f rest s k)
  | f, [], s, k, _, h => by cases h
  | 0, b :: r, _, _, hf, _ => by simp at hf
  | f + 1, [b], s, k, hf, h => by
    simp only [closesQuote] at h
    unfold sqEsc
    rw [if_pos (by simpa using h)]
    rw [if_neg (by show ¬ ((0 : UInt8) == SQ) = true; decide)]
    exact Fin'.pure _
  | f + 1, b :: c :: r, s, k, hf, h => by
    simp only [closesQuote] at h
    simp only [List.length_cons] at hf
    unfold sqEsc
    split
    · next hb =>
      rw [if_pos (by simpa using hb)] at h
      split
      · next hc =>
        rw [if_pos (by simpa using hc)] at h
        exact sqEsc_fin f r _ _ (by omega) h
      · exact Fin'.pure _
    · next hb =>
      rw [if_neg (by simpa using hb)] at h
      exact sqEsc_fin f (c :: r) _ _ (by simp; omega) h

/-- Scanning for the first quote finishes, and if it is a doubled one, the text from there on still closes. -/
theorem sqScan_fin : ∀ (f : Nat) (rest : Bytes) (k : Nat), rest.length ≤ f → closesQuote rest = true →
    ∃ j, sqScan f rest k = .ok (k + j, hd (rest.drop (j + 1)) == SQ) ∧ closesQuote (rest.drop j) = true
  | f, [], k, _, h => by cases h
  | 0, b :: r, _, hf, _ => by simp at hf
  | f + 1, [b], k, hf, h => by
    have h' := h
    simp only [closesQuote] at h
    unfold sqScan
    rw [if_pos (by simpa using h)]
    exact ⟨0, rfl, h'⟩
  | f + 1, b :: c :: r, k, hf, h => by
    have h' := h
    simp only [closesQuote] at h
    simp only [List.length_cons] at hf
    unfold sqScan
    split
    · exact ⟨0, rfl, h'⟩
    · next hb =>
      rw [if_neg (by simpa using hb)] at h
      obtain ⟨j, h1, h2⟩ := sqScan_fin f (c :: r) (k + 1) (by simp; omega) h
      refine ⟨j + 1, ?_, by simpa using h2⟩
      simp only [List.tail_cons, List.isEmpty_cons, Bool.false_eq_true, if_false]
      rw [h1]
      simp [Nat.add_assoc, Nat.add_comm 1 j]

theorem singleQuoted_fin {f : Nat} {inp : Bytes} {n : Nat} (hn : n < inp.length) (hf : inp.length ≤ n + f)
    (hc : closesQuote (inp.drop (n + 1)) = true) : Fin' (singleQuoted f inp n) := by
  simp only [singleQuoted, bump_one hn]
  obtain ⟨j, h1, h2⟩ := sqScan_fin f (inp.drop (n + 1)) 0 (by rw [List.length_drop]; omega) hc
  rw [h1]
  simp only [bind, Except.bind, Nat.zero_add]
  split
  · rw [List.drop_drop] at h2
    refine Fin'.bind (sqEsc_fin f _ _ 0 (by rw [List.length_drop]; omega) h2) fun r _ => Fin'.pure _
  · exact Fin'.pure _

theorem dqEsc_fin {inp : Bytes} : ∀ (f n : Nat) (s : Bytes), n ≤ inp.length → inp.length + 1 ≤ n + f → Fin' (dqEsc inp f n s)
  | 0, _, _, _, _ => by omega
  | f + 1, n, s, hn, h => by
    unfold dqEsc
    simp only
    split
    · exact Fin'.pure _
    · next h0 =>
      simp only [Bool.or_eq_true, beq_iff_eq, not_or] at h0
      have hb := bump_peek h0.2
      have hu := unescape_spec (inp := inp) (start := n) (n := bump inp n 1) (by omega) (bump_le _ _ _)
      split
      · refine Fin'.bind (fun hc => ?_) fun r hr => ?_
        · obtain ⟨b, k, h1, _⟩ := hu.error hc
          cases h1
        · have := hu.ok hr
          exact dqEsc_fin f _ _ this.2.1 (by omega)
      · exact dqEsc_fin f _ _ (bump_le _ _ _) (by omega)

theorem doubleQuoted_fin {f : Nat} {inp : Bytes} {n : Nat} (hn : n < inp.length) (h : inp.length ≤ n + f) :
    Fin' (doubleQuoted f inp n) := by
  unfold doubleQuoted
  have h1 := (dqScan_spec (inp.drop (n + 1))).1
  simp only [bump_one hn]
  generalize dqScan (inp.drop (n + 1)) = r at h1
  obtain ⟨k, esc⟩ := r
  rw [List.length_drop] at h1
  simp only at h1 ⊢
  split
  · exact Fin'.bind (dqEsc_fin f _ _ (by omega) (by omega)) fun r _ => Fin'.pure _
  · exact Fin'.pure _

theorem blockLoop_fin {inp : Bytes} {ind : Nat} {j : UInt8} {fo : Bool} : ∀ (f : Nat) (st : BlockSt),
    st.n ≤ inp.length → wsEnd inp st.n = st.n → inp.length + 1 ≤ st.n + f → Fin' (blockLoop inp ind j fo f st)
  | 0, st, h1, _, h3 => by omega
  | f + 1, st, h1, h2, h3 => by
    unfold blockLoop
    split
    · exact Fin'.pure _
    · next hne =>
      simp only
      have hp := findNl_pos (by omega) h2
      have hl := (line_end h1).1
      have hw := le_wsEnd inp (st.n + findNl (inp.drop st.n))
      split
      · exact Fin'.pure _
      · exact blockLoop_fin f _ (wsEnd_le hl) (wsEnd_idem _ _) (by simp only; omega)

theorem block_fin (f : Nat) (inp : Bytes) (n hdr : Nat) (j : UInt8) (fo ch cl : Bool) (hn : n < inp.length) (hh : 1 ≤ hdr)
    (h : inp.length ≤ n + f) : Fin' (block f inp n hdr j fo ch cl) := by
  unfold block
  simp only
  have hb1 : n + 1 ≤ bump inp n hdr := by unfold bump; omega
  have hb2 := bump_le inp n hdr
  generalize bump inp n hdr = st at *
  have hw := wsEnd_le hb2
  have hw' := le_wsEnd inp st
  refine Fin'.bind ?_ fun r _ => Fin'.pure _
  split
  · have hl := (line_end hw).1
    have hw2 := le_wsEnd inp (wsEnd inp st + findNl (inp.drop (wsEnd inp st)))
    exact blockLoop_fin f _ (wsEnd_le hl) (wsEnd_idem _ _) (by simp only; omega)
  · exact blockLoop_fin f _ hw (wsEnd_idem _ _) (by simp only; omega)

theorem lead_fin (f : Nat) (inp : Bytes) (i t : Bool) (n : Nat) (h : inp.length ≤ n + f) (hq : ClosedAt inp n) :
    Fin' (lead f inp i t n) := by
  have two : ∀ (c : Bool) (a b : Lead), Fin' (if c = true then Except.ok a else Except.ok b : Except Stop Lead) := by
    intro c a b; cases c <;> exact Fin'.pure _
  simp only [lead]
  split
  · exact Fin'.pure _
  split
  · next hq =>
    simp only [beq_iff_eq] at hq
    exact Fin'.bind (doubleQuoted_fin (lt_of_peek (by rw [hq]; decide)) h) fun _ _ => two _ _ _
  split
  · next hs =>
    simp only [beq_iff_eq] at hs
    exact Fin'.bind (singleQuoted_fin (lt_of_peek (by rw [hs]; decide)) h (hq hs)) fun _ _ => two _ _ _
  split
  · exact Fin'.pure _
  split
  · exact Fin'.pure _
  split
  · next hq =>
    simp only [Bool.or_eq_true, beq_iff_eq] at hq
    refine Fin'.bind (block_fin f inp n _ _ _ _ _ (lt_of_peek ?_) ?_ h) fun _ _ => Fin'.pure _
    · rcases hq with h | h <;> rw [h] <;> decide
    · split <;> omega
  · split
    · exact Fin'.pure _
    · split
      · exact Fin'.pure _
      · exact two _ _ _

/-! ### Where values start -/

theorem wsGo_last : ∀ (c : Bool) (s : Bytes), (wsGo c s).1 = 0 ∨ (wsGo c s).1 = s.length ∨
    isWs (hd (s.drop ((wsGo c s).1 - 1))) = true
  | c, [] => .inl (by cases c <;> rfl)
  | true, b :: r => by
    have step : ∀ k, (c : Bool) → (wsGo c r).1 = k → (k = 0 → isWs b = true ∨ r = []) →
        k + 1 = 0 ∨ k + 1 = (b :: r).length ∨ isWs (hd ((b :: r).drop (k + 1 - 1))) = true := by
      intro k c hk h0
      rcases Nat.eq_zero_or_pos k with hz | hpos
      · rcases h0 hz with h | rfl
        · refine .inr (.inr ?_); rw [hz]; exact h
        · exact .inr (.inl (by simp [hz]))
      · have := wsGo_last c r
        rw [hk] at this
        rcases this with h | h | h
        · omega
        · exact .inr (.inl (by simp; omega))
        · refine .inr (.inr ?_)
          rw [show k + 1 - 1 = (k - 1) + 1 by omega]; exact h
    simp only [wsGo]
    split
    · next h => exact step _ false rfl fun _ => .inl (by simp only [beq_iff_eq] at h; subst h; decide)
    · refine step _ true rfl fun h0 => .inr (Classical.byContradiction fun hc => ?_)
      exact (wsGo_spec true r).2.2 rfl hc h0
  | false, b :: r => by
    have step : ∀ k, (c : Bool) → (wsGo c r).1 = k → (k = 0 → isWs b = true ∨ r = []) →
        k + 1 = 0 ∨ k + 1 = (b :: r).length ∨ isWs (hd ((b :: r).drop (k + 1 - 1))) = true := by
      intro k c hk h0
      rcases Nat.eq_zero_or_pos k with hz | hpos
      · rcases h0 hz with h | rfl
        · refine .inr (.inr ?_); rw [hz]; exact h
        · exact .inr (.inl (by simp [hz]))
      · have := wsGo_last c r
        rw [hk] at this
        rcases this with h | h | h
        · omega
        · exact .inr (.inl (by simp; omega))
        · refine .inr (.inr ?_)
          rw [show k + 1 - 1 = (k - 1) + 1 by omega]; exact h
    simp only [wsGo]
    split
    · next h =>
      refine step _ true rfl fun h0 => .inr (Classical.byContradiction fun hc => ?_)
      exact (wsGo_spec true r).2.2 rfl hc h0
    · split
      · next h => exact step _ false rfl fun _ => .inl (by simp only [beq_iff_eq] at h; subst h; decide)
      · split
        · next h => exact step _ false rfl fun _ => .inl (by simp [isWs, h])
        · exact .inl rfl

/-- White space before a value does not change whether it may start there. -/
theorem closedAt_ws {inp : Bytes} (H : ∀ n : Nat, mayStart inp n = true → ClosedAt inp n) {p : Nat} (hp : p ≤ inp.length)
    (h : mayStart inp p = true) : ClosedAt inp (wsEnd inp p) := by
  rcases wsGo_last false (inp.drop p) with h0 | h1 | h2
  · have : wsEnd inp p = p := by unfold wsEnd; omega
    rw [this]; exact H _ h
  · have : wsEnd inp p = inp.length := by unfold wsEnd; rw [h1, List.length_drop]; omega
    rw [this]
    intro hs
    rw [peekAt_ge (Nat.le_refl _)] at hs
    exact absurd hs (by decide)
  · by_cases h0 : (wsGo false (inp.drop p)).1 = 0
    · have : wsEnd inp p = p := by unfold wsEnd; omega
      rw [this]; exact H _ h
    · refine H _ ?_
      have : peekAt inp (wsEnd inp p - 1) = hd ((inp.drop p).drop ((wsGo false (inp.drop p)).1 - 1)) := by
        rw [← peekAt_add]; unfold wsEnd
        congr 1; omega
      unfold mayStart
      rw [this, h2]
      simp

theorem mayStart_after {inp : Bytes} {p : Nat} (h : peekAt inp p = DASH ∨ peekAt inp p = COLON ∨ peekAt inp p = 0) (hp : p < inp.length) :
    mayStart inp (bump inp p 1) = true := by
  rw [bump_one hp]
  unfold mayStart
  rw [show p + 1 - 1 = p by omega]
  rcases h with h | h | h <;> rw [h] <;> simp

theorem mayStart_flow {inp : Bytes} {n0 n : Nat} (h : peekAt inp n0 = LBR) (hn : n0 < n) : mayStart inp n = true := by
  have hlt := lt_of_peek (inp := inp) (n := n0) (by rw [h]; decide)
  have hm : LBR ∈ inp.take n := by
    rw [← h, peekAt_get hlt]
    exact List.mem_take_iff_getElem.2 ⟨n0, by omega, rfl⟩
  unfold mayStart
  simp [hm]

section
variable {inp : Bytes} {rec : PSt → Nat → PRes} {n0 : Nat}

/-- The hypothesis on recursive calls: those from positions after `n0` finish. -/
def RecFin (inp : Bytes) (n0 : Nat) (rec : PSt → Nat → PRes) : Prop :=
  ∀ (s : PSt) (n : Nat), n0 < n → n ≤ inp.length → Cut inp n → ClosedAt inp n → Fin' (rec s n)

theorem pflowSeqLoop_fin (C : ∀ n : Nat, mayStart inp n = true → ClosedAt inp n) (B : RecBounds inp rec) (H : RecFin inp n0 rec)
    (hl : peekAt inp n0 = LBR) :
    ∀ (f : Nat) (last tr : Bool) (ip : Bytes) (n : Nat), n0 < n → n ≤ inp.length → Cut inp n →
    1 ≤ f → (last = false → inp.length + 2 ≤ n + f) → Fin' (pflowSeqLoop rec inp f last tr ip n)
  | 0, _, _, _, _, _, _, _, h, _ => by omega
  | f + 1, last, tr, ip, n, h0, hn, hc, _, hf => by
    unfold pflowSeqLoop
    split
    · exact Fin'.pure _
    · next hp =>
      have hw := Pos.ws hn hc
      have hw1 := hw.1
      refine Fin'.bind (H _ _ (by omega) hw.2.1 hw.2.2 (C _ (mayStart_flow hl (by omega)))) fun r hr => ?_
      have hr := (B _ _ hw.2.1 hw.2.2).ok hr
      obtain ⟨v, next, m⟩ := r
      simp only
      split
      · exact Fin'.pure _
      · next hl =>
        have hl : last = false := by simpa using hl
        have hf := hf hl
        simp only [Bool.or_eq_true, beq_iff_eq, not_or] at hp
        have hlt := lt_of_peek hp.2
        by_cases hcm : peekAt inp m = COMMA
        · simp only [hcm, beq_self_eq_true, if_true]
          obtain ⟨h1, h2⟩ := hr.wsOr_comma hcm
          have hb := bump_peek (inp := inp) (n := m) (by rw [hcm]; decide)
          have hm1 : m + 1 ≤ (wsOr inp next (bump inp m 1)).2 := by
            rw [hb]; cases next with
            | none => exact le_wsEnd _ _
            | some w => exact Nat.le_refl _
          have hm2 : wsEnd inp n ≤ m := hr.1.1
          refine Fin'.bind (pflowSeqLoop_fin C B H ‹_› f _ _ _ _ (by omega) h2.2.1 h2.2.2 (by omega)
            (fun _ => by omega)) fun _ _ => Fin'.pure _
        · have hcm' : (peekAt inp m == COMMA) = false := by simpa using hcm
          simp only [hcm', Bool.false_eq_true, if_false]
          have h2 := hr.wsOr
          have h3 := h2.1
          refine Fin'.bind (pflowSeqLoop_fin C B H ‹_› f _ _ _ _ (by omega) h2.2.1 h2.2.2 (by omega)
            (fun h => by cases h)) fun _ _ => Fin'.pure _

theorem pflowMapLoop_fin (C : ∀ n : Nat, mayStart inp n = true → ClosedAt inp n) (B : RecBounds inp rec) (H : RecFin inp n0 rec) :
    ∀ (f : Nat) (last tr : Bool) (ip : Bytes) (st n : Nat), n0 < n → n ≤ inp.length →
    1 ≤ f → (last = false → inp.length + 2 ≤ n + f) → Fin' (pflowMapLoop rec inp f last tr ip st n)
  | 0, _, _, _, _, _, _, _, h, _ => by omega
  | f + 1, last, tr, ip, st, n, h0, hn, _, hf => by
    unfold pflowMapLoop
    split
    · exact Fin'.pure _
    · next hp =>
      cases hu : untilColon inp n with
      | mk m0 ko =>
      obtain ⟨u1, u2, u3, u4⟩ := untilColon_spec hn hu
      have ua := colon_ascii u3
      cases ko with
      | none => exact fun h => by cases h
      | some key =>
      have u5 : m0 < inp.length := by
        rcases u4 with ⟨h, _⟩ | ⟨_, h⟩
        · cases h
        · exact h
      simp only
      have hb := bump_one u5
      have hp' : Pos inp n (bump inp m0 1) := ⟨by omega, bump_le _ _ _, cut_bump ua⟩
      have hw := Pos.ws hp'.2.1 hp'.2.2
      have hw1 := hw.1
      refine Fin'.bind (H _ _ (by omega) hw.2.1 hw.2.2 (closedAt_ws C (bump_le _ _ _) (mayStart_after (.inr u3) u5))) fun r hr => ?_
      have hr := (B _ _ hw.2.1 hw.2.2).ok hr
      obtain ⟨v, next, m⟩ := r
      simp only
      have hm := hr.wsOr
      have hm1 := hm.1
      have hm2 := hm.2.1
      split
      · exact Fin'.pure _
      · next hl =>
        have hl : last = false := by simpa using hl
        have hf := hf hl
        by_cases hcm : peekAt inp (wsOr inp next m).2 = COMMA
        · simp only [hcm, beq_self_eq_true, if_true]
          have h5 := le_bump 1 hm.2.1
          have h6 := le_wsEnd inp (bump inp (wsOr inp next m).2 1)
          refine Fin'.bind (pflowMapLoop_fin C B H f _ _ _ _ _ (by omega) (wsEnd_le (bump_le _ _ _)) (by omega)
            (fun _ => by omega)) fun _ _ => Fin'.pure _
        · have hcm' : (peekAt inp (wsOr inp next m).2 == COMMA) = false := by simpa using hcm
          simp only [hcm', Bool.false_eq_true, if_false]
          have h6 := le_wsEnd inp (wsOr inp next m).2
          refine Fin'.bind (pflowMapLoop_fin C B H f _ _ _ _ _ (by omega) (wsEnd_le hm.2.1) (by omega)
            (fun h => by cases h)) fun _ _ => Fin'.pure _

theorem pseqLoop_fin (C : ∀ n : Nat, mayStart inp n = true → ClosedAt inp n) (B : RecBounds inp rec) (H : RecFin inp n0 rec) :
    ∀ (f ind : Nat) (ip : Bytes) (n : Nat), n0 ≤ n → peekAt inp n = DASH → inp.length ≤ n + f →
    Fin' (pseqLoop rec inp ind f ip n)
  | 0, _, _, n, _, hd, h => by
    have := lt_of_peek (inp := inp) (n := n) (by rw [hd]; decide)
    omega
  | f + 1, ind, ip, n, h0, hd, hf => by
    unfold pseqLoop
    have hlt := lt_of_peek (inp := inp) (n := n) (by rw [hd]; decide)
    have hb := bump_one hlt
    have hp := Pos.next (Nat.le_of_lt hlt) (by rw [hd]; decide : peekAt inp n < 0x80)
    have hw := Pos.ws hp.2.1 hp.2.2
    have hw1 := hw.1
    refine Fin'.bind (H _ _ (by omega) hw.2.1 hw.2.2 (closedAt_ws C (bump_le _ _ _) (mayStart_after (.inl hd) hlt))) fun r hr => ?_
    have hr := (B _ _ hw.2.1 hw.2.2).ok hr
    obtain ⟨v, ws, m⟩ := r
    have hm1 := hr.wsOr.1
    simp only
    split
    · exact Fin'.pure _
    · next hc =>
      simp only [Bool.or_eq_true, bne_iff_ne, not_or, Decidable.not_not] at hc
      exact Fin'.bind (pseqLoop_fin C B H f ind _ _ (by omega) hc.2 (by omega)) fun _ _ => Fin'.pure _

theorem pmapLoop_fin (C : ∀ n : Nat, mayStart inp n = true → ClosedAt inp n) (B : RecBounds inp rec) (H : RecFin inp n0 rec) :
    ∀ (f ind st : Nat) (key : RStr) (ip : Bytes) (n : Nat), n0 ≤ n → n ≤ inp.length → inp.length + 1 ≤ n + f →
    Fin' (pmapLoop rec inp ind f st key ip n)
  | 0, _, _, _, _, n, _, hn, h => by omega
  | f + 1, ind, st, key, ip, n, h0, hn, hf => by
    unfold pmapLoop
    split
    · exact fun h => by cases h
    · next hd =>
      simp only [bne_iff_ne, ne_eq, Decidable.not_not] at hd
      have hlt := lt_of_peek (inp := inp) (n := n) (by rw [hd]; decide)
      have hb := bump_one hlt
      have hp := Pos.next (Nat.le_of_lt hlt) (by rw [hd]; decide : peekAt inp n < 0x80)
      have hw := Pos.ws hp.2.1 hp.2.2
      have hw1 := hw.1
      refine Fin'.bind (H _ _ (by omega) hw.2.1 hw.2.2 (closedAt_ws C (bump_le _ _ _) (mayStart_after (.inr (.inl hd)) hlt))) fun r hr => ?_
      have hr := (B _ _ hw.2.1 hw.2.2).ok hr
      obtain ⟨v, ws, m⟩ := r
      have hm := hr.wsOr
      have hm1 := hm.1
      simp only
      split
      · exact Fin'.pure _
      · cases hk : nextMappingKey inp (wsOr inp ws m).2 with
        | mk m0 ko =>
        obtain ⟨u1, u2, u3, u4⟩ := nextMappingKey_spec hm.2.1 hk
        cases ko with
        | none => exact Fin'.pure _
        | some key' =>
          exact Fin'.bind (pmapLoop_fin C B H f ind _ _ _ _ (by omega) u2 (by omega)) fun _ _ => Fin'.pure _
end

theorem pvalue_fin (inp : Bytes) (C : ∀ n : Nat, mayStart inp n = true → ClosedAt inp n) :
    ∀ (f : Nat) (s : PSt) (n : Nat), n ≤ inp.length → Cut inp n → ClosedAt inp n →
    inp.length + 2 ≤ n + f → Fin' (pvalue inp f s n)
  | 0, _, _, hn, _, _, h => by omega
  | f + 1, s, n, hn, hc, hq, hf => by
    have H : RecFin inp n (pvalue inp f) := fun s m h1 h2 h3 h4 => pvalue_fin inp C f s m h2 h3 h4 (by omega)
    have B := pvalue_bounds inp f
    have iteFin : ∀ {α : Type} (c : Bool) (a : α) (e : Stop), e ≠ .fuel → Fin' (if c = true then Except.ok a else Except.error e) := by
      intro α c a e he
      cases c
      · exact fun h => by simp at h; exact he h
      · exact Fin'.pure _
    unfold pvalue
    refine Fin'.bind (lead_fin f inp _ _ n (by omega) hq) fun l hl => ?_
    have hl := (lead_spec hn).ok hl
    cases hl with
    | seq h1 _ _ =>
      exact Fin'.bind (pseqLoop_fin C B H f _ _ n (Nat.le_refl _) h1 (by omega)) fun _ _ => Fin'.pure _
    | flowSeq h1 =>
      have hb := bump_peek (inp := inp) (n := n) (by rw [h1]; decide)
      have hp := Pos.next hn (by rw [h1]; decide : peekAt inp n < 0x80)
      have hw := Pos.ws hp.2.1 hp.2.2
      have hw1 := hw.1
      exact Fin'.bind (pflowSeqLoop_fin C B H h1 f _ _ _ _ (by omega) hw.2.1 hw.2.2 (by omega) (fun _ => by omega))
        fun _ _ => iteFin _ _ _ (by simp)
    | flowMap h1 =>
      have hb := bump_peek (inp := inp) (n := n) (by rw [h1]; decide)
      have hp := Pos.next hn (by rw [h1]; decide : peekAt inp n < 0x80)
      have hw := Pos.ws hp.2.1 hp.2.2
      have hw1 := hw.1
      exact Fin'.bind (pflowMapLoop_fin C B H f _ _ _ _ _ (by omega) hw.2.1 (by omega) (fun _ => by omega))
        fun _ _ => iteFin _ _ _ (by simp)
    | @key key m h1 h2 _ _ _ =>
      simp only [pmappingOrNul]
      have hm := lt_of_peek (inp := inp) (n := m) (by rw [h2]; decide)
      have go : Fin' (pmappingOrNul.go (pvalue inp f) inp f s n key m (indentFrom inp n)) :=
        Fin'.bind (pmapLoop_fin C B H f _ _ _ _ _ h1 (by omega) (by omega)) fun _ _ => Fin'.pure _
      split
      · split
        · exact Fin'.pure _
        · exact go
      · exact go
    | block _ _ => exact Fin'.pure _
    | scalar _ _ _ _ _ => exact Fin'.pure _

theorem startLoop_fin {inp : Bytes} (C : ∀ n : Nat, mayStart inp n = true → ClosedAt inp n) : ∀ (f n : Nat) (pre : Bytes), n ≤ inp.length →
    inp.length + 1 ≤ n + f → ClosedAt inp n →
    Outcome (fun r => ClosedAt inp r.2) (fun e => e ≠ .fuel) (startLoop inp f n pre)
  | 0, _, _, hn, h, _ => by omega
  | f + 1, n, pre, hn, h, hq => by
    unfold startLoop
    split
    · next hp =>
      simp only [beq_iff_eq] at hp
      have hlt := lt_of_peek (inp := inp) (n := n) (by rw [hp]; decide)
      obtain ⟨h1, _⟩ := line_end hn
      have h2 := (findNl_spec (inp.drop n)).2
      have hpos : findNl (inp.drop n) ≠ 0 := by
        rw [List.drop_eq_getElem_cons hlt, ← peekAt_get hlt, hp]
        simp only [findNl]
        rw [if_neg (by decide)]
        omega
      have hw := le_wsEnd inp (n + findNl (inp.drop n))
      refine startLoop_fin C f _ _ (wsEnd_le h1) (by omega) ?_
      rw [List.length_drop] at h2
      rcases h2 with h2 | h2
      · -- the directive ends with a newline, which is white space
        rw [← peekAt_add] at h2
        have hlt2 := lt_of_peek (inp := inp) (n := n + findNl (inp.drop n)) (by rw [h2]; decide)
        have hstep : wsEnd inp (n + findNl (inp.drop n)) = wsEnd inp (n + findNl (inp.drop n) + 1) := by
          generalize n + findNl (inp.drop n) = p at *
          unfold wsEnd
          conv => lhs; rw [List.drop_eq_getElem_cons hlt2]
          rw [← peekAt_get hlt2, h2]
          simp only [wsGo]
          rw [if_neg (by decide), if_pos (by decide)]
          simp only
          omega
        rw [hstep]
        refine closedAt_ws C (by omega) ?_
        unfold mayStart
        rw [show n + findNl (inp.drop n) + 1 - 1 = n + findNl (inp.drop n) by omega, h2]
        simp [isWs]
      · have he : n + findNl (inp.drop n) = inp.length := by omega
        rw [he]
        have h3 := wsEnd_le (inp := inp) (Nat.le_refl _)
        have h4 := le_wsEnd inp inp.length
        rw [show wsEnd inp inp.length = inp.length by omega]
        intro hs
        rw [peekAt_ge (Nat.le_refl _)] at hs
        exact absurd hs (by decide)
    · split
      · next h =>
        simp only [Bool.and_eq_true, beq_iff_eq] at h
        have hl := lt_of_peek (inp := inp) (n := n + 2) (by rw [h.2]; decide)
        have hb : bump inp n 3 = bump inp (n + 2) 1 := by unfold bump; omega
        show ClosedAt inp (wsEnd inp (bump inp n 3))
        rw [hb]
        exact closedAt_ws C (bump_le _ _ _) (mayStart_after (.inl h.2) hl)
      · exact hq

theorem pparseF_fin (inp : Bytes) (C : ∀ n : Nat, mayStart inp n = true → ClosedAt inp n) (f : Nat) (h : inp.length + 2 ≤ f) :
    Fin' (pparseF f inp) := by
  unfold pparseF
  have hw := Pos.ws (inp := inp) (n := 0) (Nat.zero_le _) (cut_zero inp)
  have hs := startLoop_fin C f (wsEnd inp 0) (wsStr inp 0) hw.2.1 (by omega) (closedAt_ws C (Nat.zero_le _) rfl)
  refine Fin'.bind (fun hc => hs.error hc rfl) fun r hr => ?_
  have hb := (startLoop_spec f _ _ hw.2.1 hw.2.2).ok hr
  have hr := hs.ok hr
  refine Fin'.bind (pvalue_fin inp C f _ _ hb.2.1 hb.2.2 hr (by omega)) fun q _ => ?_
  obtain ⟨t, ws, m⟩ := q
  simp only
  split
  · exact Fin'.pure _
  · exact fun h => by cases h

end Verif
