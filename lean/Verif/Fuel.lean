import Verif.Bounds
/-
Fuel: a run of the parser with any amount of fuel agrees with the run with the amount `fromSlice`
uses, unless it has not finished.
-/
namespace Verif

/-- `a` is `b`, or has not finished. -/
def Approx {α : Type} (a b : Except Stop α) : Prop := a = .error .fuel ∨ a = b

theorem Approx.refl {α : Type} (a : Except Stop α) : Approx a a := .inr rfl

theorem Approx.bind {α β : Type} {a b : Except Stop α} {k k' : α → Except Stop β} (h : Approx a b)
    (hk : ∀ x, a = .ok x → Approx (k x) (k' x)) : Approx (a >>= k) (b >>= k') := by
  rcases h with rfl | rfl
  · exact .inl rfl
  · cases a with
    | error e => exact .inr rfl
    | ok x => exact hk x rfl

theorem Approx.ne {α : Type} {a b : Except Stop α} (h : Approx a b) (hn : a ≠ .error .fuel) : b = a := by
  rcases h with h | h
  · exact absurd h hn
  · exact h.symm

theorem sqScan_nil : ∀ (f k : Nat), sqScan f [] k = .error .fuel
  | 0, _ => rfl
  | f + 1, k => by unfold sqScan; exact sqScan_nil f _

theorem sqScan_approx : ∀ (f' f : Nat) (rest : Bytes) (k : Nat), rest.length ≤ f → Approx (sqScan f' rest k) (sqScan f rest k)
  | 0, _, _, _, _ => .inl rfl
  | f' + 1, f, [], k, _ => .inl (sqScan_nil _ _)
  | f' + 1, f + 1, b :: r, k, h => by
    unfold sqScan
    split
    · exact .inr rfl
    · exact sqScan_approx f' f r _ (by simpa using h)

theorem sqEsc_nil : ∀ (f : Nat) (s : Bytes) (k : Nat), sqEsc f [] s k = .error .fuel
  | 0, _, _ => rfl
  | f + 1, s, k => by unfold sqEsc; exact sqEsc_nil f _ _

theorem sqEsc_approx : ∀ (f' f : Nat) (rest s : Bytes) (k : Nat), rest.length ≤ f → Approx (sqEsc f' rest s k) (sqEsc f rest s k)
  | 0, _, _, _, _, _ => .inl rfl
  | f' + 1, f, [], s, k, _ => .inl (sqEsc_nil _ _ _)
  | f' + 1, f + 1, b :: r, s, k, h => by
    simp only [List.length_cons] at h
    unfold sqEsc
    split
    · split
      · exact sqEsc_approx f' f _ _ _ (by simp; omega)
      · exact .inr rfl
    · exact sqEsc_approx f' f r _ _ (by omega)

theorem singleQuoted_approx (f' f : Nat) (inp : Bytes) (n : Nat) (h : inp.length ≤ n + f) :
    Approx (singleQuoted f' inp n) (singleQuoted f inp n) := by
  have hb : inp.length ≤ bump inp n 1 + f := by unfold bump; omega
  unfold singleQuoted
  refine Approx.bind (sqScan_approx f' f _ 0 (by rw [List.length_drop]; omega)) fun r _ => ?_
  obtain ⟨k, esc⟩ := r
  simp only
  split
  · exact Approx.bind (sqEsc_approx f' f _ _ 0 (by rw [List.length_drop]; omega)) fun r _ => .inr rfl
  · exact .inr rfl

theorem dqEsc_approx {inp : Bytes} : ∀ (f' f n : Nat) (s : Bytes), n ≤ inp.length → inp.length + 1 ≤ n + f →
    Approx (dqEsc inp f' n s) (dqEsc inp f n s)
  | 0, _, _, _, _, _ => .inl rfl
  | f' + 1, 0, n, s, hn, h => by omega
  | f' + 1, f + 1, n, s, hn, h => by
    unfold dqEsc
    simp only
    split
    · exact .inr rfl
    · next h0 =>
      simp only [Bool.or_eq_true, beq_iff_eq, not_or] at h0
      have hb := bump_peek h0.2
      split
      · refine Approx.bind (Approx.refl _) fun r hr => ?_
        have := (unescape_spec (inp := inp) (start := n) (n := bump inp n 1) (by omega) (bump_le _ _ _)).ok hr
        exact dqEsc_approx f' f _ _ this.2.1 (by omega)
      · exact dqEsc_approx f' f _ _ (bump_le _ _ _) (by omega)

theorem doubleQuoted_approx (f' f : Nat) (inp : Bytes) (n : Nat) (hn : n < inp.length) (h : inp.length ≤ n + f) :
    Approx (doubleQuoted f' inp n) (doubleQuoted f inp n) := by
  unfold doubleQuoted
  have h1 := (dqScan_spec (inp.drop (n + 1))).1
  simp only [bump_one hn]
  generalize dqScan (inp.drop (n + 1)) = r at h1
  obtain ⟨k, esc⟩ := r
  rw [List.length_drop] at h1
  simp only at h1 ⊢
  split
  · exact Approx.bind (dqEsc_approx f' f _ _ (by omega) (by omega)) fun r _ => .inr rfl
  · exact .inr rfl

theorem findNl_pos {inp : Bytes} {n : Nat} (hn : n < inp.length) (hw : wsEnd inp n = n) : findNl (inp.drop n) ≠ 0 := by
  rw [List.drop_eq_getElem_cons hn]
  unfold wsEnd at hw
  rw [List.drop_eq_getElem_cons hn] at hw
  simp only [findNl]
  split
  · next hb =>
    simp only [beq_iff_eq] at hb
    rw [hb] at hw
    simp only [wsGo] at hw
    rw [if_neg (by decide), if_pos (by decide)] at hw
    simp at hw
  · omega

theorem blockLoop_approx {inp : Bytes} {ind : Nat} {j : UInt8} {fo : Bool} : ∀ (f' f : Nat) (st : BlockSt),
    st.n ≤ inp.length → wsEnd inp st.n = st.n → inp.length + 1 ≤ st.n + f →
    Approx (blockLoop inp ind j fo f' st) (blockLoop inp ind j fo f st)
  | 0, _, _, _, _, _ => .inl rfl
  | f' + 1, 0, st, h1, _, h3 => by omega
  | f' + 1, f + 1, st, h1, h2, h3 => by
    unfold blockLoop
    split
    · exact .inr rfl
    · next hne =>
      simp only
      have hp := findNl_pos (by omega) h2
      have hl := (line_end h1).1
      have hw := le_wsEnd inp (st.n + findNl (inp.drop st.n))
      split
      · exact .inr rfl
      · exact blockLoop_approx f' f _ (wsEnd_le hl) (wsEnd_idem _ _) (by simp only; omega)

theorem block_approx (f' f : Nat) (inp : Bytes) (n hdr : Nat) (j : UInt8) (fo ch cl : Bool) (hn : n < inp.length) (hh : 1 ≤ hdr)
    (h : inp.length ≤ n + f) : Approx (block f' inp n hdr j fo ch cl) (block f inp n hdr j fo ch cl) := by
  unfold block
  simp only
  have hb1 : n + 1 ≤ bump inp n hdr := by unfold bump; omega
  have hb2 := bump_le inp n hdr
  generalize bump inp n hdr = st at *
  have hw := wsEnd_le hb2
  have hw' := le_wsEnd inp st
  refine Approx.bind ?_ fun r _ => .inr rfl
  split
  · have hl := (line_end hw).1
    have hw2 := le_wsEnd inp (wsEnd inp st + findNl (inp.drop (wsEnd inp st)))
    exact blockLoop_approx f' f _ (wsEnd_le hl) (wsEnd_idem _ _) (by simp only; omega)
  · exact blockLoop_approx f' f _ hw (wsEnd_idem _ _) (by simp only; omega)

theorem lead_approx (f' f : Nat) (inp : Bytes) (i t : Bool) (n : Nat) (h : inp.length ≤ n + f) :
    Approx (lead f' inp i t n) (lead f inp i t n) := by
  simp only [lead]
  split
  · exact .inr rfl
  split
  · next hq =>
    simp only [beq_iff_eq] at hq
    exact Approx.bind (doubleQuoted_approx f' f inp n (lt_of_peek (by rw [hq]; decide)) h) fun _ _ => .inr rfl
  split
  · exact Approx.bind (singleQuoted_approx f' f inp n h) fun _ _ => .inr rfl
  split
  · exact .inr rfl
  split
  · exact .inr rfl
  split
  · next hq =>
    simp only [Bool.or_eq_true, beq_iff_eq] at hq
    refine Approx.bind (block_approx f' f inp n _ _ _ _ _ (lt_of_peek ?_) ?_ h) fun _ _ => .inr rfl
    · rcases hq with h | h <;> rw [h] <;> decide
    · split <;> omega
  · exact .inr rfl

section
variable {inp : Bytes} {rec' rec : PSt → Nat → PRes} {n0 : Nat}

/-- The hypothesis on recursive calls: those from positions after `n0` agree. -/
def RecApprox (inp : Bytes) (n0 : Nat) (rec' rec : PSt → Nat → PRes) : Prop :=
  ∀ (s : PSt) (n : Nat), n0 < n → n ≤ inp.length → Cut inp n → Approx (rec' s n) (rec s n)

theorem pflowSeqLoop_approx (B : RecBounds inp rec') (H : RecApprox inp n0 rec' rec) :
    ∀ (f' f : Nat) (last tr : Bool) (ip : Bytes) (n : Nat), n0 < n → n ≤ inp.length → Cut inp n →
    1 ≤ f → (last = false → inp.length + 2 ≤ n + f) →
    Approx (pflowSeqLoop rec' inp f' last tr ip n) (pflowSeqLoop rec inp f last tr ip n)
  | 0, _, _, _, _, _, _, _, _, _, _ => .inl rfl
  | f' + 1, 0, _, _, _, _, _, _, _, h, _ => by omega
  | f' + 1, f + 1, last, tr, ip, n, h0, hn, hc, _, hf => by
    unfold pflowSeqLoop
    split
    · exact .inr rfl
    · next hp =>
      have hw := Pos.ws hn hc
      refine Approx.bind (H _ _ (by have := hw.1; omega) hw.2.1 hw.2.2) fun r hr => ?_
      have hr := (B _ _ hw.2.1 hw.2.2).ok hr
      obtain ⟨v, next, m⟩ := r
      simp only
      split
      · exact .inr rfl
      · next hl =>
        have hl : last = false := by simpa using hl
        have hf := hf hl
        simp only [Bool.or_eq_true, beq_iff_eq, not_or] at hp
        have hlt := lt_of_peek hp.2
        by_cases hcm : peekAt inp m = COMMA
        · simp only [hcm, beq_self_eq_true, if_true]
          obtain ⟨h1, h2⟩ := hr.wsOr_comma hcm
          have hb := bump_peek (inp := inp) (n := m) (by rw [hcm]; decide)
          have hm1 : m + 1 ≤ (wsOr inp next (bump inp m 1)).2 := by
            rw [hb]; cases next with
            | none => exact le_wsEnd _ _
            | some w => exact Nat.le_refl _
          have hm2 : wsEnd inp n ≤ m := hr.1.1
          have hm3 := hw.1
          refine Approx.bind (pflowSeqLoop_approx B H f' f _ _ _ _ (by omega) h2.2.1 h2.2.2 (by omega)
            (fun _ => by omega)) fun _ _ => .inr rfl
        · have hcm' : (peekAt inp m == COMMA) = false := by simpa using hcm
          simp only [hcm', Bool.false_eq_true, if_false]
          have h2 := hr.wsOr
          have h3 := h2.1
          have h4 := hw.1
          refine Approx.bind (pflowSeqLoop_approx B H f' f _ _ _ _ (by omega) h2.2.1 h2.2.2 (by omega)
            (fun h => by cases h)) fun _ _ => .inr rfl

theorem pflowMapLoop_approx (B : RecBounds inp rec') (H : RecApprox inp n0 rec' rec) :
    ∀ (f' f : Nat) (last tr : Bool) (ip : Bytes) (st n : Nat), n0 < n → n ≤ inp.length →
    1 ≤ f → (last = false → inp.length + 2 ≤ n + f) →
    Approx (pflowMapLoop rec' inp f' last tr ip st n) (pflowMapLoop rec inp f last tr ip st n)
  | 0, _, _, _, _, _, _, _, _, _, _ => .inl rfl
  | f' + 1, 0, _, _, _, _, _, _, _, h, _ => by omega
  | f' + 1, f + 1, last, tr, ip, st, n, h0, hn, _, hf => by
    unfold pflowMapLoop
    split
    · exact .inr rfl
    · next hp =>
      cases hu : untilColon inp n with
      | mk m0 ko =>
      obtain ⟨u1, u2, u3, u4⟩ := untilColon_spec hn hu
      have ua := colon_ascii u3
      cases ko with
      | none => exact .inr rfl
      | some key =>
      have u5 : m0 < inp.length := by
        rcases u4 with ⟨h, _⟩ | ⟨_, h⟩
        · cases h
        · exact h
      simp only
      have hb := bump_one u5
      have hp' : Pos inp n (bump inp m0 1) := ⟨by omega, bump_le _ _ _, cut_bump ua⟩
      have hw := Pos.ws hp'.2.1 hp'.2.2
      have hw1 := hw.1
      refine Approx.bind (H _ _ (by omega) hw.2.1 hw.2.2) fun r hr => ?_
      have hr := (B _ _ hw.2.1 hw.2.2).ok hr
      obtain ⟨v, next, m⟩ := r
      simp only
      have hm := hr.wsOr
      have hm1 := hm.1
      have hm2 := hm.2.1
      split
      · exact .inr rfl
      · next hl =>
        have hl : last = false := by simpa using hl
        have hf := hf hl
        by_cases hcm : peekAt inp (wsOr inp next m).2 = COMMA
        · simp only [hcm, beq_self_eq_true, if_true]
          have h5 := le_bump 1 hm.2.1
          have h6 := le_wsEnd inp (bump inp (wsOr inp next m).2 1)
          refine Approx.bind (pflowMapLoop_approx B H f' f _ _ _ _ _ (by omega) (wsEnd_le (bump_le _ _ _)) (by omega)
            (fun _ => by omega)) fun _ _ => .inr rfl
        · have hcm' : (peekAt inp (wsOr inp next m).2 == COMMA) = false := by simpa using hcm
          simp only [hcm', Bool.false_eq_true, if_false]
          have h6 := le_wsEnd inp (wsOr inp next m).2
          refine Approx.bind (pflowMapLoop_approx B H f' f _ _ _ _ _ (by omega) (wsEnd_le hm.2.1) (by omega)
            (fun h => by cases h)) fun _ _ => .inr rfl

theorem pseqLoop_approx (B : RecBounds inp rec') (H : RecApprox inp n0 rec' rec) :
    ∀ (f' f ind : Nat) (ip : Bytes) (n : Nat), n0 ≤ n → peekAt inp n = DASH → inp.length ≤ n + f →
    Approx (pseqLoop rec' inp ind f' ip n) (pseqLoop rec inp ind f ip n)
  | 0, _, _, _, _, _, _, _ => .inl rfl
  | f' + 1, 0, _, _, n, _, hd, h => by
    have := lt_of_peek (inp := inp) (n := n) (by rw [hd]; decide)
    omega
  | f' + 1, f + 1, ind, ip, n, h0, hd, hf => by
    unfold pseqLoop
    have hlt := lt_of_peek (inp := inp) (n := n) (by rw [hd]; decide)
    have hb := bump_one hlt
    have hp := Pos.next (Nat.le_of_lt hlt) (by rw [hd]; decide : peekAt inp n < 0x80)
    have hw := Pos.ws hp.2.1 hp.2.2
    have hw1 := hw.1
    refine Approx.bind (H _ _ (by omega) hw.2.1 hw.2.2) fun r hr => ?_
    have hr := (B _ _ hw.2.1 hw.2.2).ok hr
    obtain ⟨v, ws, m⟩ := r
    have hm1 := hr.wsOr.1
    simp only
    split
    · exact .inr rfl
    · next hc =>
      simp only [Bool.or_eq_true, bne_iff_ne, not_or, Decidable.not_not] at hc
      exact Approx.bind (pseqLoop_approx B H f' f ind _ _ (by omega) hc.2 (by omega)) fun _ _ => .inr rfl

theorem pmapLoop_approx (B : RecBounds inp rec') (H : RecApprox inp n0 rec' rec) :
    ∀ (f' f ind st : Nat) (key : RStr) (ip : Bytes) (n : Nat), n0 ≤ n → n ≤ inp.length → inp.length + 1 ≤ n + f →
    Approx (pmapLoop rec' inp ind f' st key ip n) (pmapLoop rec inp ind f st key ip n)
  | 0, _, _, _, _, _, _, _, _, _ => .inl rfl
  | f' + 1, 0, _, _, _, _, n, _, hn, h => by omega
  | f' + 1, f + 1, ind, st, key, ip, n, h0, hn, hf => by
    unfold pmapLoop
    split
    · exact .inr rfl
    · next hd =>
      simp only [bne_iff_ne, ne_eq, Decidable.not_not] at hd
      have hlt := lt_of_peek (inp := inp) (n := n) (by rw [hd]; decide)
      have hb := bump_one hlt
      have hp := Pos.next (Nat.le_of_lt hlt) (by rw [hd]; decide : peekAt inp n < 0x80)
      have hw := Pos.ws hp.2.1 hp.2.2
      have hw1 := hw.1
      refine Approx.bind (H _ _ (by omega) hw.2.1 hw.2.2) fun r hr => ?_
      have hr := (B _ _ hw.2.1 hw.2.2).ok hr
      obtain ⟨v, ws, m⟩ := r
      have hm := hr.wsOr
      have hm1 := hm.1
      simp only
      split
      · exact .inr rfl
      · cases hk : nextMappingKey inp (wsOr inp ws m).2 with
        | mk m0 ko =>
        obtain ⟨u1, u2, u3, u4⟩ := nextMappingKey_spec hm.2.1 hk
        cases ko with
        | none => exact .inr rfl
        | some key' =>
          exact Approx.bind (pmapLoop_approx B H f' f ind _ _ _ _ (by omega) u2 (by omega)) fun _ _ => .inr rfl
end

theorem pvalue_approx (inp : Bytes) : ∀ (f' f : Nat) (s : PSt) (n : Nat), n ≤ inp.length → Cut inp n →
    inp.length + 2 ≤ n + f → Approx (pvalue inp f' s n) (pvalue inp f s n)
  | 0, _, _, _, _, _, _ => .inl rfl
  | f' + 1, 0, _, _, hn, _, h => by omega
  | f' + 1, f + 1, s, n, hn, hc, hf => by
    have H : RecApprox inp n (pvalue inp f') (pvalue inp f) := fun s m h1 h2 h3 =>
      pvalue_approx inp f' f s m h2 h3 (by omega)
    have B := pvalue_bounds inp f'
    unfold pvalue
    refine Approx.bind (lead_approx f' f inp _ _ n (by omega)) fun l hl => ?_
    have hl := (lead_spec hn).ok hl
    cases hl with
    | seq h1 _ _ =>
      exact Approx.bind (pseqLoop_approx B H f' f _ _ n (Nat.le_refl _) h1 (by omega)) fun _ _ => .inr rfl
    | flowSeq h1 =>
      have hb := bump_peek (inp := inp) (n := n) (by rw [h1]; decide)
      have hp := Pos.next hn (by rw [h1]; decide : peekAt inp n < 0x80)
      have hw := Pos.ws hp.2.1 hp.2.2
      have hw1 := hw.1
      exact Approx.bind (pflowSeqLoop_approx B H f' f _ _ _ _ (by omega) hw.2.1 hw.2.2 (by omega) (fun _ => by omega))
        fun _ _ => .inr rfl
    | flowMap h1 =>
      have hb := bump_peek (inp := inp) (n := n) (by rw [h1]; decide)
      have hp := Pos.next hn (by rw [h1]; decide : peekAt inp n < 0x80)
      have hw := Pos.ws hp.2.1 hp.2.2
      have hw1 := hw.1
      exact Approx.bind (pflowMapLoop_approx B H f' f _ _ _ _ _ (by omega) hw.2.1 (by omega) (fun _ => by omega))
        fun _ _ => .inr rfl
    | @key key m h1 h2 _ _ _ =>
      simp only [pmappingOrNul]
      have hm := lt_of_peek (inp := inp) (n := m) (by rw [h2]; decide)
      have go : Approx (pmappingOrNul.go (pvalue inp f') inp f' s n key m (indentFrom inp n))
          (pmappingOrNul.go (pvalue inp f) inp f s n key m (indentFrom inp n)) :=
        Approx.bind (pmapLoop_approx B H f' f _ _ _ _ _ h1 (by omega) (by omega)) fun _ _ => .inr rfl
      split
      · split
        · exact .inr rfl
        · exact go
      · exact go
    | block _ _ => exact .inr rfl
    | scalar _ _ _ _ _ => exact .inr rfl

theorem startLoop_approx {inp : Bytes} : ∀ (f' f n : Nat) (pre : Bytes), n ≤ inp.length → inp.length + 1 ≤ n + f →
    Approx (startLoop inp f' n pre) (startLoop inp f n pre)
  | 0, _, _, _, _, _ => .inl rfl
  | f' + 1, 0, _, _, hn, h => by omega
  | f' + 1, f + 1, n, pre, hn, h => by
    unfold startLoop
    split
    · next hp =>
      simp only [beq_iff_eq] at hp
      have hlt := lt_of_peek (inp := inp) (n := n) (by rw [hp]; decide)
      have h1 := (line_end hn).1
      have hpos : findNl (inp.drop n) ≠ 0 := by
        rw [List.drop_eq_getElem_cons hlt, ← peekAt_get hlt, hp]
        simp only [findNl]
        rw [if_neg (by decide)]
        omega
      have hw := le_wsEnd inp (n + findNl (inp.drop n))
      exact startLoop_approx f' f _ _ (wsEnd_le h1) (by omega)
    · exact .inr rfl

theorem pparseF_approx (inp : Bytes) (f' f : Nat) (h : inp.length + 2 ≤ f) : Approx (pparseF f' inp) (pparseF f inp) := by
  unfold pparseF
  have hw := Pos.ws (inp := inp) (n := 0) (Nat.zero_le _) (cut_zero inp)
  refine Approx.bind (startLoop_approx f' f _ _ hw.2.1 (by omega)) fun r hr => ?_
  have hr := (startLoop_spec f' _ _ hw.2.1 hw.2.2).ok hr
  exact Approx.bind (pvalue_approx inp f' f _ _ hr.2.1 hr.2.2 (by omega)) fun q _ => .inr rfl

end Verif
