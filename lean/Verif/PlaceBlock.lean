import Verif.Place
import Verif.GrammarLemmas
import Verif.Keep
/-
The scanners, backwards: white space and block scalars.
-/
namespace Verif

/-! ### Gaps -/

theorem blankGo_glue : ∀ {c : Bool} {a b : Bytes}, gapGo c a = true → blankGo false b = true → blankGo c (a ++ b) = true
  | false, [], b, _, h => h
  | true, [], b, h, _ => by cases h
  | true, x :: a, b, h1, h2 => by
    rw [List.cons_append]; unfold blankGo; unfold gapGo at h1; exact blankGo_glue h1 h2
  | false, x :: a, b, h1, h2 => by
    rw [List.cons_append]
    unfold blankGo
    unfold gapGo at h1
    split
    · next hx => rw [if_pos hx] at h1; exact blankGo_glue h1 h2
    · next hx =>
      rw [if_neg hx] at h1
      rw [Bool.and_eq_true] at h1 ⊢
      exact ⟨h1.1, blankGo_glue h1.2 h2⟩

theorem Gap.refl {inp : Bytes} {n : Nat} (h : n ≤ inp.length) : Gap inp n n := ⟨Nat.le_refl _, h, .inl (by rw [slice_self]; rfl)⟩

theorem Gap.trans {inp : Bytes} {a b c : Nat} (h1 : Gap inp a b) (h2 : Gap inp b c) : Gap inp a c := by
  refine ⟨Nat.le_trans h1.1 h2.1, h2.2.1, ?_⟩
  rw [← slice_append h1.1 h2.1]
  rcases h1.2.2 with g1 | ⟨g1, g2⟩
  · rcases h2.2.2 with k1 | ⟨k1, k2⟩
    · left; unfold gap at *; rw [gapGo_append g1]; exact k1
    · exact .inr ⟨k1, blankGo_glue g1 k2⟩
  · have : c = b := by have := h2.1; have := h2.2.1; omega
    subst this
    exact .inr ⟨g1, by rw [slice_self, List.append_nil]; exact g2⟩

theorem wsGo_end : ∀ (c : Bool) (s : Bytes), gapGo c (s.take (wsGo c s).1) = true ∨ (wsGo c s).1 = s.length ∧ blankGo c (s.take (wsGo c s).1) = true
  | false, [] => .inl rfl
  | true, [] => .inr ⟨rfl, rfl⟩
  | true, b :: r => by
    simp only [wsGo]
    split
    · next h =>
      simp only [beq_iff_eq] at h
      subst h
      rcases wsGo_end false r with h | ⟨h1, h2⟩
      · exact .inl h
      · exact .inr ⟨congrArg (· + 1) h1, h2⟩
    · next h =>
      have hb : (b != NL) = true := by simpa using h
      rcases wsGo_end true r with h | ⟨h1, h2⟩
      · left; rw [List.take_succ_cons, gapGo, hb]; exact h
      · right; rw [List.take_succ_cons, blankGo, hb]; exact ⟨congrArg (· + 1) h1, h2⟩
  | false, b :: r => by
    simp only [wsGo]
    split
    · next h =>
      rcases wsGo_end true r with h' | ⟨h1, h2⟩
      · left; rw [List.take_succ_cons, gapGo, if_pos h]; exact h'
      · right; rw [List.take_succ_cons, blankGo, if_pos h]; exact ⟨congrArg (· + 1) h1, h2⟩
    · next h =>
      have key : isWs b = true → gapGo false ((b :: r).take ((wsGo false r).1 + 1)) = true ∨
          (wsGo false r).1 + 1 = (b :: r).length ∧ blankGo false ((b :: r).take ((wsGo false r).1 + 1)) = true := by
        intro hw
        rcases wsGo_end false r with h' | ⟨h1, h2⟩
        · left; rw [List.take_succ_cons, gapGo, if_neg h, hw]; exact h'
        · right; rw [List.take_succ_cons, blankGo, if_neg h, hw]; exact ⟨congrArg (· + 1) h1, h2⟩
      split
      · next h2 => exact key ((isWs_iff b).2 (.inl (by simpa using h2)))
      · split
        · next h3 => exact key ((isWs_iff b).2 (.inr h3))
        · exact .inl rfl

theorem Gap.ws {inp : Bytes} {n : Nat} (h : n ≤ inp.length) : Gap inp n (wsEnd inp n) := by
  refine ⟨le_wsEnd _ _, wsEnd_le h, ?_⟩
  have := wsGo_end false (inp.drop n)
  rw [slice, wsEnd, Nat.add_sub_cancel_left]
  rw [List.length_drop] at this
  rcases this with h1 | ⟨h1, h2⟩
  · exact .inl h1
  · exact .inr ⟨by omega, h2⟩

/-! ### Bytes -/

theorem peek_some {inp : Bytes} {n : Nat} {b : UInt8} (h : peekAt inp n = b) (hb : b ≠ 0) : inp[n]? = some b := by
  have hn := lt_of_peek (inp := inp) (n := n) (by rw [h]; exact hb)
  rw [List.getElem?_eq_getElem hn, ← peekAt_get hn, h]

theorem some_peek {inp : Bytes} {n : Nat} {b : UInt8} (h : inp[n]? = some b) : peekAt inp n = b := by
  obtain ⟨hn, rfl⟩ := List.getElem?_eq_some_iff.1 h
  exact peekAt_get hn

theorem getD_peek (inp : Bytes) (n : Nat) : inp.getD n 0 = peekAt inp n := by
  rcases Nat.lt_or_ge n inp.length with h | h
  · rw [peekAt_get h]; simp [h]
  · rw [peekAt_ge h]; simp [h]

theorem peek_slice {inp : Bytes} {n m : Nat} (h : n < m) : hd (slice inp n m) = peekAt inp n := by
  unfold slice peekAt
  obtain ⟨k, hk⟩ : ∃ k, m - n = k + 1 := ⟨m - n - 1, by omega⟩
  rw [hk]
  cases inp.drop n <;> rfl

theorem slice_mem {inp : Bytes} {n m : Nat} {b : UInt8} (h : b ∈ slice inp n m) : ∃ p, n ≤ p ∧ p < m ∧ inp[p]? = some b := by
  obtain ⟨i, hi, rfl⟩ := List.getElem_of_mem h
  unfold slice at hi ⊢
  rw [List.length_take, List.length_drop] at hi
  refine ⟨n + i, by omega, by omega, ?_⟩
  simp

theorem wsEnd_start {inp : Bytes} {n : Nat} (h : wsEnd inp n = n) : isWs (peekAt inp n) = false ∧ peekAt inp n ≠ HASH := by
  unfold wsEnd at h
  unfold peekAt
  cases hs : inp.drop n with
  | nil => decide
  | cons b r =>
    rw [hs] at h
    simp only [wsGo] at h
    show isWs b = false ∧ b ≠ HASH
    split at h
    · simp at h
    · next h1 =>
      split at h
      · simp at h
      · next h2 =>
        split at h
        · simp at h
        · next h3 =>
          simp only [beq_iff_eq] at h1 h2
          refine ⟨?_, h1⟩
          cases hw : isWs b with
          | false => rfl
          | true => rcases (isWs_iff b).1 hw with h | h
                    · exact absurd h h2
                    · exact absurd h h3

/-! ### White space -/

theorem FullGap.ws {inp : Bytes} {n : Nat} (h : n ≤ inp.length) : FullGap inp n (wsEnd inp n) := by
  obtain ⟨h1, h2⟩ := wsEnd_start (wsEnd_idem inp n)
  exact ⟨Gap.ws h, by rw [getD_peek]; exact h1, by rw [getD_peek]; exact h2⟩

theorem FullGap.eq {inp : Bytes} {a b : Nat} (h : FullGap inp a b) : wsEnd inp a = b := by
  obtain ⟨⟨h1, h2, h3⟩, h4, h5⟩ := h
  have hs : stopWs (inp.drop b) := by
    rw [getD_peek] at h4 h5
    exact ⟨h4, h5⟩
  have hd : inp.drop a = slice inp a b ++ inp.drop b := by
    have := List.take_append_drop (b - a) (inp.drop a)
    rw [List.drop_drop, show a + (b - a) = b by omega] at this
    exact this.symm
  have hlen : (slice inp a b).length = b - a := by
    have := congrArg List.length hd
    rw [List.length_append, List.length_drop, List.length_drop] at this
    omega
  rcases h3 with h3 | ⟨rfl, h3⟩
  · rw [wsEnd, hd, wsGo_gap h3 hs, hlen]; omega
  · rw [List.drop_length, List.append_nil] at hd
    rw [wsEnd, hd, wsGo_blank h3, hlen]; omega

theorem wsGo_breaksIn : ∀ (c : Bool) (s : Bytes), (s.take (wsGo c s).1).count NL = (wsGo c s).2
  | _, [] => by cases ‹Bool› <;> rfl
  | true, b :: r => by
    simp only [wsGo]
    split
    · next h => have := wsGo_breaksIn false r; simp only [beq_iff_eq] at h; subst h; simp [this]
    · next h => have := wsGo_breaksIn true r; simp only [beq_iff_eq] at h; simp [this, h]
  | false, b :: r => by
    simp only [wsGo]
    split
    · next h => have := wsGo_breaksIn true r; simp only [beq_iff_eq] at h; subst h; rw [List.take_succ_cons, List.count_cons_of_ne (by decide), this]
    · split
      · next h => have := wsGo_breaksIn false r; simp only [beq_iff_eq] at h; subst h; simp [this]
      · next h =>
        split
        · have := wsGo_breaksIn false r; simp only [beq_iff_eq] at h; simp [this, h]
        · rfl

theorem breaks_ws (inp : Bytes) (n : Nat) : breaksIn inp n (wsEnd inp n) = wsNl inp n := by
  rw [breaksIn, slice, wsEnd, Nat.add_sub_cancel_left, wsGo_breaksIn]; rfl

theorem findNl_take : ∀ s : Bytes, NL ∉ s.take (findNl s)
  | [] => by simp [findNl]
  | b :: r => by
    simp only [findNl]
    split
    · simp
    · next h =>
      have := findNl_take r
      rw [List.take_succ_cons, List.mem_cons]
      rintro (h' | h')
      · subst h'; exact h (by decide)
      · exact this h'

theorem LineAt.find {inp : Bytes} {n : Nat} (h : n ≤ inp.length) : LineAt inp n (n + findNl (inp.drop n)) := by
  refine ⟨by omega, by rw [slice, Nat.add_sub_cancel_left]; exact findNl_take _, ?_⟩
  obtain ⟨h1, h2⟩ := findNl_spec (inp.drop n)
  rw [List.length_drop] at h1 h2
  rcases h2 with h2 | h2
  · exact .inr (peek_some (by rw [peekAt_add, h2]) (by decide))
  · exact .inl (by omega)

/-! ### White space around a line -/

theorem trimGo_find : ∀ (n : Nat) (s : Bytes), s.length ≤ n → ∃ l : List Nat, (∀ w ∈ l, w ∈ whites) ∧ s = l.flatMap utf8 ++ trimGo uniWsLen 0 s ∧
    ∀ w ∈ whites, ¬ utf8 w <+: trimGo uniWsLen 0 s
  | n, s, hn => by
    by_cases h : uniWsLen s = 0
    · rw [trimGo_none h]
      refine ⟨[], (fun _ h => by cases h), rfl, ?_⟩
      rintro w hw ⟨r, rfl⟩
      rw [uniWsLen_white hw] at h
      have := white_ne hw
      exact this (List.length_eq_zero_iff.1 h)
    · obtain ⟨w, hw, r, rfl⟩ := uniWsLen_find h
      have hne := white_ne hw
      have hpos : 0 < (utf8 w).length := List.length_pos_iff.2 hne
      match n with
      | 0 => rw [List.length_append] at hn; omega
      | n + 1 =>
        obtain ⟨l, h1, h2, h3⟩ := trimGo_find n r (by rw [List.length_append] at hn; omega)
        rw [trimGo_white hne (uniWsLen_white hw _)]
        refine ⟨w :: l, ?_, ?_, h3⟩
        · intro x hx
          rcases List.mem_cons.1 hx with rfl | hx
          · exact hw
          · exact h1 x hx
        · rw [List.flatMap_cons, List.append_assoc, ← h2]

theorem trimGo_findRev : ∀ (n : Nat) (s : Bytes), s.length ≤ n → ∃ l : List Nat, (∀ w ∈ l, w ∈ whites) ∧ s = (trimGo uniWsLenRev 0 s.reverse).reverse ++ l.flatMap utf8 ∧
    ∀ w ∈ whites, ¬ utf8 w <:+ (trimGo uniWsLenRev 0 s.reverse).reverse
  | n, s, hn => by
    by_cases h : uniWsLenRev s.reverse = 0
    · rw [trimGo_none h, List.reverse_reverse]
      refine ⟨[], (fun _ h => by cases h), by simp, ?_⟩
      rintro w hw ⟨r, rfl⟩
      rw [List.reverse_append, uniWsLenRev_white hw] at h
      have := white_ne hw
      exact this (List.length_eq_zero_iff.1 h)
    · obtain ⟨w, hw, r, hr⟩ := uniWsLenRev_find h
      have hs : s = r.reverse ++ utf8 w := by rw [← List.reverse_reverse s, hr, List.reverse_append, List.reverse_reverse]
      have hne := white_ne hw
      have hpos : 0 < (utf8 w).length := List.length_pos_iff.2 hne
      have hlen : s.length = r.length + (utf8 w).length := by rw [hs, List.length_append, List.length_reverse]
      match n with
      | 0 => omega
      | n + 1 =>
        obtain ⟨l, h1, h2, h3⟩ := trimGo_findRev n r.reverse (by rw [List.length_reverse]; omega)
        rw [List.reverse_reverse] at h2 h3
        rw [hr, trimGo_white (by simpa using hne) ((uniWsLenRev_white hw _).trans (by simp))]
        refine ⟨l ++ [w], ?_, ?_, h3⟩
        · intro x hx
          rcases List.mem_append.1 hx with hx | hx
          · exact h1 x hx
          · rw [List.mem_singleton.1 hx]; exact hw
        · rw [List.flatMap_append, ← List.append_assoc, ← h2, hs]; simp

theorem trim_trimmed (s : Bytes) : Trimmed s (trim s) := by
  obtain ⟨l, h1, h2, h3⟩ := trimGo_find _ s (Nat.le_refl _)
  obtain ⟨r, h4, h5, h6⟩ := trimGo_findRev _ (trimGo uniWsLen 0 s) (Nat.le_refl _)
  refine ⟨l, r, ?_, ?_, ?_⟩
  · intro w hw
    rcases List.mem_append.1 hw with hw | hw
    · exact h1 w hw
    · exact h4 w hw
  · rw [show trim s ++ r.flatMap utf8 = _ from h5.symm, ← h2]
  · intro w hw
    refine ⟨fun h => h3 w hw ?_, h6 w hw⟩
    rw [h5]
    exact h.trans (List.prefix_append _ _)

/-! ### Block scalars -/

theorem blockLoop_rows {inp : Bytes} {c : Nat} {join : UInt8} {folded : Bool} (hj : join = if folded then SP else NL) : ∀ {f : Nat} {st st' : BlockSt},
    blockLoop inp c join folded f st = .ok st' → st.n ≤ inp.length → st.n ≠ inp.length →
    ∃ v hi, BlockRows inp folded c st.n v hi st'.nl ∧ st'.scratch = st.scratch ++ v ∧ hi ≤ inp.length ∧ st.n ≤ hi ∧ st'.ws = wsStr inp hi ∧ st'.n = wsEnd inp hi
  | 0, _, _, h, _, _ => by cases h
  | f + 1, st, st', h, hn, he => by
    unfold blockLoop at h
    rw [if_neg he] at h
    have hl := LineAt.find hn
    have hb := (line_end hn).1
    have hg := FullGap.ws hb
    have ht := trim_trimmed (slice inp st.n (st.n + findNl (inp.drop st.n)))
    have hlt : st.n < inp.length := by omega
    have hnl := breaks_ws inp (st.n + findNl (inp.drop st.n))
    have hbt : List.replicate (if folded then 1 else wsNl inp (st.n + findNl (inp.drop st.n))) join =
        between folded (breaksIn inp (st.n + findNl (inp.drop st.n)) (wsEnd inp (st.n + findNl (inp.drop st.n)))) := by
      rw [hnl, hj]; unfold between; cases folded <;> rfl
    simp only [hbt] at h
    generalize st.n + findNl (inp.drop st.n) = e at *
    split at h
    · next hc =>
      cases h
      refine ⟨_, e, ?_, rfl, hb, hl.1, rfl, rfl⟩
      show BlockRows inp folded c st.n _ e (wsNl inp e)
      rw [← hnl]
      exact .last hlt hl ht hg hc
    · next hc =>
      have hc : c ≤ columnAt inp (wsEnd inp e) := Nat.le_of_not_lt hc
      by_cases hend : wsEnd inp e = inp.length
      · cases f with
        | zero => cases h
        | succ f =>
          unfold blockLoop at h
          rw [if_pos hend] at h
          cases h
          refine ⟨_, e, ?_, List.append_assoc _ _ _, hb, hl.1, rfl, rfl⟩
          show BlockRows inp folded c st.n _ e (wsNl inp e)
          rw [← hnl]
          rw [hend] at hg hc ⊢
          exact .final hlt hl ht hg hc
      · obtain ⟨v, hi, h1, h2, h3, h4, h5, h6⟩ := blockLoop_rows hj h hg.1.2.1 hend
        refine ⟨_, hi, .more hlt hl ht hg hc h1, ?_, h3, Nat.le_trans hl.1 (Nat.le_trans hg.1.1 h4), h5, h6⟩
        rw [h2]; simp only [List.append_assoc]

theorem block_back {f : Nat} {inp : Bytes} {n hdr : Nat} {join : UInt8} {folded chomp clip : Bool} {s : RStr} {ws : Bytes} {m : Nat}
    (hj : join = if folded then SP else NL) (hclip : chomp = true → clip = false) (hn : n ≤ inp.length)
    (h : block f inp n hdr join folded chomp clip = .ok (s, ws, m)) :
    ∃ w hi k, BlockBody inp folded (bump inp n hdr) w hi k ∧ s.id = w ++ (if chomp then List.replicate k NL else []) ∧ bump inp n hdr ≤ hi ∧ hi ≤ inp.length ∧
      ws = wsStr inp hi ∧ m = wsEnd inp hi := by
  have hst : bump inp n hdr ≤ inp.length := Nat.min_le_right _ _
  unfold block at h
  generalize bump inp n hdr = start at *
  simp only [bind, Except.bind] at h
  have hg := FullGap.ws hst
  have hk := breaks_ws inp start
  have htail : ∀ k, (if chomp = true then if clip = true then List.replicate (min k 1) NL else List.replicate k NL else []) = if chomp = true then List.replicate k NL else [] := by
    intro k
    cases chomp with
    | false => rfl
    | true => rw [hclip rfl]; rfl
  split at h
  · cases h
  · next st' hs =>
    cases h
    by_cases h0 : wsNl inp start = 0
    · rw [if_pos h0] at hs
      have hline : wsEnd inp start + findNl (inp.drop (wsEnd inp start)) = start + findNl (inp.drop start) := by
        rw [findNl_ws false (inp.drop start) h0, List.drop_drop]; unfold wsEnd; omega
      simp only [hline] at hs
      have hl := LineAt.find hst
      have hb := (line_end hst).1
      have ht := trim_trimmed (slice inp start (start + findNl (inp.drop start)))
      generalize start + findNl (inp.drop start) = e at *
      have hg2 := FullGap.ws hb
      by_cases hend : wsEnd inp e = inp.length
      · have : st' = ⟨inp.length, trim (slice inp start e), inp.length, wsStr inp e, wsNl inp e⟩ := by
          cases f with
          | zero => cases hs
          | succ f =>
            unfold blockLoop at hs
            simp only [hend, if_true] at hs
            cases hs; rfl
        subst this
        refine ⟨_, e, _, ?_, congrArg _ (htail _), hl.1, hb, rfl, hend.symm⟩
        rw [← breaks_ws, hend]
        rw [hend] at hg2
        exact .beside hg (hk.trans h0) hl ht hg2
      · rw [if_neg hend] at hs
        obtain ⟨v, hi, h1, h2, h3, h4, h5, h6⟩ := blockLoop_rows hj hs hg2.1.2.1 hend
        refine ⟨_, hi, _, .both hg (hk.trans h0) hl ht hg2 h1, ?_, Nat.le_trans hl.1 (Nat.le_trans hg2.1.1 h4), h3, h5, h6⟩
        show st'.scratch ++ _ = _
        rw [h2, htail, hj]
        congr 2
        cases folded <;> rfl
    · rw [if_neg h0] at hs
      by_cases hend : wsEnd inp start = inp.length
      · have : st' = ⟨inp.length, [], inp.length, wsStr inp start, wsNl inp start⟩ := by
          cases f with
          | zero => cases hs
          | succ f =>
            unfold blockLoop at hs
            simp only [hend, if_true] at hs
            cases hs; rfl
        subst this
        refine ⟨[], start, wsNl inp start, ?_, congrArg ([] ++ ·) (htail (wsNl inp start)), Nat.le_refl _, hst, rfl, hend.symm⟩
        rw [hend] at hg hk
        rw [← hk]
        exact .nothing hg (by omega)
      · obtain ⟨v, hi, h1, h2, h3, h4, h5, h6⟩ := blockLoop_rows hj hs hg.1.2.1 hend
        refine ⟨_, hi, _, .below hg (by omega) h1, ?_, Nat.le_trans hg.1.1 h4, h3, h5, h6⟩
        show st'.scratch ++ _ = _
        rw [h2, htail]; rfl

end Verif
