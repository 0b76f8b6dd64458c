import Verif.AgainBlock
/-
What is written for a block collection, read again: the rules.
-/
namespace Verif

section
variable {inp : Bytes} {h : Bool}

/-- The next row is on a line of its own. -/
theorem next_row {T : Bytes} {e q : Nat} {w w' R' : Bytes} {E : Nat} (hg : FullGap inp e q) (hw : w = slice inp e q) (hq : q < inp.length) (hn : NL ∈ w)
    (hl : w' = w ∨ w' = lossy w) (hd : T.drop E = w' ++ R') : lastLine (T.take (E + w'.length)) = lastLine (inp.take q) := by
  have ha := GapLike.of (by rw [hw]; exact gap_at hg hq) hn hl
  rw [take_split hd, take_slice hg.le.1, ← hw, lastLine_next hn, lastLine_next (ha.nl hn), ha.last]

theorem drop_colon {n : Nat} (h : peekAt inp n = COLON) : inp.drop n = COLON :: inp.drop (n + 1) := by
  have hlt := lt_of_peek (inp := inp) (n := n) (by rw [h]; decide)
  rw [List.drop_eq_getElem_cons hlt]
  have := peek_some h (by decide)
  rw [List.getElem?_eq_getElem hlt] at this
  rw [Option.some.inj this]

/-- A dash with white space after it is not the start of a key. -/
theorem dash_key {n : Nat} (hd : peekAt inp n = DASH) (hw : isWs (peekAt inp (n + 1)) = true ∨ n + 1 = inp.length) {k : Bytes} {z : Nat} : ¬ FirstKey inp k n z := by
  rintro ⟨h1, h2, h3⟩
  have hlz : z < inp.length := lt_of_peek (by rw [some_peek h2]; decide)
  have hnz : n ≠ z := by
    rintro rfl
    rw [some_peek h2] at hd
    revert hd; decide
  rcases h3 with h3 | ⟨-, -, h3, -⟩
  · have := inQuotes_hd h3
    rw [peek_slice (by omega), hd] at this
    revert this; decide
  · rcases hw with hw | hw
    · unfold dashes at h3
      have e1 : (inp.drop n).headD 0 = DASH := hd
      have e2 : (inp.drop n).tail.headD 0 = peekAt inp (n + 1) := by rw [List.tail_drop]; rfl
      rw [e1, e2, hw] at h3
      cases h3
    · omega

/-- The value of a row. -/
theorem row_value {T : Bytes} {lo n p : Nat} {c : UInt8} {par : Option Nat} {v : Tree Unit} {ws : Option Bytes} {m : Nat} {w' R' : Bytes} {Q : Nat} (hc : peekAt inp n = c)
    (hlt : n < inp.length) (hlo : lo ≤ n) (hb : BV inp h ⟨wsStr inp (n + 1), false, true, par⟩ (wsEnd inp (n + 1)) v ws m) (hne : v.neat h)
    (hT : T.drop p = slice inp lo n ++ c :: (v.text ++ (w' ++ R'))) (hll : lastLine (T.take p) = lastLine (inp.take lo))
    (hx : Next inp T h (wsOr inp ws m).1 (wsOr inp ws m).2 w' R' Q) (hQ : Q = p + (n - lo) + 1 + v.text.length + w'.length) :
    T.drop (p + (n - lo) + 1 + v.text.length) = w' ++ R' ∧ hd (v.text ++ (w' ++ R')) = peekAt inp (n + 1) ∧
    (v.text = [] → n + 1 = inp.length ∨ par.isSome = true ∧ (isWs (peekAt inp (n + 1)) = true ∨ peekAt inp (n + 1) = HASH)) ∧
    ∃ b e, FullGap T (p + (n - lo) + 1) b ∧ Sits T contentView (PSt.spot ⟨wsStr inp (n + 1), false, true, par⟩) v.content b e ∧ FullGap T e Q := by
  have hl : (slice inp lo n).length = n - lo := slice_length (Nat.le_of_lt hlt)
  have h1 := drop_add hT
  rw [hl] at h1
  have h2 := drop_cons h1
  have hlen : p + (n - lo) + 1 ≤ T.length := by
    have := congrArg List.length h1
    rw [List.length_drop, List.length_cons] at this
    omega
  refine ⟨drop_add h2, ?_⟩
  subst hQ
  refine hb rfl rfl (n + 1) hlt rfl rfl hne T _ w' R' h2 hlen ?_ hx
  have e1 : T.take (p + (n - lo) + 1) = T.take p ++ slice inp lo (n + 1) := by
    have : slice inp lo (n + 1) = slice inp lo n ++ [c] := by
      rw [← slice_append (inp := inp) hlo (Nat.le_succ n)]
      congr 1
      have := slice_of (inp := inp) (n := n) (x := [c]) (s := inp.drop (n + 1)) (by
        rw [List.drop_eq_getElem_cons hlt, ← hc]
        unfold peekAt
        rw [List.drop_eq_getElem_cons hlt]
        rfl)
      exact this
    have hs := take_split (s := slice inp lo n ++ [c]) (r := v.text ++ (w' ++ R')) (p := p) (T := T) (by rw [hT]; simp)
    rw [this, ← hs, List.length_append, hl]
    rfl
  rw [e1, take_slice (le_wsEnd inp (n + 1)), take_slice (Nat.le_succ_of_le hlo)]
  exact lastLine_same (lastLine_same hll _) _

/-- The start of an entry. -/
theorem head_along {T k X : Bytes} {first : Bool} {st n p : Nat} (hh : Head inp first (some k) st (n + 1)) (hT : T.drop p = slice inp st n ++ COLON :: X)
    (hX : hd X = peekAt inp (n + 1)) : Head T first (some k) p (p + (n - st) + 1) := by
  obtain ⟨q, hq, hk⟩ := hh
  cases hq
  refine ⟨_, rfl, ?_⟩
  cases first with
  | true => exact firstKey_along hk hT hX
  | false =>
    obtain ⟨h1, h2, h3, h4, h5⟩ := hk
    have hlt : n < inp.length := lt_of_peek (by rw [some_peek h2]; decide)
    have hl : (slice inp st n).length = n - st := slice_length (Nat.le_of_lt hlt)
    have hd1 := drop_add hT
    have hs := slice_of hT
    rw [hl] at hd1 hs
    exact ⟨by omega, at_cons hd1, by rw [hs]; exact h3, h4, h5⟩

/-- Another entry can be the start of a mapping only if its key ends where the entry's does. -/
theorem later_key {T X k : Bytes} {key : RStr} {st n p z : Nat} (hk : LaterKey inp key.id st n) (hkw : key.write = slice inp st n)
    (hq : hd key.write ≠ DQ ∧ hd key.write ≠ SQ) (hn : isWs (peekAt inp (n + 1)) = true ∨ peekAt inp (n + 1) = 0) (hT : T.drop p = slice inp st n ++ COLON :: X)
    (hX : hd X = peekAt inp (n + 1)) (hf : FirstKey inp k st z) : ∃ k' z', FirstKey T k' p z' := by
  obtain ⟨h1, h2, h3, h4, h5⟩ := hk
  have hlt : n < inp.length := lt_of_peek (by rw [some_peek h2]; decide)
  have hz : z = n := by
    obtain ⟨f1, f2, f3⟩ := hf
    rcases f3 with f3 | ⟨-, -, -, -, f7, f8⟩
    · exfalso
      have hz : st < z := by
        rcases Nat.eq_or_lt_of_le f1 with rfl | h
        · rw [slice_self] at f3; cases f3
        · exact h
      have := inQuotes_hd f3
      rw [peek_slice hz, ← peek_slice h1, ← hkw] at this
      exact this.elim hq.1 hq.2
    · rcases Nat.lt_trichotomy z n with hlz | rfl | hlz
      · exfalso
        refine h4 ?_
        rw [← h3]
        exact mem_slice f2 f1 hlz
      · rfl
      · exact absurd ⟨h2, by rw [getD_peek]; exact hn⟩ (f8 n (by omega) hlz)
  subst hz
  exact ⟨_, _, firstKey_along hf hT hX⟩

/-- The same, from what is known of an entry. -/
theorem entry_key (hc : h = true → ∀ i, peekAt inp i = COLON → peekAt inp (i + 1) ≠ HASH) {T X k : Bytes} {key : RStr} {first : Bool} {v : Tree Unit} {par : Option Nat}
    {st n p z : Nat} (hd : peekAt inp n = COLON)
    (hk : Head inp first (some key.id) st (n + 1)) (hkw : key.write = slice inp st n) (h0 : first = false) (hh : h = true) (hs : spaced true key v)
    (r2 : Verif.hd (v.text ++ X) = peekAt inp (n + 1))
    (r3 : v.text = [] → n + 1 = inp.length ∨ par.isSome = true ∧ (isWs (peekAt inp (n + 1)) = true ∨ peekAt inp (n + 1) = HASH))
    (hT : T.drop p = slice inp st n ++ COLON :: (v.text ++ X)) (hf : FirstKey inp k st z) : ∃ k' z', FirstKey T k' p z' := by
  subst h0
  obtain ⟨q, hq, hk⟩ := hk
  cases hq
  refine later_key hk hkw (hs.2 rfl) ?_ hT r2 hf
  rcases hs.1 with h0 | h0
  · rcases r3 h0 with h | ⟨-, h | h⟩
    · exact .inr (by rw [h]; unfold peekAt; rw [List.drop_of_length_le (Nat.le_refl _)]; rfl)
    · exact .inl h
    · exact absurd h (hc hh _ hd)
  · rw [← r2]
    cases hv0 : v.text with
    | nil => rw [hv0] at h0; exact absurd h0 (by decide)
    | cons b r => rw [hv0] at h0; exact .inl h0

/-- The last entry of a mapping. -/
theorem last_entry (hc : h = true → ∀ i, peekAt inp i = COLON → peekAt inp (i + 1) ≠ HASH) {ind st : Nat} {key : RStr} {ip : Bytes} {n : Nat} {v : Tree Unit}
    {ws : Option Bytes} {m m0 : Nat} (hd : peekAt inp n = COLON)
    (hv : (PV inp ⟨wsStr inp (bump inp n 1), false, true, some ind⟩ (wsEnd inp (bump inp n 1)) v ws m ∧
      EV inp ⟨wsStr inp (bump inp n 1), false, true, some ind⟩ (wsEnd inp (bump inp n 1)) v ws m ∧
      AV inp ⟨wsStr inp (bump inp n 1), false, true, some ind⟩ (wsEnd inp (bump inp n 1)) v ws m) ∧
      BV inp h ⟨wsStr inp (bump inp n 1), false, true, some ind⟩ (wsEnd inp (bump inp n 1)) v ws m)
    (hs : ¬ Goes inp true ind (wsOr inp ws m).2) (hm : m0 = (wsOr inp ws m).2) :
    ABM inp h ind st key ip n (.cons () ip key v .nil) (wsOr inp ws m).1 m0 := by
  refine fun first hi hle hkw hk hne => ⟨fun h0 => (hne.1 h0).1, fun T p w' R' out hr hT hll hx => ?_⟩
  subst hm
  have hlt := lt_of_peek (inp := inp) (n := n) (by rw [hd]; decide)
  rw [bump_one hlt] at hv
  obtain ⟨e, -, h2⟩ := hv.1.2.1 (n + 1) (by omega) rfl rfl rfl
  have ho : out = slice inp st n ++ COLON :: v.text := by
    rw [row_text, hkw] at hr
    simpa [Items.render] using hr.symm
  subst ho
  have hsl : (slice inp st n).length = n - st := slice_length (Nat.le_of_lt hlt)
  have hlen : p + (slice inp st n ++ COLON :: v.text).length + w'.length = p + (n - st) + 1 + v.text.length + w'.length := by
    simp [hsl]; omega
  rw [hlen] at hx ⊢
  have hT1 : T.drop p = slice inp st n ++ COLON :: (v.text ++ (w' ++ R')) := by rw [hT]; simp
  obtain ⟨r1, r2, r3, b, e', r4, r5, r6⟩ := row_value (c := COLON) (lo := st) hd hlt hle hv.2 hne.2.1 hT1 hll hx rfl
  refine ⟨?_, fun h0 hh k z hf => ?_, e', ?_, r6⟩
  · rw [List.append_assoc]
    exact hd_slice hle (Nat.le_of_lt hlt) (by rw [hd]; rfl)
  · exact entry_key hc hd (hk hd) hkw h0 hh ((hne.1 h0).2 hh) r2 r3 hT1 hf
  · rw [contents_cons]
    exact .last (k := some key.id) (by rw [columnAt_eq hll]; exact hi) (head_along (hk hd) hT1 r2) r4 r5 r6
      (hx.goes h2.2.2.2.1 h2.2.2.1.le.1 r1 hs)

theorem block_rules (hc : h = true → ∀ i, peekAt inp i = COLON → peekAt inp (i + 1) ≠ HASH) :
    Rules inp (fun s n t ws m => (PV inp s n t ws m ∧ EV inp s n t ws m ∧ AV inp s n t ws m) ∧ BV inp h s n t ws m)
    (fun last tr ip n items tr' w m => PFS inp last tr ip n items tr' w m ∧ EFS inp last tr ip n items tr' w m ∧ AFS inp last tr ip n items tr' w m)
    (fun last tr ip st n items tr' w st' m => PFM inp last tr ip st n items tr' w st' m ∧ EFM inp last tr ip st n items tr' w st' m ∧
      AFM inp last tr ip st n items tr' w st' m)
    (fun ind ip n items w m => (PBS inp ind ip n items w m ∧ EBS inp ind ip n items w m) ∧ ABS inp h ind ip n items w m)
    (fun ind st key ip n items w m => (PBM inp ind st key ip n items w m ∧ EBM inp ind st key ip n items w m) ∧ ABM inp h ind st key ip n items w m) where
  scalar := by
    intro f s n sc ws m hl
    refine ⟨again_rules.scalar hl, fun hi ht a ha hn hp => ?_⟩
    have hnl : n ≤ inp.length := by rw [hn]; exact wsEnd_le ha
    have hw : wsEnd inp n = n := by rw [hn]; exact wsEnd_idem _ _
    have hL := (lead_spec hnl).ok hl
    cases (lead_back hnl hw (by rw [hi, ht]; rfl) hl).1 _ _ _ rfl with
    | text h1 h2 h3 =>
      cases hL with
      | scalar _ _ _ h4 _ =>
      exact BV.text h1 h2 (by rw [hi] at h3; exact h3) h4 hi ht a ha hn hp
    | «open» h1 h2 h3 =>
      cases hL with
      | scalar _ _ _ h4 _ =>
      exact BV.open h1 h2 h3 h4 hi ht a ha hn hp
    | @block v e h1 h2 h3 =>
      obtain ⟨k1, k2⟩ := block_write hnl hl h3 rfl rfl
      exact BV.lines h1 h2 h3 k1 k2 hi ht a ha hn hp
  seq := by
    intro f s n items w m hl hb
    refine ⟨again_rules.seq hl hb.1, fun hi ht a ha hn hp hne T p w' R' hT hpT hll hx => ?_⟩
    obtain ⟨hd0, hws, -⟩ := lead_seq hl
    have hlt := lt_of_peek (inp := inp) (n := n) (by rw [hd0]; decide)
    have hw : wsEnd inp n = n := by rw [hn]; exact wsEnd_idem _ _
    have hg : FullGap inp a n := by rw [hn]; exact FullGap.ws ha
    have hpre : s.pre = slice inp a n := by rw [hp, hn]; rfl
    obtain ⟨e, out, r1, -⟩ := hb.1.2 true (fun _ => hws) rfl
    obtain ⟨-, hA⟩ := hb.2 true (fun _ => hws) rfl hne
    have hx : Next inp T h w m w' R' (p + (Tree.node () s.pre false (indentFrom inp n) .block items).text.length + w'.length) := hx
    have ht : (Tree.node () s.pre false (indentFrom inp n) .block items).text = s.pre ++ out := by rw [block_text, r1]; rfl
    rw [ht] at hT hx ⊢
    rw [List.append_assoc] at hT
    rw [List.length_append, ← Nat.add_assoc] at hx ⊢
    have hT2 := drop_add hT
    obtain ⟨c1, -, hi', c3, c4⟩ := hA T _ w' R' out r1 hT2 (by rw [take_split hT]; exact hll) hx
    have hst := wsEnd_start hw
    refine ⟨?_, fun hnil => ?_, p + s.pre.length, hi', fullGap_at hT hpT ?_ (by rw [c1]; exact hst), ?_, c4⟩
    · rw [List.append_assoc, hpre]
      exact hd_slice hg.le.1 (Nat.le_of_lt hlt) c1
    · exfalso
      rw [(List.append_eq_nil_iff.1 hnil).2] at r1
      cases items with
      | nil => cases c3
      | cons u ip k v rest =>
        have := congrArg List.length r1
        rw [row_text] at this
        simp [lossy, chars, charsGo] at this
    · rw [hpre]; exact gap_at hg hlt
    · have hcol : columnAt T (p + s.pre.length) = indentFrom inp n := by
        rw [show indentFrom inp n = columnAt inp n from rfl]
        exact columnAt_eq (by rw [take_split hT]; exact hll)
      refine .dashes (l := items.elemsC.list) ⟨_, rfl, rfl⟩ (spot_block hi) ?_
      rw [hcol, elems_contents]
      exact c3
  flowSeq := by
    intro f s n items tr w m hl hb hr
    have A := again_rules.flowSeq hl hb hr
    refine ⟨A, fun hi ht a ha hn hp hne T p w' R' hT hpT hll hx => ?_⟩
    have hnl : n ≤ inp.length := by rw [hn]; exact wsEnd_le ha
    have hw : wsEnd inp n = n := by rw [hn]; exact wsEnd_idem _ _
    have hg : FullGap inp a n := by rw [hn]; exact FullGap.ws ha
    have hpre : s.pre = slice inp a n := by rw [hp, hn]; rfl
    have hltm := lt_of_peek (inp := inp) (n := m) (by rw [hr]; decide)
    rw [bump_one hltm] at hx A
    have hlt : n < inp.length := by
      cases (lead_spec hnl).ok hl with
      | flowSeq h1 => exact lt_of_peek (by rw [h1]; decide)
    obtain ⟨-, ⟨o, o1, o2⟩, A3⟩ := A.2.2 (.inr rfl) (by rw [ht, hi]; rfl) hnl hw (by rw [hpre]; exact gap_at hg hlt) (.inl rfl) hne
    obtain ⟨g1, g2, -⟩ := A3 T p _ hT (.inl rfl) (.inl rfl)
    have hpk : hd (o ++ (w' ++ R')) = peekAt inp n ∧ o ≠ [] := by
      rcases o2 with ⟨-, -, o2⟩ | ⟨o2, o3⟩
      · exfalso
        cases (lead_spec hnl).ok hl with
        | flowSeq h1 => rw [h1] at o2; revert o2; decide
      · cases o with
        | nil => exact absurd rfl o2
        | cons x y => exact ⟨o3, o2⟩
    refine ⟨?_, fun hnil => ?_, _, _, g1, g2, ?_⟩
    · rw [o1, List.append_assoc, hpre]
      exact hd_slice hg.le.1 hnl hpk.1
    · rw [o1] at hnil
      exact absurd (List.append_eq_nil_iff.1 hnil).2 hpk.2
    · have hT2 := drop_add hT
      refine hx.full (e := m + 1) rfl (FullGap.ws hltm) hT2 ?_
      have := congrArg List.length hT
      rw [List.length_drop, List.length_append] at this
      omega
  flowMap := by
    intro f s n items tr w st m hl hb hr
    have A := again_rules.flowMap hl hb hr
    refine ⟨A, fun hi ht a ha hn hp hne T p w' R' hT hpT hll hx => ?_⟩
    have hnl : n ≤ inp.length := by rw [hn]; exact wsEnd_le ha
    have hw : wsEnd inp n = n := by rw [hn]; exact wsEnd_idem _ _
    have hg : FullGap inp a n := by rw [hn]; exact FullGap.ws ha
    have hpre : s.pre = slice inp a n := by rw [hp, hn]; rfl
    have hltm := lt_of_peek (inp := inp) (n := m) (by rw [hr]; decide)
    rw [bump_one hltm] at hx A
    have hlt : n < inp.length := by
      cases (lead_spec hnl).ok hl with
      | flowMap h1 => exact lt_of_peek (by rw [h1]; decide)
    obtain ⟨-, ⟨o, o1, o2⟩, A3⟩ := A.2.2 (.inr rfl) (by rw [ht, hi]; rfl) hnl hw (by rw [hpre]; exact gap_at hg hlt) (.inl rfl) hne
    obtain ⟨g1, g2, -⟩ := A3 T p _ hT (.inl rfl) (.inl rfl)
    have hpk : hd (o ++ (w' ++ R')) = peekAt inp n ∧ o ≠ [] := by
      rcases o2 with ⟨-, -, o2⟩ | ⟨o2, o3⟩
      · exfalso
        cases (lead_spec hnl).ok hl with
        | flowMap h1 => rw [h1] at o2; revert o2; decide
      · cases o with
        | nil => exact absurd rfl o2
        | cons x y => exact ⟨o3, o2⟩
    refine ⟨?_, fun hnil => ?_, _, _, g1, g2, ?_⟩
    · rw [o1, List.append_assoc, hpre]
      exact hd_slice hg.le.1 hnl hpk.1
    · rw [o1] at hnil
      exact absurd (List.append_eq_nil_iff.1 hnil).2 hpk.2
    · have hT2 := drop_add hT
      refine hx.full (e := m + 1) rfl (FullGap.ws hltm) hT2 ?_
      have := congrArg List.length hT
      rw [List.length_drop, List.length_append] at this
      omega
  keyNull := by
    intro f s n key m i hl hpi hcol
    refine ⟨again_rules.keyNull hl hpi hcol, fun hi ht a ha hn hp hne T p w' R' hT hpT hll hx => ?_⟩
    have hnl : n ≤ inp.length := by rw [hn]; exact wsEnd_le ha
    have hw : wsEnd inp n = n := by rw [hn]; exact wsEnd_idem _ _
    have hg : FullGap inp a n := by rw [hn]; exact FullGap.ws ha
    have hpre : s.pre = slice inp a n := by rw [hp, hn]; rfl
    have hk := (lead_back hnl hw (by rw [hi, ht]; rfl) hl).2 _ _ rfl
    have hlt : n < inp.length := by
      have := lt_of_peek (inp := inp) (n := m) (by rw [some_peek hk.2.1]; decide)
      have := hk.1
      omega
    have hh : h = true := by
      cases h with
      | true => rfl
      | false => exact absurd rfl (hne.2 rfl)
    have hx : Next inp T h s.pre n w' R' (p + 0 + w'.length) := hx
    have hT : T.drop p = w' ++ R' := hT
    have hpk := hx.peek hpre hg.le.1
    refine ⟨hpk, fun _ => .inr ⟨by rw [hpi]; rfl, ?_⟩, p + w'.length, p + w'.length, hx.full hpre hg hT hpT, ?_, ?_⟩
    · cases hx with
      | done x1 => omega
      | more x1 x2 x3 x4 =>
        obtain ⟨b, r, r', e1, e2, e3⟩ := (GapLike.of x2 x3 x4).head
        rw [e2] at hpk
        have hpk : b = peekAt inp a := hpk
        rw [← hpk]
        exact e3.symm
    · have : s.spot = .under i := by simp [PSt.spot, hi, hpi]
      rw [this]
      have hlin := hx.line hpre hg.le.1 hT hlt
      cases hx with
      | done x1 => omega
      | more x1 x2 x3 x4 x5 x6 =>
        obtain ⟨k', z', hk'⟩ := x6 hh _ _ hk
        rw [Nat.add_zero] at hk'
        refine .empty rfl hk' ?_
        rw [columnAt_eq hlin]
        exact hcol
    · have := hx.full hpre hg hT hpT
      rw [show p + (Tree.leaf () [] (.null .empty) : Tree Unit).text.length + w'.length = p + w'.length from rfl]
      have hw2 := FullGap.ws this.le.2
      rw [this.end] at hw2
      exact hw2
  keyMap := by
    intro f s n key m items w m' hl hpi hb
    refine ⟨again_rules.keyMap hl hpi hb.1, fun hi ht a ha hn hp hne T p w' R' hT hpT hll hx => ?_⟩
    have hnl : n ≤ inp.length := by rw [hn]; exact wsEnd_le ha
    have hw : wsEnd inp n = n := by rw [hn]; exact wsEnd_idem _ _
    have hg : FullGap inp a n := by rw [hn]; exact FullGap.ws ha
    have hpre : s.pre = slice inp a n := by rw [hp, hn]; rfl
    have hk := (lead_back hnl hw (by rw [hi, ht]; rfl) hl).2 _ _ rfl
    have hlt : n < inp.length := by
      have := lt_of_peek (inp := inp) (n := m) (by rw [some_peek hk.2.1]; decide)
      have := hk.1
      omega
    cases (lead_spec hnl).ok hl with
    | key k1 k2 k3 k4 _ =>
    obtain ⟨e, out, r1, -⟩ := hb.1.2 true rfl k1 k4 (fun _ => ⟨m, rfl, hk⟩)
    obtain ⟨-, hA⟩ := hb.2 true rfl k1 k4 (fun _ => ⟨m, rfl, hk⟩) hne
    have hx : Next inp T h w m' w' R' (p + (Tree.node () s.pre true (indentFrom inp n) .block items).text.length + w'.length) := hx
    have ht : (Tree.node () s.pre true (indentFrom inp n) .block items).text = s.pre ++ out := by rw [block_text, r1]; rfl
    rw [ht] at hT hx ⊢
    rw [List.append_assoc] at hT
    rw [List.length_append, ← Nat.add_assoc] at hx ⊢
    have hT2 := drop_add hT
    obtain ⟨c1, -, hi', c3, c4⟩ := hA T _ w' R' out r1 hT2 (by rw [take_split hT]; exact hll) hx
    have hst := wsEnd_start hw
    have hcol : columnAt T (p + s.pre.length) = indentFrom inp n := by
      rw [show indentFrom inp n = columnAt inp n from rfl]
      exact columnAt_eq (by rw [take_split hT]; exact hll)
    refine ⟨?_, fun hnil => ?_, p + s.pre.length, hi', fullGap_at hT hpT ?_ (by rw [c1]; exact hst), ?_, c4⟩
    · rw [List.append_assoc, hpre]
      exact hd_slice hg.le.1 (Nat.le_of_lt hlt) c1
    · exfalso
      rw [(List.append_eq_nil_iff.1 hnil).2] at r1
      cases items with
      | nil => cases c3
      | cons u ip k v rest =>
        have := congrArg List.length r1
        rw [row_text] at this
        simp at this
    · rw [hpre]; exact gap_at hg hlt
    · refine .keys (l := items.entriesC.list) ⟨_, rfl, rfl⟩ ⟨spot_block hi, fun c hc => ?_⟩ ?_
      · rw [hcol]
        exact hpi c (spot_under hc).2
      · rw [hcol, entries_contents]
        exact c3
  fsStop := fun h1 => again_rules.fsStop h1
  fsLast := fun h1 h2 => again_rules.fsLast h1 h2.1
  fsComma := fun h1 h2 h3 h4 => again_rules.fsComma h1 h2.1 h3 h4
  fsOther := fun h1 h2 h3 h4 => again_rules.fsOther h1 h2.1 h3 h4
  fmStop := fun h1 => again_rules.fmStop h1
  fmLast := fun h1 h2 h3 => again_rules.fmLast h1 h2 h3.1
  fmComma := fun h1 h2 h3 h4 h5 => again_rules.fmComma h1 h2 h3.1 h4 h5
  fmOther := fun h1 h2 h3 h4 h5 => again_rules.fmOther h1 h2 h3.1 h4 h5
  bsLast := by
    intro ind ip n v ws m hd hv hs
    refine ⟨again_rules.bsLast hd hv.1 hs, fun first hf hi hne => ⟨fun h0 => (hne.1 h0).1, fun T p w' R' out hr hT hll hx => ?_⟩⟩
    have hlt := lt_of_peek (inp := inp) (n := n) (by rw [hd]; decide)
    rw [bump_one hlt] at hv
    obtain ⟨e, -, h2⟩ := hv.1.2.1 (n + 1) (by omega) rfl rfl rfl
    have ho : out = DASH :: v.text := by
      rw [row_text] at hr
      simpa [Items.render] using hr.symm
    subst ho
    obtain ⟨r1, r2, r3, b, e', r4, r5, r6⟩ := row_value hd hlt (Nat.le_refl _) hv.2 hne.2.1 (by rw [slice_self]; exact hT) hll hx (by simp; omega)
    rw [Nat.sub_self, Nat.add_zero] at r1 r4
    refine ⟨by rw [hd]; rfl, fun h0 hh k z => dash_key hd ?_, e', ?_, r6⟩
    · rcases (hne.1 h0).2 hh |>.1 with h0 | h0
      · rcases r3 h0 with h | ⟨h, -⟩
        · exact .inr h
        · cases h
      · rw [← r2]
        cases hv0 : v.text with
        | nil => rw [hv0] at h0; exact absurd h0 (by decide)
        | cons b r => rw [hv0] at h0; exact .inl h0
    · rw [contents_cons]
      refine .last (k := none) (by rw [columnAt_eq hll]; exact hi) ⟨at_cons hT, fun h0 => ?_, rfl⟩ r4 r5 r6 ?_
      · rw [getD_peek, peek_of (drop_cons hT)]; exact r2 ▸ hf h0
      · have hg : ¬ Goes inp false ind (wsOr inp ws m).2 := by
          rintro ⟨c1, c2⟩
          exact hs.elim (· c1) (· (some_peek c2))
        have := hx.goes h2.2.2.2.1 h2.2.2.1.le.1 r1 hg
        rw [show p + (DASH :: v.text).length + w'.length = p + 1 + v.text.length + w'.length by simp; omega]
        exact this
  bsMore := by
    intro ind ip n v ws m items w m' hd hv hc hd' hr'
    refine ⟨again_rules.bsMore hd hv.1 hc hd' hr'.1, fun first hf hi hne => ⟨fun h0 => (hne.1 h0).1, fun T p w' R' out hr hT hll hx => ?_⟩⟩
    have hlt := lt_of_peek (inp := inp) (n := n) (by rw [hd]; decide)
    have hlt' := lt_of_peek (inp := inp) (n := (wsOr inp ws m).2) (by rw [hd']; decide)
    rw [bump_one hlt] at hv
    obtain ⟨e, -, -, -, h2, h3, -⟩ := hv.1.2.1 (n + 1) (by omega) rfl rfl rfl
    obtain ⟨-, out', k1, -⟩ := hr'.1.2 false (fun h => by cases h) hc
    obtain ⟨hnl, hA⟩ := hr'.2 false (fun h => by cases h) hc hne.2.2
    have hnl := hnl rfl
    generalize hw0 : (wsOr inp ws m).1 = w0 at *
    generalize hq0 : (wsOr inp ws m).2 = q at *
    have ho : out = DASH :: (v.text ++ (lossy w0 ++ out')) := by
      rw [row_text, k1] at hr
      simpa using hr.symm
    subst ho
    have hT1 : T.drop p = DASH :: (v.text ++ (lossy w0 ++ (out' ++ (w' ++ R')))) := by rw [hT]; simp
    have hT2 : T.drop (p + 1 + v.text.length) = lossy w0 ++ (out' ++ (w' ++ R')) := drop_add (drop_cons hT1)
    have hT3 := drop_add hT2
    have hlen : p + (DASH :: (v.text ++ (lossy w0 ++ out'))).length + w'.length = p + 1 + v.text.length + (lossy w0).length + out'.length + w'.length := by
      simp; omega
    rw [hlen] at hx ⊢
    obtain ⟨c1, c2, hi', c3, c4⟩ := hA T _ w' R' out' k1 hT3 (next_row h2 h3 hlt' hnl (.inr rfl) hT2) hx
    have hx' : Next inp T h w0 q (lossy w0) (out' ++ (w' ++ R')) (p + 1 + v.text.length + (lossy w0).length) :=
      .more hlt' (by rw [h3]; exact gap_at h2 hlt') hnl (.inr rfl) c1 (fun hh k z hk => absurd hk (c2 rfl hh k z))
    obtain ⟨r1, r2, r3, b, e', r4, r5, r6⟩ := row_value (c := DASH) (lo := n) hd hlt (Nat.le_refl _) hv.2 hne.2.1 (by rw [slice_self]; exact hT1) hll
      (by rw [hw0, hq0]; exact hx') (by simp)
    rw [Nat.sub_self, Nat.add_zero] at r1 r4
    refine ⟨by rw [hd]; rfl, fun h0 hh k z => dash_key hd ?_, hi', ?_, c4⟩
    · rcases (hne.1 h0).2 hh |>.1 with h0 | h0
      · rcases r3 h0 with h | ⟨h, -⟩
        · exact .inr h
        · cases h
      · rw [← r2]
        cases hv0 : v.text with
        | nil => rw [hv0] at h0; exact absurd h0 (by decide)
        | cons b r => rw [hv0] at h0; exact .inl h0
    · rw [contents_cons]
      refine .more (k := none) (by rw [columnAt_eq hll]; exact hi) ⟨at_cons hT, fun h0 => ?_, rfl⟩ r4 r5 r6 c3
      rw [getD_peek, peek_of (drop_cons hT1), r2]; exact hf h0
  bmLast := by
    intro ind st key ip n v ws m hd hv hs
    exact ⟨again_rules.bmLast hd hv.1 hs, last_entry hc hd hv (fun h => hs h.1) rfl⟩
  bmEnd := by
    intro ind st key ip n v ws m m0 hd hv hs hnk
    refine ⟨again_rules.bmEnd hd hv.1 hs hnk, ?_⟩
    have hlt := lt_of_peek (inp := inp) (n := n) (by rw [hd]; decide)
    have hv' := hv.1.2.1
    rw [bump_one hlt] at hv'
    obtain ⟨e, -, h2⟩ := hv' (n + 1) (by omega) rfl rfl rfl
    have h4 := h2.2.2.1
    refine last_entry hc hd hv ?_ (nextKey_end h4.1.2.1 hnk)
    rintro ⟨-, c⟩
    simp only [if_true, getD_peek] at c
    exact (nextKey_none h4.1.2.1 hnk).elim c.1 c.2
  bmMore := by
    intro ind st key ip n v ws m m0 key' items w m' hd hv hcol hnk hr'
    refine ⟨again_rules.bmMore hd hv.1 hcol hnk hr'.1, fun first hi hle hkw hk hne => ⟨fun h0 => (hne.1 h0).1, fun T p w' R' out hr hT hll hx => ?_⟩⟩
    have hlt := lt_of_peek (inp := inp) (n := n) (by rw [hd]; decide)
    rw [bump_one hlt] at hv
    obtain ⟨e, -, -, -, h4, h3, -⟩ := hv.1.2.1 (n + 1) (by omega) rfl rfl rfl
    have h2 := h4
    obtain ⟨g1, g2, g⟩ := nextKey_some h4.1.2.1 hnk
    obtain ⟨-, out', k1, -⟩ := hr'.1.2 false hcol (by omega) (nextKey_write h4.1.2.1 hnk) (fun h => ⟨m0, rfl, g h⟩)
    obtain ⟨hnl, hA⟩ := hr'.2 false hcol (by omega) (nextKey_write h4.1.2.1 hnk) (fun h => ⟨m0, rfl, g h⟩) hne.2.2
    have hnl := hnl rfl
    have hlt' : (wsOr inp ws m).2 < inp.length := by omega
    generalize hw0 : (wsOr inp ws m).1 = w0 at *
    generalize hq0 : (wsOr inp ws m).2 = q at *
    have ho : out = slice inp st n ++ COLON :: (v.text ++ (w0 ++ out')) := by
      rw [row_text, k1, hkw] at hr
      simpa using hr.symm
    subst ho
    have hT1 : T.drop p = slice inp st n ++ COLON :: (v.text ++ (w0 ++ (out' ++ (w' ++ R')))) := by rw [hT]; simp
    have hsl : (slice inp st n).length = n - st := slice_length (Nat.le_of_lt hlt)
    have hT2 := drop_add hT1
    rw [hsl] at hT2
    have hT2 := drop_add (drop_cons hT2)
    have hT3 := drop_add hT2
    have hlen : p + (slice inp st n ++ COLON :: (v.text ++ (w0 ++ out'))).length + w'.length =
        p + (n - st) + 1 + v.text.length + w0.length + out'.length + w'.length := by
      simp [hsl]; omega
    rw [hlen] at hx ⊢
    obtain ⟨c1, c2, hi', c3, c4⟩ := hA T _ w' R' out' k1 hT3 (next_row h2 h3 hlt' hnl (.inl rfl) hT2) hx
    have hx' : Next inp T h w0 q w0 (out' ++ (w' ++ R')) (p + (n - st) + 1 + v.text.length + w0.length) :=
      .more hlt' (by rw [h3]; exact gap_at h2 hlt') hnl (.inl rfl) c1 (fun hh k z hk => c2 rfl hh k z hk)
    obtain ⟨r1, r2, r3, b, e', r4, r5, r6⟩ := row_value (c := COLON) (lo := st) hd hlt hle hv.2 hne.2.1 hT1 hll (by rw [hw0, hq0]; exact hx') rfl
    refine ⟨?_, fun h0 hh k z hf => ?_, hi', ?_, c4⟩
    · rw [List.append_assoc]
      exact hd_slice hle (Nat.le_of_lt hlt) (by rw [hd]; rfl)
    · exact entry_key hc hd (hk hd) hkw h0 hh ((hne.1 h0).2 hh) r2 r3 hT1 hf
    · rw [contents_cons]
      exact .more (k := some key.id) (by rw [columnAt_eq hll]; exact hi) (head_along (hk hd) hT1 r2) r4 r5 r6 c3

end

end Verif
