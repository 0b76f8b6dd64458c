import Verif.EchoRules
/-
What is written, forwards: what fits the specification of `Verif.Echo` is read and written as such.
-/
namespace Verif

section
variable (inp : Bytes)

def RunW (s : Spot) (a : Nat) (out : Bytes) (hi : Nat) : Prop := ∀ st : PSt, st.spot = s → st.tabular = !st.inline → st.pre = wsStr inp a → a ≤ inp.length →
  ∃ t ws m, VE inp st (wsEnd inp a) t ws m ∧ t.text = out ∧ Trails inp st.inline (wsEnd inp a) hi ws m

def RunWRows (m : Bool) (c : Nat) (first : Bool) (lo : Nat) (out : Bytes) (hi : Nat) : Prop :=
  columnAt inp lo = c ∧
  (m = false → inp[lo]? = some DASH ∧ (first = true → isWs (inp.getD (lo + 1) 0) = true) ∧
    ∀ ip, ∃ items w m, BSE inp c ip lo items w m ∧ items.render false .block = lossy ip ++ out ∧ FullGap inp hi m ∧ w = slice inp hi m) ∧
  (m = true → ∃ k q, (if first then FirstKey inp k lo q else LaterKey inp k lo q) ∧
    ∀ key ip, key.write = slice inp lo q → ∃ items w m, BME inp c lo key ip q items w m ∧ items.render true .block = ip ++ out ∧ FullGap inp hi m ∧ w = slice inp hi m)

def RunWCells (m last : Bool) (w : Bytes) (n : Nat) (out : Bytes) (hi : Nat) : Prop := n ≤ inp.length →
  (m = false → ∀ tr, ∃ items tr' w', FSE inp last tr w n items tr' w' hi ∧ inlineText false items tr' w' = out ∧ (items.isNil = true → tr' = tr) ∧
    (items.isNil = true ↔ n = hi)) ∧
  (m = true → ∀ tr st, ∃ items tr' w' st', FME inp last tr w st n items tr' w' st' hi ∧ inlineText true items tr' w' = out ∧ (items.isNil = true → tr' = tr) ∧
    (items.isNil = true ↔ n = hi)) ∧ inp[hi]? = some (close m)
end

section
variable {inp : Bytes}

theorem runW_plain {s : Spot} {a lo hi : Nat} (hg : FullGap inp a lo) (hhi : hi ≤ inp.length)
    (h : ∃ (sc : Scalar) (f : Nat), lead f inp s.inline (!s.inline) lo = .ok (.scalar sc none hi)) : RunW inp s a (slice inp a hi) hi := by
  intro st hs ht hp ha
  obtain ⟨sc, f, h⟩ := h
  subst hs
  rw [spot_inline, ← ht] at h
  obtain rfl := hg.eq
  refine ⟨_, none, hi, (evalRules inp).scalar h, ?_, .none hhi (lead_atBlock h)⟩
  cases (lead_spec hg.le.2).ok h with
  | scalar h1 _ _ h4 _ =>
  rw [leaf_text, hp, h4]
  exact slice_append hg.le.1 h1

theorem runW_lines {s : Spot} {v : Bytes} {a lo hi : Nat} (hg : FullGap inp a lo) (h : BlockAt inp lo v hi) :
    (OneLine inp lo → RunW inp s a (slice inp a inp.length) hi) ∧ (¬ OneLine inp lo → RunW inp s a (slice inp a hi) hi) := by
  obtain rfl := hg.eq
  have key : ∀ st : PSt, st.tabular = !st.inline → st.pre = wsStr inp a → ∃ sc ws m, VE inp st (wsEnd inp a) (.leaf () st.pre sc) ws m ∧
      Trails inp st.inline (wsEnd inp a) hi ws m ∧ (OneLine inp (wsEnd inp a) → sc.write = slice inp (wsEnd inp a) inp.length) ∧
      (¬ OneLine inp (wsEnd inp a) → sc.write = slice inp (wsEnd inp a) hi) := by
    intro st ht hp
    obtain ⟨sc, h1, f, h2⟩ := lead_block (inline := st.inline) hg.end h
    rw [← ht] at h2
    exact ⟨sc, _, _, (evalRules inp).scalar h2, .lines h.bounds.2 h.atBlock, block_write hg.le.2 h2 h.bounds.2 rfl rfl⟩
  refine ⟨fun ho st hs ht hp ha => ?_, fun ho st hs ht hp ha => ?_⟩
  · obtain ⟨sc, ws, m, k1, k2, k3, -⟩ := key st ht hp
    refine ⟨_, ws, m, k1, ?_, k2⟩
    rw [leaf_text, hp, k3 ho]
    exact slice_append hg.le.1 hg.le.2
  · obtain ⟨sc, ws, m, k1, k2, -, k3⟩ := key st ht hp
    refine ⟨_, ws, m, k1, ?_, k2⟩
    rw [leaf_text, hp, k3 ho]
    exact slice_append hg.le.1 (by have := h.bounds; omega)

theorem runW_empty {k : Bytes} {c a lo q : Nat} (hg : FullGap inp a lo) (h : FirstKey inp k lo q) (hc : columnAt inp lo ≤ c) : RunW inp (.under c) a [] a := by
  intro st hs ht hp ha
  obtain rfl := hg.eq
  obtain ⟨h1, h2⟩ := spot_under hs
  obtain ⟨key, _, f, h3⟩ := lead_firstKey h
  have hl : lead f inp st.inline st.tabular (wsEnd inp a) = .ok (.key key q) := by rw [ht, h1]; exact h3
  rw [h1]
  exact ⟨_, some _, _, (evalRules inp).keyNull hl h2 hc, rfl, .block hg hp⟩

theorem runW_dashes {s : Spot} {a lo hi : Nat} {out : Bytes} (hg : FullGap inp a lo) (hs' : s ≠ .flow) (h : RunWRows inp false (columnAt inp lo) true lo out hi) :
    RunW inp s a (slice inp a lo ++ out) hi := by
  intro st hs ht hp ha
  subst hs
  obtain rfl := hg.eq
  have hi' := spot_not hs'
  obtain ⟨h1, h2, h3⟩ := h.2.1 rfl
  obtain ⟨items, w, m, h4, h5, h6, h7⟩ := h3 []
  refine ⟨_, some w, m, (evalRules inp).seq (f := 0) (lead_dash h1 (h2 rfl) hi') h4, ?_, by rw [hi']; exact .block h6 h7⟩
  rw [block_text, h5, hp]; rfl

theorem runW_keys {s : Spot} {a lo hi : Nat} {out : Bytes} (hg : FullGap inp a lo) (hs' : s.allows (columnAt inp lo))
    (h : RunWRows inp true (columnAt inp lo) true lo out hi) : RunW inp s a (slice inp a lo ++ out) hi := by
  intro st hs ht hp ha
  subst hs
  obtain rfl := hg.eq
  have hi' := spot_not hs'.1
  obtain ⟨k, q, h1, h3⟩ := h.2.2 rfl
  obtain ⟨key, h2, f, hl⟩ := lead_firstKey (by simpa using h1)
  have hl : lead f inp st.inline st.tabular (wsEnd inp a) = .ok (.key key q) := by rw [ht, hi']; exact hl
  have hkw : key.write = slice inp (wsEnd inp a) q := by
    cases (lead_spec hg.le.2).ok hl with
    | key _ _ _ h _ => exact h
  obtain ⟨items, w, m, h4, h5, h6, h7⟩ := h3 key [] hkw
  refine ⟨_, some w, m, (evalRules inp).keyMap hl (fun i hp => hs'.2 i (spot_parent hi' hp)) h4, ?_, by rw [hi']; exact .block h6 h7⟩
  rw [block_text, h5, hp]; rfl

theorem runW_brackets {s : Spot} {a lo n hi : Nat} {out : Bytes} (hg : FullGap inp a lo) (h1 : inp[lo]? = some LBR) (h2 : FullGap inp (lo + 1) n)
    (h : RunWCells inp false false (slice inp (lo + 1) n) n out hi) : RunW inp s a (slice inp a lo ++ [LBR] ++ out ++ [RBR]) (hi + 1) := by
  intro st hs ht hp ha
  obtain rfl := hg.eq
  obtain ⟨h3, -, h4⟩ := h h2.le.2
  have hlt := (List.getElem?_eq_some_iff.1 h1).1
  have hlt' := (List.getElem?_eq_some_iff.1 h4).1
  obtain ⟨items, tr', w, h5, h6, h7, -⟩ := h3 rfl false
  rw [← h2.eq] at h5
  have h8 := (evalRules inp).flowSeq (f := 0) (s := st) (lead_lbr h1) (by rw [bump_one hlt]; exact h5) (some_peek h4)
  rw [bump_one hlt'] at h8
  refine ⟨_, none, _, h8, ?_, .none hlt' (atBlock_peek (some_peek h1) (by decide) (by decide))⟩
  rw [collText _ _ _ _ _ h7, h6, hp]
  simp [wsStr]

theorem runW_braces {s : Spot} {a lo n hi : Nat} {out : Bytes} (hg : FullGap inp a lo) (h1 : inp[lo]? = some LCB) (h2 : FullGap inp (lo + 1) n)
    (h : RunWCells inp true false (slice inp (lo + 1) n) n out hi) : RunW inp s a (slice inp a lo ++ [LCB] ++ out ++ [RCB]) (hi + 1) := by
  intro st hs ht hp ha
  obtain rfl := hg.eq
  obtain ⟨-, h3, h4⟩ := h h2.le.2
  have hlt := (List.getElem?_eq_some_iff.1 h1).1
  have hlt' := (List.getElem?_eq_some_iff.1 h4).1
  obtain ⟨items, tr', w, st', h5, h6, h7, -⟩ := h3 rfl false (wsEnd inp a + 1)
  rw [← h2.eq] at h5
  have h8 := (evalRules inp).flowMap (f := 0) (s := st) (lead_lcb h1) (by rw [bump_one hlt]; exact h5) (some_peek h4)
  rw [bump_one hlt'] at h8
  refine ⟨_, none, _, h8, ?_, .none hlt' (atBlock_peek (some_peek h1) (by decide) (by decide))⟩
  rw [collText _ _ _ _ _ h7, h6, hp]
  simp [wsStr]

theorem runW_rowLast {k : Option Bytes} {c : Nat} {first : Bool} {lo a hi q : Nat} {v : Bytes} (h1 : columnAt inp lo = c) (h2 : Head inp first k lo a)
    (h4 : RunW inp (.item c k) a v hi) (h5 : FullGap inp hi q) (h6 : ¬ Goes inp k.isSome c q) : RunWRows inp k.isSome c first lo (slice inp lo a ++ v) hi := by
  refine ⟨h1, fun h => ?_, fun h => ?_⟩
  · cases k with
    | some k => cases h
    | none =>
    obtain ⟨g1, g2, rfl⟩ := h2
    refine ⟨g1, g2, fun ip => ?_⟩
    have hlt := (List.getElem?_eq_some_iff.1 g1).1
    obtain ⟨t, ws, m, e1, rfl, e2⟩ := h4 ⟨wsStr inp (lo + 1), false, true, none⟩ rfl rfl rfl hlt
    have e4 := e2.2.2.1
    rw [← bump_one hlt] at e1
    obtain rfl := h5.unique e4
    refine ⟨_, _, _, (evalRules inp).bsLast (ip := ip) (some_peek g1) e1 (Decidable.or_iff_not_imp_left.2 fun c1 c2 => h6 ⟨Decidable.not_not.1 c1, ?_⟩), ?_, e4, e2.2.2.2.1⟩
    · exact peek_some c2 (by decide)
    · rw [row_text, head_dash (some_peek g1)]
      simp [Items.render]
  · obtain ⟨k, rfl⟩ := Option.isSome_iff_exists.1 h
    obtain ⟨p, rfl, g⟩ := h2
    refine ⟨k, p, g, fun key ip hk => ?_⟩
    have hp : inp[p]? = some COLON := by
      cases first with
      | true => exact g.2.1
      | false => exact g.2.1
    have hlp : lo ≤ p := by
      cases first with
      | true => exact g.1
      | false => exact Nat.le_of_lt g.1
    have hlt := (List.getElem?_eq_some_iff.1 hp).1
    obtain ⟨t, ws, m, e1, rfl, e2⟩ := h4 ⟨wsStr inp (p + 1), false, true, some c⟩ rfl rfl rfl hlt
    have e4 := e2.2.2.1
    rw [← bump_one hlt] at e1
    obtain rfl := h5.unique e4
    have hc : Items.render true .block (.cons () ip key t .nil) = ip ++ (slice inp lo (p + 1) ++ t.text) := by
      rw [row_text, head_colon hlp (some_peek hp), hk]
      simp [Items.render]
    by_cases hcol : columnAt inp (wsOr inp ws m).2 = c
    · have hn : peekAt inp (wsOr inp ws m).2 = COLON ∨ peekAt inp (wsOr inp ws m).2 = 0 := Decidable.or_iff_not_imp_left.2 fun c1 =>
        Decidable.byContradiction fun c2 => h6 ⟨hcol, by
          show _ ≠ _ ∧ _ ≠ _
          rw [getD_peek]; exact ⟨c1, c2⟩⟩
      exact ⟨_, _, _, (evalRules inp).bmEnd (st := lo) (ip := ip) (key := key) (some_peek hp) e1 hcol (nextKey_no hn), hc, e4, e2.2.2.2.1⟩
    · exact ⟨_, _, _, (evalRules inp).bmLast (st := lo) (ip := ip) (key := key) (some_peek hp) e1 hcol, hc, e4, e2.2.2.2.1⟩

theorem runW_rowMore {k : Option Bytes} {c : Nat} {first : Bool} {lo a e lo' hi : Nat} {v out : Bytes} (h1 : columnAt inp lo = c) (h2 : Head inp first k lo a)
    (h4 : RunW inp (.item c k) a v e) (h5 : FullGap inp e lo') (h6 : RunWRows inp k.isSome c false lo' out hi) :
    RunWRows inp k.isSome c first lo (slice inp lo a ++ v ++ itemSpace k.isSome (slice inp e lo') ++ out) hi := by
  refine ⟨h1, fun h => ?_, fun h => ?_⟩
  · cases k with
    | some k => cases h
    | none =>
    obtain ⟨g1, g2, rfl⟩ := h2
    refine ⟨g1, g2, fun ip => ?_⟩
    have hlt := (List.getElem?_eq_some_iff.1 g1).1
    obtain ⟨t, ws, m, e1, rfl, e2⟩ := h4 ⟨wsStr inp (lo + 1), false, true, none⟩ rfl rfl rfl hlt
    rw [← bump_one hlt] at e1
    obtain rfl := h5.unique e2.2.2.1
    obtain ⟨r1, r2, -⟩ := h6
    obtain ⟨r2, -, r3⟩ := r2 rfl
    obtain ⟨items, w, m', r4, r5, r6, r7⟩ := r3 (wsOr inp ws m).1
    refine ⟨_, _, _, (evalRules inp).bsMore (ip := ip) (some_peek g1) e1 r1 (some_peek r2) r4, ?_, r6, r7⟩
    rw [row_text, head_dash (some_peek g1), r5, e2.2.2.2.1]
    simp [itemSpace]
  · obtain ⟨k, rfl⟩ := Option.isSome_iff_exists.1 h
    obtain ⟨p, rfl, g⟩ := h2
    refine ⟨k, p, g, fun key ip hk => ?_⟩
    have hp : inp[p]? = some COLON := by
      cases first with
      | true => exact g.2.1
      | false => exact g.2.1
    have hlp : lo ≤ p := by
      cases first with
      | true => exact g.1
      | false => exact Nat.le_of_lt g.1
    have hlt := (List.getElem?_eq_some_iff.1 hp).1
    obtain ⟨t, ws, m, e1, rfl, e2⟩ := h4 ⟨wsStr inp (p + 1), false, true, some c⟩ rfl rfl rfl hlt
    rw [← bump_one hlt] at e1
    obtain rfl := h5.unique e2.2.2.1
    obtain ⟨r1, -, r2⟩ := h6
    obtain ⟨k', q', r2, r3⟩ := r2 rfl
    obtain ⟨key', rk, rn⟩ := LaterKey.next (by simpa using r2)
    obtain ⟨items, w, m', r4, r5, r6, r7⟩ := r3 key' (wsOr inp ws m).1 (nextKey_write h5.le.2 rn)
    refine ⟨_, _, _, (evalRules inp).bmMore (st := lo) (ip := ip) (key := key) (some_peek hp) e1 r1 rn r4, ?_, r6, r7⟩
    rw [row_text, head_colon hlp (some_peek hp), hk, r5, e2.2.2.2.1]
    simp [itemSpace]

theorem runW_cellNone {m last : Bool} {w : Bytes} {hi : Nat} (h : inp[hi]? = some (close m)) : RunWCells inp m last w hi w hi := by
  intro _
  refine ⟨?_, ?_, h⟩
  · rintro rfl tr
    exact ⟨_, _, _, (evalRules inp).fsStop (last := last) (tr := tr) (ip := w) (.inl (some_peek h)), inlineText_nil _ _ _, fun _ => rfl, by simp [Items.isNil]⟩
  · rintro rfl tr st
    exact ⟨_, _, _, _, (evalRules inp).fmStop (last := last) (tr := tr) (ip := w) (st := st) (.inl (some_peek h)), inlineText_nil _ _ _, fun _ => rfl, by simp [Items.isNil]⟩

theorem runW_cellFinal {k : Option Bytes} {w v : Bytes} {n a e hi : Nat} (h1 : Opens inp k.isSome n) (h2 : CellHead inp k n a) (h4 : RunW inp .flow a v e)
    (h5 : FullGap inp e hi) (h6 : inp[hi]? = some (close k.isSome)) :
    RunWCells inp k.isSome true w n (itemSpace k.isSome w ++ cellKey inp k.isSome n a ++ v ++ slice inp e hi) hi := by
  intro hn
  have hne := stop_ne (opens_not h1) (some_peek h6)
  refine ⟨fun hk tr => ?_, fun hk tr st => ?_, h6⟩
  · cases k with
    | some k => cases hk
    | none =>
    obtain rfl : a = n := h2
    obtain ⟨t, ws, m, e1, rfl, e2⟩ := h4 ⟨wsStr inp a, true, false, none⟩ rfl rfl rfl hn
    obtain rfl := h5.unique e2.2.2.1
    refine ⟨_, _, _, (evalRules inp).fsLast (tr := tr) (ip := w) (opens_not h1) e1, ?_, fun h => by simp [Items.isNil] at h, by simpa [Items.isNil] using hne⟩
    rw [inlineText_last, e2.2.2.2.1]
    simp [itemSpace, cellKey]
  · cases k with
    | none => cases hk
    | some k =>
    obtain ⟨m0, rfl, hlt, hu⟩ := cellHead_some h2
    obtain ⟨t, ws, m, e1, rfl, e2⟩ := h4 ⟨wsStr inp (m0 + 1), true, false, none⟩ rfl rfl rfl hlt
    rw [← bump_one hlt] at e1
    obtain rfl := h5.unique e2.2.2.1
    refine ⟨_, _, _, _, (evalRules inp).fmLast (tr := tr) (ip := w) (st := st) (opens_not h1) hu e1, ?_, fun h => by simp [Items.isNil] at h, by simpa [Items.isNil] using hne⟩
    rw [inlineText_last, e2.2.2.2.1, if_pos rfl, List.append_assoc w, key_cell hu hn]
    rfl

theorem runW_cellMore {k : Option Bytes} {last : Bool} {w v out : Bytes} {n a b e start n' hi : Nat} (h1 : Opens inp k.isSome n) (h2 : CellHead inp k n a)
    (h3 : FullGap inp a b) (h4 : RunW inp .flow a v e) (h5 : NextCell inp k.isSome (atBlock inp b) e last start n')
    (h6 : RunWCells inp k.isSome last (cellSpace inp k.isSome (atBlock inp b) last e start n') n' out hi) :
    RunWCells inp k.isSome false w n
      (itemSpace k.isSome w ++ cellKey inp k.isSome n a ++ v ++ (if last = true ∧ n' = hi then [] else [COMMA]) ++ out) hi := by
  intro hn
  have hn' : n' ≤ inp.length := by
    obtain ⟨c, g1, ⟨_, g2, g3⟩ | ⟨_, _, _, g3⟩⟩ := h5
    · have := (List.getElem?_eq_some_iff.1 g2).1
      split at g3
      · omega
      · exact g3.2.le.2
    · exact g3.le.2
  obtain ⟨r1, r2, r3⟩ := h6 hn'
  obtain rfl := h3.eq
  have hne := stop_ne (opens_not h1) (some_peek r3)
  refine ⟨fun hk tr => ?_, fun hk tr st => ?_, r3⟩
  · cases k with
    | some k => cases hk
    | none =>
    obtain rfl : a = n := h2
    obtain ⟨t, ws, m, e1, rfl, e2⟩ := h4 ⟨wsStr inp a, true, false, none⟩ rfl rfl rfl hn
    by_cases hc : peekAt inp m = COMMA
    · obtain ⟨st, u1, u2, u3⟩ := space_comma e2 hc
      obtain ⟨rfl, rfl, rfl⟩ := h5.unique u1
      have hlt := lt_of_peek (inp := inp) (n := m) (by rw [hc]; decide)
      obtain ⟨items, tr', w', g1, g2, g3, g4⟩ := r1 rfl true
      have g1 : FSE inp false true (cellSpace inp false (atBlock inp (wsEnd inp a)) false e start (wsOr inp ws (m + 1)).2) (wsOr inp ws (m + 1)).2 items tr' w' hi := g1
      rw [u3] at g1
      refine ⟨_, _, _, (evalRules inp).fsComma (tr := tr) (ip := w) (opens_not h1) e1 hc (by rw [bump_one hlt]; exact g1), ?_,
        fun h => by simp [Items.isNil] at h, by simpa [Items.isNil] using hne⟩
      rw [inlineText_more (last := false) (h1 := g3) (h2 := g4), g2]
      simp [itemSpace, cellKey]
    · obtain ⟨u1, u3⟩ := space_other e2 hc
      obtain ⟨rfl, rfl, rfl⟩ := h5.unique u1
      obtain ⟨items, tr', w', g1, g2, g3, g4⟩ := r1 rfl false
      have g1 : FSE inp true false (cellSpace inp false (atBlock inp (wsEnd inp a)) true start start (wsOr inp ws m).2) (wsOr inp ws m).2 items tr' w' hi := g1
      rw [u3] at g1
      refine ⟨_, _, _, (evalRules inp).fsOther (tr := tr) (ip := w) (opens_not h1) e1 hc g1, ?_,
        fun h => by simp [Items.isNil] at h, by simpa [Items.isNil] using hne⟩
      rw [inlineText_more (last := true) (h1 := g3) (h2 := g4), g2]
      simp [itemSpace, cellKey]
  · cases k with
    | none => cases hk
    | some k =>
    obtain ⟨m0, rfl, hlt, hu⟩ := cellHead_some h2
    obtain ⟨t, ws, m, e1, rfl, e2⟩ := h4 ⟨wsStr inp (m0 + 1), true, false, none⟩ rfl rfl rfl hlt
    rw [← bump_one hlt] at e1
    rw [Option.isSome_some, cellSpace_map] at r2
    rcases map_next h5 e2.2.2.1 with ⟨hc, rfl, rfl, rfl⟩ | ⟨hc, rfl, rfl, hn1, hn2⟩
    · have hlt := lt_of_peek (inp := inp) (n := (wsOr inp ws m).2) (by rw [hc]; decide)
      obtain ⟨items, tr', w', st', g1, g2, g3, g4⟩ := r2 rfl true ((wsOr inp ws m).2 + 1)
      refine ⟨_, _, _, _, (evalRules inp).fmComma (tr := tr) (ip := w) (st := st) (opens_not h1) hu e1 hc (by rw [bump_one hlt]; exact g1), ?_,
        fun h => by simp [Items.isNil] at h, by simpa [Items.isNil] using hne⟩
      rw [inlineText_more (last := false) (h1 := g3) (h2 := g4), g2, if_pos rfl, List.append_assoc w, key_cell hu hn]
      rfl
    · obtain ⟨items, tr', w', st', g1, g2, g3, g4⟩ := r2 rfl false (wsOr inp ws m).2
      rw [hn1] at g1
      refine ⟨_, _, _, _, (evalRules inp).fmOther (tr := tr) (ip := w) (st := st) (opens_not h1) hu e1 hc g1, ?_,
        fun h => by simp [Items.isNil] at h, by simpa [Items.isNil] using hne⟩
      rw [inlineText_more (last := true) (h1 := g3) (h2 := g4), g2, if_pos rfl, List.append_assoc w, key_cell hu hn]
      rfl

mutual
/-- What fits the specification is written. -/
theorem Writes.run {s : Spot} {a : Nat} {out : Bytes} {hi : Nat} : Writes inp s a out hi → RunW inp s a out hi
  | .scalar h1 h2 h3 h4 => runW_plain h1 h3 (by obtain ⟨sc, _, f, h⟩ := lead_token h2 h3 h4; exact ⟨sc, f, h⟩)
  | .open h1 h3 h4 => runW_plain h1 (Nat.le_refl _) (by obtain ⟨sc, _, f, h⟩ := lead_open h3 h4; exact ⟨sc, f, h⟩)
  | .lines h1 h2 h3 => (runW_lines h1 h2).2 h3
  | .line h1 h2 h3 => (runW_lines h1 h2).1 h3
  | .empty h1 h2 h3 => runW_empty h1 h2 h3
  | .dashes h1 h2 h3 => runW_dashes h1 h2 h3.run
  | .keys h1 h2 h3 => runW_keys h1 h2 h3.run
  | .brackets h1 h2 h3 h4 => runW_brackets h1 h2 h3 h4.run
  | .braces h1 h2 h3 h4 => runW_braces h1 h2 h3 h4.run
theorem WritesRows.run {m : Bool} {c : Nat} {first : Bool} {lo : Nat} {out : Bytes} {hi : Nat} : WritesRows inp m c first lo out hi → RunWRows inp m c first lo out hi
  | .last h1 h2 h4 h5 h6 => runW_rowLast h1 h2 h4.run h5 h6
  | .more h1 h2 h4 h5 h6 => runW_rowMore h1 h2 h4.run h5 h6.run
theorem WritesCells.run {m last : Bool} {w : Bytes} {n : Nat} {out : Bytes} {hi : Nat} : WritesCells inp m last w n out hi → RunWCells inp m last w n out hi
  | .none h => runW_cellNone h
  | .final h1 h2 h4 h5 h6 => runW_cellFinal h1 h2 h4.run h5 h6
  | .cell h1 h2 h3 h4 h5 h6 => runW_cellMore h1 h2 h3 h4.run h5 h6.run
end
end

end Verif
