import Verif.EchoLead
/-
What is written for every value the parser finds.
-/
namespace Verif

section
variable (inp : Bytes)

/-- White space that was read together with a value that ends at `e`, and the white space after it. -/
def Trails (inline : Bool) (lo e : Nat) (ws : Option Bytes) (m : Nat) : Prop :=
  Gap inp e m ∧ (ws = none → e = m ∧ atBlock inp lo = false) ∧ FullGap inp e (wsOr inp ws m).2 ∧ (wsOr inp ws m).1 = slice inp e (wsOr inp ws m).2 ∧
    ∀ w, ws = some w → WsAt inp inline lo e w m

def EV (s : PSt) (n : Nat) (t : Tree Unit) (ws : Option Bytes) (m : Nat) : Prop :=
  ∀ a, a ≤ inp.length → n = wsEnd inp a → s.pre = wsStr inp a → s.tabular = !s.inline → ∃ e, Writes inp s.spot a t.text e ∧ Trails inp s.inline n e ws m

def EFS (last tr : Bool) (ip : Bytes) (n : Nat) (items : Items Unit) (tr' : Bool) (w : Bytes) (m : Nat) : Prop :=
  n ≤ inp.length → peekAt inp m = RBR → WritesCells inp false last ip n (inlineText false items tr' w) m ∧ (items.isNil = true → tr' = tr) ∧
    (items.isNil = true ↔ n = m)

def EFM (last tr : Bool) (ip : Bytes) (_st n : Nat) (items : Items Unit) (tr' : Bool) (w : Bytes) (_st' m : Nat) : Prop :=
  n ≤ inp.length → peekAt inp m = RCB → WritesCells inp true last ip n (inlineText true items tr' w) m ∧ (items.isNil = true → tr' = tr) ∧
    (items.isNil = true ↔ n = m)

def EBS (ind : Nat) (ip : Bytes) (n : Nat) (items : Items Unit) (w : Bytes) (m : Nat) : Prop :=
  ∀ first, (first = true → isWs (peekAt inp (n + 1)) = true) → columnAt inp n = ind →
    ∃ hi out, items.render false .block = lossy ip ++ out ∧ WritesRows inp false ind first n out hi ∧ FullGap inp hi m ∧ w = slice inp hi m

def EBM (ind st : Nat) (key : RStr) (ip : Bytes) (n : Nat) (items : Items Unit) (w : Bytes) (m : Nat) : Prop :=
  ∀ first, columnAt inp st = ind → st ≤ n → key.write = slice inp st n → (peekAt inp n = COLON → Head inp first (some key.id) st (n + 1)) →
    ∃ hi out, items.render true .block = ip ++ out ∧ WritesRows inp true ind first st out hi ∧ FullGap inp hi m ∧ w = slice inp hi m
end

theorem inlineText_more (m : Bool) (ip : Bytes) (key : RStr) (v : Tree Unit) (items : Items Unit) (tr last : Bool) (w : Bytes) (n hi : Nat)
    (h1 : items.isNil = true → tr = !last) (h2 : items.isNil = true ↔ n = hi) :
    inlineText m (.cons () ip key v items) tr w =
      (if m then ip ++ key.write ++ [COLON] else lossy ip) ++ v.text ++ (if last = true ∧ n = hi then [] else [COMMA]) ++ inlineText m items tr w := by
  cases hn : items.isNil with
  | false =>
    have : ¬ (last = true ∧ n = hi) := fun h => by have := h2.2 h.2; rw [hn] at this; cases this
    rw [if_neg this]
    exact inlineText_cons _ _ _ _ _ _ _ (fun h => by rw [hn] at h; cases h)
  | true =>
    cases items with
    | cons => cases hn
    | nil =>
    cases last with
    | false =>
      rw [if_neg (c := false = true ∧ n = hi) (by simp)]
      exact inlineText_cons _ _ _ _ _ _ _ h1
    | true =>
      rw [if_pos (c := true = true ∧ n = hi) ⟨rfl, h2.1 rfl⟩, List.append_nil, h1 rfl, inlineText_nil]
      exact inlineText_last _ _ _ _ _

theorem leaf_text (p : Bytes) (sc : Scalar) : Tree.text (.leaf () p sc) = p ++ sc.write := rfl

theorem block_text (p : Bytes) (m : Bool) (i : Nat) (items : Items Unit) : Tree.text (.node () p m i .block items) = p ++ items.render m .block := by
  simp [Tree.text, Tree.pre, Tree.render, openOf, closeOf]

theorem row_text (m : Bool) (ip : Bytes) (key : RStr) (v : Tree Unit) (rest : Items Unit) : Items.render m .block (.cons () ip key v rest) =
    (if m then ip ++ key.write ++ [COLON] else lossy ip ++ [DASH]) ++ v.text ++ rest.render m .block := by
  cases m <;> simp [Items.render, Tree.text, sepOf]

section
variable {inp : Bytes}

theorem Trails.none {inline : Bool} {lo m : Nat} (hm : m ≤ inp.length) (h : atBlock inp lo = false) : Trails inp inline lo m none m :=
  ⟨Gap.refl hm, fun _ => ⟨rfl, h⟩, FullGap.ws hm, rfl, fun _ h => by cases h⟩

theorem Trails.block {lo e m : Nat} {w : Bytes} (h : FullGap inp e m) (hw : w = slice inp e m) : Trails inp false lo e (some w) m :=
  ⟨h.1, (fun h => by cases h), h, hw, fun _ _ => ⟨h.end, fun h => by cases h⟩⟩

theorem Trails.lines {inline : Bool} {lo e : Nat} (he : e ≤ inp.length) (hb : atBlock inp lo = true) : Trails inp inline lo e (some (wsStr inp e)) (wsEnd inp e) :=
  ⟨Gap.ws he, (fun h => by cases h), FullGap.ws he, rfl, fun w h => ⟨wsEnd_idem _ _, fun _ => ⟨hb, by cases h; rfl, rfl⟩⟩⟩

/-- The white space before the next item of an inline sequence, after a comma. -/
theorem space_comma {b e m : Nat} {next : Option Bytes} (h : Trails inp true b e next m) (hc : peekAt inp m = COMMA) :
    ∃ start, NextCell inp false (atBlock inp b) e false start (wsOr inp next (m + 1)).2 ∧ (wsOr inp next (m + 1)).2 ≤ inp.length ∧
      cellSpace inp false (atBlock inp b) false e start (wsOr inp next (m + 1)).2 = (wsOr inp next (m + 1)).1 := by
  obtain ⟨h1, h2, h3, h4, h5⟩ := h
  obtain ⟨start, g1, g2, g3⟩ := next_comma h1 h2 h5 hc
  refine ⟨start, g1, g2, ?_⟩
  have hlt := lt_of_peek (inp := inp) (n := m) (by rw [hc]; decide)
  cases next with
  | none =>
    obtain ⟨rfl, hb⟩ := h2 rfl
    rw [hb] at g1 ⊢
    obtain ⟨c, rfl, ⟨-, -, g4, -⟩ | ⟨g4, -⟩⟩ := g1
    · rw [g4]; rfl
    · cases g4
  | some w =>
    obtain ⟨-, g4⟩ := h5 w rfl
    obtain ⟨hb, rfl, g5⟩ := g4 rfl
    rw [hb, g5]
    rfl

theorem space_other {b e m : Nat} {next : Option Bytes} (h : Trails inp true b e next m) (hc : peekAt inp m ≠ COMMA) :
    NextCell inp false (atBlock inp b) e true e (wsOr inp next m).2 ∧
      cellSpace inp false (atBlock inp b) true e e (wsOr inp next m).2 = (wsOr inp next m).1 := by
  obtain ⟨h1, h2, h3, h4, h5⟩ := h
  refine ⟨next_other h1 h2 h5 h3 hc, ?_⟩
  rw [h4]
  simp [cellSpace]

theorem cellSpace_map {blk last : Bool} {e start n : Nat} : cellSpace inp true blk last e start n = slice inp start n := by
  simp [cellSpace]

theorem key_cell {n q : Nat} {key : RStr} (h : untilColon inp n = (q, some key)) (hn : n ≤ inp.length) : key.write ++ [COLON] = cellKey inp true n (q + 1) := by
  obtain ⟨-, -, -, u4⟩ := untilColon_spec hn h
  rcases u4 with ⟨u4, _⟩ | ⟨u4, u5⟩
  · cases u4
  cases u4
  rfl

theorem head_dash {n : Nat} (h : peekAt inp n = DASH) : slice inp n (n + 1) = [DASH] := by
  rw [slice_one (lt_of_peek (by rw [h]; decide)), h]

theorem head_colon {st n : Nat} (h1 : st ≤ n) (h : peekAt inp n = COLON) : slice inp st (n + 1) = slice inp st n ++ [COLON] := by
  rw [← slice_append h1 (Nat.le_succ n), slice_one (lt_of_peek (by rw [h]; decide)), h]

theorem nextKey_write {n m : Nat} {key : RStr} (hn : n ≤ inp.length) (h : nextMappingKey inp n = (m, some key)) : key.write = slice inp n m := by
  obtain ⟨-, -, -, u⟩ := nextMappingKey_spec hn h
  rcases u with ⟨u, _⟩ | ⟨u, _⟩
  · cases u
  · cases u; rfl

theorem stop_ne {m : Bool} {n hi : Nat} (ho : ¬ (peekAt inp n = close m ∨ peekAt inp n = 0)) (h : peekAt inp hi = close m) : n ≠ hi :=
  fun e => ho (.inl (by rw [e, h]))

theorem echo_rules : Rules inp (EV inp) (EFS inp) (EFM inp) (EBS inp) (EBM inp) where
  scalar := by
    intro f s n sc ws m hl a ha hn hp ht
    have hnl : n ≤ inp.length := by rw [hn]; exact wsEnd_le ha
    have hw : wsEnd inp n = n := by rw [hn]; exact wsEnd_idem _ _
    have hg : FullGap inp a n := by rw [hn]; exact FullGap.ws ha
    have hpre : s.pre = slice inp a n := by rw [hp, hn]; rfl
    rw [leaf_text, hpre]
    cases (lead_back hnl hw ht hl).1 _ _ _ rfl with
    | text h1 h2 h3 =>
      cases (lead_spec hnl).ok hl with
      | scalar _ _ _ h4 _ =>
      rw [h4, slice_append hg.le.1 h1]
      exact ⟨m, .scalar hg h1 h2 (by rw [spot_inline]; exact h3), .none h2 (lead_atBlock hl)⟩
    | «open» h1 h2 h3 =>
      cases (lead_spec hnl).ok hl with
      | scalar _ _ _ h4 _ =>
      rw [h4, slice_append hg.le.1 hnl]
      exact ⟨inp.length, .open hg h2 h3, .none (Nat.le_refl _) (lead_atBlock hl)⟩
    | @block v e h1 h2 h3 =>
      obtain ⟨k1, k2⟩ := block_write hnl hl h3 rfl rfl
      refine ⟨e, ?_, .lines h3 h2.atBlock⟩
      by_cases ho : OneLine inp n
      · rw [k1 ho, slice_append hg.le.1 hnl]
        exact .line hg h2 ho
      · rw [k2 ho, slice_append hg.le.1 (by have := h2.bounds; omega)]
        exact .lines hg h2 ho
  seq := by
    intro f s n items w m hl hb a ha hn hp ht
    obtain ⟨-, hws, hi⟩ := lead_seq hl
    have hg : FullGap inp a n := by rw [hn]; exact FullGap.ws ha
    have hpre : s.pre = slice inp a n := by rw [hp, hn]; rfl
    obtain ⟨e, out, h1, h2, h3, h4⟩ := hb true (fun _ => hws) rfl
    rw [block_text, h1, hpre, hi]
    exact ⟨e, .dashes hg (spot_block hi) h2, .block h3 h4⟩
  flowSeq := by
    intro f s n items tr w m hl hb hr a ha hn hp ht
    have hnl : n ≤ inp.length := by rw [hn]; exact wsEnd_le ha
    have hg : FullGap inp a n := by rw [hn]; exact FullGap.ws ha
    have hpre : s.pre = slice inp a n := by rw [hp, hn]; rfl
    cases (lead_spec hnl).ok hl with
    | flowSeq h1 =>
    have hlt := lt_of_peek (inp := inp) (n := n) (by rw [h1]; decide)
    have hltm := lt_of_peek (inp := inp) (n := m) (by rw [hr]; decide)
    rw [bump_one hlt] at hb
    rw [bump_one hltm]
    obtain ⟨k1, k2, -⟩ := hb (wsEnd_le (by omega)) hr
    rw [collText _ _ _ _ _ k2, hpre]
    refine ⟨m + 1, ?_, .none (by omega) (atBlock_peek h1 (by decide) (by decide))⟩
    have := Writes.brackets (s := s.spot) hg (peek_some h1 (by decide)) (FullGap.ws (by omega)) k1
    simpa using this
  flowMap := by
    intro f s n items tr w st m hl hb hr a ha hn hp ht
    have hnl : n ≤ inp.length := by rw [hn]; exact wsEnd_le ha
    have hg : FullGap inp a n := by rw [hn]; exact FullGap.ws ha
    have hpre : s.pre = slice inp a n := by rw [hp, hn]; rfl
    cases (lead_spec hnl).ok hl with
    | flowMap h1 =>
    have hlt := lt_of_peek (inp := inp) (n := n) (by rw [h1]; decide)
    have hltm := lt_of_peek (inp := inp) (n := m) (by rw [hr]; decide)
    rw [bump_one hlt] at hb
    rw [bump_one hltm]
    obtain ⟨k1, k2, -⟩ := hb (wsEnd_le (by omega)) hr
    rw [collText _ _ _ _ _ k2, hpre]
    refine ⟨m + 1, ?_, .none (by omega) (atBlock_peek h1 (by decide) (by decide))⟩
    have := Writes.braces (s := s.spot) hg (peek_some h1 (by decide)) (FullGap.ws (by omega)) k1
    simpa using this
  keyNull := by
    intro f s n key m i hl hpi hc a ha hn hp ht
    have hnl : n ≤ inp.length := by rw [hn]; exact wsEnd_le ha
    have hw : wsEnd inp n = n := by rw [hn]; exact wsEnd_idem _ _
    have hg : FullGap inp a n := by rw [hn]; exact FullGap.ws ha
    have hi : s.inline = false := by
      cases (lead_spec hnl).ok hl with
      | key _ _ _ _ h => exact h
    have hk := (lead_back hnl hw ht hl).2 _ _ rfl
    have : s.spot = .under i := by simp [PSt.spot, hi, hpi]
    rw [this, hi]
    exact ⟨a, .empty hg hk hc, .block hg (by rw [hp, hn]; rfl)⟩
  keyMap := by
    intro f s n key m items w m' hl hpi hb a ha hn hp ht
    have hnl : n ≤ inp.length := by rw [hn]; exact wsEnd_le ha
    have hw : wsEnd inp n = n := by rw [hn]; exact wsEnd_idem _ _
    have hg : FullGap inp a n := by rw [hn]; exact FullGap.ws ha
    have hpre : s.pre = slice inp a n := by rw [hp, hn]; rfl
    have hk := (lead_back hnl hw ht hl).2 _ _ rfl
    cases (lead_spec hnl).ok hl with
    | key h1 h2 h3 h4 hi =>
    obtain ⟨e, out, k1, k2, k3, k4⟩ := hb true rfl h1 h4 (fun _ => ⟨m, rfl, hk⟩)
    rw [block_text, k1, hpre, hi]
    refine ⟨e, .keys hg ⟨spot_block hi, fun c h => hpi c ?_⟩ k2, .block k3 k4⟩
    exact (spot_under h).2
  fsStop := fun {last tr ip n} _ _ h => by
    rw [inlineText_nil]
    exact ⟨.none (peek_some h (by decide)), fun _ => rfl, by simp [Items.isNil]⟩
  fsLast := by
    intro tr ip n v next m ho hv hn hr
    obtain ⟨e, h1, h2⟩ := hv n hn rfl rfl rfl
    refine ⟨?_, fun h => by simp [Items.isNil] at h, by simpa [Items.isNil] using stop_ne (m := false) ho hr⟩
    have := WritesCells.final (k := none) (w := ip) (not_opens ho) rfl h1 h2.2.2.1 (peek_some hr (by decide))
    rw [inlineText_last, h2.2.2.2.1]
    simpa [itemSpace, cellKey] using this
  fsComma := by
    intro tr ip n v next m items tr' w m' ho hv hc hr hn hm
    obtain ⟨e, h1, h2⟩ := hv n hn rfl rfl rfl
    have hlt := lt_of_peek (inp := inp) (n := m) (by rw [hc]; decide)
    rw [bump_one hlt] at hr
    obtain ⟨st, g1, g2, g3⟩ := space_comma h2 hc
    obtain ⟨k1, k2, k3⟩ := hr g2 hm
    refine ⟨?_, fun h => by simp [Items.isNil] at h, by simpa [Items.isNil] using stop_ne (m := false) ho hm⟩
    rw [← g3] at k1
    have := WritesCells.cell (k := none) (w := ip) (not_opens ho) rfl (FullGap.ws hn) h1 g1 k1
    rw [inlineText_more (last := false) (h1 := k2) (h2 := k3)]
    simpa [itemSpace, cellKey] using this
  fsOther := by
    intro tr ip n v next m items tr' w m' ho hv hc hr hn hm
    obtain ⟨e, h1, h2⟩ := hv n hn rfl rfl rfl
    obtain ⟨g1, g3⟩ := space_other h2 hc
    obtain ⟨k1, k2, k3⟩ := hr h2.2.2.1.le.2 hm
    refine ⟨?_, fun h => by simp [Items.isNil] at h, by simpa [Items.isNil] using stop_ne (m := false) ho hm⟩
    rw [← g3] at k1
    have := WritesCells.cell (k := none) (w := ip) (not_opens ho) rfl (FullGap.ws hn) h1 g1 k1
    rw [inlineText_more (last := true) (h1 := k2) (h2 := k3)]
    simpa [itemSpace, cellKey] using this
  fmStop := fun {last tr ip st n} _ _ h => by
    rw [inlineText_nil]
    exact ⟨.none (peek_some h (by decide)), fun _ => rfl, by simp [Items.isNil]⟩
  fmLast := by
    intro tr ip st n key m0 v next m ho hk hv hn hr
    obtain ⟨g1, g2, g3, g4, g5⟩ := untilColon_back hn hk
    rw [bump_one g2] at hv
    obtain ⟨e, h1, h2⟩ := hv (m0 + 1) (by omega) rfl rfl rfl
    refine ⟨?_, fun h => by simp [Items.isNil] at h, by simpa [Items.isNil] using stop_ne (m := true) ho hr⟩
    have := WritesCells.final (k := some key.id) (w := ip) (not_opens ho) ⟨m0, g1, g3, rfl, g4, g5⟩ h1 h2.2.2.1 (peek_some (b := RCB) hr (by decide))
    rw [inlineText_last, h2.2.2.2.1, if_pos rfl, List.append_assoc ip, key_cell hk hn]
    exact this
  fmComma := by
    intro tr ip st n key m0 v next m items tr' w st' m' ho hk hv hc hr hn hm
    obtain ⟨g1, g2, g3, g4, g5⟩ := untilColon_back hn hk
    rw [bump_one g2] at hv
    obtain ⟨e, h1, h2⟩ := hv (m0 + 1) (by omega) rfl rfl rfl
    have hlt := lt_of_peek (inp := inp) (n := (wsOr inp next m).2) (by rw [hc]; decide)
    rw [bump_one hlt] at hr
    obtain ⟨k1, k2, k3⟩ := hr (wsEnd_le (by omega)) hm
    refine ⟨?_, fun h => by simp [Items.isNil] at h, by simpa [Items.isNil] using stop_ne (m := true) ho hm⟩
    have := WritesCells.cell (k := some key.id) (w := ip) (last := false) (start := (wsOr inp next m).2 + 1) (not_opens ho) ⟨m0, g1, g3, rfl, g4, g5⟩
      (FullGap.ws (by omega)) h1
      ⟨_, h2.2.2.1, .inl ⟨rfl, peek_some hc (by decide), by rw [Bool.and_comm]; exact ⟨rfl, FullGap.ws (by omega)⟩⟩⟩ (by rw [Option.isSome_some, cellSpace_map]; exact k1)
    rw [inlineText_more (last := false) (h1 := k2) (h2 := k3), if_pos rfl, List.append_assoc ip, key_cell hk hn]
    exact this
  fmOther := by
    intro tr ip st n key m0 v next m items tr' w st' m' ho hk hv hc hr hn hm
    obtain ⟨g1, g2, g3, g4, g5⟩ := untilColon_back hn hk
    rw [bump_one g2] at hv
    obtain ⟨e, h1, h2⟩ := hv (m0 + 1) (by omega) rfl rfl rfl
    have h4 := h2.2.2.1
    unfold wsStr at hr
    rw [h4.end] at hr
    obtain ⟨k1, k2, k3⟩ := hr h4.le.2 hm
    refine ⟨?_, fun h => by simp [Items.isNil] at h, by simpa [Items.isNil] using stop_ne (m := true) ho hm⟩
    have := WritesCells.cell (k := some key.id) (w := ip) (last := true) (start := (wsOr inp next m).2) (not_opens ho) ⟨m0, g1, g3, rfl, g4, g5⟩
      (FullGap.ws (by omega)) h1 ⟨_, h4, .inr ⟨rfl, ne_some hc, rfl, h4⟩⟩ (by rw [Option.isSome_some, cellSpace_map]; exact k1)
    rw [inlineText_more (last := true) (h1 := k2) (h2 := k3), if_pos rfl, List.append_assoc ip, key_cell hk hn]
    exact this
  bsLast := by
    intro ind ip n v ws m hd hv hs first hf hi
    have hlt := lt_of_peek (inp := inp) (n := n) (by rw [hd]; decide)
    rw [bump_one hlt] at hv
    obtain ⟨e, h1, h2⟩ := hv (n + 1) (by omega) rfl rfl rfl
    have := WritesRows.last (k := none) hi ⟨peek_some hd (by decide), (by rw [getD_peek]; exact hf), rfl⟩ h1 h2.2.2.1 (by
      rintro ⟨c1, c2⟩
      exact hs.elim (· c1) (· (some_peek c2)))
    refine ⟨e, _, ?_, this, h2.2.2.1, h2.2.2.2.1⟩
    rw [row_text, head_dash hd]
    simp [Items.render]
  bsMore := by
    intro ind ip n v ws m items w m' hd hv hc hd' hr first hf hi
    have hlt := lt_of_peek (inp := inp) (n := n) (by rw [hd]; decide)
    rw [bump_one hlt] at hv
    obtain ⟨e, h1, h2⟩ := hv (n + 1) (by omega) rfl rfl rfl
    obtain ⟨hi', out, k1, k2, k3, k4⟩ := hr false (fun h => by cases h) hc
    have := WritesRows.more (k := none) (first := first) hi ⟨peek_some hd (by decide), (by rw [getD_peek]; exact hf), rfl⟩ h1 h2.2.2.1 k2
    refine ⟨hi', _, ?_, this, k3, k4⟩
    rw [row_text, head_dash hd, k1, h2.2.2.2.1]
    simp [itemSpace]
  bmLast := by
    intro ind st key ip n v ws m hd hv hs first hi hle hkw hk
    have hlt := lt_of_peek (inp := inp) (n := n) (by rw [hd]; decide)
    rw [bump_one hlt] at hv
    obtain ⟨e, h1, h2⟩ := hv (n + 1) (by omega) rfl rfl rfl
    have := WritesRows.last (k := some key.id) hi (hk hd) h1 h2.2.2.1 (fun h => hs h.1)
    refine ⟨e, _, ?_, this, h2.2.2.1, h2.2.2.2.1⟩
    rw [row_text, head_colon hle hd, hkw]
    simp [Items.render]
  bmEnd := by
    intro ind st key ip n v ws m m0 hd hv _ hnk first hi hle hkw hk
    have hlt := lt_of_peek (inp := inp) (n := n) (by rw [hd]; decide)
    rw [bump_one hlt] at hv
    obtain ⟨e, h1, h2⟩ := hv (n + 1) (by omega) rfl rfl rfl
    have h4 := h2.2.2.1
    rw [nextKey_end h4.1.2.1 hnk]
    have := WritesRows.last (k := some key.id) hi (hk hd) h1 h4 (by
      rintro ⟨-, c⟩
      simp only [Option.isSome_some, if_true, getD_peek] at c
      exact (nextKey_none h4.1.2.1 hnk).elim c.1 c.2)
    refine ⟨e, _, ?_, this, h4, h2.2.2.2.1⟩
    rw [row_text, head_colon hle hd, hkw]
    simp [Items.render]
  bmMore := by
    intro ind st key ip n v ws m m0 key' items w m' hd hv hc hnk hr first hi hle hkw hk
    have hlt := lt_of_peek (inp := inp) (n := n) (by rw [hd]; decide)
    rw [bump_one hlt] at hv
    obtain ⟨e, h1, h2⟩ := hv (n + 1) (by omega) rfl rfl rfl
    have h4 := h2.2.2.1
    obtain ⟨g1, -, g⟩ := nextKey_some h4.1.2.1 hnk
    obtain ⟨hi', out, k1, k2, k3, k4⟩ := hr false hc (by omega) (nextKey_write h4.1.2.1 hnk) (fun h => ⟨m0, rfl, g h⟩)
    have := WritesRows.more (k := some key.id) (first := first) hi (hk hd) h1 h4 k2
    refine ⟨hi', _, ?_, this, k3, k4⟩
    rw [row_text, head_colon hle hd, hkw, k1, h2.2.2.2.1]
    simp [itemSpace]
end

end Verif
