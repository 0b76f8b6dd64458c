import Verif.EchoRules
/-
A tree together with the text it was read from: which part of the text every value comes from.  Used in proofs only; nothing here is part of the Rust code.
-/
namespace Verif

/-- What is written of an item of a block collection before the white space before its value. -/
def rowHead (m : Bool) (key : RStr) : Bytes := if m then key.write ++ [COLON] else [DASH]

/-- The key as it is inspected. -/
def keyOf (m : Bool) (key : RStr) : Option Bytes := if m then some key.id else none

theorem keyOf_isSome (m : Bool) (key : RStr) : (keyOf m key).isSome = m := by cases m <;> rfl

mutual
/-- The value, with the white space and comments before it from `a`, is at `a` to `hi`. -/
inductive Lies (inp : Bytes) : Spot → Nat → Tree Unit → Nat → Prop
  | scalar {s : Spot} {sc : Scalar} {a lo hi : Nat} : FullGap inp a lo → lo ≤ hi → hi ≤ inp.length → Token s.inline (inp.drop hi) (slice inp lo hi) sc.value →
    sc.write = slice inp lo hi → Lies inp s a (.leaf () (slice inp a lo) sc) hi
  | open {s : Spot} {sc : Scalar} {ps : List Piece} {a lo : Nat} : FullGap inp a lo → ps.all Piece.known = true → inp.drop lo = DQ :: ps.flatMap Piece.text →
    sc.value = .string (ps.flatMap Piece.reads) → sc.write = slice inp lo inp.length → Lies inp s a (.leaf () (slice inp a lo) sc) inp.length
  | lines {s : Spot} {sc : Scalar} {v : Bytes} {a lo hi : Nat} : FullGap inp a lo → BlockAt inp lo v hi → sc.value = .string v → hi ≤ inp.length →
    (sc.write = slice inp lo hi ∨ followed inp = false ∧ FullGap inp hi inp.length ∧ sc.write = slice inp lo inp.length) →
    Lies inp s a (.leaf () (slice inp a lo) sc) hi
  | empty {k : Bytes} {c a lo q : Nat} : FullGap inp a lo → FirstKey inp k lo q → columnAt inp lo ≤ c → Lies inp (.under c) a (.leaf () [] (.null .empty)) a
  | dashes {s : Spot} {a lo hi : Nat} {items : Items Unit} : FullGap inp a lo → s ≠ .flow → LiesRows inp false (columnAt inp lo) true [] lo items hi →
    Lies inp s a (.node () (slice inp a lo) false (columnAt inp lo) .block items) hi
  | keys {s : Spot} {a lo hi : Nat} {items : Items Unit} : FullGap inp a lo → s.allows (columnAt inp lo) →
    LiesRows inp true (columnAt inp lo) true [] lo items hi → Lies inp s a (.node () (slice inp a lo) true (columnAt inp lo) .block items) hi
  | brackets {s : Spot} {a lo n hi : Nat} {items : Items Unit} {tr : Bool} {w : Bytes} : FullGap inp a lo → inp[lo]? = some LBR → FullGap inp (lo + 1) n →
    LiesCells inp false false (slice inp (lo + 1) n) n items tr w hi → (items.isNil = true → tr = false) →
    Lies inp s a (.node () (slice inp a lo) false 0 (.inline tr w) items) (hi + 1)
  | braces {s : Spot} {a lo n hi : Nat} {items : Items Unit} {tr : Bool} {w : Bytes} : FullGap inp a lo → inp[lo]? = some LCB → FullGap inp (lo + 1) n →
    LiesCells inp true false (slice inp (lo + 1) n) n items tr w hi → (items.isNil = true → tr = false) →
    Lies inp s a (.node () (slice inp a lo) true 0 (.inline tr w) items) (hi + 1)
/-- The items of a block collection are at `lo` to `hi`, without the white space `ip` before the first. -/
inductive LiesRows (inp : Bytes) : (m : Bool) → Nat → (first : Bool) → Bytes → Nat → Items Unit → Nat → Prop
  | last {m : Bool} {key : RStr} {ip : Bytes} {c : Nat} {first : Bool} {lo a hi q : Nat} {v : Tree Unit} : columnAt inp lo = c → Head inp first (keyOf m key) lo a →
    rowHead m key = slice inp lo a → Lies inp (.item c (keyOf m key)) a v hi → FullGap inp hi q → ¬ Goes inp m c q →
    LiesRows inp m c first ip lo (.cons () ip key v .nil) hi
  | more {m : Bool} {key : RStr} {ip : Bytes} {c : Nat} {first : Bool} {lo a e lo' hi : Nat} {v : Tree Unit} {items : Items Unit} : columnAt inp lo = c →
    Head inp first (keyOf m key) lo a → rowHead m key = slice inp lo a → Lies inp (.item c (keyOf m key)) a v e → FullGap inp e lo' →
    LiesRows inp m c false (slice inp e lo') lo' items hi → LiesRows inp m c first ip lo (.cons () ip key v items) hi
/-- The items of an inline collection are at `n` up to the bracket at `hi`.  Before the first there is `w`, before the bracket `w'`. -/
inductive LiesCells (inp : Bytes) : (m last : Bool) → (w : Bytes) → Nat → Items Unit → Bool → Bytes → Nat → Prop
  | none {m last tr : Bool} {w : Bytes} {hi : Nat} : inp[hi]? = some (close m) → LiesCells inp m last w hi .nil tr w hi
  | final {m : Bool} {key : RStr} {w : Bytes} {n a e hi : Nat} {v : Tree Unit} : Opens inp m n → CellHead inp (keyOf m key) n a →
    (m = true → key.write ++ [COLON] = cellKey inp true n a) → Lies inp .flow a v e →
    FullGap inp e hi → inp[hi]? = some (close m) → LiesCells inp m true w n (.cons () w key v .nil) false (slice inp e hi) hi
  | cell {m : Bool} {key : RStr} {last tr : Bool} {w w' : Bytes} {n a b e start n' hi : Nat} {v : Tree Unit} {items : Items Unit} : Opens inp m n →
    CellHead inp (keyOf m key) n a → (m = true → key.write ++ [COLON] = cellKey inp true n a) → FullGap inp a b → Lies inp .flow a v e →
    NextCell inp m (atBlock inp b) e last start n' →
    LiesCells inp m last (cellSpace inp m (atBlock inp b) last e start n') n' items tr w' hi → (items.isNil = true → tr = !last) →
    LiesCells inp m false w n (.cons () w key v items) tr w' hi
end

section
variable (inp : Bytes)

def LyV (s : PSt) (n : Nat) (t : Tree Unit) (ws : Option Bytes) (m : Nat) : Prop :=
  ∀ a, a ≤ inp.length → n = wsEnd inp a → s.pre = wsStr inp a → s.tabular = !s.inline → ∃ e, Lies inp s.spot a t e ∧ Trails inp s.inline n e ws m

def LyFS (last tr : Bool) (ip : Bytes) (n : Nat) (items : Items Unit) (tr' : Bool) (w : Bytes) (m : Nat) : Prop :=
  n ≤ inp.length → peekAt inp m = RBR → LiesCells inp false last ip n items tr' w m ∧ (items.isNil = true → tr' = tr)

def LyFM (last tr : Bool) (ip : Bytes) (_st n : Nat) (items : Items Unit) (tr' : Bool) (w : Bytes) (_st' m : Nat) : Prop :=
  n ≤ inp.length → peekAt inp m = RCB → LiesCells inp true last ip n items tr' w m ∧ (items.isNil = true → tr' = tr)

def LyBS (ind : Nat) (ip : Bytes) (n : Nat) (items : Items Unit) (w : Bytes) (m : Nat) : Prop :=
  ∀ first, (first = true → isWs (peekAt inp (n + 1)) = true) → columnAt inp n = ind →
    ∃ hi, LiesRows inp false ind first ip n items hi ∧ FullGap inp hi m ∧ w = slice inp hi m

def LyBM (ind st : Nat) (key : RStr) (ip : Bytes) (n : Nat) (items : Items Unit) (w : Bytes) (m : Nat) : Prop :=
  ∀ first, columnAt inp st = ind → st ≤ n → key.write = slice inp st n → (peekAt inp n = COLON → Head inp first (some key.id) st (n + 1)) →
    ∃ hi, LiesRows inp true ind first ip st items hi ∧ FullGap inp hi m ∧ w = slice inp hi m
end

section
variable {inp : Bytes}

theorem block_twice {f : Nat} {inline tab : Bool} {n e m : Nat} {sc : Scalar} {ws : Bytes} (hn : n ≤ inp.length)
    (h : lead f inp inline tab n = .ok (.scalar sc (some ws) m)) (he : e ≤ inp.length) (h1 : ws = wsStr inp e) (h2 : m = wsEnd inp e) :
    sc.write = slice inp n e ∨ followed inp = false ∧ FullGap inp e inp.length ∧ sc.write = slice inp n inp.length := by
  cases (lead_spec hn).ok h with
  | block hp hb =>
  obtain ⟨st, stop, ws0, g1, g2, g3, g4, g5, g6, g7, g8, g9, g10, g11, g12, g13⟩ := hb.ex
  have hw : ∀ {s : RStr} {k : Nat}, s.kind = .multiline (slice inp n st) → s.original = slice inp st k → st ≤ k → (Scalar.string s).write = slice inp n k := by
    intro s k h1 h2 h3
    simp only [Scalar.write, RStr.write, h1, h2]
    exact slice_append (by omega) h3
  obtain rfl : ws0 = e := by
    have a1 := congrArg List.length (g11.symm.trans h1)
    rw [wsStr, wsStr, slice_length (by rw [← g12, h2]; exact wsEnd_le he), slice_length (wsEnd_le he)] at a1
    have := le_wsEnd inp ws0
    have := le_wsEnd inp e
    omega
  rcases g13 with rfl | ⟨e1, e2, e3, e4⟩
  · exact .inl (hw g1 g2 g4)
  · refine .inr ⟨?_, ?_, ?_⟩
    · cases hf : followed inp with
      | false => rfl
      | true => exact absurd e3 (followed_spec hf hp e4)
    · have := FullGap.ws he
      rwa [← h2, e2] at this
    · rw [e1] at g2
      exact hw g1 g2 (by omega)

theorem lies_rules : Rules inp (LyV inp) (LyFS inp) (LyFM inp) (LyBS inp) (LyBM inp) where
  scalar := by
    intro f s n sc ws m hl a ha hn hp ht
    have hnl : n ≤ inp.length := by rw [hn]; exact wsEnd_le ha
    have hw : wsEnd inp n = n := by rw [hn]; exact wsEnd_idem _ _
    have hg : FullGap inp a n := by rw [hn]; exact FullGap.ws ha
    have hpre : s.pre = slice inp a n := by rw [hp, hn]; rfl
    rw [hpre]
    cases (lead_back hnl hw ht hl).1 _ _ _ rfl with
    | text h1 h2 h3 =>
      cases (lead_spec hnl).ok hl with
      | scalar _ _ _ h4 _ =>
      exact ⟨m, .scalar hg h1 h2 (by rw [spot_inline]; exact h3) h4, .none h2 (lead_atBlock hl)⟩
    | «open» h1 h2 h3 =>
      cases (lead_spec hnl).ok hl with
      | scalar _ _ _ h4 _ =>
      exact ⟨inp.length, .open hg h2 h3 h1 h4, .none (Nat.le_refl _) (lead_atBlock hl)⟩
    | @block v e h1 h2 h3 =>
      exact ⟨e, .lines hg h2 h1 h3 (block_twice hnl hl h3 rfl rfl), .lines h3 h2.atBlock⟩
  seq := by
    intro f s n items w m hl hb a ha hn hp ht
    obtain ⟨-, hws, hi⟩ := lead_seq hl
    have hg : FullGap inp a n := by rw [hn]; exact FullGap.ws ha
    have hpre : s.pre = slice inp a n := by rw [hp, hn]; rfl
    obtain ⟨e, h2, h3, h4⟩ := hb true (fun _ => hws) rfl
    rw [hpre, hi]
    exact ⟨e, .dashes hg (spot_block hi) h2, .block h3 h4⟩
  flowSeq := by
    intro f s n items tr w m hl hb hr a ha hn hp ht
    have hnl : n ≤ inp.length := by rw [hn]; exact wsEnd_le ha
    have hg : FullGap inp a n := by rw [hn]; exact FullGap.ws ha
    have hpre : s.pre = slice inp a n := by rw [hp, hn]; rfl
    cases (lead_spec hnl).ok hl with
    | flowSeq h1 =>
    have hlt := lt_of_peek (inp := inp) (n := n) (by rw [h1]; decide)
    have hltm := lt_of_peek (inp := inp) (n := m) (by rw [hr]; decide)
    rw [bump_one hlt] at hb
    rw [bump_one hltm]
    obtain ⟨k1, k2⟩ := hb (wsEnd_le (by omega)) hr
    rw [hpre]
    exact ⟨m + 1, .brackets hg (peek_some h1 (by decide)) (FullGap.ws (by omega)) k1 k2, .none (by omega) (atBlock_peek h1 (by decide) (by decide))⟩
  flowMap := by
    intro f s n items tr w st m hl hb hr a ha hn hp ht
    have hnl : n ≤ inp.length := by rw [hn]; exact wsEnd_le ha
    have hg : FullGap inp a n := by rw [hn]; exact FullGap.ws ha
    have hpre : s.pre = slice inp a n := by rw [hp, hn]; rfl
    cases (lead_spec hnl).ok hl with
    | flowMap h1 =>
    have hlt := lt_of_peek (inp := inp) (n := n) (by rw [h1]; decide)
    have hltm := lt_of_peek (inp := inp) (n := m) (by rw [hr]; decide)
    rw [bump_one hlt] at hb
    rw [bump_one hltm]
    obtain ⟨k1, k2⟩ := hb (wsEnd_le (by omega)) hr
    rw [hpre]
    exact ⟨m + 1, .braces hg (peek_some h1 (by decide)) (FullGap.ws (by omega)) k1 k2, .none (by omega) (atBlock_peek h1 (by decide) (by decide))⟩
  keyNull := by
    intro f s n key m i hl hpi hc a ha hn hp ht
    have hnl : n ≤ inp.length := by rw [hn]; exact wsEnd_le ha
    have hw : wsEnd inp n = n := by rw [hn]; exact wsEnd_idem _ _
    have hg : FullGap inp a n := by rw [hn]; exact FullGap.ws ha
    have hi : s.inline = false := by
      cases (lead_spec hnl).ok hl with
      | key _ _ _ _ h => exact h
    have hk := (lead_back hnl hw ht hl).2 _ _ rfl
    have : s.spot = .under i := by simp [PSt.spot, hi, hpi]
    rw [this, hi]
    exact ⟨a, .empty hg hk hc, .block hg (by rw [hp, hn]; rfl)⟩
  keyMap := by
    intro f s n key m items w m' hl hpi hb a ha hn hp ht
    have hnl : n ≤ inp.length := by rw [hn]; exact wsEnd_le ha
    have hw : wsEnd inp n = n := by rw [hn]; exact wsEnd_idem _ _
    have hg : FullGap inp a n := by rw [hn]; exact FullGap.ws ha
    have hpre : s.pre = slice inp a n := by rw [hp, hn]; rfl
    have hk := (lead_back hnl hw ht hl).2 _ _ rfl
    cases (lead_spec hnl).ok hl with
    | key h1 h2 h3 h4 hi =>
    obtain ⟨e, k2, k3, k4⟩ := hb true rfl h1 h4 (fun _ => ⟨m, rfl, hk⟩)
    rw [hpre, hi]
    refine ⟨e, .keys hg ⟨spot_block hi, fun c h => hpi c ?_⟩ k2, .block k3 k4⟩
    exact (spot_under h).2
  fsStop := fun {last tr ip n} _ _ h => ⟨.none (peek_some h (by decide)), fun _ => rfl⟩
  fsLast := by
    intro tr ip n v next m ho hv hn hr
    obtain ⟨e, h1, h2⟩ := hv n hn rfl rfl rfl
    refine ⟨?_, fun h => by simp [Items.isNil] at h⟩
    rw [h2.2.2.2.1]
    exact .final (not_opens ho) rfl (fun h => by cases h) h1 h2.2.2.1 (peek_some hr (by decide))
  fsComma := by
    intro tr ip n v next m items tr' w m' ho hv hc hr hn hm
    obtain ⟨e, h1, h2⟩ := hv n hn rfl rfl rfl
    have hlt := lt_of_peek (inp := inp) (n := m) (by rw [hc]; decide)
    rw [bump_one hlt] at hr
    obtain ⟨st, g1, g2, g3⟩ := space_comma h2 hc
    obtain ⟨k1, k2⟩ := hr g2 hm
    refine ⟨?_, fun h => by simp [Items.isNil] at h⟩
    rw [← g3] at k1
    exact .cell (not_opens ho) rfl (fun h => by cases h) (FullGap.ws hn) h1 g1 k1 k2
  fsOther := by
    intro tr ip n v next m items tr' w m' ho hv hc hr hn hm
    obtain ⟨e, h1, h2⟩ := hv n hn rfl rfl rfl
    obtain ⟨g1, g3⟩ := space_other h2 hc
    obtain ⟨k1, k2⟩ := hr h2.2.2.1.le.2 hm
    refine ⟨?_, fun h => by simp [Items.isNil] at h⟩
    rw [← g3] at k1
    exact .cell (not_opens ho) rfl (fun h => by cases h) (FullGap.ws hn) h1 g1 k1 k2
  fmStop := fun {last tr ip st n} _ _ h => ⟨.none (peek_some h (by decide)), fun _ => rfl⟩
  fmLast := by
    intro tr ip st n key m0 v next m ho hk hv hn hr
    obtain ⟨g1, g2, g3, g4, g5⟩ := untilColon_back hn hk
    rw [bump_one g2] at hv
    obtain ⟨e, h1, h2⟩ := hv (m0 + 1) (by omega) rfl rfl rfl
    refine ⟨?_, fun h => by simp [Items.isNil] at h⟩
    rw [h2.2.2.2.1]
    exact .final (not_opens ho) ⟨m0, g1, g3, rfl, g4, g5⟩ (fun _ => key_cell hk hn) h1 h2.2.2.1 (peek_some (b := RCB) hr (by decide))
  fmComma := by
    intro tr ip st n key m0 v next m items tr' w st' m' ho hk hv hc hr hn hm
    obtain ⟨g1, g2, g3, g4, g5⟩ := untilColon_back hn hk
    rw [bump_one g2] at hv
    obtain ⟨e, h1, h2⟩ := hv (m0 + 1) (by omega) rfl rfl rfl
    have hlt := lt_of_peek (inp := inp) (n := (wsOr inp next m).2) (by rw [hc]; decide)
    rw [bump_one hlt] at hr
    obtain ⟨k1, k2⟩ := hr (wsEnd_le (by omega)) hm
    refine ⟨?_, fun h => by simp [Items.isNil] at h⟩
    exact .cell (last := false) (start := (wsOr inp next m).2 + 1) (not_opens ho) ⟨m0, g1, g3, rfl, g4, g5⟩ (fun _ => key_cell hk hn)
      (FullGap.ws (by omega)) h1
      ⟨_, h2.2.2.1, .inl ⟨rfl, peek_some hc (by decide), by rw [Bool.and_comm]; exact ⟨rfl, FullGap.ws (by omega)⟩⟩⟩ (by rw [cellSpace_map]; exact k1) k2
  fmOther := by
    intro tr ip st n key m0 v next m items tr' w st' m' ho hk hv hc hr hn hm
    obtain ⟨g1, g2, g3, g4, g5⟩ := untilColon_back hn hk
    rw [bump_one g2] at hv
    obtain ⟨e, h1, h2⟩ := hv (m0 + 1) (by omega) rfl rfl rfl
    have h4 := h2.2.2.1
    unfold wsStr at hr
    rw [h4.end] at hr
    obtain ⟨k1, k2⟩ := hr h4.le.2 hm
    refine ⟨?_, fun h => by simp [Items.isNil] at h⟩
    exact .cell (last := true) (start := (wsOr inp next m).2) (not_opens ho) ⟨m0, g1, g3, rfl, g4, g5⟩ (fun _ => key_cell hk hn)
      (FullGap.ws (by omega)) h1 ⟨_, h4, .inr ⟨rfl, ne_some hc, rfl, h4⟩⟩ (by rw [cellSpace_map]; exact k1) k2
  bsLast := by
    intro ind ip n v ws m hd hv hs first hf hi
    have hlt := lt_of_peek (inp := inp) (n := n) (by rw [hd]; decide)
    rw [bump_one hlt] at hv
    obtain ⟨e, h1, h2⟩ := hv (n + 1) (by omega) rfl rfl rfl
    refine ⟨e, ?_, h2.2.2.1, h2.2.2.2.1⟩
    refine .last (m := false) hi ⟨peek_some hd (by decide), (by rw [getD_peek]; exact hf), rfl⟩ (head_dash hd).symm h1 h2.2.2.1 ?_
    rintro ⟨c1, c2⟩
    exact hs.elim (· c1) (· (some_peek c2))
  bsMore := by
    intro ind ip n v ws m items w m' hd hv hc hd' hr first hf hi
    have hlt := lt_of_peek (inp := inp) (n := n) (by rw [hd]; decide)
    rw [bump_one hlt] at hv
    obtain ⟨e, h1, h2⟩ := hv (n + 1) (by omega) rfl rfl rfl
    obtain ⟨hi', k2, k3, k4⟩ := hr false (fun h => by cases h) hc
    rw [h2.2.2.2.1] at k2
    exact ⟨hi', .more (m := false) hi ⟨peek_some hd (by decide), (by rw [getD_peek]; exact hf), rfl⟩ (head_dash hd).symm h1 h2.2.2.1 k2, k3, k4⟩
  bmLast := by
    intro ind st key ip n v ws m hd hv hs first hi hle hkw hk
    have hlt := lt_of_peek (inp := inp) (n := n) (by rw [hd]; decide)
    rw [bump_one hlt] at hv
    obtain ⟨e, h1, h2⟩ := hv (n + 1) (by omega) rfl rfl rfl
    exact ⟨e, .last (m := true) hi (hk hd) (by rw [head_colon hle hd, ← hkw]; rfl) h1 h2.2.2.1 (fun h => hs h.1), h2.2.2.1, h2.2.2.2.1⟩
  bmEnd := by
    intro ind st key ip n v ws m m0 hd hv _ hnk first hi hle hkw hk
    have hlt := lt_of_peek (inp := inp) (n := n) (by rw [hd]; decide)
    rw [bump_one hlt] at hv
    obtain ⟨e, h1, h2⟩ := hv (n + 1) (by omega) rfl rfl rfl
    have h4 := h2.2.2.1
    rw [nextKey_end h4.1.2.1 hnk]
    refine ⟨e, .last (m := true) hi (hk hd) (by rw [head_colon hle hd, ← hkw]; rfl) h1 h4 ?_, h4, h2.2.2.2.1⟩
    rintro ⟨-, c⟩
    simp only [if_true, getD_peek] at c
    exact (nextKey_none h4.1.2.1 hnk).elim c.1 c.2
  bmMore := by
    intro ind st key ip n v ws m m0 key' items w m' hd hv hc hnk hr first hi hle hkw hk
    have hlt := lt_of_peek (inp := inp) (n := n) (by rw [hd]; decide)
    rw [bump_one hlt] at hv
    obtain ⟨e, h1, h2⟩ := hv (n + 1) (by omega) rfl rfl rfl
    have h4 := h2.2.2.1
    obtain ⟨g1, -, g⟩ := nextKey_some h4.1.2.1 hnk
    obtain ⟨hi', k2, k3, k4⟩ := hr false hc (by omega) (nextKey_write h4.1.2.1 hnk) (fun h => ⟨m0, rfl, g h⟩)
    rw [h2.2.2.2.1] at k2
    exact ⟨hi', .more (m := true) hi (hk hd) (by rw [head_colon hle hd, ← hkw]; rfl) h1 h4 k2, k3, k4⟩
end

/-! ### Where it sits -/

/-- What is written for the value is at `lo` to `e`, or nothing is written for it.  If nothing is written for what is at its end, then it sits at `lo` up to what
follows. -/
def AtOr (inp : Bytes) (s : Spot) (a lo hi : Nat) (t : Tree Unit) (e : Nat) : Prop :=
  (t.pre = slice inp a lo ∧ lo ≤ e ∨ t.text = [] ∧ e = a ∧ hi = lo ∧ s ≠ .flow) ∧ (hi = e ∨ FullGap inp e hi ∧ s ≠ .flow)

theorem FullGap.twice {inp : Bytes} {a b c : Nat} (h1 : FullGap inp a b) (h2 : FullGap inp a c) : FullGap inp b c := by
  have := h1.eq
  have := h2.eq
  obtain rfl : b = c := by omega
  exact ⟨Gap.refl h1.le.2, h1.2⟩

theorem AtOr.full {inp : Bytes} {s : Spot} {a lo hi : Nat} {t : Tree Unit} {e q : Nat} (h : AtOr inp s a lo hi t e) (hq : FullGap inp e q) : FullGap inp hi q := by
  rcases h.2 with rfl | ⟨h, -⟩
  · exact hq
  · exact h.twice hq

theorem AtOr.flow {inp : Bytes} {a lo hi : Nat} {t : Tree Unit} {e : Nat} (h : AtOr inp .flow a lo hi t e) : hi = e := by
  rcases h.2 with rfl | ⟨-, h⟩
  · rfl
  · exact absurd rfl h

mutual
theorem Lies.sits {inp : Bytes} {s : Spot} {a : Nat} {t : Tree Unit} {e : Nat} : Lies inp s a t e →
    ∃ lo hi, FullGap inp a lo ∧ Sits inp treeView s t lo hi ∧ AtOr inp s a lo hi t e
  | .scalar h1 h2 h3 h4 _ => ⟨_, _, h1, .scalar ⟨_, _, rfl, rfl⟩ h2 h3 h4, .inl ⟨rfl, h2⟩, .inl rfl⟩
  | .open h1 h2 h3 h4 _ => ⟨_, _, h1, .open ⟨_, _, rfl, h4⟩ h1.le.2 h2 h3, .inl ⟨rfl, h1.le.2⟩, .inl rfl⟩
  | .lines h1 h2 h3 _ _ => ⟨_, _, h1, .lines ⟨_, _, rfl, h3⟩ h2, .inl ⟨rfl, h2.le⟩, .inl rfl⟩
  | .empty h1 h2 h3 => ⟨_, _, h1, .empty ⟨_, _, rfl, rfl⟩ h2 h3, .inr ⟨rfl, rfl, rfl, nofun⟩, .inr ⟨h1, nofun⟩⟩
  | .dashes h1 h2 h3 => by
    obtain ⟨hi, k1, k2, k3⟩ := h3.sits
    exact ⟨_, hi, h1, .dashes ⟨_, _, _, _, rfl, rfl⟩ h2 (by rw [cells_false]; exact k1), .inl ⟨rfl, k2⟩, k3.imp id (⟨·, h2⟩)⟩
  | .keys h1 h2 h3 => by
    obtain ⟨hi, k1, k2, k3⟩ := h3.sits
    exact ⟨_, hi, h1, .keys ⟨_, _, _, _, rfl, rfl⟩ h2 (by rw [cells_true]; exact k1), .inl ⟨rfl, k2⟩, k3.imp id (⟨·, h2.1⟩)⟩
  | .brackets h1 h2 h3 h4 _ => ⟨_, _, h1, .brackets ⟨_, _, _, _, rfl, rfl⟩ h2 h3 (by rw [cells_false]; exact h4.sits),
      .inl ⟨rfl, by have := h3.le.1; have := h4.sits.le; omega⟩, .inl rfl⟩
  | .braces h1 h2 h3 h4 _ => ⟨_, _, h1, .braces ⟨_, _, _, _, rfl, rfl⟩ h2 h3 (by rw [cells_true]; exact h4.sits),
      .inl ⟨rfl, by have := h3.le.1; have := h4.sits.le; omega⟩, .inl rfl⟩
theorem LiesRows.sits {inp : Bytes} {m : Bool} {c : Nat} {first : Bool} {ip : Bytes} {lo : Nat} {items : Items Unit} {e : Nat} :
    LiesRows inp m c first ip lo items e → ∃ hi, Rows inp treeView c first (items.cells m) lo hi ∧ lo ≤ e ∧ (hi = e ∨ FullGap inp e hi)
  | .last h1 h2 h3 h4 h5 h6 => by
    obtain ⟨lo, hi, k1, k2, k3⟩ := h4.sits
    refine ⟨hi, .last (k := keyOf m _) h1 h2 k1 k2 (k3.full h5) (by rw [keyOf_isSome]; exact h6), ?_, k3.2.imp id (·.1)⟩
    have := h2.lt
    have := k1.le.1
    rcases k3.1 with ⟨-, k⟩ | ⟨-, k, -⟩ <;> omega
  | .more h1 h2 h3 h4 h5 h6 => by
    obtain ⟨lo, hi, k1, k2, k3⟩ := h4.sits
    obtain ⟨hi', k4, k5, k6⟩ := h6.sits
    refine ⟨hi', .more (k := keyOf m _) h1 h2 k1 k2 (k3.full h5) k4, ?_, k6⟩
    have := h2.lt
    have := k1.le.1
    have := h5.le.1
    rcases k3.1 with ⟨-, k⟩ | ⟨-, k, -⟩ <;> omega
theorem LiesCells.sits {inp : Bytes} {m last : Bool} {w : Bytes} {n : Nat} {items : Items Unit} {tr : Bool} {w' : Bytes} {hi : Nat} :
    LiesCells inp m last w n items tr w' hi → Cells inp treeView m last (items.cells m) n hi
  | .none h => .none h
  | .final h1 h2 h3 h4 h5 h6 => by
    obtain ⟨lo, hi, k1, k2, k3⟩ := h4.sits
    obtain rfl := k3.flow
    have := Cells.final (V := treeView) (by rw [keyOf_isSome]; exact h1) h2 k1 k2 h5 (by rw [keyOf_isSome]; exact h6)
    rw [keyOf_isSome] at this
    exact this
  | .cell h1 h2 h3 h4 h5 h6 h7 h8 => by
    obtain ⟨lo, hi, k1, k2, k3⟩ := h5.sits
    obtain rfl := k3.flow
    have e := k1.eq
    rw [h4.eq] at e
    subst e
    have := Cells.cell (V := treeView) (by rw [keyOf_isSome]; exact h1) h2 h4 k2 (by rw [keyOf_isSome]; exact h6)
      (by rw [keyOf_isSome]; exact h7.sits)
    rw [keyOf_isSome] at this
    exact this
end

end Verif
