import Verif.PlaceLead
import Verif.GrammarDocs
/-
Where the parser finds values.
-/
namespace Verif

/-- Trees, inspected like documents. -/
def treeView : View (Tree Unit) where
  scalar x a := ∃ p sc, x = .leaf () p sc ∧ sc.value = a
  seq x l := ∃ p ind k items, x = .node () p false ind k items ∧ l = items.pairs.map (·.2)
  map x l := ∃ p ind k items, x = .node () p true ind k items ∧ l = items.pairs.map fun q => (q.1.id, q.2)

/-- The items of a mapping or sequence. -/
def Items.cells {α : Type} (m : Bool) (items : Items α) : List (Option Bytes × Tree α) := items.pairs.map fun q => (if m then some q.1.id else none, q.2)

theorem cells_true {α : Type} (items : Items α) : (items.pairs.map fun q => (q.1.id, q.2)).map (fun e => (some e.1, e.2)) = items.cells true := by
  simp [Items.cells]
theorem cells_false {α : Type} (items : Items α) : (items.pairs.map (·.2)).map (fun v => ((none : Option Bytes), v)) = items.cells false := by
  simp [Items.cells]

/-- Where the parser is. -/
def PSt.spot (s : PSt) : Spot := if s.inline then .flow else match s.parentIndent with | some c => .under c | none => .block

theorem spot_inline (s : PSt) : s.spot.inline = s.inline := by
  unfold PSt.spot
  cases s.inline with
  | true => rfl
  | false => cases s.parentIndent <;> rfl

theorem spot_block {s : PSt} (h : s.inline = false) : s.spot ≠ .flow := by
  intro hc
  have := spot_inline s
  rw [hc, h] at this
  cases this

theorem full_of {inp : Bytes} {a b : Nat} (h : Gap inp a b) (hw : wsEnd inp b = b) : FullGap inp a b := by
  have := wsEnd_start hw
  exact ⟨h, by rw [getD_peek]; exact this.1, by rw [getD_peek]; exact this.2⟩

theorem ne_some {inp : Bytes} {n : Nat} {b : UInt8} (h : peekAt inp n ≠ b) : inp[n]? ≠ some b := fun hc => h (some_peek hc)

theorem atBlock_peek {inp : Bytes} {n : Nat} {b : UInt8} (h : peekAt inp n = b) (h1 : b ≠ GT) (h2 : b ≠ PIPE) : atBlock inp n = false := by
  unfold atBlock
  rw [getD_peek, h, beq_false_of_ne h1, beq_false_of_ne h2]; rfl

theorem BlockAt.atBlock {inp : Bytes} {lo : Nat} {v : Bytes} {hi : Nat} (h : BlockAt inp lo v hi) : atBlock inp lo = true := by
  obtain ⟨folded, _, h, _, _, h1, _, h2, _⟩ := h
  have := peek_slice (inp := inp) h1
  rw [h2] at this
  unfold Verif.atBlock
  rw [getD_peek, ← this]
  cases folded <;> rfl

/-- Block scalars are the only scalars that are read with the white space after them. -/
theorem lead_atBlock {f : Nat} {inp : Bytes} {inline tab : Bool} {n m : Nat} {sc : Scalar} (h : lead f inp inline tab n = .ok (.scalar sc none m)) :
    atBlock inp n = false := by
  simp only [lead] at h
  split at h
  · cases h
  split at h
  · next hc => exact atBlock_peek (by simpa using hc) (by decide) (by decide)
  split at h
  · next hc => exact atBlock_peek (by simpa using hc) (by decide) (by decide)
  split at h
  · cases h
  split at h
  · cases h
  split at h
  · exfalso
    generalize block f inp n _ _ _ _ _ = r at h
    cases r with
    | error e => cases h
    | ok r => obtain ⟨_, _, _⟩ := r; cases h
  · next hc =>
    unfold atBlock
    rw [getD_peek]
    simpa using hc

theorem nextKey_none {inp : Bytes} {n m : Nat} (hn : n ≤ inp.length) (h : nextMappingKey inp n = (m, none)) : peekAt inp n = COLON ∨ peekAt inp n = 0 := by
  have := (nextMappingKey_spec hn h).2.2.1
  rwa [nextKey_end hn h] at this

theorem nextKey_some {inp : Bytes} {n m : Nat} {key : RStr} (hn : n ≤ inp.length) (h : nextMappingKey inp n = (m, some key)) :
    n < m ∧ m ≤ inp.length ∧ (peekAt inp m = COLON → LaterKey inp key.id n m) := by
  obtain ⟨g1, g2, g3, g4, g5⟩ := nextKey_back hn h
  obtain ⟨-, -, -, u2⟩ := nextMappingKey_spec hn h
  have u2 : n < m := by
    rcases u2 with ⟨h, -⟩ | ⟨-, h⟩
    · cases h
    · exact h
  exact ⟨u2, g2, fun hc => ⟨u2, peek_some hc (by decide), g3, g4, g5⟩⟩

theorem FullGap.end {inp : Bytes} {a b : Nat} (h : FullGap inp a b) : wsEnd inp b = b := by
  rw [← h.eq, wsEnd_idem]

section
variable (inp : Bytes)

/-- White space that was read together with a value that ends at `e`. -/
def WsAt (inline : Bool) (n e : Nat) (w : Bytes) (m : Nat) : Prop :=
  wsEnd inp m = m ∧ (inline = true → atBlock inp n = true ∧ w = wsStr inp e ∧ m = wsEnd inp e)

def PV (s : PSt) (n : Nat) (t : Tree Unit) (ws : Option Bytes) (m : Nat) : Prop :=
  n ≤ inp.length → wsEnd inp n = n → s.tabular = !s.inline → ∃ e, Sits inp treeView s.spot t n e ∧ Gap inp e m ∧ (ws = none → e = m ∧ atBlock inp n = false) ∧
    ∀ w, ws = some w → WsAt inp s.inline n e w m

def PFS (last _tr : Bool) (_ip : Bytes) (n : Nat) (items : Items Unit) (_tr' : Bool) (_w : Bytes) (m : Nat) : Prop :=
  n ≤ inp.length → peekAt inp m = RBR → Cells inp treeView false last (items.cells false) n m

def PFM (last _tr : Bool) (_ip : Bytes) (_st n : Nat) (items : Items Unit) (_tr' : Bool) (_w : Bytes) (_st' m : Nat) : Prop :=
  n ≤ inp.length → peekAt inp m = RCB → Cells inp treeView true last (items.cells true) n m

def PBS (ind : Nat) (_ip : Bytes) (n : Nat) (items : Items Unit) (_w : Bytes) (m : Nat) : Prop :=
  ∀ first, (first = true → isWs (peekAt inp (n + 1)) = true) → columnAt inp n = ind →
    ∃ hi, Rows inp treeView ind first (items.cells false) n hi ∧ FullGap inp hi m

def PBM (ind st : Nat) (key : RStr) (_ip : Bytes) (n : Nat) (items : Items Unit) (_w : Bytes) (m : Nat) : Prop :=
  ∀ first, columnAt inp st = ind → (peekAt inp n = COLON → Head inp first (some key.id) st (n + 1)) →
    ∃ hi, Rows inp treeView ind first (items.cells true) st hi ∧ FullGap inp hi m
end

section
variable {inp : Bytes}

/-- A value, the white space before it and after it. -/
theorem PV.after {s : PSt} {a : Nat} {t : Tree Unit} {ws : Option Bytes} {m : Nat} (h : PV inp s (wsEnd inp a) t ws m) (ha : a ≤ inp.length)
    (hs : s.tabular = !s.inline) : ∃ e, Sits inp treeView s.spot t (wsEnd inp a) e ∧ Gap inp e m ∧ (ws = none → e = m ∧ atBlock inp (wsEnd inp a) = false) ∧
      FullGap inp e (wsOr inp ws m).2 ∧ (∀ w, ws = some w → WsAt inp s.inline (wsEnd inp a) e w m) := by
  obtain ⟨e, h1, h2, h3, hw⟩ := h (wsEnd_le ha) (wsEnd_idem _ _) hs
  have h4 : Gap inp e (wsOr inp ws m).2 := by
    cases ws with
    | none => exact h2.trans (Gap.ws h2.2.1)
    | some w => exact h2
  refine ⟨e, h1, h2, h3, full_of h4 ?_, hw⟩
  cases ws with
  | none => exact wsEnd_idem _ _
  | some w => exact (hw w rfl).1

/-- After a comma in an inline sequence. -/
theorem next_comma {b e m : Nat} {next : Option Bytes} (h1 : Gap inp e m) (h2 : next = none → e = m ∧ atBlock inp b = false)
    (h3 : ∀ w, next = some w → WsAt inp true b e w m) (hc : peekAt inp m = COMMA) :
    ∃ start, NextCell inp false (atBlock inp b) e false start (wsOr inp next (m + 1)).2 ∧ (wsOr inp next (m + 1)).2 ≤ inp.length ∧
      (wsOr inp next (m + 1)).2 - (wsOr inp next (m + 1)).1.length = start := by
  have hlt := lt_of_peek (inp := inp) (n := m) (by rw [hc]; decide)
  have hcs := peek_some hc (by decide)
  cases next with
  | none =>
    obtain ⟨rfl, hb⟩ := h2 rfl
    rw [hb]
    refine ⟨e + 1, ⟨e, rfl, .inl ⟨rfl, hcs, rfl, FullGap.ws (by omega)⟩⟩, wsEnd_le (by omega), ?_⟩
    have := wsStr_length (inp := inp) (n := e + 1) (by omega)
    have := le_wsEnd inp (e + 1)
    simp only [wsOr]; omega
  | some w =>
    obtain ⟨g1, g2⟩ := h3 w rfl
    obtain ⟨hb, g2, g3⟩ := g2 rfl
    rw [hb]
    refine ⟨e + 1, ⟨m, full_of h1 g1, .inl ⟨rfl, hcs, rfl, rfl⟩⟩, hlt, ?_⟩
    have := wsStr_length (inp := inp) (n := e) (by have := h1.1; omega)
    have := le_wsEnd inp e
    simp only [wsOr]; rw [g2]; omega

/-- The white space after a value in an inline sequence. -/
theorem ws_length {b e m : Nat} {next : Option Bytes} (h1 : Gap inp e m) (h2 : next = none → e = m ∧ atBlock inp b = false)
    (h3 : ∀ w, next = some w → WsAt inp true b e w m) : (wsOr inp next m).2 - (wsOr inp next m).1.length = e := by
  cases next with
  | none =>
    have := wsStr_length h1.2.1
    have := le_wsEnd inp m
    rw [(h2 rfl).1]
    simp only [wsOr]; omega
  | some w =>
    obtain ⟨-, h6, h7⟩ := (h3 w rfl).2 rfl
    have := wsStr_length (Nat.le_trans h1.1 h1.2.1)
    have := le_wsEnd inp e
    simp only [wsOr]
    rw [h6, h7]; omega

/-- Without a comma. -/
theorem next_other {b e m : Nat} {next : Option Bytes} (h1 : Gap inp e m) (h2 : next = none → e = m ∧ atBlock inp b = false)
    (h3 : ∀ w, next = some w → WsAt inp true b e w m) (h4 : FullGap inp e (wsOr inp next m).2) (hc : peekAt inp m ≠ COMMA) :
    NextCell inp false (atBlock inp b) e true e (wsOr inp next m).2 := by
  cases next with
  | none =>
    obtain ⟨rfl, hb⟩ := h2 rfl
    rw [hb]
    exact ⟨e, rfl, .inr ⟨rfl, ne_some hc, rfl, h4⟩⟩
  | some w =>
    obtain ⟨g1, g2⟩ := h3 w rfl
    obtain ⟨hb, g2, g3⟩ := g2 rfl
    rw [hb]
    exact ⟨m, h4, .inr ⟨rfl, ne_some hc, rfl, h4⟩⟩

theorem not_opens {m : Bool} {n : Nat} (h : ¬ (peekAt inp n = close m ∨ peekAt inp n = 0)) : Opens inp m n := by
  unfold Opens
  rw [getD_peek]
  exact not_or.1 h

theorem place_rules : Rules inp (PV inp) (PFS inp) (PFM inp) (PBS inp) (PBM inp) where
  scalar := by
    intro f s n sc ws m hl hn hw ht
    cases (lead_back hn hw ht hl).1 _ _ _ rfl with
    | text h1 h2 h3 => exact ⟨m, .scalar ⟨_, _, rfl, rfl⟩ h1 h2 (by rw [spot_inline]; exact h3), Gap.refl h2, fun _ => ⟨rfl, lead_atBlock hl⟩, fun _ h => by cases h⟩
    | «open» h1 h2 h3 => exact ⟨inp.length, .open ⟨_, _, rfl, h1⟩ hn h2 h3, Gap.refl (Nat.le_refl _), fun _ => ⟨rfl, lead_atBlock hl⟩, fun _ h => by cases h⟩
    | @block v e h1 h2 h3 => exact ⟨e, .lines ⟨_, _, rfl, h1⟩ h2, Gap.ws h3, (fun h => by cases h), fun w h => ⟨wsEnd_idem _ _, fun _ => ⟨h2.atBlock, by cases h; rfl, rfl⟩⟩⟩
  seq := by
    intro f s n items w m hl hb hn hw ht
    obtain ⟨-, hws, hi⟩ := lead_seq hl
    obtain ⟨e, h1, h2⟩ := hb true (fun _ => hws) rfl
    rw [← cells_false] at h1
    exact ⟨e, .dashes ⟨_, _, _, _, rfl, rfl⟩ (spot_block hi) h1, h2.1, (fun h => by cases h), fun w _ => ⟨h2.end, fun h => by rw [hi] at h; cases h⟩⟩
  flowSeq := by
    intro f s n items tr w m hl hb hr hn hw ht
    cases (lead_spec hn).ok hl with
    | flowSeq h1 =>
    have hlt := lt_of_peek (inp := inp) (n := n) (by rw [h1]; decide)
    have hltm := lt_of_peek (inp := inp) (n := m) (by rw [hr]; decide)
    rw [bump_one hlt] at hb
    rw [bump_one hltm]
    have k1 := hb (wsEnd_le (by omega)) hr
    rw [← cells_false] at k1
    exact ⟨m + 1, .brackets ⟨_, _, _, _, rfl, rfl⟩ (peek_some h1 (by decide)) (FullGap.ws (by omega)) k1, Gap.refl (by omega),
      fun _ => ⟨rfl, atBlock_peek h1 (by decide) (by decide)⟩, fun _ h => by cases h⟩
  flowMap := by
    intro f s n items tr w st m hl hb hr hn hw ht
    cases (lead_spec hn).ok hl with
    | flowMap h1 =>
    have hlt := lt_of_peek (inp := inp) (n := n) (by rw [h1]; decide)
    have hltm := lt_of_peek (inp := inp) (n := m) (by rw [hr]; decide)
    rw [bump_one hlt] at hb
    rw [bump_one hltm]
    have k1 := hb (wsEnd_le (by omega)) hr
    rw [← cells_true] at k1
    exact ⟨m + 1, .braces ⟨_, _, _, _, rfl, rfl⟩ (peek_some h1 (by decide)) (FullGap.ws (by omega)) k1, Gap.refl (by omega),
      fun _ => ⟨rfl, atBlock_peek h1 (by decide) (by decide)⟩, fun _ h => by cases h⟩
  keyNull := by
    intro f s n key m i hl hp hc hn hw ht
    have hi : s.inline = false := by
      cases (lead_spec hn).ok hl with
      | key _ _ _ _ h => exact h
    have hk := (lead_back hn hw ht hl).2 _ _ rfl
    have : s.spot = .under i := by simp [PSt.spot, hi, hp]
    rw [this]
    exact ⟨n, .empty ⟨_, _, rfl, rfl⟩ hk hc, Gap.refl hn, (fun h => by cases h), fun w _ => ⟨hw, fun h => by rw [hi] at h; cases h⟩⟩
  keyMap := by
    intro f s n key m items w m' hl hp hb hn hw ht
    have hi : s.inline = false := by
      cases (lead_spec hn).ok hl with
      | key _ _ _ _ h => exact h
    have hk := (lead_back hn hw ht hl).2 _ _ rfl
    obtain ⟨e, h1, h2⟩ := hb true rfl (fun _ => ⟨m, rfl, hk⟩)
    rw [← cells_true] at h1
    refine ⟨e, .keys ⟨_, _, _, _, rfl, rfl⟩ ⟨spot_block hi, fun c h => hp c ?_⟩ h1, h2.1, (fun h => by cases h), fun w _ => ⟨h2.end, fun h => by rw [hi] at h; cases h⟩⟩
    unfold PSt.spot at h
    rw [hi] at h
    cases hq : s.parentIndent with
    | none => rw [hq] at h; cases h
    | some i => rw [hq] at h; cases h; rfl
  fsStop := fun _ _ h => .none (peek_some h (by decide))
  fsLast := by
    intro tr ip n v next m ho hv hn hr
    obtain ⟨e, h1, -, -, h4, -⟩ := hv.after hn rfl
    exact .final (k := none) (not_opens ho) rfl (FullGap.ws hn) h1 h4 (peek_some hr (by decide))
  fsComma := by
    intro tr ip n v next m items tr' w m' ho hv hc hr hn hm
    obtain ⟨e, h1, h2, h3, h4, h5⟩ := hv.after hn rfl
    have hlt := lt_of_peek (inp := inp) (n := m) (by rw [hc]; decide)
    rw [bump_one hlt] at hr
    obtain ⟨st, g1, g2, -⟩ := next_comma h2 h3 h5 hc
    exact .cell (k := none) (not_opens ho) rfl (FullGap.ws hn) h1 g1 (hr g2 hm)
  fsOther := by
    intro tr ip n v next m items tr' w m' ho hv hc hr hn hm
    obtain ⟨e, h1, h2, h3, h4, h5⟩ := hv.after hn rfl
    exact .cell (k := none) (not_opens ho) rfl (FullGap.ws hn) h1 (next_other h2 h3 h5 h4 hc) (hr h4.1.2.1 hm)
  fmStop := fun _ _ h => .none (peek_some h (by decide))
  fmLast := by
    intro tr ip st n key m0 v next m ho hk hv hn hr
    obtain ⟨g1, g2, g3, g4, g5⟩ := untilColon_back hn hk
    rw [bump_one g2] at hv
    obtain ⟨e, h1, h2, h3, h4, h5⟩ := hv.after (by omega) rfl
    exact .final (k := some key.id) (not_opens ho) ⟨m0, g1, g3, rfl, g4, g5⟩ (FullGap.ws (by omega)) h1 h4 (peek_some (b := RCB) hr (by decide))
  fmComma := by
    intro tr ip st n key m0 v next m items tr' w st' m' ho hk hv hc hr hn hm
    obtain ⟨g1, g2, g3, g4, g5⟩ := untilColon_back hn hk
    rw [bump_one g2] at hv
    obtain ⟨e, h1, h2, h3, h4, h5⟩ := hv.after (by omega) rfl
    have hlt := lt_of_peek (inp := inp) (n := (wsOr inp next m).2) (by rw [hc]; decide)
    rw [bump_one hlt] at hr
    exact .cell (k := some key.id) (not_opens ho) ⟨m0, g1, g3, rfl, g4, g5⟩ (FullGap.ws (by omega)) h1
      ⟨_, h4, .inl ⟨rfl, peek_some hc (by decide), by rw [Bool.and_comm]; exact ⟨rfl, FullGap.ws (by omega)⟩⟩⟩ (hr (wsEnd_le (by omega)) hm)
  fmOther := by
    intro tr ip st n key m0 v next m items tr' w st' m' ho hk hv hc hr hn hm
    obtain ⟨g1, g2, g3, g4, g5⟩ := untilColon_back hn hk
    rw [bump_one g2] at hv
    obtain ⟨e, h1, h2, h3, h4, h5⟩ := hv.after (by omega) rfl
    rw [h4.end] at hr
    exact .cell (k := some key.id) (not_opens ho) ⟨m0, g1, g3, rfl, g4, g5⟩ (FullGap.ws (by omega)) h1
      ⟨_, h4, .inr ⟨rfl, ne_some hc, rfl, h4⟩⟩ (hr h4.1.2.1 hm)
  bsLast := by
    intro ind ip n v ws m hd hv hs first hf hi
    have hlt := lt_of_peek (inp := inp) (n := n) (by rw [hd]; decide)
    rw [bump_one hlt] at hv
    obtain ⟨e, h1, h2, h3, h4, h5⟩ := hv.after (by omega) rfl
    refine ⟨e, .last (k := none) hi ⟨peek_some hd (by decide), (by rw [getD_peek]; exact hf), rfl⟩ (FullGap.ws (by omega)) h1 h4 ?_, h4⟩
    rintro ⟨c1, c2⟩
    exact hs.elim (· c1) (· (some_peek c2))
  bsMore := by
    intro ind ip n v ws m items w m' hd hv hc hd' hr first hf hi
    have hlt := lt_of_peek (inp := inp) (n := n) (by rw [hd]; decide)
    rw [bump_one hlt] at hv
    obtain ⟨e, h1, h2, h3, h4, h5⟩ := hv.after (by omega) rfl
    obtain ⟨hi', k1, k2⟩ := hr false (fun h => by cases h) hc
    exact ⟨hi', .more (k := none) hi ⟨peek_some hd (by decide), (by rw [getD_peek]; exact hf), rfl⟩ (FullGap.ws (by omega)) h1 h4 k1, k2⟩
  bmLast := by
    intro ind st key ip n v ws m hd hv hs first hi hk
    have hlt := lt_of_peek (inp := inp) (n := n) (by rw [hd]; decide)
    rw [bump_one hlt] at hv
    obtain ⟨e, h1, h2, h3, h4, h5⟩ := hv.after (by omega) rfl
    exact ⟨e, .last (k := some key.id) hi (hk hd) (FullGap.ws (by omega)) h1 h4 (fun h => hs h.1), h4⟩
  bmEnd := by
    intro ind st key ip n v ws m m0 hd hv _ hnk first hi hk
    have hlt := lt_of_peek (inp := inp) (n := n) (by rw [hd]; decide)
    rw [bump_one hlt] at hv
    obtain ⟨e, h1, h2, h3, h4, h5⟩ := hv.after (by omega) rfl
    rw [nextKey_end h4.1.2.1 hnk]
    refine ⟨e, .last (k := some key.id) hi (hk hd) (FullGap.ws (by omega)) h1 h4 ?_, h4⟩
    rintro ⟨-, c⟩
    simp only [Option.isSome_some, if_true, getD_peek] at c
    exact (nextKey_none h4.1.2.1 hnk).elim c.1 c.2
  bmMore := by
    intro ind st key ip n v ws m m0 key' items w m' hd hv hc hnk hr first hi hk
    have hlt := lt_of_peek (inp := inp) (n := n) (by rw [hd]; decide)
    rw [bump_one hlt] at hv
    obtain ⟨e, h1, h2, h3, h4, h5⟩ := hv.after (by omega) rfl
    obtain ⟨-, -, g⟩ := nextKey_some h4.1.2.1 hnk
    obtain ⟨hi', k1, k2⟩ := hr false hc (fun h => ⟨m0, rfl, g h⟩)
    exact ⟨hi', .more (k := some key.id) hi (hk hd) (FullGap.ws (by omega)) h1 h4 k1, k2⟩
end

/-! ### Ids -/

mutual
theorem erase_label (k : Nat) : ∀ t : Tree Unit, (t.label k).erase = t
  | .leaf _ _ _ => rfl
  | .node _ _ _ _ _ items => by rw [Tree.label, Tree.erase, Items.erase_label]
theorem Items.erase_label (k : Nat) : ∀ is : Items Unit, (is.label k).erase = is
  | .nil => rfl
  | .cons _ p key v rest => by rw [Items.label, Items.erase, Verif.erase_label, Items.erase_label]
end

/-- The items with ids. -/
def Items.rows (m : Bool) (items : Items Nat) : List (Option Bytes × Nat) := items.pairs.map fun q => (if m then some q.1.id else none, q.2.id)

theorem rows_true (items : Items Nat) : (items.pairs.map fun q => (q.1.id, q.2.id)).map (fun e => (some e.1, e.2)) = items.rows true := by
  simp [Items.rows]
theorem rows_false (items : Items Nat) : (items.pairs.map (·.2.id)).map (fun v => ((none : Option Bytes), v)) = items.rows false := by
  simp [Items.rows]

theorem cells_length (m : Bool) : ∀ items : Items Nat, (items.erase.cells m).length = (items.rows m).length
  | .nil => rfl
  | .cons _ _ _ _ rest => congrArg (· + 1) (cells_length m rest)

mutual
theorem Sits.ids {inp : Bytes} {d : Data} : ∀ {t : Tree Nat} {par : Option Nat} {s : Spot} {lo hi : Nat}, Rep d par t →
    Sits inp treeView s t.erase lo hi → Sits inp d.view s t.id lo hi
  | .leaf i p sc, par, s, lo, hi, hr, h => by
    have ha := asAny_leaf hr
    rw [Tree.id_leaf]
    cases h with
    | scalar h1 h2 h3 h4 =>
      obtain ⟨_, _, h, rfl⟩ := h1
      cases h
      exact .scalar ha h2 h3 h4
    | lines h1 h2 =>
      obtain ⟨_, _, h, h1⟩ := h1
      cases h
      exact .lines (by rw [← h1]; exact ha) h2
    | «open» h1 h2 h3 h4 =>
      obtain ⟨_, _, h, h1⟩ := h1
      cases h
      exact .open (by rw [← h1]; exact ha) h2 h3 h4
    | empty h1 h2 h3 =>
      obtain ⟨_, _, h, h1⟩ := h1
      cases h
      exact .empty (by rw [← h1]; exact ha) h2 h3
    | dashes h1 => obtain ⟨_, _, _, _, h, _⟩ := h1; cases h
    | keys h1 => obtain ⟨_, _, _, _, h, _⟩ := h1; cases h
    | brackets h1 => obtain ⟨_, _, _, _, h, _⟩ := h1; cases h
    | braces h1 => obtain ⟨_, _, _, _, h, _⟩ := h1; cases h
  | .node i p m ind k items, par, s, lo, hi, hr, h => by
    rw [Tree.id_node]
    cases h with
    | scalar h1 => obtain ⟨_, _, h, _⟩ := h1; cases h
    | lines h1 => obtain ⟨_, _, h, _⟩ := h1; cases h
    | «open» h1 => obtain ⟨_, _, h, _⟩ := h1; cases h
    | empty h1 => obtain ⟨_, _, h, _⟩ := h1; cases h
    | dashes h1 h0 h2 =>
      obtain ⟨_, _, _, _, h, rfl⟩ := h1
      cases h
      rw [cells_false] at h2
      exact .dashes (isSeq_node hr) h0 (by rw [rows_false]; exact h2.ids hr.node.2)
    | keys h1 h0 h2 =>
      obtain ⟨_, _, _, _, h, rfl⟩ := h1
      cases h
      rw [cells_true] at h2
      exact .keys (isMap_node hr) h0 (by rw [rows_true]; exact h2.ids hr.node.2)
    | brackets h1 h2 h3 h4 =>
      obtain ⟨_, _, _, _, h, rfl⟩ := h1
      cases h
      rw [cells_false] at h4
      exact .brackets (isSeq_node hr) h2 h3 (by rw [rows_false]; exact h4.ids hr.node.2)
    | braces h1 h2 h3 h4 =>
      obtain ⟨_, _, _, _, h, rfl⟩ := h1
      cases h
      rw [cells_true] at h4
      exact .braces (isMap_node hr) h2 h3 (by rw [rows_true]; exact h4.ids hr.node.2)
theorem Rows.ids {inp : Bytes} {d : Data} {m : Bool} {col c : Nat} : ∀ {items : Items Nat} {first : Bool} {lo hi : Nat}, RepItems d c m items →
    Rows inp treeView col first (items.erase.cells m) lo hi → Rows inp d.view col first (items.rows m) lo hi
  | .nil, _, _, _, _, h => by cases h
  | .cons i p key v .nil, first, lo, hi, hr, h => by
    have h : Rows inp treeView col first [(if m then some key.id else none, v.erase)] lo hi := h
    show Rows inp d.view col first [(if m then some key.id else none, v.id)] lo hi
    cases h with
    | last h1 h2 h3 h4 h5 h6 => exact .last h1 h2 h3 (h4.ids hr.cons.2.1) h5 h6
    | more h1 h2 h3 h4 h5 h6 => cases h6
  | .cons i p key v (.cons i' p' key' v' rest), first, lo, hi, hr, h => by
    have h : Rows inp treeView col first ((if m then some key.id else none, v.erase) :: (Items.erase (.cons i' p' key' v' rest)).cells m) lo hi := h
    show Rows inp d.view col first ((if m then some key.id else none, v.id) :: Items.rows m (.cons i' p' key' v' rest)) lo hi
    cases h with
    | more h1 h2 h3 h4 h5 h6 => exact .more h1 h2 h3 (h4.ids hr.cons.2.1) h5 (h6.ids hr.cons.2.2)
theorem Cells.ids {inp : Bytes} {d : Data} {m : Bool} {c : Nat} : ∀ {items : Items Nat} {last : Bool} {lo hi : Nat}, RepItems d c m items →
    Cells inp treeView m last (items.erase.cells m) lo hi → Cells inp d.view m last (items.rows m) lo hi
  | .nil, _, _, _, _, h => by
    cases h with
    | none h => exact .none h
  | .cons i p key v rest, last, lo, hi, hr, h => by
    have hv := fun {s lo hi} => Sits.ids (inp := inp) (s := s) (lo := lo) (hi := hi) hr.cons.2.1
    have hl := fun {last lo hi} => Cells.ids (inp := inp) (items := rest) (last := last) (lo := lo) (hi := hi) hr.cons.2.2
    have h : Cells inp treeView m last ((if m then some key.id else none, v.erase) :: rest.erase.cells m) lo hi := h
    show Cells inp d.view m last ((if m then some key.id else none, v.id) :: rest.rows m) lo hi
    have hk : (if m then some key.id else none).isSome = m := by cases m <;> rfl
    generalize (if m then some key.id else none) = k at h hk ⊢
    generalize hes : rest.erase.cells m = es at h hl
    generalize hL : (k, v.erase) :: es = L at h
    cases h with
    | none => cases hL
    | final h1 h2 h3 h4 h5 h6 =>
      cases hL
      cases rest with
      | nil => exact .final h1 h2 h3 (hv h4) h5 h6
      | cons _ _ _ _ _ => cases hes
    | cell h1 h2 h3 h4 h5 h6 => cases hL; exact .cell h1 h2 h3 (hv h4) h5 (hl h6)
end

theorem parsed_sits {inp : Bytes} {doc : Document} (h : Parsed inp doc) : ∃ lo hi, lo ≤ inp.length ∧ inp.drop lo = skipBlank false (body inp) ∧
    Sits inp doc.data.view .block doc.root lo hi ∧ FullGap inp hi inp.length := by
  obtain ⟨f, h⟩ := h
  rw [parseF_refine] at h
  cases hp : pparseF f inp with
  | error e => rw [hp] at h; cases h
  | ok r =>
    obtain ⟨t, suffix⟩ := r
    rw [hp] at h
    cases h
    unfold pparseF startOfDocument at hp
    cases hs : startLoop inp f (wsEnd inp 0) (wsStr inp 0) with
    | error e => simp only [hs, bind, Except.bind] at hp; cases hp
    | ok r =>
      obtain ⟨pre, n⟩ := r
      obtain ⟨k, k1, k2, rfl, rfl, k5⟩ := startLoop_body f 0 (Nat.zero_le _) (cut_zero _) hs (inp.length + 1) (by simp)
      simp only [hs, bind, Except.bind] at hp
      cases hv : pvalue inp f ⟨wsStr inp k, false, true, none⟩ (wsEnd inp k) with
      | error e => rw [hv] at hp; cases hp
      | ok r =>
        obtain ⟨t', ws, m⟩ := r
        rw [hv] at hp
        simp only at hp
        split at hp
        · next he =>
          cases hp
          obtain ⟨e, h2, h3, h4, h5, h6⟩ := PV.after (place_rules.value f _ _ _ _ _ hv) k1 rfl
          have hd := docOf_holds t (wsOr inp ws m).1
          refine ⟨wsEnd inp k, e, wsEnd_le k1, ?_, ?_, by rw [he] at h5; exact h5⟩
          · rw [skipBlank_eq, body]
            rw [List.drop_zero] at k5
            rw [k5, List.drop_drop, wsEnd]
          · rw [hd.root]
            rw [← erase_label 0 t] at h2
            exact h2.ids hd.rep
        · cases hp

theorem Head.lt {inp : Bytes} {first : Bool} {k : Option Bytes} {lo a : Nat} (h : Head inp first k lo a) : lo < a := by
  cases k with
  | none => have := h.2.2; omega
  | some k =>
    obtain ⟨q, h1, h2⟩ := h
    cases first with
    | true => have := h2.1; omega
    | false => have := h2.1; omega

theorem NextCell.le {inp : Bytes} {m blk : Bool} {e : Nat} {last : Bool} {start n : Nat} (h : NextCell inp m blk e last start n) : e ≤ n := by
  obtain ⟨c, h1, h2⟩ := h
  have : e ≤ c := by
    split at h1
    · exact h1.1.1
    · omega
  rcases h2 with ⟨_, _, h⟩ | ⟨_, _, _, h⟩
  · split at h
    · omega
    · have := h.2.1.1; omega
  · exact h.1.1

theorem CellHead.le {inp : Bytes} {k : Option Bytes} {lo a : Nat} (h : CellHead inp k lo a) : lo ≤ a := by
  cases k with
  | none => exact Nat.le_of_eq h.symm
  | some k => obtain ⟨q, h1, _, h2, _⟩ := h; omega

theorem BlockRows.le {inp : Bytes} {folded : Bool} {c p : Nat} {v : Bytes} {hi n : Nat} : BlockRows inp folded c p v hi n → p ≤ hi
  | .last _ h _ _ _ => h.1
  | .final _ h _ _ _ => h.1
  | .more _ h1 _ h2 _ h3 => Nat.le_trans h1.1 (Nat.le_trans h2.1.1 h3.le)

theorem BlockBody.le {inp : Bytes} {folded : Bool} {h : Nat} {v : Bytes} {hi n : Nat} : BlockBody inp folded h v hi n → h ≤ hi
  | .below h1 _ h2 => Nat.le_trans h1.1.1 h2.le
  | .nothing _ _ => Nat.le_refl _
  | .beside _ _ h _ _ => h.1
  | .both _ _ h1 _ h2 h3 => Nat.le_trans h1.1 (Nat.le_trans h2.1.1 h3.le)

theorem BlockAt.le {inp : Bytes} {lo : Nat} {v : Bytes} {hi : Nat} (h : BlockAt inp lo v hi) : lo ≤ hi := by
  obtain ⟨_, _, h, _, _, h1, _, _, _, h2, _⟩ := h
  exact Nat.le_trans (Nat.le_of_lt h1) h2.le

mutual
theorem Sits.le {α : Type} {inp : Bytes} {V : View α} {s : Spot} {x : α} {lo hi : Nat} : Sits inp V s x lo hi → lo ≤ hi
  | .scalar _ h _ _ => h
  | .lines _ h => h.le
  | .open _ h _ _ => h
  | .empty _ _ _ => Nat.le_refl _
  | .dashes _ _ h => h.le
  | .keys _ _ h => h.le
  | .brackets _ _ h1 h => by have := h1.1.1; have := h.le; omega
  | .braces _ _ h1 h => by have := h1.1.1; have := h.le; omega
theorem Rows.le {α : Type} {inp : Bytes} {V : View α} {c : Nat} {first : Bool} {l : List (Option Bytes × α)} {lo hi : Nat} : Rows inp V c first l lo hi → lo ≤ hi
  | .last _ h1 h2 h3 _ _ => by have := h1.lt; have := h2.1.1; have := h3.le; omega
  | .more _ h1 h2 h3 h4 h5 => by have := h1.lt; have := h2.1.1; have := h3.le; have := h4.1.1; have := h5.le; omega
theorem Cells.le {α : Type} {inp : Bytes} {V : View α} {m last : Bool} {l : List (Option Bytes × α)} {lo hi : Nat} : Cells inp V m last l lo hi → lo ≤ hi
  | .none _ => Nat.le_refl _
  | .final _ h2 h3 h4 h5 _ => by have := h2.le; have := h3.1.1; have := h4.le; have := h5.1.1; omega
  | .cell _ h2 h3 h4 h5 h6 => by have := h2.le; have := h3.1.1; have := h4.le; have := h5.le; have := h6.le; omega
end

end Verif
