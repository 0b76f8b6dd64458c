import Verif.Fault
import Verif.PlaceRules
import Verif.SerdeLemmas
/-
Where the parser stops with an error.
-/
namespace Verif

/-! ### Views -/

/-- A way to look at the values of one view that fits another. -/
structure View.Map {α β : Type} (V : View α) (W : View β) (g : α → β) : Prop where
  scalar : ∀ {x a}, V.scalar x a → W.scalar (g x) a
  seq : ∀ {x l}, V.seq x l → W.seq (g x) (l.map g)
  map : ∀ {x l}, V.map x l → W.map (g x) (l.map fun e => (e.1, g e.2))

mutual
theorem Sits.view {α β : Type} {inp : Bytes} {V : View α} {W : View β} {g : α → β} (H : V.Map W g) {s : Spot} {x : α} {lo hi : Nat} :
    Sits inp V s x lo hi → Sits inp W s (g x) lo hi
  | .scalar h1 h2 h3 h4 => .scalar (H.scalar h1) h2 h3 h4
  | .lines h1 h2 => .lines (H.scalar h1) h2
  | .open h1 h2 h3 h4 => .open (H.scalar h1) h2 h3 h4
  | .empty h1 h2 h3 => .empty (H.scalar h1) h2 h3
  | .dashes h1 h2 h3 => .dashes (H.seq h1) h2 (by have := h3.view H; rw [List.map_map] at this ⊢; exact this)
  | .keys h1 h2 h3 => .keys (H.map h1) h2 (by have := h3.view H; rw [List.map_map] at this ⊢; exact this)
  | .brackets h1 h2 h3 h4 => .brackets (H.seq h1) h2 h3 (by have := h4.view H; rw [List.map_map] at this ⊢; exact this)
  | .braces h1 h2 h3 h4 => .braces (H.map h1) h2 h3 (by have := h4.view H; rw [List.map_map] at this ⊢; exact this)
theorem Rows.view {α β : Type} {inp : Bytes} {V : View α} {W : View β} {g : α → β} (H : V.Map W g) {c : Nat} {first : Bool} {l : List (Option Bytes × α)}
    {lo hi : Nat} : Rows inp V c first l lo hi → Rows inp W c first (l.map fun e => (e.1, g e.2)) lo hi
  | .last h1 h2 h3 h4 h5 h6 => .last h1 h2 h3 (h4.view H) h5 h6
  | .more h1 h2 h3 h4 h5 h6 => .more h1 h2 h3 (h4.view H) h5 (h6.view H)
theorem Cells.view {α β : Type} {inp : Bytes} {V : View α} {W : View β} {g : α → β} (H : V.Map W g) {m last : Bool} {l : List (Option Bytes × α)} {lo hi : Nat} :
    Cells inp V m last l lo hi → Cells inp W m last (l.map fun e => (e.1, g e.2)) lo hi
  | .none h => .none h
  | .final h1 h2 h3 h4 h5 h6 => .final h1 h2 h3 (h4.view H) h5 h6
  | .cell h1 h2 h3 h4 h5 h6 => .cell h1 h2 h3 (h4.view H) h5 (h6.view H)
end

theorem entriesC_list {α : Type} : ∀ is : Items α, is.entriesC.list = is.pairs.map fun q => (q.1.id, q.2.content)
  | .nil => rfl
  | .cons _ _ key v rest => by rw [Items.entriesC, Entries.list, entriesC_list rest]; rfl
theorem elemsC_list {α : Type} : ∀ is : Items α, is.elemsC.list = is.pairs.map fun q => q.2.content
  | .nil => rfl
  | .cons _ _ key v rest => by rw [Items.elemsC, Elems.list, elemsC_list rest]; rfl

theorem content_map : treeView.Map contentView Tree.content where
  scalar := by rintro x a ⟨p, sc, rfl, rfl⟩; rfl
  seq := by
    rintro x l ⟨p, ind, k, items, rfl, rfl⟩
    exact ⟨_, rfl, by rw [elemsC_list]; simp⟩
  map := by
    rintro x l ⟨p, ind, k, items, rfl, rfl⟩
    exact ⟨_, rfl, by rw [entriesC_list]; simp⟩

theorem Sits.content {inp : Bytes} {s : Spot} {t : Tree Unit} {lo hi : Nat} (h : Sits inp treeView s t lo hi) : Sits inp contentView s t.content lo hi :=
  h.view content_map

/-! ### Escapes -/

theorem unescapeUnicode_err {inp : Bytes} {start : Nat} {err : ErrKind} : ∀ {k n c a b : Nat} {kd : ErrKind},
    unescapeUnicode inp start err k n c = .error (.err a b kd) → a = start ∧ kd = err ∧
      ((∃ j, j < k ∧ (∀ i, i < j → hexVal (peekAt inp (n + i)) ≠ none) ∧ hexVal (peekAt inp (n + j)) = none ∧ b = bump inp (n + j) 1) ∨
        ∃ ds v, ds.length = k ∧ number16 ds = some v ∧ inp.drop n = ds ++ inp.drop b ∧ b = n + k ∧ 0xD800 ≤ c * 16 ^ k + v ∧ c * 16 ^ k + v ≤ 0xDFFF)
  | 0, n, c, a, b, kd, h => by
    unfold unescapeUnicode at h
    split at h
    · next hs => cases h; exact ⟨rfl, rfl, .inr ⟨[], 0, rfl, rfl, rfl, rfl, by simpa using hs⟩⟩
    · cases h
  | k + 1, n, c, a, b, kd, h => by
    unfold unescapeUnicode at h
    cases hv : hexVal (peekAt inp n) with
    | none =>
      rw [hv] at h
      cases h
      exact ⟨rfl, rfl, .inl ⟨0, by omega, fun i hi => absurd hi (Nat.not_lt_zero _), hv, rfl⟩⟩
    | some v =>
      rw [hv] at h
      simp only [bump_peek (hexVal_ne hv)] at h
      obtain ⟨h1, h2, ⟨j, g1, g2, g3, g4⟩ | ⟨ds, w, g1, g2, g3, g4, g5⟩⟩ := unescapeUnicode_err h
      · refine ⟨h1, h2, .inl ⟨j + 1, by omega, fun i hi => ?_, by rw [← Nat.add_assoc, Nat.add_right_comm]; exact g3, by
          rw [g4, ← Nat.add_assoc, Nat.add_right_comm]⟩⟩
        cases i with
        | zero => rw [Nat.add_zero, hv]; exact (fun h => by cases h)
        | succ i => rw [← Nat.add_assoc, Nat.add_right_comm]; exact g2 i (by omega)
      · have e : c * 16 ^ (k + 1) + (v * 16 ^ k + w) = (c * 16 + v) * 16 ^ k + w := by
          rw [Nat.add_mul, Nat.mul_assoc, ← Nat.pow_succ', Nat.add_assoc]
        refine ⟨h1, h2, .inr ⟨peekAt inp n :: ds, v * 16 ^ k + w, by simp [g1], ?_, ?_, by omega, by rw [e]; exact g5⟩⟩
        · simp only [number16, digit16_eq, hv, g2, g1]; rfl
        · rw [drop_peek (hexVal_ne hv), g3]; rfl

theorem simpleEscape_none_back : ∀ b : Fin 256, simpleEscape (UInt8.ofNat b) = none → UInt8.ofNat b ≠ 120 → UInt8.ofNat b ≠ 117 →
    UInt8.ofNat b ∉ b! "0abtnvfrexu\\" := by decide +kernel

theorem unescape_err {inp : Bytes} {start a b : Nat} {kd : ErrKind} (h : unescape inp start (start + 1) = .error (.err a b kd)) : a = start ∧ BadEscape inp start b kd := by
  unfold unescape at h
  simp only at h
  cases hx : simpleEscape (peekAt inp (start + 1)) with
  | some x => rw [hx] at h; cases h
  | none =>
    rw [hx] at h
    simp only at h
    split at h
    · next hc =>
      simp only [beq_iff_eq] at hc
      have h0 : peekAt inp (start + 1) ≠ 0 := by rw [hc]; decide
      rw [bump_peek h0] at h
      obtain ⟨rfl, rfl, ⟨j, g1, g2, g3, rfl⟩ | ⟨ds, v, g1, g2, g3, g4, g5⟩⟩ := unescapeUnicode_err h
      · refine ⟨rfl, ?_⟩
        have := BadEscape.hex (inp := inp) (start := a) (k := j) (peek_some hc (by decide)) g1
          (fun i hi => by rw [getD_peek, digit16_eq]; exact g2 i hi) (by rw [getD_peek, digit16_eq]; exact g3)
        rw [show a + 3 + j = a + 2 + j + 1 by omega] at this
        exact this
      · exfalso
        have := number16_lt g2
        rw [g1] at this
        simp at g5 this
        omega
    · split at h
      · next hc =>
        simp only [beq_iff_eq] at hc
        have h0 : peekAt inp (start + 1) ≠ 0 := by rw [hc]; decide
        rw [bump_peek h0] at h
        obtain ⟨rfl, rfl, ⟨j, g1, g2, g3, rfl⟩ | ⟨ds, v, g1, g2, g3, rfl, g5⟩⟩ := unescapeUnicode_err h
        · refine ⟨rfl, ?_⟩
          have := BadEscape.uni (inp := inp) (start := a) (k := j) (peek_some hc (by decide)) g1
            (fun i hi => by rw [getD_peek, digit16_eq]; exact g2 i hi) (by rw [getD_peek, digit16_eq]; exact g3)
          rw [show a + 3 + j = a + 2 + j + 1 by omega] at this
          exact this
        · refine ⟨rfl, .half (v := v) (peek_some hc (by decide)) ?_ ?_ ?_⟩
          · have := congrArg List.length g3
            simp only [List.length_append, List.length_drop, g1] at this
            have := lt_of_peek h0
            omega
          · have := slice_of g3
            rw [g1] at this
            rw [this]; exact g2
          · simp only [Nat.zero_mul, Nat.zero_add] at g5
            unfold Nat.isValidChar
            omega
      · next c1 c2 =>
        simp only [beq_iff_eq] at c1 c2
        cases h
        refine ⟨rfl, .letter ?_⟩
        rw [getD_peek]
        generalize peekAt inp (start + 1) = x at hx c1 c2 ⊢
        have := simpleEscape_none_back ⟨x.toNat, x.toNat_lt⟩
        simp only [UInt8.ofNat_toNat] at this
        exact this hx c1 c2

theorem dqEsc_err {inp : Bytes} : ∀ {f n : Nat} {scratch : Bytes} {a b : Nat} {kd : ErrKind}, dqEsc inp f n scratch = .error (.err a b kd) →
    ∃ (ps : List Piece) (rest : Bytes), ps.all Piece.known = true ∧ inp.drop n = ps.flatMap Piece.text ++ BSL :: rest ∧ a = n + (ps.flatMap Piece.text).length ∧
      BadEscape inp a b kd
  | 0, _, _, _, _, _, h => by cases h
  | f + 1, n, scratch, a, b, kd, h => by
    unfold dqEsc at h
    simp only at h
    split at h
    · cases h
    · next hq =>
      simp only [Bool.or_eq_true, beq_iff_eq, not_or] at hq
      rw [bump_peek hq.2] at h
      split at h
      · next hb =>
        simp only [beq_iff_eq] at hb
        cases hu : unescape inp n (n + 1) with
        | error e =>
          rw [hu] at h
          cases h
          obtain ⟨rfl, h2⟩ := unescape_err hu
          exact ⟨[], inp.drop (a + 1), rfl, by rw [drop_peek hq.2, hb]; rfl, rfl, h2⟩
        | ok r =>
          obtain ⟨u, m1⟩ := r
          simp only [hu, bind, Except.bind] at h
          obtain ⟨p, e, p1, p2, p3, p4, p5⟩ := unescape_back hu
          obtain ⟨ps, rest, h1, h2, h3, h4⟩ := dqEsc_err h
          refine ⟨p :: ps, rest, by simp [p1, h1], ?_, ?_, h4⟩
          · rw [drop_peek hq.2, hb, p4, List.flatMap_cons, p2, h2]; simp
          · rw [List.flatMap_cons, p2]; simp only [List.length_append, List.length_cons]; omega
      · next hb =>
        simp only [beq_iff_eq] at hb
        obtain ⟨ps, rest, h1, h2, h3, h4⟩ := dqEsc_err h
        have hk : Piece.known (.byte (peekAt inp n)) = true := by simp [Piece.known, Piece.ok, hq, hb]
        refine ⟨.byte (peekAt inp n) :: ps, rest, by simp [hk, h1], ?_, ?_, h4⟩
        · rw [drop_peek hq.2, h2]; simp [Piece.text]
        · rw [List.flatMap_cons]; simp only [List.length_append, Piece.text, List.length_cons, List.length_nil]; omega

theorem doubleQuoted_err {f : Nat} {inp : Bytes} {n a b : Nat} {kd : ErrKind} (hq : peekAt inp n = DQ) (h : doubleQuoted f inp n = .error (.err a b kd)) (s : Spot) :
    Broken inp s n a b kd := by
  have h0 : peekAt inp n ≠ 0 := by rw [hq]; decide
  have hn := lt_of_peek h0
  simp only [doubleQuoted, bump_one hn] at h
  have hb := dqScan_back (inp.drop (n + 1))
  obtain ⟨h1, -⟩ := dqScan_spec (inp.drop (n + 1))
  generalize dqScan (inp.drop (n + 1)) = r at h1 hb h
  obtain ⟨k, esc⟩ := r
  rw [List.length_drop] at h1
  simp only at h1 hb h
  cases esc with
  | false => cases h
  | true =>
    simp only [if_true] at h
    cases he : dqEsc inp f (n + 1 + k) (slice inp (n + 1) (n + 1 + k)) with
    | ok r => rw [he] at h; cases h
    | error e =>
      rw [he] at h
      cases h
      obtain ⟨ps, rest, g1, g2, g3, g4⟩ := dqEsc_err he
      have kb := bytes_known hb
      have hlen : ((inp.drop (n + 1)).take k).length = k := by rw [List.length_take, List.length_drop]; omega
      have hsp : inp.drop (n + 1) = (inp.drop (n + 1)).take k ++ inp.drop (n + 1 + k) := by
        rw [Nat.add_comm (n + 1) k, ← List.drop_drop, Nat.add_comm, List.drop_drop]; exact (List.take_append_drop k _).symm.trans (by rw [List.drop_drop])
      generalize (inp.drop (n + 1)).take k = l at *
      have ha : a = n + 1 + ((l.map Piece.byte ++ ps).flatMap Piece.text).length := by
        rw [List.flatMap_append, flatMap_byte_text, List.length_append]; omega
      rw [ha]
      refine .escape (ps := l.map .byte ++ ps) (rest := rest) (by rw [List.all_append, kb, g1]; rfl) ?_ (ha ▸ g4)
      rw [drop_peek h0, hq, hsp, g2, List.flatMap_append, flatMap_byte_text]; simp

theorem lead_err {f : Nat} {inp : Bytes} {inline tab : Bool} {n a b : Nat} {kd : ErrKind} (h : lead f inp inline tab n = .error (.err a b kd)) (s : Spot) :
    Broken inp s n a b kd := by
  simp only [lead] at h
  split at h
  · cases h
  split at h
  · next hc =>
    simp only [beq_iff_eq] at hc
    cases hd : doubleQuoted f inp n with
    | ok r =>
      obtain ⟨s, e⟩ := r
      rw [hd] at h
      simp only [bind, Except.bind] at h
      split at h <;> cases h
    | error e =>
      rw [hd] at h
      cases h
      exact doubleQuoted_err hc hd s
  split at h
  · cases hd : singleQuoted f inp n with
    | ok r =>
      obtain ⟨s, e⟩ := r
      rw [hd] at h
      simp only [bind, Except.bind] at h
      split at h <;> cases h
    | error e =>
      rw [hd] at h
      cases h
      cases singleQuoted_err hd
  split at h
  · cases h
  split at h
  · cases h
  split at h
  · exfalso
    generalize hb : block f inp n _ _ _ _ _ = r at h
    cases r with
    | ok r => cases h
    | error e => cases block_err hb; cases h
  · exfalso
    split at h
    · cases h
    · split at h
      · cases h
      · split at h <;> cases h

/-! ### Values -/

theorem nothing_peek {inp : Bytes} {n : Nat} (hn : n ≤ inp.length) (h : peekAt inp n = 0) : Nothing inp n := by
  rcases Nat.lt_or_ge n inp.length with hl | hl
  · right
    rw [peekAt_get hl] at h
    rw [List.getElem?_eq_getElem hl, h]
  · left; omega

/-- The error is one of `P`. -/
def Errs (P : Nat → Nat → ErrKind → Prop) (e : Stop) : Prop := ∀ a b k, e = .err a b k → P a b k

theorem Errs.fuel {P : Nat → Nat → ErrKind → Prop} : Errs P .fuel := fun _ _ _ h => by cases h

/-- What is needed of the parser for values. -/
def RecFault (inp : Bytes) (rec : PSt → Nat → PRes) : Prop := ∀ (s : PSt) (n : Nat), n ≤ inp.length → wsEnd inp n = n → s.tabular = !s.inline →
  Outcome (fun r => PV inp s n r.1 r.2.1 r.2.2) (Errs (Broken inp s.spot n)) (rec s n)

section
variable {inp : Bytes} {rec : PSt → Nat → PRes}

/-- `rec` after white space. -/
theorem RecFault.ws (H : RecFault inp rec) (s : PSt) (a : Nat) (ha : a ≤ inp.length) (hs : s.tabular = !s.inline) :
    Outcome (fun r => ∃ e, Sits inp contentView s.spot r.1.content (wsEnd inp a) e ∧ Gap inp e r.2.2 ∧
      (r.2.1 = none → e = r.2.2 ∧ atBlock inp (wsEnd inp a) = false) ∧ FullGap inp e (wsOr inp r.2.1 r.2.2).2 ∧
      (∀ w, r.2.1 = some w → WsAt inp s.inline (wsEnd inp a) e w r.2.2)) (Errs (Broken inp s.spot (wsEnd inp a))) (rec s (wsEnd inp a)) := by
  refine (H s (wsEnd inp a) (wsEnd_le ha) (wsEnd_idem _ _) hs).imp (fun r hr => ?_) fun _ h => h
  obtain ⟨e, h1, h2⟩ := PV.after hr ha hs
  exact ⟨e, h1.content, h2⟩

theorem pseqLoop_fault (H : RecFault inp rec) : ∀ (f ind : Nat) (first : Bool) (ip : Bytes) (n : Nat), peekAt inp n = DASH →
    (first = true → isWs (peekAt inp (n + 1)) = true) → columnAt inp n = ind →
    Outcome (fun _ => True) (Errs (BrokenRows inp ind first false n)) (pseqLoop rec inp ind f ip n)
  | 0, _, _, _, _, _, _, _ => Errs.fuel
  | f + 1, ind, first, ip, n, hp, hf, hi => by
    unfold pseqLoop
    have hlt := lt_of_peek (inp := inp) (n := n) (by rw [hp]; decide)
    have hh : Head inp first none n (n + 1) := ⟨peek_some hp (by decide), by rw [getD_peek]; exact hf, rfl⟩
    have hw := FullGap.ws (inp := inp) (n := n + 1) (by omega)
    simp only [bump_one hlt]
    refine Outcome.bind ((H.ws ⟨wsStr inp (n + 1), false, true, none⟩ (n + 1) (by omega) rfl).imp (fun _ h => h)
      fun e he a b k h => BrokenRows.inside (key := none) hi hh hw (he a b k h)) fun r hr => ?_
    obtain ⟨v, ws, m⟩ := r
    obtain ⟨e, h1, -, -, h3, -⟩ := hr
    simp only
    split
    · trivial
    · next hc =>
      simp only [Bool.or_eq_true, bne_iff_ne, not_or, Decidable.not_not] at hc
      refine Outcome.bind ((pseqLoop_fault H f ind false _ _ hc.2 (fun h => by cases h) hc.1).imp (fun _ h => h)
        fun e he a b k h => BrokenRows.later (key := none) hi hh hw h1 h3 (he a b k h)) fun q hq => ?_
      trivial

theorem pmapLoop_fault (H : RecFault inp rec) : ∀ (f ind : Nat) (first : Bool) (st : Nat) (key : RStr) (ip : Bytes) (n : Nat), columnAt inp st = ind →
    (peekAt inp n = COLON → Head inp first (some key.id) st (n + 1)) →
    (peekAt inp n ≠ COLON → first = false ∧ st < n ∧ n ≤ inp.length ∧ COLON ∉ slice inp st n ∧ 0 ∉ slice inp st n ∧ Nothing inp n) →
    Outcome (fun _ => True) (Errs (BrokenRows inp ind first true st)) (pmapLoop rec inp ind f st key ip n)
  | 0, _, _, _, _, _, _, _, _, _ => Errs.fuel
  | f + 1, ind, first, st, key, ip, n, hi, hk, hno => by
    unfold pmapLoop
    by_cases hp : peekAt inp n = COLON
    · have hlt := lt_of_peek (inp := inp) (n := n) (by rw [hp]; decide)
      have hh := hk hp
      have hw := FullGap.ws (inp := inp) (n := n + 1) (by omega)
      simp only [bump_one hlt, hp, bne_self_eq_false, Bool.false_eq_true, if_false]
      refine Outcome.bind ((H.ws ⟨wsStr inp (n + 1), false, true, some ind⟩ (n + 1) (by omega) rfl).imp (fun _ h => h)
        fun e he a b k h => BrokenRows.inside (key := some key.id) hi hh hw (he a b k h)) fun r hr => ?_
      obtain ⟨v, ws, m⟩ := r
      obtain ⟨e, h1, -, -, h3, -⟩ := hr
      simp only
      split
      · trivial
      · next hc =>
        simp only [bne_iff_ne, Decidable.not_not] at hc
        simp only at h1 h3
        generalize (wsOr inp ws m).2 = lo' at *
        cases hnk : nextMappingKey inp lo' with
        | mk m0 ko =>
        cases ko with
        | none => trivial
        | some key' =>
        obtain ⟨g1, g2, g⟩ := nextKey_some h3.1.2.1 hnk
        obtain ⟨-, -, k1, k2, k3⟩ := nextKey_back h3.1.2.1 hnk
        have hor := (nextMappingKey_spec h3.1.2.1 hnk).2.2.1
        simp only
        refine Outcome.bind ((pmapLoop_fault H f ind false lo' key' _ m0 hc (fun h => ⟨m0, rfl, g h⟩) (fun h =>
          ⟨rfl, g1, g2, by rw [k1]; exact k2, by rw [k1]; exact k3, nothing_peek g2 (hor.resolve_left h)⟩)).imp (fun _ h => h)
          fun e he a b k h => BrokenRows.later (key := some key.id) hi hh hw h1 h3 (he a b k h)) fun q hq => ?_
        trivial
    · obtain ⟨rfl, g1, g2, g3, g4, g5⟩ := hno hp
      have : (peekAt inp n != COLON) = true := by simpa using hp
      simp only [this, if_true]
      intro a b k h
      cases h
      exact BrokenRows.colon hi g1 g2 g3 g4 g5

theorem pflowSeqLoop_fault (H : RecFault inp rec) : ∀ (f : Nat) (last tr : Bool) (ip : Bytes) (from_ n : Nat), n ≤ inp.length →
    n - ip.length = from_ →
    Outcome (fun r => peekAt inp r.2.2.2 ≠ RBR → BrokenCells inp false last from_ n (r.2.2.2 - r.2.2.1.length) r.2.2.2 .badSequenceTerminator)
      (Errs (BrokenCells inp false last from_ n)) (pflowSeqLoop rec inp f last tr ip n)
  | 0, _, _, _, _, _, _, _ => Errs.fuel
  | f + 1, last, tr, ip, from_, n, hn, hip => by
    unfold pflowSeqLoop
    split
    · next hs =>
      intro hr
      simp only [Bool.or_eq_true, beq_iff_eq] at hs hr ⊢
      have h0 := hs.resolve_left hr
      rw [hip]
      exact BrokenCells.none (nothing_peek hn h0)
    · next ho =>
      have ho : Opens inp false n := not_opens (by simpa [close] using ho)
      have hw := FullGap.ws hn
      refine Outcome.bind ((H.ws ⟨wsStr inp n, true, false, none⟩ n hn rfl).imp (fun _ h => h)
        fun e he a b k h => BrokenCells.inside (key := none) ho rfl hw (he a b k h)) fun r hr => ?_
      obtain ⟨v, next, m⟩ := r
      obtain ⟨e, h1, h2, h3, h4, h5⟩ := hr
      simp only at h1 h2 h3 h4 h5 ⊢
      have hend := ws_length h2 h3 h5
      cases last with
      | true =>
        intro hr
        simp only at hr ⊢
        rw [hend]
        exact BrokenCells.other (key := none) ho rfl hw h1 h4 (ne_some hr)
      | false =>
        simp only [Bool.false_eq_true, if_false]
        by_cases hcm : peekAt inp m = COMMA
        · have hlt := lt_of_peek (inp := inp) (n := m) (by rw [hcm]; decide)
          simp only [hcm, beq_self_eq_true, if_true, bump_one hlt]
          obtain ⟨st, g1, g2, g3⟩ := next_comma h2 h3 h5 hcm
          refine Outcome.bind ((pflowSeqLoop_fault H f false true _ st _ g2 g3).imp (fun _ h => h)
            fun e he a b k h => BrokenCells.later (key := none) ho rfl hw h1 g1 (he a b k h)) fun q hq => ?_
          exact fun hr => BrokenCells.later (key := none) ho rfl hw h1 g1 (hq hr)
        · have hcm' : (peekAt inp m == COMMA) = false := by simpa using hcm
          simp only [hcm', Bool.false_eq_true, if_false]
          have hb := next_other h2 h3 h5 h4 hcm
          refine Outcome.bind ((pflowSeqLoop_fault H f true false _ e _ h4.1.2.1 hend).imp (fun _ h => h)
            fun e he a b k h => BrokenCells.later (key := none) ho rfl hw h1 hb (he a b k h)) fun q hq => ?_
          exact fun hr => BrokenCells.later (key := none) ho rfl hw h1 hb (hq hr)

theorem untilColon_none {n m : Nat} (hn : n ≤ inp.length) (h : untilColon inp n = (m, none)) : m = inp.length ∧ COLON ∉ inp.drop n ∧ 0 ∉ inp.drop n := by
  have h2 := colonGo_take (inp.drop n)
  simp only [untilColon] at h
  split at h
  · next he =>
    cases h
    refine ⟨he, ?_⟩
    rw [List.take_of_length_le (by rw [List.length_drop]; omega)] at h2
    exact ⟨fun hc => (h2 _ hc).1 rfl, fun hc => (h2 _ hc).2 rfl⟩
  · cases h

theorem pflowMapLoop_fault (H : RecFault inp rec) : ∀ (f : Nat) (last tr : Bool) (ip : Bytes) (st n : Nat), n ≤ inp.length →
    Outcome (fun r => peekAt inp r.2.2.2.2 ≠ RCB → BrokenCells inp true last st n r.2.2.2.1 r.2.2.2.2 .badMappingTerminator)
      (Errs (BrokenCells inp true last st n)) (pflowMapLoop rec inp f last tr ip st n)
  | 0, _, _, _, _, _, _ => Errs.fuel
  | f + 1, last, tr, ip, st, n, hn => by
    unfold pflowMapLoop
    split
    · next hs =>
      intro hr
      simp only [Bool.or_eq_true, beq_iff_eq] at hs hr ⊢
      have h0 := hs.resolve_left hr
      exact BrokenCells.none (m := true) (nothing_peek hn h0)
    · next ho =>
      have ho : Opens inp true n := not_opens (by simpa [close] using ho)
      cases hu : untilColon inp n with
      | mk m0 ko =>
      cases ko with
      | none =>
        obtain ⟨rfl, u1, u2⟩ := untilColon_none hn hu
        intro a b k h
        cases h
        exact BrokenCells.colon ho u1 u2
      | some key =>
      obtain ⟨g1, g2, g3, g4, g5⟩ := untilColon_back hn hu
      simp only [bump_one g2]
      have hh : CellHead inp (some key.id) n (m0 + 1) := ⟨m0, g1, g3, rfl, g4, g5⟩
      have hw := FullGap.ws (inp := inp) (n := m0 + 1) (by omega)
      refine Outcome.bind ((H.ws ⟨wsStr inp (m0 + 1), true, false, none⟩ (m0 + 1) (by omega) rfl).imp (fun _ h => h)
        fun e he a b k h => BrokenCells.inside (key := some key.id) ho hh hw (he a b k h)) fun r hr => ?_
      obtain ⟨v, next, m⟩ := r
      obtain ⟨e, h1, h2, h3, h4, h5⟩ := hr
      simp only at h1 h4 ⊢
      generalize (wsOr inp next m).2 = n1 at *
      cases last with
      | true =>
        intro hr
        exact BrokenCells.other (key := some key.id) ho hh hw h1 h4 (ne_some hr)
      | false =>
        simp only [Bool.false_eq_true, if_false]
        have go : ∀ k c, k ≤ inp.length → NextCell inp true (atBlock inp (wsEnd inp (m0 + 1))) e (!c) k (wsEnd inp k) → Outcome
            (fun r => peekAt inp r.2.2.2.2 ≠ RCB → BrokenCells inp true false st n r.2.2.2.1 r.2.2.2.2 .badMappingTerminator) (Errs (BrokenCells inp true false st n))
            (do let (items, tr, w, st, n) ← pflowMapLoop rec inp f (!c) c (wsStr inp k) k (wsEnd inp k)
                return (Items.cons () ip key v items, tr, w, st, n)) := by
          intro k c hk hb
          refine Outcome.bind ((pflowMapLoop_fault H f (!c) c _ k _ (wsEnd_le hk)).imp (fun _ h => h)
            fun e he a b k h => BrokenCells.later (key := some key.id) ho hh hw h1 hb (he a b k h)) fun q hq => ?_
          exact fun hr => BrokenCells.later (key := some key.id) ho hh hw h1 hb (hq hr)
        by_cases hcm : peekAt inp n1 = COMMA
        · have hlt := lt_of_peek (inp := inp) (n := n1) (by rw [hcm]; decide)
          simp only [hcm, beq_self_eq_true, if_true, bump_one hlt]
          exact go _ true (by omega) ⟨n1, h4, .inl ⟨rfl, peek_some hcm (by decide), by rw [Bool.and_comm]; exact ⟨rfl, FullGap.ws (by omega)⟩⟩⟩
        · have hcm' : (peekAt inp n1 == COMMA) = false := by simpa using hcm
          simp only [hcm', Bool.false_eq_true, if_false]
          exact go _ false h4.1.2.1 ⟨n1, h4, .inr ⟨rfl, ne_some hcm, rfl, by rw [h4.end]; exact h4⟩⟩
end

theorem pvalue_fault (inp : Bytes) : ∀ f, RecFault inp (pvalue inp f)
  | 0 => fun _ _ _ _ _ => Errs.fuel
  | f + 1 => fun s n hn hw ht => by
    have H := pvalue_fault inp f
    cases hv : pvalue inp (f + 1) s n with
    | ok r => exact place_rules.value _ _ _ _ _ _ hv
    | error er =>
      intro a b k hk
      subst hk
      unfold pvalue at hv
      cases hl : lead f inp s.inline s.tabular n with
      | error e =>
        rw [hl] at hv
        cases hv
        exact lead_err hl _
      | ok l =>
        rw [hl] at hv
        simp only [bind, Except.bind] at hv
        have hlb := lead_back hn hw ht hl
        cases (lead_spec hn).ok hl with
        | seq h1 _ hi =>
          simp only [psequence, bind, Except.bind] at hv
          cases hs : pseqLoop (pvalue inp f) inp (indentFrom inp n) f [] n with
          | ok r => rw [hs] at hv; cases hv
          | error e =>
            rw [hs] at hv
            cases hv
            exact .dashes (spot_block hi) ((pseqLoop_fault H f _ true _ n h1 (fun _ => (lead_seq hl).2.1) rfl).error hs _ _ _ rfl)
        | flowSeq h1 =>
          have hlt := lt_of_peek (inp := inp) (n := n) (by rw [h1]; decide)
          simp only [pflowSeq, bind, Except.bind, bump_one hlt] at hv
          have hf := pflowSeqLoop_fault H f false false (wsStr inp (n + 1)) (n + 1) (wsEnd inp (n + 1)) (wsEnd_le (by omega)) (by
            have := wsStr_length (inp := inp) (n := n + 1) (by omega)
            have := le_wsEnd inp (n + 1)
            omega)
          cases hs : pflowSeqLoop (pvalue inp f) inp f false false (wsStr inp (n + 1)) (wsEnd inp (n + 1)) with
          | ok r =>
            obtain ⟨items, tr, w, m⟩ := r
            rw [hs] at hv
            simp only at hv
            split at hv
            · cases hv
            · next hr =>
              cases hv
              exact .brackets (peek_some h1 (by decide)) (FullGap.ws (by omega)) (hf.ok hs (by simpa using hr))
          | error e =>
            rw [hs] at hv
            cases hv
            exact .brackets (peek_some h1 (by decide)) (FullGap.ws (by omega)) (hf.error hs _ _ _ rfl)
        | flowMap h1 =>
          have hlt := lt_of_peek (inp := inp) (n := n) (by rw [h1]; decide)
          simp only [pflowMap, bind, Except.bind, bump_one hlt] at hv
          have hf := pflowMapLoop_fault H f false false (wsStr inp (n + 1)) (n + 1) (wsEnd inp (n + 1)) (wsEnd_le (by omega))
          cases hs : pflowMapLoop (pvalue inp f) inp f false false (wsStr inp (n + 1)) (n + 1) (wsEnd inp (n + 1)) with
          | ok r =>
            obtain ⟨items, tr, w, st, m⟩ := r
            rw [hs] at hv
            simp only at hv
            split at hv
            · cases hv
            · next hr =>
              cases hv
              exact .braces (peek_some h1 (by decide)) (FullGap.ws (by omega)) (hf.ok hs (by simpa using hr))
          | error e =>
            rw [hs] at hv
            cases hv
            exact .braces (peek_some h1 (by decide)) (FullGap.ws (by omega)) (hf.error hs _ _ _ rfl)
        | @key key m h1 h2 _ _ hi =>
          have hk := hlb.2 _ _ rfl
          have go : (∀ c, s.parentIndent = some c → c < indentFrom inp n) →
              pmappingOrNul.go (pvalue inp f) inp f s n key m (indentFrom inp n) = .error (.err a b k) → Broken inp s.spot n a b k := by
            intro hp hv
            simp only [pmappingOrNul.go, bind, Except.bind] at hv
            cases hs : pmapLoop (pvalue inp f) inp (indentFrom inp n) f n key [] m with
            | ok r => rw [hs] at hv; cases hv
            | error e =>
              rw [hs] at hv
              cases hv
              refine .keys ⟨spot_block hi, fun c h => hp c ?_⟩ ((pmapLoop_fault H f _ true n key _ m rfl (fun _ => ⟨m, rfl, hk⟩) (fun h => absurd (some_peek hk.2.1) h)).error hs _ _ _ rfl)
              unfold PSt.spot at h
              rw [hi] at h
              cases hq : s.parentIndent with
              | none => rw [hq] at h; cases h
              | some i => rw [hq] at h; cases h; rfl
          simp only [pmappingOrNul] at hv
          split at hv
          · next i hp =>
            split at hv
            · cases hv
            · next hc => exact go (fun c h => by rw [hp] at h; cases h; omega) hv
          · next hp => exact go (fun c h => by rw [hp] at h; cases h) hv
        | block h1 hb => cases hv
        | scalar h1 h2 h3 _ _ => cases hv

/-- What is wrong with a text that is refused. -/
theorem refused {inp : Bytes} {f start stop : Nat} {k : ErrKind} (h : parseF f inp = .error (.err start stop k)) : Refuses inp start stop k := by
  rw [parseF_refine] at h
  cases hp : pparseF f inp with
  | ok r => rw [hp] at h; cases h
  | error e =>
    rw [hp] at h
    cases h
    unfold pparseF startOfDocument at hp
    cases hs : startLoop inp f (wsEnd inp 0) (wsStr inp 0) with
    | error e =>
      have hw := Pos.ws (inp := inp) (n := 0) (Nat.zero_le _) (cut_zero inp)
      have := (startLoop_spec f _ _ hw.2.1 hw.2.2).error hs
      subst this
      simp only [hs, bind, Except.bind] at hp
      cases hp
    | ok r =>
      obtain ⟨pre, n⟩ := r
      obtain ⟨k', k1, k2, rfl, rfl, k5⟩ := startLoop_body f 0 (Nat.zero_le _) (cut_zero _) hs (inp.length + 1) (by simp)
      simp only [hs, bind, Except.bind] at hp
      have hd : inp.drop (wsEnd inp k') = skipBlank false (body inp) := by
        rw [skipBlank_eq, body]
        rw [List.drop_zero] at k5
        rw [k5, List.drop_drop, wsEnd]
      refine ⟨wsEnd inp k', wsEnd_le k1, hd, ?_⟩
      have H := (pvalue_fault inp f).ws ⟨wsStr inp k', false, true, none⟩ k' k1 rfl
      cases hv : pvalue inp f ⟨wsStr inp k', false, true, none⟩ (wsEnd inp k') with
      | error e =>
        rw [hv] at hp
        cases hp
        exact .inl (H.error hv _ _ _ rfl)
      | ok r =>
        obtain ⟨t, ws, m⟩ := r
        rw [hv] at hp
        simp only at hp
        split at hp
        · cases hp
        · next he =>
          cases hp
          obtain ⟨e, h1, -, -, h3, -⟩ := H.ok hv
          have := h3.1.2.1
          exact .inr ⟨_, e, h1, h3, by simp only at this ⊢; omega, rfl, rfl⟩

end Verif
