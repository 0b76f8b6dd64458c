import Verif.Lossy
import Verif.PutDocs
import Verif.Shows
import Verif.SafeLemmas
/-
What `Display` shows of a document that was read from any bytes.
-/
namespace Verif

mutual
/-- `Display` shows every part of the value, with what is not UTF-8 replaced. -/
def Tree.shown {α} : Tree α → Prop
  | .leaf _ p s => s.disp = lossy s.write ∧ (s = .null .empty → p = [])
  | .node _ p m _ k items => items.shown m ∧ (k = .block → items.isNil = true → p = [])
def Items.shown {α} (m : Bool) : Items α → Prop
  | .nil => True
  | .cons _ _ key v rest => (m = true → key.display = lossy key.write) ∧ v.shown ∧ rest.shown m
end

theorem Tree.shown_pre {α} {t : Tree α} (h : t.shown) : (if t.showsPre then lossy t.pre else []) = lossy t.pre := by
  by_cases hs : t.showsPre = true
  · rw [if_pos hs]
  rw [if_neg hs]
  have : t.pre = [] := by
    cases t with
    | leaf i p s =>
      by_cases he : s = .null .empty
      · exact h.2 he
      · exact absurd (bne_iff_ne.2 he) hs
    | node i p m n k items =>
      by_cases hk : k = .block
      · by_cases hn : items.isNil = true
        · exact h.2 hk hn
        · exact absurd (by simp [Tree.showsPre, hn]) hs
      · exact absurd (by simp [Tree.showsPre, hk]) hs
  rw [this]; rfl

theorem Scalar.shown {s : Scalar} (hk : ∀ r, s = .string r → r.kind = .bare ∨ r.kind = .original) : s.disp = lossy s.write := by
  cases s with
  | null n => cases n <;> rfl
  | bool v t => rfl
  | number t hint => rfl
  | string r => rcases hk r rfl with hk | hk <;> simp only [Scalar.write, Scalar.disp, RStr.write, RStr.display, hk]

mutual
theorem Tree.label_shown (k : Nat) : ∀ t : Tree Unit, (t.label k).shown ↔ t.shown
  | .leaf _ _ _ => Iff.rfl
  | .node _ _ m _ _ items => by
    simp only [Tree.label, Tree.shown, Items.label_shown (m := m) _ items, Items.label_isNil]
theorem Items.label_shown {m : Bool} (k : Nat) : ∀ is : Items Unit, (is.label k).shown m ↔ is.shown m
  | .nil => Iff.rfl
  | .cons _ p key v rest => by
    simp only [Items.label, Items.shown, Tree.label_shown _ v, Items.label_shown _ rest]
end

section
variable (inp : Bytes)

def ShV (s : PSt) (n : Nat) (t : Tree Unit) (ws : Option Bytes) (m : Nat) : Prop :=
  n ≤ inp.length → Cut inp n → WsText inp s.pre → Pos inp n m ∧ (∀ w, ws = some w → WsText inp w) ∧ t.shown
def ShFS (_last _tr : Bool) (ip : Bytes) (n : Nat) (items : Items Unit) (_tr' : Bool) (w : Bytes) (m : Nat) : Prop :=
  n ≤ inp.length → Cut inp n → WsText inp ip → Pos inp n m ∧ WsText inp w ∧ items.shown false
def ShFM (_last _tr : Bool) (ip : Bytes) (_st n : Nat) (items : Items Unit) (_tr' : Bool) (w : Bytes) (_st' m : Nat) : Prop :=
  n ≤ inp.length → Cut inp n → WsText inp ip → Pos inp n m ∧ WsText inp w ∧ items.shown true
def ShBS (_ind : Nat) (ip : Bytes) (n : Nat) (items : Items Unit) (w : Bytes) (m : Nat) : Prop :=
  n ≤ inp.length → Cut inp n → WsText inp ip → Pos inp n m ∧ WsText inp w ∧ items.shown false ∧ items.isNil = false
def ShBM (_ind _st : Nat) (key : RStr) (ip : Bytes) (n : Nat) (items : Items Unit) (w : Bytes) (m : Nat) : Prop :=
  n ≤ inp.length → Cut inp n → WsText inp ip → key.display = lossy key.write → Pos inp n m ∧ WsText inp w ∧ items.shown true ∧
    items.isNil = false
end

section
variable {inp : Bytes}

theorem ShV.wsOr {s : PSt} {n : Nat} {t : Tree Unit} {ws : Option Bytes} {m : Nat} (h : ShV inp s n t ws m) (hn : n ≤ inp.length)
    (hc : Cut inp n) (hs : WsText inp s.pre) : Pos inp n (wsOr inp ws m).2 ∧ WsText inp (wsOr inp ws m).1 ∧ t.shown := by
  obtain ⟨h1, h2, h5⟩ := h hn hc hs
  cases ws with
  | none => exact ⟨h1.trans (Pos.ws h1.2.1 h1.2.2), .of_ws h1.2.1 h1.2.2, h5⟩
  | some w => exact ⟨h1, h2 w rfl, h5⟩

theorem shown_after {n : Nat} {s : PSt} {t : Tree Unit} {ws : Option Bytes} {m : Nat}
    (hs : s.pre = wsStr inp (bump inp n 1)) (h : ShV inp s (wsEnd inp (bump inp n 1)) t ws m) (hn : n ≤ inp.length)
    (h8 : peekAt inp n < 0x80) : Pos inp n (wsOr inp ws m).2 ∧ WsText inp (wsOr inp ws m).1 ∧ t.shown := by
  have hp := Pos.next hn h8
  have hw := Pos.ws hp.2.1 hp.2.2
  obtain ⟨h1, h2, h3⟩ := h.wsOr hw.2.1 hw.2.2 (by rw [hs]; exact .of_ws hp.2.1 hp.2.2)
  exact ⟨hp.trans (hw.trans h1), h2, h3⟩

theorem slice_snoc {a b : Nat} (h : a < b) (hb : b ≤ inp.length) : slice inp a b = slice inp a (b - 1) ++ [peekAt inp (b - 1)] := by
  rw [← slice_append (b := b - 1) (by omega) (by omega)]
  congr 1
  rw [slice, List.drop_eq_getElem_cons (by omega : b - 1 < inp.length), show b - (b - 1) = 1 by omega, peekAt_get (by omega)]
  rfl

theorem cut_splits {a b c : Nat} (h1 : a ≤ b) (hb : b ≤ inp.length) (h : Cut inp b) : Splits (slice inp a b) (slice inp b c) := by
  rcases h with h | rfl | h
  · by_cases hc : b < c
    · refine .inr (.inr (.inl ?_))
      rw [show hd (slice inp b c) = _ from slice_headD hc, getD_peek]
      exact ascii_notCont h
    · exact .inr (.inl (slice_none (by omega)))
  · exact .inl (slice_none (Nat.zero_le _))
  · by_cases ha : a < b
    · exact .inr (.inr (.inr ⟨_, _, slice_snoc ha hb, h⟩))
    · exact .inl (slice_none (by omega))

theorem shown_rules : Rules inp (ShV inp) (ShFS inp) (ShFM inp) (ShBS inp) (ShBM inp) where
  scalar := by
    intro f s n sc ws m hl hn hc hs
    cases (lead_spec hn).ok hl with
    | block h1 hb =>
      obtain ⟨st, stop, ws0, g1, g2, g3, g4, g5, g6, g7, g8, g9, g10, rfl, rfl, g13⟩ := hb.ex
      have hw := Pos.ws g9 g10
      refine ⟨⟨by have := hw.1; omega, hw.2⟩, fun w h => by cases h; exact .of_ws g9 g10, ?_, fun h => by cases h⟩
      simp only [Scalar.disp, Scalar.write, RStr.display, RStr.write, g1, g2]
      rw [lossy_split (cut_splits (Nat.le_of_lt g3) (Nat.le_trans g4 g5) g6)]
    | scalar h1 h2 h3 h4 h5 =>
      refine ⟨⟨h1, h2, h3 hc⟩, (fun w h => by cases h),
        Scalar.shown h5, ?_⟩
      intro he
      exfalso
      subst he
      exact lead_not_empty hl
  seq := by
    intro f s n items w m _ hb hn hc hs
    obtain ⟨k1, k2, k3, k4⟩ := hb hn hc (.inl rfl)
    exact ⟨k1, fun w' h => by cases h; exact k2, k3, fun _ h => by rw [k4] at h; cases h⟩
  flowSeq := by
    intro f s n items tr w m hl hb hr hn hc hs
    cases (lead_spec hn).ok hl with
    | flowSeq h1 =>
    have hp := Pos.next hn (by rw [h1]; decide : peekAt inp n < 0x80)
    have hw := Pos.ws hp.2.1 hp.2.2
    obtain ⟨k1, k2, k3⟩ := hb hw.2.1 hw.2.2 (.of_ws hp.2.1 hp.2.2)
    exact ⟨hp.trans (hw.trans (k1.trans (Pos.next k1.2.1 (by rw [hr]; decide)))), (fun w h => by cases h), k3,
      fun h => by cases h⟩
  flowMap := by
    intro f s n items tr w st m hl hb hr hn hc hs
    cases (lead_spec hn).ok hl with
    | flowMap h1 =>
    have hp := Pos.next hn (by rw [h1]; decide : peekAt inp n < 0x80)
    have hw := Pos.ws hp.2.1 hp.2.2
    obtain ⟨k1, k2, k3⟩ := hb hw.2.1 hw.2.2 (.of_ws hp.2.1 hp.2.2)
    exact ⟨hp.trans (hw.trans (k1.trans (Pos.next k1.2.1 (by rw [hr]; decide)))), (fun w h => by cases h), k3,
      fun h => by cases h⟩
  keyNull := by
    intro f s n key m i _ _ _ hn hc hs
    exact ⟨Pos.refl hn hc, fun w h => by cases h; exact hs, rfl, fun _ => rfl⟩
  keyMap := by
    intro f s n key m items w m' hl _ hb hn hc hs
    cases (lead_spec hn).ok hl with
    | key h1 h2 h3 h4 hi =>
    have hlt := lt_of_peek (inp := inp) (n := m) (by rw [h2]; decide)
    have hk : key.display = lossy key.write := by
      simp only [RStr.write, RStr.display]
      rcases h3 with h3 | h3 <;> simp only [h3]
    obtain ⟨k1, k2, k3, k4⟩ := hb (by omega) (.inl (by rw [h2]; decide)) (.inl rfl) hk
    exact ⟨⟨Nat.le_trans h1 k1.1, k1.2⟩, fun w' h => by cases h; exact k2, k3, fun _ h => by rw [k4] at h; cases h⟩
  fsStop := by
    intro last tr ip n _ hn hc hi
    exact ⟨Pos.refl hn hc, hi, trivial⟩
  fsLast := by
    intro tr ip n v next m _ hvv hn hc hi
    have hw := Pos.ws hn hc
    obtain ⟨h1, h2, h3⟩ := hvv.wsOr hw.2.1 hw.2.2 (.of_ws hn hc)
    exact ⟨hw.trans h1, h2, fun h => (by cases h), h3, trivial⟩
  fsComma := by
    intro tr ip n v next m items tr' w m' _ hvv hcm hrec hn hc hi
    have hw := Pos.ws hn hc
    obtain ⟨h1, h2, h3⟩ := hvv hw.2.1 hw.2.2 (.of_ws hn hc)
    have hp := Pos.next h1.2.1 (by rw [hcm]; decide : peekAt inp m < 0x80)
    have : Pos inp n (wsOr inp next (bump inp m 1)).2 ∧ WsText inp (wsOr inp next (bump inp m 1)).1 := by
      cases next with
      | none => exact ⟨hw.trans (h1.trans (hp.trans (Pos.ws hp.2.1 hp.2.2))), .of_ws hp.2.1 hp.2.2⟩
      | some w => exact ⟨hw.trans (h1.trans hp), h2 w rfl⟩
    obtain ⟨g1, g2, g3⟩ := hrec this.1.2.1 this.1.2.2 this.2
    exact ⟨this.1.trans g1, g2, fun h => (by cases h), h3, g3⟩
  fsOther := by
    intro tr ip n v next m items tr' w m' _ hvv _ hrec hn hc hi
    have hw := Pos.ws hn hc
    obtain ⟨h1, h2, h3⟩ := hvv.wsOr hw.2.1 hw.2.2 (.of_ws hn hc)
    obtain ⟨g1, g2, g3⟩ := hrec h1.2.1 h1.2.2 h2
    exact ⟨hw.trans (h1.trans g1), g2, fun h => (by cases h), h3, g3⟩
  fmStop := by
    intro last tr ip st n _ hn hc hi
    exact ⟨Pos.refl hn hc, hi, trivial⟩
  fmLast := by
    intro tr ip st n key m0 v next m _ hu hvv hn hc hi
    obtain ⟨u1, u2, u3, u4⟩ := untilColon_spec hn hu
    rcases u4 with ⟨u4, _⟩ | ⟨u4, u5⟩
    · cases u4
    cases u4
    obtain ⟨h1, h2, h3⟩ := shown_after (s := ⟨wsStr inp (bump inp m0 1), true, false, none⟩) rfl hvv u2 (colon_ascii u3)
    exact ⟨⟨Nat.le_trans u1 h1.1, h1.2⟩, h2, fun _ => rfl, h3, trivial⟩
  fmComma := by
    intro tr ip st n key m0 v next m items tr' w st' m' _ hu hvv hcm hrec hn hc hi
    obtain ⟨u1, u2, u3, u4⟩ := untilColon_spec hn hu
    rcases u4 with ⟨u4, _⟩ | ⟨u4, u5⟩
    · cases u4
    cases u4
    obtain ⟨h1, h2, h3⟩ := shown_after (s := ⟨wsStr inp (bump inp m0 1), true, false, none⟩) rfl hvv u2 (colon_ascii u3)
    have hp := Pos.next h1.2.1 (by rw [hcm]; decide)
    have hw := Pos.ws hp.2.1 hp.2.2
    obtain ⟨g1, g2, g3⟩ := hrec hw.2.1 hw.2.2 (.of_ws hp.2.1 hp.2.2)
    have hm := h1.trans (hp.trans (hw.trans g1))
    exact ⟨⟨Nat.le_trans u1 hm.1, hm.2⟩, g2, fun _ => rfl, h3, g3⟩
  fmOther := by
    intro tr ip st n key m0 v next m items tr' w st' m' _ hu hvv _ hrec hn hc hi
    obtain ⟨u1, u2, u3, u4⟩ := untilColon_spec hn hu
    rcases u4 with ⟨u4, _⟩ | ⟨u4, u5⟩
    · cases u4
    cases u4
    obtain ⟨h1, h2, h3⟩ := shown_after (s := ⟨wsStr inp (bump inp m0 1), true, false, none⟩) rfl hvv u2 (colon_ascii u3)
    have hw := Pos.ws h1.2.1 h1.2.2
    obtain ⟨g1, g2, g3⟩ := hrec hw.2.1 hw.2.2 (.of_ws h1.2.1 h1.2.2)
    have hm := h1.trans (hw.trans g1)
    exact ⟨⟨Nat.le_trans u1 hm.1, hm.2⟩, g2, fun _ => rfl, h3, g3⟩
  bsLast := by
    intro ind ip n v ws m hd hvv _ hn hc hi
    obtain ⟨h1, h2, h3⟩ := shown_after (s := ⟨wsStr inp (bump inp n 1), false, true, none⟩) rfl hvv hn (by rw [hd]; decide)
    exact ⟨h1, h2, ⟨fun h => (by cases h), h3, trivial⟩, rfl⟩
  bsMore := by
    intro ind ip n v ws m items w m' hd hvv _ _ hrec hn hc hi
    obtain ⟨h1, h2, h3⟩ := shown_after (s := ⟨wsStr inp (bump inp n 1), false, true, none⟩) rfl hvv hn (by rw [hd]; decide)
    obtain ⟨g1, g2, g3, _⟩ := hrec h1.2.1 h1.2.2 h2
    exact ⟨h1.trans g1, g2, ⟨fun h => (by cases h), h3, g3⟩, rfl⟩
  bmLast := by
    intro ind st key ip n v ws m hd hvv _ hn hc hi hk
    obtain ⟨h1, h2, h3⟩ := shown_after (s := ⟨wsStr inp (bump inp n 1), false, true, some ind⟩) rfl hvv hn (by rw [hd]; decide)
    exact ⟨h1, h2, ⟨fun _ => hk, h3, trivial⟩, rfl⟩
  bmEnd := by
    intro ind st key ip n v ws m m0 hd hvv _ hnk hn hc hi hk
    obtain ⟨h1, h2, h3⟩ := shown_after (s := ⟨wsStr inp (bump inp n 1), false, true, some ind⟩) rfl hvv hn (by rw [hd]; decide)
    have hm0 : m0 = (wsOr inp ws m).2 := by
      rcases (nextMappingKey_spec h1.2.1 hnk).2.2.2 with h | ⟨h, _⟩
      · exact h.2
      · cases h
    subst hm0
    exact ⟨h1, h2, ⟨fun _ => hk, h3, trivial⟩, rfl⟩
  bmMore := by
    intro ind st key ip n v ws m m0 key' items w m' hd hvv _ hnk hrec hn hc hi hk
    obtain ⟨h1, h2, h3⟩ := shown_after (s := ⟨wsStr inp (bump inp n 1), false, true, some ind⟩) rfl hvv hn (by rw [hd]; decide)
    obtain ⟨u1, u2, u3, u4⟩ := nextMappingKey_spec h1.2.1 hnk
    rcases u4 with ⟨u4, _⟩ | ⟨u4, u5⟩
    · cases u4
    cases u4
    obtain ⟨g1, g2, g3, _⟩ := hrec u2 (.inl (colon_ascii u3)) h2 rfl
    exact ⟨⟨by have := h1.1; have := g1.1; omega, g1.2⟩, g2, ⟨fun _ => hk, h3, g3⟩, rfl⟩
end

/-! ### Where the pieces meet -/

/-- The text ends with an ASCII byte. -/
def LastAscii (x : Bytes) : Prop := ∃ x' c, x = x' ++ [c] ∧ c < 0x80

/-- White space and comments with something after them. -/
def WsClosed (w : Bytes) : Prop := w = [] ∨ hd w < 0x80 ∧ LastAscii w

/-- After the text, what is at `e` in the input may follow. -/
def After (inp : Bytes) (e : Nat) (x : Bytes) : Prop := isCont (inp.getD e 0) = false ∨ LastAscii x

theorem LastAscii.append {a b : Bytes} (h : LastAscii b) : LastAscii (a ++ b) := by
  obtain ⟨x, c, rfl, hc⟩ := h
  exact ⟨a ++ x, c, by simp, hc⟩

theorem LastAscii.lossy {a : Bytes} (h : LastAscii a) : LastAscii (lossy a) := by
  obtain ⟨x, c, rfl, hc⟩ := h
  refine ⟨Verif.lossy x, c, ?_, hc⟩
  rw [lossy_split (.inr (.inr (.inl (show isCont (hd (c :: _)) = false from ascii_notCont hc)))), lossy_ascii hc]
  rfl

theorem After.append {inp : Bytes} {e : Nat} {a b : Bytes} (h : After inp e b) : After inp e (a ++ b) := h.imp id LastAscii.append

theorem WsClosed.lossy {w : Bytes} (h : WsClosed w) : WsClosed (lossy w) := by
  rcases h with rfl | ⟨h1, h2⟩
  · exact .inl rfl
  · refine .inr ⟨?_, h2.lossy⟩
    cases w with
    | nil => exact h1
    | cons c r => rw [lossy_ascii (show c < 0x80 from h1)]; exact h1

theorem lossy_lossy (w : Bytes) : lossy (lossy w) = lossy w := lossy_valid (lossy_utf8 w)

theorem WsClosed.split {w : Bytes} (h : WsClosed w) (b : Bytes) : Verif.lossy (w ++ b) = Verif.lossy w ++ Verif.lossy b := by
  rcases h with rfl | ⟨_, h⟩
  · rfl
  · exact lossy_split (.inr (.inr (.inr h)))

theorem LastAscii.split {w : Bytes} (h : LastAscii w) (b : Bytes) : Verif.lossy (w ++ b) = Verif.lossy w ++ Verif.lossy b :=
  lossy_split (.inr (.inr (.inr h)))

theorem lossy_mid {a b : Bytes} {c : UInt8} (hc : c < 0x80) : lossy (a ++ c :: b) = lossy a ++ c :: lossy b := by
  rw [lossy_split (.inr (.inr (.inl (show isCont (hd (c :: _)) = false from ascii_notCont hc)))), lossy_ascii hc]

theorem gapGo_ends : ∀ {c : Bool} {s : Bytes}, gapGo c s = true → s = [] ∨ LastAscii s
  | _, [], _ => .inl rfl
  | c, b :: r, h => by
    have tail : ∀ {c'}, gapGo c' r = true → (c' = false → b < 0x80) → LastAscii (b :: r) := by
      intro c' h1 h2
      rcases gapGo_ends h1 with rfl | h3
      · refine ⟨[], b, rfl, h2 ?_⟩
        simpa [gapGo] using h1
      · exact h3.append (a := [b])
    refine .inr ?_
    cases c with
    | true =>
      rw [gapGo] at h
      refine tail h fun hb => ?_
      have : b = NL := by simpa using hb
      rw [this]; decide
    | false =>
      rw [gapGo] at h
      split at h
      · exact tail h fun h => by cases h
      · rw [Bool.and_eq_true] at h
        exact tail h.2 fun _ => isWs_ascii h.1

section
variable {inp : Bytes}

theorem FullGap.head {a b : Nat} (h : FullGap inp a b) (hlt : a < b) : inp.getD a 0 < 0x80 := by
  rcases h.cut with h1 | ⟨_, _, h1⟩
  · exact absurd (slice_nil h.le.1 h.le.2 h1) (by omega)
  · have h2 := h.eq
    rw [getD_peek]
    by_cases hs : isWs (peekAt inp a) = true
    · exact isWs_ascii hs
    · by_cases hh : peekAt inp a = HASH
      · rw [hh]; decide
      · exact absurd (FullGap.unique ⟨Gap.refl (by have := h.le; omega), by rw [getD_peek]; simpa using hs, by rw [getD_peek]; exact hh⟩ h) (by omega)

theorem FullGap.closed {a b : Nat} (h : FullGap inp a b) (hb : b < inp.length) : WsClosed (slice inp a b) := by
  by_cases hlt : a < b
  · refine .inr ⟨?_, ?_⟩
    · rw [show hd (slice inp a b) = _ from slice_headD hlt]; exact h.head hlt
    · rcases h.1.2.2 with h1 | ⟨h1, _⟩
      · rcases gapGo_ends h1 with h2 | h2
        · exact absurd (slice_nil h.le.1 h.le.2 h2) (by omega)
        · exact h2
      · omega
  · exact .inl (slice_none (by omega))

/-- After white space and comments there is a boundary. -/
theorem FullGap.split {a b : Nat} (h : FullGap inp a b) {x : Bytes} (hx : b = inp.length → x = []) :
    lossy (slice inp a b ++ x) = lossy (slice inp a b) ++ lossy x := by
  by_cases hb : b = inp.length
  · rw [hx hb]; simp [lossy_nil]
  · exact (h.closed (by have := h.le; omega)).split x

theorem getD_end {n : Nat} (h : inp.length ≤ n) : isCont (inp.getD n 0) = false := by rw [getD_peek, peekAt_ge h]; decide

theorem BlockAt.after {lo : Nat} {v : Bytes} {hi : Nat} (h : BlockAt inp lo v hi) : isCont (inp.getD hi 0) = false := by
  by_cases hw : isWs (inp.getD hi 0) = true
  · exact ascii_notCont (isWs_ascii hw)
  · by_cases hh : inp.getD hi 0 = HASH
    · rw [hh]; decide
    · exact getD_end (Nat.le_of_eq (h.ends (by simpa using hw) hh).symm)

theorem lastAscii_all {s : Bytes} (hne : s ≠ []) (h : ∀ b ∈ s, b < 0x80) : LastAscii s := by
  refine ⟨s.dropLast, s.getLast hne, (List.dropLast_concat_getLast hne).symm, h _ (List.getLast_mem hne)⟩

theorem Token.after {flow : Bool} {hi : Nat} {t : Bytes} {v : AnyV} (h : Token flow (inp.drop hi) t v) : After inp hi t := by
  have hd0 : (inp.drop hi).headD 0 = inp.getD hi 0 := by rw [List.headD_eq_head?_getD, List.head?_drop, List.getD_eq_getElem?_getD]
  cases h with
  | number h _ =>
    refine .inr (lastAscii_all (fun h0 => by rw [h0] at h; cases h) fun b hb => ?_)
    exact byte_cases (p := fun b => numByte b = true → b < 0x80) (by set_option maxRecDepth 100000 in decide) b (isNumber_bytes h b hb)
  | plain _ h =>
    refine .inl ?_
    rw [plainText, Bool.and_eq_true] at h
    cases flow with
    | true =>
      simp only [if_true, Bool.and_eq_true] at h
      rw [← hd0]
      exact ascii_notCont (ctl_ascii h.2.2)
    | false =>
      simp only [Bool.false_eq_true, if_false, Bool.and_eq_true] at h
      have h1 := h.2.1.2
      by_cases hl : hi < inp.length
      · rw [List.drop_eq_getElem_cons hl] at h1
        rw [List.getD_eq_getElem?_getD, List.getElem?_eq_getElem hl]
        have : inp[hi] = NL := eq_of_beq h1
        rw [Option.getD_some, this]; decide
      · exact getD_end (by omega)
  | quoted h _ _ =>
    refine .inr ?_
    cases h with
    | single s => exact ⟨_, SQ, rfl, by decide⟩
    | double _ hq => exact ⟨_, _, rfl, by rcases hq with rfl | rfl <;> decide⟩

theorem render_disp {m : Bool} {k : CollKind} {i : Unit} {p : Bytes} {key : RStr} {v : Tree Unit} {rest : Items Unit} (hk : m = true → key.display = lossy key.write)
    (hv : v.shown) : (Items.cons i p key v rest).disp m k =
      lossy p ++ (if m then lossy key.write ++ [COLON] else if k = .block then [DASH] else []) ++ (lossy v.pre ++ v.disp) ++ sepOf k rest.isNil ++ rest.disp m k := by
  rw [Items.disp, Tree.shown_pre hv]
  cases m with
  | true => simp [hk rfl]
  | false => simp

/-- Items of a block collection, as text. -/
theorem render_row {m : Bool} {i : Unit} {p : Bytes} {key : RStr} {v : Tree Unit} {rest : Items Unit} :
    (Items.cons i p key v rest).render m .block = (if m then p else lossy p) ++ (rowHead m key ++ (v.text ++ rest.render m .block)) := by
  cases m <;> simp [Items.render, rowHead, Tree.text, sepOf]

theorem rowHead_ends (m : Bool) (key : RStr) : LastAscii (rowHead m key) := by
  cases m with
  | true => exact ⟨key.write, COLON, rfl, by decide⟩
  | false => exact ⟨[], DASH, rfl, by decide⟩

theorem rowHead_lossy (m : Bool) (key : RStr) : lossy (rowHead m key) = if m then lossy key.write ++ [COLON] else [DASH] := by
  cases m with
  | true => exact lossy_mid (by decide)
  | false => rfl

theorem LastAscii.hd {x : Bytes} (h : LastAscii x) (y : Bytes) : Verif.hd (x ++ y) = Verif.hd x := by
  cases x with
  | nil => obtain ⟨x', c, h, _⟩ := h; simp at h
  | cons b r => rfl

theorem shownPre {m : Bool} {p : Bytes} (h : WsClosed p) : WsClosed (if m then p else lossy p) ∧ lossy (if m then p else lossy p) = lossy p ∧
    (p ≠ [] → ∀ y, isCont (hd ((if m then p else lossy p) ++ y)) = false) := by
  have key : ∀ {q : Bytes}, hd q < 0x80 ∧ LastAscii q → ∀ y, isCont (hd (q ++ y)) = false := fun h y => by rw [h.2.hd]; exact ascii_notCont h.1
  cases m with
  | true => exact ⟨h, rfl, fun hp => key (h.resolve_left hp)⟩
  | false =>
    refine ⟨h.lossy, lossy_lossy p, fun hp => key (h.lossy.resolve_left fun h0 => ?_)⟩
    obtain ⟨x', c, h1, _⟩ := (h.resolve_left hp).2.lossy
    rw [h0] at h1
    simp at h1

/-- What is shown of a value is what is written, with what is not UTF-8 replaced; something may follow. -/
def ShownV (inp : Bytes) (t : Tree Unit) (e : Nat) : Prop := lossy t.pre ++ t.disp = lossy t.text ∧ (t.text = [] ∨ After inp e t.text) ∧
  t.disp = lossy t.render

theorem ShownV.of {t : Tree Unit} {e : Nat} (hs : lossy (t.pre ++ t.render) = lossy t.pre ++ lossy t.render) (h1 : lossy t.pre ++ t.disp = lossy t.text)
    (h2 : t.text = [] ∨ After inp e t.text) : ShownV inp t e := by
  refine ⟨h1, h2, ?_⟩
  rw [Tree.text, hs] at h1
  exact List.append_cancel_left h1

/-- The same for the items of a block collection from `lo` on. -/
def ShownRows (inp : Bytes) (m : Bool) (ip : Bytes) (lo : Nat) (items : Items Unit) (hi : Nat) : Prop :=
  items.disp m .block = lossy (items.render m .block) ∧ After inp hi (items.render m .block) ∧
    (isCont (hd (items.render m .block)) = false ∨ ip = [] ∧ hd (items.render m .block) = inp.getD lo 0)

theorem shown_row {m first : Bool} {key : RStr} {ip : Bytes} {lo a e hi : Nat} {v : Tree Unit} {items : Items Unit} (hh : Head inp first (keyOf m key) lo a)
    (hr : rowHead m key = slice inp lo a) (hk : m = true → key.display = lossy key.write) (hs : v.shown) (hv : ShownV inp v e) (hp : WsClosed ip)
    (hx : lossy (rowHead m key ++ v.text ++ items.render m .block) = lossy (rowHead m key ++ v.text) ++ items.disp m .block)
    (he : After inp hi (rowHead m key ++ v.text ++ items.render m .block)) : ShownRows inp m ip lo (.cons () ip key v items) hi := by
  obtain ⟨g1, g2, g3⟩ := shownPre (m := m) hp
  refine ⟨?_, ?_, ?_⟩
  · rw [render_disp hk hs, render_row, g1.split, g2, ← List.append_assoc (rowHead m key), hx, (rowHead_ends m key).split, rowHead_lossy, ← hv.1]
    simp [sepOf]
  · rw [render_row, ← List.append_assoc (rowHead m key)]
    exact he.append
  · have hlt : lo < a := by
      cases m with
      | true =>
        obtain ⟨q, rfl, h⟩ := hh
        cases first with
        | true => have := h.1; omega
        | false => have := h.1; omega
      | false => have := hh.2.2; omega
    rw [render_row]
    by_cases h0 : ip = []
    · subst h0
      refine .inr ⟨rfl, ?_⟩
      have : (if m then ([] : Bytes) else lossy []) = [] := by cases m <;> rfl
      rw [this, List.nil_append, (rowHead_ends m key).hd, hr]
      exact slice_headD hlt
    · exact .inl (g3 h0 _)

theorem Head.inside {first : Bool} {k : Option Bytes} {lo a : Nat} (h : Head inp first k lo a) : lo < inp.length := by
  cases k with
  | none => exact (List.getElem?_eq_some_iff.1 h.1).1
  | some k =>
    obtain ⟨q, rfl, h⟩ := h
    cases first with
    | true => have := h.1; have := (List.getElem?_eq_some_iff.1 h.2.1).1; omega
    | false => have := h.1; have := (List.getElem?_eq_some_iff.1 h.2.1).1; omega

theorem LiesRows.lt {m first : Bool} {c lo hi : Nat} {ip : Bytes} {items : Items Unit} (h : LiesRows inp m c first ip lo items hi) : lo < inp.length := by
  cases h with
  | last _ h => exact h.inside
  | more _ h => exact h.inside

/-- The same for the items of an inline collection. -/
def ShownCells (m : Bool) (items : Items Unit) (w : Bytes) : Prop := (∀ tr' w', items.disp m (.inline tr' w') = lossy (items.render m (.inline tr' w'))) ∧ WsClosed w

theorem shown_cell {m : Bool} {key : RStr} {ip w : Bytes} {e : Nat} {v : Tree Unit} {items : Items Unit} (hk : m = true → key.display = lossy key.write) (hs : v.shown)
    (hv : ShownV inp v e) (hp : WsClosed ip) (hi : ShownCells m items w) : ShownCells m (.cons () ip key v items) w := by
  refine ⟨fun tr' w' => ?_, hi.2⟩
  obtain ⟨g1, g2, g3⟩ := shownPre (m := m) hp
  have e1 : (Items.cons () ip key v items).render m (.inline tr' w') =
      (if m then ip else lossy ip) ++ ((if m then key.write ++ [COLON] else []) ++ (v.text ++ (sepOf (.inline tr' w') items.isNil ++ items.render m (.inline tr' w')))) := by
    cases m <;> simp [Items.render, Tree.text]
  have e2 : ∀ y, lossy ((if m then key.write ++ [COLON] else []) ++ y) = (if m then lossy key.write ++ [COLON] else []) ++ lossy y := by
    intro y
    cases m with
    | true =>
      simp only [if_true]
      rw [List.append_assoc, List.append_assoc]
      exact lossy_mid (by decide)
    | false => rfl
  have e3 : lossy (v.text ++ (sepOf (.inline tr' w') items.isNil ++ items.render m (.inline tr' w'))) =
      lossy v.text ++ (sepOf (.inline tr' w') items.isNil ++ items.disp m (.inline tr' w')) := by
    rw [hi.1]
    cases items with
    | nil => simp [sepOf, Items.isNil, Items.render, lossy_nil]
    | cons => exact lossy_mid (by decide)
  rw [render_disp hk hs, e1, g1.split, g2, e2, e3, ← hv.1]
  simp

theorem cellSpace_closed {m blk last : Bool} {e start n : Nat} (h : NextCell inp m blk e last start n) (hn : n < inp.length) : WsClosed (cellSpace inp m blk last e start n) := by
  obtain ⟨c, h1, ⟨rfl, h2, h3⟩ | ⟨rfl, h2, rfl, h4⟩⟩ := h
  · by_cases hb : (blk && !m) = true
    · rw [if_pos hb] at h3
      obtain ⟨rfl, rfl⟩ := h3
      simp only [Bool.and_eq_true, Bool.not_eq_true'] at hb
      rw [if_pos (by simp [hb.1])] at h1
      simp only [cellSpace, hb.1, hb.2, Bool.not_false, Bool.and_self, if_true]
      exact h1.closed (by omega)
    · rw [if_neg hb] at h3
      obtain ⟨rfl, h3⟩ := h3
      simp only [cellSpace, hb, Bool.false_and, Bool.false_eq_true, if_false]
      exact h3.closed hn
  · simp only [cellSpace, Bool.not_true, Bool.and_false, Bool.false_eq_true, if_false]
    cases m with
    | true =>
      simp only [Bool.true_or, if_true] at h1 ⊢
      exact (h1.twice h4).closed hn
    | false => exact h4.closed hn

theorem LiesCells.lt {m last tr : Bool} {w w' : Bytes} {n hi : Nat} {items : Items Unit} (h : LiesCells inp m last w n items tr w' hi) : n < inp.length := by
  have key : ∀ {n}, Opens inp m n → n < inp.length := fun {n} h => Nat.lt_of_not_le fun hle => h.2 (by rw [getD_peek, peekAt_ge hle])
  cases h with
  | none h => exact (List.getElem?_eq_some_iff.1 h).1
  | final h => exact key h
  | cell h => exact key h

/-- A collection in brackets. -/
theorem shown_coll {m : Bool} {a lo i e : Nat} {items : Items Unit} {tr : Bool} {w : Bytes} (h1 : FullGap inp a lo) (hlo : lo < inp.length) (hs : ShownCells m items w) :
    ShownV inp (.node () (slice inp a lo) m i (.inline tr w) items) e := by
  obtain ⟨h2, h3⟩ := hs
  have hc : (if m then RCB else RBR : UInt8) < 0x80 := by cases m <;> decide
  have ho : (if m then LCB else LBR : UInt8) < 0x80 := by cases m <;> decide
  refine .of ((h1.closed hlo).split _) ?_ ?_
  · simp only [Tree.text, Tree.pre, Tree.disp, Tree.render, openOf]
    rw [(h1.closed hlo).split, List.append_assoc, List.append_assoc, List.singleton_append, List.singleton_append, lossy_ascii ho]
    congr 2
    have : isCont (hd (closeOf (.inline tr w) (if m then RCB else RBR))) = false := by
      cases tr with
      | true => rfl
      | false =>
        simp only [closeOf, Bool.false_eq_true, if_false, List.nil_append]
        rcases h3 with rfl | h3
        · exact ascii_notCont hc
        · rw [h3.2.hd]; exact ascii_notCont h3.1
    rw [lossy_split (.inr (.inr (.inl this))), h2]
    congr 1
    simp only [closeOf, closeOfDisplay]
    cases tr with
    | true =>
      simp only [if_true, List.cons_append]
      rw [lossy_ascii (by decide), lossy_mid hc]; rfl
    | false =>
      simp only [Bool.false_eq_true, if_false, List.nil_append]
      rw [lossy_mid hc]; rfl
  · refine .inr (.inr ?_)
    simp only [Tree.text, Tree.pre, Tree.render, closeOf]
    exact LastAscii.append (LastAscii.append (LastAscii.append ⟨[], _, rfl, hc⟩))

/-- A scalar. -/
theorem shown_leaf {a lo e : Nat} {sc : Scalar} (h1 : FullGap inp a lo) (hs : sc.disp = lossy sc.write) (h0 : lo = inp.length → sc.write = [])
    (he : After inp e sc.write) : ShownV inp (.leaf () (slice inp a lo) sc) e := by
  refine ⟨?_, .inr he.append, hs⟩
  simp only [Tree.text, Tree.pre, Tree.disp, Tree.render]
  rw [h1.split h0, hs]

theorem shown_block {m : Bool} {a lo i hi : Nat} {items : Items Unit} (h1 : FullGap inp a lo) (hlo : lo < inp.length) (h : ShownRows inp m [] lo items hi) :
    ShownV inp (.node () (slice inp a lo) m i .block items) hi := by
  obtain ⟨h2, h3, -⟩ := h
  have e : openOf .block (if m then LCB else LBR : UInt8) ++ items.render m .block ++ closeOf .block (if m then RCB else RBR : UInt8) = items.render m .block := by
    simp [openOf, closeOf]
  refine .of ((h1.closed hlo).split _) ?_ ?_
  · simp only [Tree.text, Tree.pre, Tree.disp, Tree.render]
    rw [e, (h1.closed hlo).split, ← h2]
    simp [openOf, closeOfDisplay]
  · simp only [Tree.text, Tree.pre, Tree.render]
    rw [e]
    exact .inr h3.append

mutual
theorem Lies.shows : ∀ {s : Spot} {a : Nat} {t : Tree Unit} {e : Nat}, Lies inp s a t e → t.shown → ShownV inp t e
  | _, _, _, _, .scalar h1 h2 h3 h4 h5, hs => by
    refine shown_leaf h1 hs.1 (fun h => ?_) (by rw [h5]; exact h4.after)
    rw [h5, h]
    exact slice_none (by omega)
  | _, _, _, _, .open h1 h2 h3 h4 h5, hs => by
    refine shown_leaf h1 hs.1 (fun h => ?_) (.inl (getD_end (Nat.le_refl _)))
    rw [h5, h]
    exact slice_none (Nat.le_refl _)
  | _, _, _, _, .lines h1 h2 h3 h4 h5, hs => by
    refine shown_leaf h1 hs.1 (fun h => ?_) (.inl h2.after)
    have := h2.bounds
    omega
  | _, _, _, _, .empty h1 h2 h3, hs => ⟨rfl, .inl rfl, rfl⟩
  | _, _, _, _, .dashes h1 h2 h3, hs => shown_block h1 h3.lt (LiesRows.shows h3 hs.1 (.inl rfl))
  | _, _, _, _, .keys h1 h2 h3, hs => shown_block h1 h3.lt (LiesRows.shows h3 hs.1 (.inl rfl))
  | _, _, _, _, .brackets h1 h2 h3 h4 h5, hs => shown_coll h1 ((List.getElem?_eq_some_iff.1 h2).1) (LiesCells.shows h4 hs.1 (h3.closed h4.lt))
  | _, _, _, _, .braces h1 h2 h3 h4 h5, hs => shown_coll h1 ((List.getElem?_eq_some_iff.1 h2).1) (LiesCells.shows h4 hs.1 (h3.closed h4.lt))
theorem LiesRows.shows : ∀ {m : Bool} {c : Nat} {first : Bool} {ip : Bytes} {lo : Nat} {items : Items Unit} {hi : Nat}, LiesRows inp m c first ip lo items hi →
    items.shown m → WsClosed ip → ShownRows inp m ip lo items hi
  | _, _, _, _, _, _, _, .last (m := m) (key := key) h1 h2 h3 h4 h5 h6, hs, hp => by
    have hv := Lies.shows h4 hs.2.1
    refine @shown_row inp m _ key _ _ _ _ _ _ _ h2 h3 hs.1 hs.2.1 hv hp (by simp [Items.render, Items.disp]) ?_
    rw [Items.render, List.append_nil]
    rcases hv.2.1 with h | h
    · rw [h, List.append_nil]; exact .inr (rowHead_ends m key)
    · exact h.append
  | _, _, _, _, _, _, _, .more (m := m) (key := key) (e := e) (lo' := lo') (v := v) h1 h2 h3 h4 h5 h6, hs, hp => by
    have hv := Lies.shows h4 hs.2.1
    obtain ⟨g1, g2, g3⟩ := LiesRows.shows h6 hs.2.2 (h5.closed h6.lt)
    have ha : After inp e (rowHead m key ++ v.text) := by
      rcases hv.2.1 with h | h
      · rw [h, List.append_nil]; exact .inr (rowHead_ends m key)
      · exact h.append
    refine @shown_row inp m _ key _ _ _ _ _ _ _ h2 h3 hs.1 hs.2.1 hv hp ?_ g2.append
    rw [g1]
    apply lossy_split
    rcases g3 with g3 | ⟨g3, g4⟩
    · exact .inr (.inr (.inl g3))
    · have := slice_nil h5.le.1 h5.le.2 g3
      rcases ha with ha | ha
      · exact .inr (.inr (.inl (by rw [g4, ← this]; exact ha)))
      · exact .inr (.inr (.inr ha))
theorem LiesCells.shows : ∀ {m last : Bool} {w : Bytes} {n : Nat} {items : Items Unit} {tr : Bool} {w' : Bytes} {hi : Nat}, LiesCells inp m last w n items tr w' hi →
    items.shown m → WsClosed w → ShownCells m items w'
  | _, _, _, _, _, _, _, _, .none _, _, hp => ⟨fun _ _ => rfl, hp⟩
  | _, _, _, _, _, _, _, _, .final _ _ _ h4 h5 h6, hs, hp =>
    shown_cell hs.1 hs.2.1 (Lies.shows h4 hs.2.1) hp ⟨fun _ _ => rfl, h5.closed ((List.getElem?_eq_some_iff.1 h6).1)⟩
  | _, _, _, _, _, _, _, _, .cell _ _ _ _ h5 h6 h7 _, hs, hp =>
    shown_cell hs.1 hs.2.1 (Lies.shows h5 hs.2.1) hp (LiesCells.shows h7 hs.2.2 (cellSpace_closed h6 h7.lt))
end

end

theorem parse_shown {f : Nat} {inp : Bytes} {t : Tree Unit} {suffix : Bytes} (h : pparseF f inp = .ok (t, suffix)) : t.shown := by
  unfold pparseF startOfDocument at h
  cases hs : startLoop inp f (wsEnd inp 0) (wsStr inp 0) with
  | error e => simp only [hs, bind, Except.bind] at h; cases h
  | ok r =>
    obtain ⟨pre, n⟩ := r
    obtain ⟨k, k1, k2, rfl, rfl, k5⟩ := startLoop_body f 0 (Nat.zero_le _) (cut_zero _) hs (inp.length + 1) (by simp)
    simp only [hs, bind, Except.bind] at h
    cases hp : pvalue inp f ⟨wsStr inp k, false, true, none⟩ (wsEnd inp k) with
    | error e => rw [hp] at h; cases h
    | ok r =>
      obtain ⟨t', ws, m⟩ := r
      rw [hp] at h
      simp only at h
      split at h
      · cases h
        have hw := Pos.ws k1 k2
        exact (shown_rules.value f _ _ _ _ _ hp hw.2.1 hw.2.2 (.of_ws k1 k2)).2.2
      · cases h

end Verif
