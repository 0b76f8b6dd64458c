import Verif.Bounds
import Verif.Boundary
import Verif.Spec
/-
What the parser keeps of its input, for any relation between texts that tolerates the known deviations.
-/
namespace Verif

theorem isWs_iff (b : UInt8) : isWs b = true ↔ b = NL ∨ isOtherWs b = true := by
  unfold isWs isOtherWs; simp [NL, or_comm, or_assoc, or_left_comm]

theorem blankGo_iff : ∀ (c : Bool) (s : Bytes), blankGo c s = true ↔ (wsGo c s).1 = s.length
  | c, [] => by cases c <;> simp [blankGo, wsGo]
  | true, b :: r => by
    by_cases hb : b = NL
    · simp [blankGo, wsGo, hb, blankGo_iff false r]
    · simp [blankGo, wsGo, hb, bne_iff_ne.2 hb, blankGo_iff true r]
  | false, b :: r => by
    by_cases hh : b = HASH
    · simp [blankGo, wsGo, hh, blankGo_iff true r]
    · by_cases hb : b = NL
      · subst hb
        have : isWs NL = true := by decide
        simp [blankGo, wsGo, hh, this, blankGo_iff false r]
      · by_cases hw : isOtherWs b = true
        · have : isWs b = true := (isWs_iff b).2 (.inr hw)
          simp [blankGo, wsGo, hh, hb, hw, this, blankGo_iff false r]
        · have : isWs b = false := by
            cases h : isWs b with
            | false => rfl
            | true => rcases (isWs_iff b).1 h with h | h <;> contradiction
          simp [blankGo, wsGo, hh, hb, hw, this]

theorem skipBlank_eq : ∀ (c : Bool) (s : Bytes), skipBlank c s = s.drop (wsGo c s).1
  | c, [] => by cases c <;> simp [skipBlank, wsGo]
  | true, b :: r => by
    by_cases hb : b = NL
    · simp [skipBlank, wsGo, hb, skipBlank_eq false r]
    · simp [skipBlank, wsGo, hb, bne_iff_ne.2 hb, skipBlank_eq true r]
  | false, b :: r => by
    by_cases hh : b = HASH
    · simp [skipBlank, wsGo, hh, skipBlank_eq true r]
    · by_cases hb : b = NL
      · subst hb
        have : isWs NL = true := by decide
        simp [skipBlank, wsGo, hh, this, skipBlank_eq false r]
      · by_cases hw : isOtherWs b = true
        · have : isWs b = true := (isWs_iff b).2 (.inr hw)
          simp [skipBlank, wsGo, hh, hb, hw, this, skipBlank_eq false r]
        · have : isWs b = false := by
            cases h : isWs b with
            | false => rfl
            | true => rcases (isWs_iff b).1 h with h | h <;> contradiction
          simp [skipBlank, wsGo, hh, hb, hw, this]

/-- White space as read by the parser is blank. -/
theorem blankGo_take : ∀ (c : Bool) (s : Bytes), blankGo c (s.take (wsGo c s).1) = true
  | c, [] => by cases c <;> rfl
  | true, b :: r => by
    by_cases hb : b = NL
    · simp [blankGo, wsGo, hb, blankGo_take false r]
    · simp [blankGo, wsGo, hb, bne_iff_ne.2 hb, blankGo_take true r]
  | false, b :: r => by
    by_cases hh : b = HASH
    · simp [blankGo, wsGo, hh, blankGo_take true r]
    · by_cases hb : b = NL
      · subst hb
        have : isWs NL = true := by decide
        simp [blankGo, wsGo, hh, this, blankGo_take false r]
      · by_cases hw : isOtherWs b = true
        · have : isWs b = true := (isWs_iff b).2 (.inr hw)
          simp [blankGo, wsGo, hh, hb, hw, this, blankGo_take false r]
        · simp [blankGo, wsGo, hh, hb, hw]

theorem wsStr_blank (inp : Bytes) (n : Nat) : blank (wsStr inp n) = true := by
  unfold wsStr slice wsEnd blank
  rw [show n + (wsGo false (inp.drop n)).1 - n = (wsGo false (inp.drop n)).1 by omega]
  exact blankGo_take false _

theorem dropWhile_findNl : ∀ s : Bytes, s.dropWhile (· != NL) = s.drop (findNl s)
  | [] => rfl
  | b :: r => by
    by_cases hb : b = NL
    · simp [findNl, hb]
    · simp [findNl, hb, dropWhile_findNl r]

theorem followed_drop : ∀ {s : Bytes}, followed s = true → ∀ n, followed (s.drop n) = true
  | s, h, 0 => h
  | [], _, _ + 1 => rfl
  | b :: r, h, n + 1 => by
    unfold followed at h
    rw [Bool.and_eq_true] at h
    exact followed_drop h.2 n

theorem followed_spec {inp : Bytes} (h : followed inp = true) {n : Nat} (hp : peekAt inp n = GT ∨ peekAt inp n = PIPE)
    (hl : lineEnd inp n < inp.length) : wsEnd inp (lineEnd inp n) ≠ inp.length := by
  have hn : n < inp.length := lt_of_peek (by rcases hp with h | h <;> rw [h] <;> decide)
  have hd := followed_drop h n
  rw [lineEnd_next hn (by rcases hp with h | h <;> rw [h] <;> decide)] at hl ⊢
  rw [peekAt_get hn] at hp
  rw [List.drop_eq_getElem_cons hn, followed, Bool.and_eq_true, dropWhile_findNl] at hd
  have hb : (inp[n] == PIPE || inp[n] == GT) = true := by simpa [or_comm] using hp
  have hd := hd.1
  rw [if_pos hb] at hd
  intro hw
  have hs : (findNl (inp.drop (n + 1))) < (inp.drop (n + 1)).length := by
    unfold lineEnd at hl; rw [List.length_drop]; omega
  rw [List.drop_eq_getElem_cons hs] at hd
  have hnl : (inp.drop (n + 1))[findNl (inp.drop (n + 1))] = NL := by
    rcases (findNl_spec (inp.drop (n + 1))).2 with h | h
    · rw [List.drop_eq_getElem_cons hs] at h; exact h
    · omega
  have e : inp.drop (lineEnd inp (n + 1)) = NL :: (inp.drop (n + 1)).drop (findNl (inp.drop (n + 1)) + 1) := by
    rw [← hnl, ← List.drop_eq_getElem_cons hs, List.drop_drop, lineEnd]
  have : blank ((inp.drop (n + 1)).drop (findNl (inp.drop (n + 1)) + 1)) = true := by
    unfold blank
    rw [blankGo_iff]
    have hw' : (wsGo false (inp.drop (lineEnd inp (n + 1)))).1 = (inp.drop (lineEnd inp (n + 1))).length := by
      unfold wsEnd at hw; rw [List.length_drop]; omega
    rw [e] at hw'
    simpa [wsGo, show NL ≠ HASH by decide] using hw'
  simp only [this, Bool.not_true, Bool.false_eq_true] at hd

/-- White space ends with a white space character, unless it is a comment at the very end. -/
theorem wsGo_lastWs : ∀ (c : Bool) (s : Bytes) (k : Nat), (wsGo c s).1 = k + 1 → k + 1 < s.length → isWs (hd (s.drop k)) = true
  | c, [], k, h, _ => by cases c <;> simp [wsGo] at h
  | true, b :: r, k, h, hl => by
    unfold wsGo at h
    by_cases hb : b = NL
    · simp only [hb, beq_self_eq_true, if_true, Nat.add_right_cancel_iff] at h
      cases k with
      | zero => rw [hb]; rfl
      | succ k => exact wsGo_lastWs false r k h (by simpa using hl)
    · simp only [beq_iff_eq, hb, if_false, Nat.add_right_cancel_iff] at h
      cases k with
      | zero =>
        exfalso
        cases r with
        | nil => simp at hl
        | cons b r => unfold wsGo at h; split at h <;> simp at h
      | succ k => exact wsGo_lastWs true r k h (by simpa using hl)
  | false, b :: r, k, h, hl => by
    unfold wsGo at h
    by_cases hh : b = HASH
    · simp only [hh, beq_self_eq_true, if_true, Nat.add_right_cancel_iff] at h
      cases k with
      | zero =>
        exfalso
        cases r with
        | nil => simp at hl
        | cons b r => unfold wsGo at h; split at h <;> simp at h
      | succ k => exact wsGo_lastWs true r k h (by simpa using hl)
    · by_cases hw : isWs b = true
      · have h : (wsGo false r).1 = k := by
          rcases (isWs_iff b).1 hw with hb | hb
          · simp only [beq_iff_eq, hb, if_false, if_true, Nat.add_right_cancel_iff, show NL ≠ HASH by decide] at h; exact h
          · simp only [beq_iff_eq, hh, hb, if_false, if_true] at h
            split at h <;> simpa using h
        cases k with
        | zero => simpa using hw
        | succ k => exact wsGo_lastWs false r k h (by simpa using hl)
      · have h1 : b ≠ NL := fun h => hw ((isWs_iff b).2 (.inl h))
        have h2 : ¬ isOtherWs b = true := fun h => hw ((isWs_iff b).2 (.inr h))
        simp [hh, h1, h2] at h

theorem noWsComma_spec : ∀ {s : Bytes} (k : Nat), noWsComma s = true → isWs (hd (s.drop k)) = true → hd (s.drop (k + 1)) ≠ COMMA
  | [], k, _, h => by simp at h; exact absurd h (by decide)
  | [b], k, _, h => by simp; decide
  | a :: b :: r, 0, hs, h => by
    simp only [noWsComma, Bool.and_eq_true, Bool.not_eq_true', Bool.and_eq_false_iff] at hs
    simp at h
    rcases hs.1 with h1 | h1
    · rw [h] at h1; cases h1
    · simpa using h1
  | a :: b :: r, k + 1, hs, h => by
    simp only [noWsComma, Bool.and_eq_true] at hs
    exact noWsComma_spec k hs.2 h

theorem ws_comma {inp : Bytes} (h : noWsComma inp = true) {n : Nat} (hc : peekAt inp (wsEnd inp n) = COMMA) :
    wsStr inp n = [] := by
  have hl := lt_of_peek (inp := inp) (n := wsEnd inp n) (by rw [hc]; decide)
  by_cases hz : wsEnd inp n = n
  · unfold wsStr; rw [hz, slice_self]
  · exfalso
    have hle := le_wsEnd inp n
    have hk : ∃ k, (wsGo false (inp.drop n)).1 = k + 1 := ⟨(wsGo false (inp.drop n)).1 - 1, by unfold wsEnd at hz hle; omega⟩
    obtain ⟨k, hk⟩ := hk
    have h1 := wsGo_lastWs false _ k hk (by unfold wsEnd at hl; rw [List.length_drop]; omega)
    rw [List.drop_drop] at h1
    have h2 := noWsComma_spec (n + k) h h1
    unfold wsEnd at hc
    rw [hk] at hc
    exact h2 hc

theorem blankGo_chunk : ∀ {c s : Bytes}, NL ∉ c → blankGo true (c ++ s) = blankGo true s
  | [], _, _ => rfl
  | b :: c, s, h => by
    simp only [List.mem_cons, not_or] at h
    have : (b != NL) = true := bne_iff_ne.2 fun hb => h.1 hb.symm
    rw [List.cons_append, blankGo, this]
    exact blankGo_chunk h.2

theorem lossy_ascii {c : UInt8} (hc : c < 0x80) (s : Bytes) : lossy (c :: s) = c :: lossy s := by
  simp only [lossy, chars_ascii hc]; rfl

/-- `Display` of blank text is blank. -/
theorem blankGo_lossy : ∀ {c : Bool} {s : Bytes}, blankGo c s = true → blankGo c (lossy s) = true := by
  intro c s
  induction hn : s.length using Nat.strongRecOn generalizing s c with
  | ind n ih =>
    intro h
    cases s with
    | nil => exact h
    | cons b r =>
      by_cases hb : b < 0x80
      · rw [lossy_ascii hb]
        have hl : r.length < n := by rw [← hn]; simp
        cases c with
        | true =>
          rw [blankGo] at h ⊢
          exact ih _ hl rfl h
        | false =>
          rw [blankGo] at h ⊢
          by_cases hh : (b == HASH) = true
          · rw [if_pos hh] at h ⊢; exact ih _ hl rfl h
          · rw [if_neg hh, Bool.and_eq_true] at h ⊢
            exact ⟨h.1, ih _ hl rfl h.2⟩
      · have hc : c = true := by
          cases c with
          | true => rfl
          | false =>
            exfalso
            rw [blankGo] at h
            by_cases hh : b = HASH
            · exact hb (by rw [hh]; decide)
            · rw [if_neg (by simpa using hh), Bool.and_eq_true] at h
              rcases (isWs_iff b).1 h.1 with h | h
              · exact hb (by rw [h]; decide)
              · exact hb (otherWs_ascii h)
        subst hc
        have hs := decodeHead_step b r
        have hbn : NL ≠ b := fun h => hb (by rw [← h]; decide)
        have hcn : NL ∉ r.take ((decodeHead (b :: r)).2 - 1) := fun hm => isCont_ge (hs.cont NL hm) (by decide)
        have e : b :: r = (b :: r.take ((decodeHead (b :: r)).2 - 1)) ++ r.drop ((decodeHead (b :: r)).2 - 1) := by
          rw [List.cons_append, List.take_append_drop]
        have h' : blankGo true (r.drop ((decodeHead (b :: r)).2 - 1)) = true := by
          rw [e, blankGo_chunk (by simp [hbn, hcn])] at h; exact h
        have := ih _ (by rw [← hn]; simp; omega) rfl h'
        simp only [lossy] at this ⊢
        rw [chars_cons, List.flatten_cons, blankGo_chunk]
        · exact this
        · split
          · simp [hbn, hcn]
          · decide

/-- White space taken from the input. -/
def WsText (inp : Bytes) (w : Bytes) : Prop := w = [] ∨ ∃ k, k ≤ inp.length ∧ Cut inp k ∧ w = wsStr inp k

/-- The relations between texts that contain everything the parser may do to its input. -/
structure Allows (inp : Bytes) (R : Bytes → Bytes → Prop) : Prop where
  refl : ∀ a, R a a
  append : ∀ {a b c d}, R a b → R c d → R (a ++ c) (b ++ d)
  /-- a comma may be added -/
  comma : LBR ∈ inp ∨ LCB ∈ inp → R [] [COMMA]
  /-- white space in an inline mapping may be lost -/
  lost : LCB ∈ inp → ∀ n, n ≤ inp.length → Cut inp n → R (wsStr inp n) []
  /-- a NUL after the key in an inline mapping becomes a colon -/
  nul : LCB ∈ inp → 0 ∈ inp → R [0] [COLON]
  /-- white space after a block header may be duplicated -/
  dup : followed inp = false → ∀ n, n ≤ inp.length → Cut inp n → R [] (wsStr inp n)
  /-- white space before a sequence item goes through `Display` -/
  lossy : ∀ n, n ≤ inp.length → Cut inp n → R (wsStr inp n) (lossy (wsStr inp n))
  /-- white space and comma change places after a block scalar in an inline sequence -/
  swap : noWsComma inp = false → LBR ∈ inp → ∀ n, n ≤ inp.length → Cut inp n → ∀ o, o = wsStr inp n ∨ o = Verif.lossy (wsStr inp n) →
    R (wsStr inp n ++ [COMMA]) (COMMA :: o)

theorem mem_of_peek {inp : Bytes} {n : Nat} {b : UInt8} (h : peekAt inp n = b) (hb : n < inp.length) : b ∈ inp := by
  rw [peekAt_get hb] at h; rw [← h]; exact List.getElem_mem hb

theorem render_inline {m : Bool} {t t' : Bool} {w w' : Bytes} : ∀ is : Items Unit,
    is.render m (.inline t w) = is.render m (.inline t' w')
  | .nil => rfl
  | .cons _ _ _ _ rest => by
    rw [Items.render, Items.render, render_inline (t' := t') (w' := w') rest]
    simp [sepOf]

/-- The kind of inline collections, where its contents do not matter. -/
abbrev ik : CollKind := .inline false []

/-- Everything between the brackets of an inline collection. -/
def inlineText (m : Bool) (items : Items Unit) (tr : Bool) (w : Bytes) : Bytes :=
  items.render m ik ++ (if tr && !items.isNil then [COMMA] else []) ++ w

section
variable (inp : Bytes) (R : Bytes → Bytes → Prop)

/-- What `R` says of a value read from `n` to `m`. -/
def KV (s : PSt) (n : Nat) (t : Tree Unit) (ws : Option Bytes) (m : Nat) : Prop :=
  n ≤ inp.length → Cut inp n → WsText inp s.pre → Pos inp n m ∧ (∀ w, ws = some w → WsText inp w) ∧
    (s.inline = true → ∀ w, ws = some w → ∃ ws0, ws0 ≤ inp.length ∧ Cut inp ws0 ∧ w = wsStr inp ws0 ∧ m = wsEnd inp ws0) ∧
    ∃ a, s.pre ++ slice inp n m = a ++ ws.getD [] ∧ R a t.text

def KFS (_last tr : Bool) (ip : Bytes) (n : Nat) (items : Items Unit) (tr' : Bool) (w : Bytes) (m : Nat) : Prop :=
  n ≤ inp.length → Cut inp n → WsText inp ip → LBR ∈ inp → Pos inp n m ∧ (items.isNil = true → tr' = tr) ∧
    ∃ o1 o2, inlineText false items tr' w = o1 ++ o2 ∧ (o1 = ip ∨ o1 = lossy ip) ∧ R (slice inp n m) o2

def KFM (_last tr : Bool) (ip : Bytes) (_st n : Nat) (items : Items Unit) (tr' : Bool) (w : Bytes) (_st' m : Nat) : Prop :=
  n ≤ inp.length → Cut inp n → WsText inp ip → LCB ∈ inp → Pos inp n m ∧ (items.isNil = true → tr' = tr) ∧
    R (ip ++ slice inp n m) (inlineText true items tr' w)

def KBS (_ind : Nat) (ip : Bytes) (n : Nat) (items : Items Unit) (w : Bytes) (m : Nat) : Prop :=
  n ≤ inp.length → Cut inp n → WsText inp ip → Pos inp n m ∧ WsText inp w ∧
    ∃ a, ip ++ slice inp n m = a ++ w ∧ R a (items.render false .block)

def KBM (_ind _st : Nat) (key : RStr) (ip : Bytes) (n : Nat) (items : Items Unit) (w : Bytes) (m : Nat) : Prop :=
  n ≤ inp.length → Cut inp n → WsText inp ip → Pos inp n m ∧ WsText inp w ∧
    ∃ a, ip ++ key.write ++ slice inp n m = a ++ w ∧ R a (items.render true .block)
end

section
variable {inp : Bytes} {R : Bytes → Bytes → Prop}

theorem WsText.of_ws {n : Nat} (hn : n ≤ inp.length) (hc : Cut inp n) : WsText inp (wsStr inp n) := .inr ⟨n, hn, hc, rfl⟩

theorem ws_slice {n m : Nat} (h : wsEnd inp n ≤ m) : wsStr inp n ++ slice inp (wsEnd inp n) m = slice inp n m :=
  slice_append (le_wsEnd inp n) h

theorem WsText.lossy (A : Allows inp R) {w : Bytes} (h : WsText inp w) : R w (Verif.lossy w) := by
  rcases h with rfl | ⟨k, h1, h2, rfl⟩
  · exact A.refl []
  · exact A.lossy k h1 h2

/-- A value and the white space after it. -/
theorem KV.wsOr {s : PSt} {n : Nat} {t : Tree Unit} {ws : Option Bytes} {m : Nat} (h : KV inp R s n t ws m) (hn : n ≤ inp.length)
    (hc : Cut inp n) (hs : WsText inp s.pre) : Pos inp n (wsOr inp ws m).2 ∧ WsText inp (wsOr inp ws m).1 ∧
      ∃ a, s.pre ++ slice inp n (wsOr inp ws m).2 = a ++ (wsOr inp ws m).1 ∧ R a t.text := by
  obtain ⟨h1, h2, _, a, h4, h5⟩ := h hn hc hs
  cases ws with
  | none =>
    refine ⟨h1.trans (Pos.ws h1.2.1 h1.2.2), .of_ws h1.2.1 h1.2.2, a, ?_, h5⟩
    simp only [Verif.wsOr, Option.getD_none, List.append_nil] at h4 ⊢
    rw [← h4, List.append_assoc]
    congr 1
    unfold wsStr
    rw [slice_append h1.1 (le_wsEnd _ _)]
  | some w => exact ⟨h1, h2 w rfl, a, h4, h5⟩

theorem slice_next {n m : Nat} {b : UInt8} (hb : peekAt inp n = b) (hn : n < inp.length) (hm : n + 1 ≤ m) :
    slice inp n m = b :: slice inp (n + 1) m := by
  rw [← slice_append (Nat.le_succ n) hm, slice_one hn, hb]; rfl

/-- The value read after the byte at `n` and white space. -/
theorem value_after {n : Nat} {b : UInt8} {s : PSt} {t : Tree Unit} {ws : Option Bytes} {m : Nat}
    (hs : s.pre = wsStr inp (bump inp n 1)) (h : KV inp R s (wsEnd inp (bump inp n 1)) t ws m)
    (hb : peekAt inp n = b) (hlt : n < inp.length) (h8 : b < 0x80) :
    Pos inp n (wsOr inp ws m).2 ∧ WsText inp (wsOr inp ws m).1 ∧
      ∃ a, slice inp n (wsOr inp ws m).2 = b :: (a ++ (wsOr inp ws m).1) ∧ R a t.text := by
  have hbm : bump inp n 1 = n + 1 := bump_one hlt
  have hp : Pos inp n (n + 1) := ⟨by omega, by omega, cut_next (by rw [hb]; exact h8)⟩
  rw [hbm] at hs h
  have hw := Pos.ws hp.2.1 hp.2.2
  obtain ⟨h1, h2, a, h3, h4⟩ := h.wsOr hw.2.1 hw.2.2 (by rw [hs]; exact .of_ws hp.2.1 hp.2.2)
  refine ⟨hp.trans (hw.trans h1), h2, a, ?_, h4⟩
  rw [hs, ws_slice h1.1] at h3
  rw [slice_next hb hlt (by have := hw.1; have := h1.1; omega), h3]

theorem inlineText_cons (m : Bool) (ip : Bytes) (key : RStr) (v : Tree Unit) (items : Items Unit) (tr : Bool) (w : Bytes)
    (hnil : items.isNil = true → tr = true) :
    inlineText m (.cons () ip key v items) tr w =
      (if m then ip ++ key.write ++ [COLON] else lossy ip) ++ v.text ++ [COMMA] ++ inlineText m items tr w := by
  unfold inlineText
  cases items with
  | nil =>
    rw [hnil rfl]
    cases m <;> simp [Items.render, Items.isNil, sepOf, Tree.text, ik]
  | cons a b c d e =>
    cases m <;> cases tr <;> simp [Items.render, Items.isNil, sepOf, Tree.text, ik]

theorem inlineText_last (m : Bool) (ip : Bytes) (key : RStr) (v : Tree Unit) (w : Bytes) :
    inlineText m (.cons () ip key v .nil) false w =
      (if m then ip ++ key.write ++ [COLON] else lossy ip) ++ v.text ++ w := by
  unfold inlineText
  cases m <;> simp [Items.render, Items.isNil, sepOf, Tree.text, ik]

theorem inlineText_nil (m : Bool) (tr : Bool) (w : Bytes) : inlineText m .nil tr w = w := by
  simp [inlineText, Items.render, Items.isNil]

theorem collText (m tr : Bool) (w : Bytes) (items : Items Unit) (pre : Bytes) (h : items.isNil = true → tr = false) :
    Tree.text (.node () pre m 0 (.inline tr w) items) =
      pre ++ (if m then LCB else LBR) :: (inlineText m items tr w ++ [if m then RCB else RBR]) := by
  have : tr = (tr && !items.isNil) := by cases hn : items.isNil <;> cases tr <;> simp_all
  cases m <;>
  · simp only [Tree.text, Tree.pre, Tree.render, openOf, closeOf, inlineText, ik]
    rw [render_inline (t' := false) (w' := []), ← this]
    simp

theorem keep_rules (A : Allows inp R) : Rules inp (KV inp R) (KFS inp R) (KFM inp R) (KBS inp R) (KBM inp R) where
  scalar := by
    intro f s n sc ws m hl hn hc hs
    cases (lead_spec hn).ok hl with
    | block h1 hb =>
      obtain ⟨st, stop, ws0, g1, g2, g3, g4, g5, g6, g7, g8, g9, g10, rfl, rfl, g13⟩ := hb.ex
      have hw := Pos.ws g9 g10
      have hst : st ≤ wsEnd inp ws0 := by have := hw.1; omega
      refine ⟨⟨by omega, hw.2⟩, fun w h => by cases h; exact .of_ws g9 g10,
        fun _ w h => by cases h; exact ⟨ws0, g9, g10, rfl, rfl⟩, s.pre ++ slice inp n ws0, ?_, ?_⟩
      · simp only [Option.getD_some, List.append_assoc, wsStr]
        rw [slice_append (by omega) (le_wsEnd _ _)]
      · simp only [Tree.text, Tree.pre, Tree.render, Scalar.write, RStr.write, g1, g2]
        rw [slice_append (by omega) g4]
        rcases g13 with rfl | ⟨e1, e2, e3, e4⟩
        · exact A.refl _
        · have hd : followed inp = false := by
            cases hf : followed inp with
            | false => rfl
            | true => exact absurd e3 (followed_spec hf h1 e4)
          have hsl : slice inp n stop = slice inp n ws0 ++ wsStr inp ws0 := by
            unfold wsStr; rw [slice_append (by omega) (le_wsEnd _ _), e1, e2]
          rw [hsl]
          have := A.append (A.refl (s.pre ++ slice inp n ws0)) (A.dup hd ws0 g9 g10)
          simpa using this
    | scalar h1 h2 h3 h4 h5 =>
      refine ⟨⟨h1, h2, h3 hc⟩, (fun w h => by cases h), (fun _ w h => by cases h), s.pre ++ slice inp n m, by simp, ?_⟩
      simp only [Tree.text, Tree.pre, Tree.render, h4]
      exact A.refl _
  seq := by
    intro f s n items w m hl hb hn hc hs
    cases (lead_spec hn).ok hl with
    | seq h1 h2 h3 =>
    obtain ⟨k1, k2, a, k3, k4⟩ := hb hn hc (.inl rfl)
    refine ⟨k1, (fun w' h => by cases h; exact k2), (fun h => by rw [h3] at h; cases h), s.pre ++ a, ?_, ?_⟩
    · simp only [List.nil_append] at k3
      simp [k3]
    · simp only [Tree.text, Tree.pre, Tree.render, openOf, closeOf, List.nil_append, List.append_nil]
      exact A.append (A.refl _) k4
  flowSeq := by
    intro f s n items tr w m hl hb hr hn hc hs
    cases (lead_spec hn).ok hl with
    | flowSeq h1 =>
    have hlt := lt_of_peek (inp := inp) (n := n) (by rw [h1]; decide)
    have hmem := mem_of_peek h1 hlt
    have hp := Pos.next hn (by rw [h1]; decide : peekAt inp n < 0x80)
    have hw := Pos.ws hp.2.1 hp.2.2
    obtain ⟨k1, k2, o1, o2, k3, k4, k5⟩ := hb hw.2.1 hw.2.2 (.of_ws hp.2.1 hp.2.2) hmem
    have hm := hw.trans k1
    have hltm := lt_of_peek (inp := inp) (n := m) (by rw [hr]; decide)
    have hpm := Pos.next k1.2.1 (by rw [hr]; decide : peekAt inp m < 0x80)
    refine ⟨hp.trans (hm.trans hpm), (fun w h => by cases h), (fun _ w h => by cases h), _, (List.append_nil _).symm, ?_⟩
    rw [collText _ _ _ _ _ k2, k3]
    rw [bump_one hlt] at *
    rw [bump_one hltm] at *
    have e : slice inp n (m + 1) = [LBR] ++ (wsStr inp (n + 1) ++ (slice inp (wsEnd inp (n + 1)) m ++ [RBR])) := by
      rw [slice_next h1 hlt (by have := hm.1; omega), ← ws_slice (m := m + 1) (by have := k1.1; omega),
        ← slice_append (b := m) (c := m + 1) k1.1 (by omega), slice_one hltm, hr]
      rfl
    rw [e]
    have hw : R (wsStr inp (n + 1)) o1 := by
      rcases k4 with rfl | rfl
      · exact A.refl _
      · exact WsText.lossy A (.of_ws hp.2.1 hp.2.2)
    have := A.append (A.refl s.pre) (A.append (A.refl [LBR]) (A.append hw (A.append k5 (A.refl [RBR]))))
    simpa using this
  flowMap := by
    intro f s n items tr w st m hl hb hr hn hc hs
    cases (lead_spec hn).ok hl with
    | flowMap h1 =>
    have hlt := lt_of_peek (inp := inp) (n := n) (by rw [h1]; decide)
    have hmem := mem_of_peek h1 hlt
    have hp := Pos.next hn (by rw [h1]; decide : peekAt inp n < 0x80)
    have hw := Pos.ws hp.2.1 hp.2.2
    obtain ⟨k1, k2, k3⟩ := hb hw.2.1 hw.2.2 (.of_ws hp.2.1 hp.2.2) hmem
    have hm := hw.trans k1
    have hltm := lt_of_peek (inp := inp) (n := m) (by rw [hr]; decide)
    have hpm := Pos.next k1.2.1 (by rw [hr]; decide : peekAt inp m < 0x80)
    refine ⟨hp.trans (hm.trans hpm), (fun w h => by cases h), (fun _ w h => by cases h), _, (List.append_nil _).symm, ?_⟩
    rw [collText _ _ _ _ _ k2]
    rw [bump_one hlt] at *
    rw [bump_one hltm] at *
    have e : slice inp n (m + 1) = [LCB] ++ ((wsStr inp (n + 1) ++ slice inp (wsEnd inp (n + 1)) m) ++ [RCB]) := by
      rw [slice_next h1 hlt (by have := hm.1; omega), ← ws_slice (m := m + 1) (by have := k1.1; omega),
        ← slice_append (b := m) (c := m + 1) k1.1 (by omega), slice_one hltm, hr]
      simp
    rw [e]
    have := A.append (A.refl s.pre) (A.append (A.refl [LCB]) (A.append k3 (A.refl [RCB])))
    simpa using this
  keyNull := by
    intro f s n key m i hl _ _ hn hc hs
    cases (lead_spec hn).ok hl with
    | key _ _ _ _ hi =>
    exact ⟨Pos.refl hn hc, (fun w h => by cases h; exact hs), (fun h => by rw [hi] at h; cases h), [], by simp [slice_self], A.refl []⟩
  keyMap := by
    intro f s n key m items w m' hl _ hb hn hc hs
    cases (lead_spec hn).ok hl with
    | key h1 h2 h3 h4 hi =>
    have hlt := lt_of_peek (inp := inp) (n := m) (by rw [h2]; decide)
    obtain ⟨k1, k2, a, k3, k4⟩ := hb (by omega) (.inl (by rw [h2]; decide)) (.inl rfl)
    refine ⟨⟨Nat.le_trans h1 k1.1, k1.2⟩, (fun w' h => by cases h; exact k2), (fun h => by rw [hi] at h; cases h), s.pre ++ a, ?_, ?_⟩
    · rw [h4, List.nil_append, slice_append h1 k1.1] at k3
      simp [k3]
    · simp only [Tree.text, Tree.pre, Tree.render, openOf, closeOf, List.nil_append, List.append_nil]
      exact A.append (A.refl _) k4
  fsStop := by
    intro last tr ip n _ hn hc hi _
    exact ⟨Pos.refl hn hc, fun _ => rfl, ip, [], by simp [inlineText_nil], .inl rfl, by rw [slice_self]; exact A.refl []⟩
  fsLast := by
    intro tr ip n v next m _ hv hn hc hi _
    have hw := Pos.ws hn hc
    obtain ⟨h1, h2, a, h3, h4⟩ := hv.wsOr hw.2.1 hw.2.2 (.of_ws hn hc)
    refine ⟨hw.trans h1, fun h => by simp [Items.isNil] at h, lossy ip, v.text ++ (wsOr inp next m).1, ?_, .inr rfl, ?_⟩
    · rw [inlineText_last]; simp
    · simp only [ws_slice h1.1] at h3
      rw [h3]; exact A.append h4 (A.refl _)
  fsComma := by
    intro tr ip n v next m items tr' w m' _ hv hcm hrec hn hc hi hmem
    have hw := Pos.ws hn hc
    obtain ⟨h1, h2, h2', a, h3, h4⟩ := hv hw.2.1 hw.2.2 (.of_ws hn hc)
    have hlt := lt_of_peek (inp := inp) (n := m) (by rw [hcm]; decide)
    have hp := Pos.next h1.2.1 (by rw [hcm]; decide : peekAt inp m < 0x80)
    rw [bump_one hlt] at *
    simp only [ws_slice h1.1] at h3
    have key : Pos inp n m' ∧ (items.isNil = true → tr' = true) ∧ R (slice inp n m') (v.text ++ [COMMA] ++ inlineText false items tr' w) := by
      cases next with
      | none =>
        simp only [wsOr] at hrec
        have hw2 := Pos.ws hp.2.1 hp.2.2
        obtain ⟨g1, g2, o1, o2, g3, g4, g5⟩ := hrec hw2.2.1 hw2.2.2 (.of_ws hp.2.1 hp.2.2) hmem
        refine ⟨hw.trans (h1.trans (hp.trans (hw2.trans g1))), g2, ?_⟩
        have e : slice inp n m' = a ++ ([COMMA] ++ (wsStr inp (m + 1) ++ slice inp (wsEnd inp (m + 1)) m')) := by
          have l1 := hw.1
          have l2 := h1.1
          have l3 := hw2.1
          have l4 := g1.1
          rw [ws_slice (by omega), ← slice_append (b := m) (by omega) (by omega), h3, slice_next hcm hlt (by omega)]
          simp
        have hwr : R (wsStr inp (m + 1)) o1 := by
          rcases g4 with rfl | rfl
          · exact A.refl _
          · exact WsText.lossy A (.of_ws hp.2.1 hp.2.2)
        rw [e, g3, List.append_assoc]
        exact A.append h4 (A.append (A.refl _) (A.append hwr g5))
      | some wb =>
        simp only [wsOr] at hrec
        obtain ⟨ws0, b1, b2, rfl, b4⟩ := h2' rfl wb rfl
        obtain ⟨g1, g2, o1, o2, g3, g4, g5⟩ := hrec hp.2.1 hp.2.2 (.of_ws b1 b2) hmem
        refine ⟨hw.trans (h1.trans (hp.trans g1)), g2, ?_⟩
        have e : slice inp n m' = a ++ ((wsStr inp ws0 ++ [COMMA]) ++ slice inp (m + 1) m') := by
          have l1 := hw.1
          have l2 := h1.1
          have l4 := g1.1
          rw [← slice_append (b := m) (by omega) (by omega), h3, slice_next hcm hlt (by omega)]
          simp
        have hsw : R (wsStr inp ws0 ++ [COMMA]) (COMMA :: o1) := by
          cases hnc : noWsComma inp with
          | false => exact A.swap hnc hmem ws0 b1 b2 o1 g4
          | true =>
            have : wsStr inp ws0 = [] := ws_comma hnc (by rw [← b4]; exact hcm)
            rw [this] at g4 ⊢
            have : o1 = [] := by rcases g4 with h | h <;> exact h
            rw [this]
            exact A.refl _
        rw [e, g3, show v.text ++ [COMMA] ++ (o1 ++ o2) = v.text ++ ((COMMA :: o1) ++ o2) by simp]
        exact A.append h4 (A.append hsw g5)
    obtain ⟨k1, k2, k3⟩ := key
    refine ⟨k1, fun h => by simp [Items.isNil] at h, lossy ip, _, ?_, .inr rfl, k3⟩
    rw [inlineText_cons _ _ _ _ _ _ _ k2]
    simp
  fsOther := by
    intro tr ip n v next m items tr' w m' _ hv _ hrec hn hc hi hmem
    have hw := Pos.ws hn hc
    obtain ⟨h1, h2, a, h3, h4⟩ := hv.wsOr hw.2.1 hw.2.2 (.of_ws hn hc)
    obtain ⟨g1, g2, o1, o2, g3, g4, g5⟩ := hrec h1.2.1 h1.2.2 h2 hmem
    simp only [ws_slice h1.1] at h3
    have e : slice inp n m' = a ++ ((wsOr inp next m).1 ++ slice inp (wsOr inp next m).2 m') := by
      rw [← slice_append (b := (wsOr inp next m).2) (by have := hw.1; have := h1.1; omega) g1.1, h3]; simp
    have hwr : R (wsOr inp next m).1 o1 := by
      rcases g4 with rfl | rfl
      · exact A.refl _
      · exact WsText.lossy A h2
    refine ⟨hw.trans (h1.trans g1), fun h => by simp [Items.isNil] at h, ?_⟩
    cases hnil : items.isNil with
    | true =>
      cases items with
      | cons => cases hnil
      | nil =>
      have htr := g2 rfl
      subst htr
      refine ⟨lossy ip, v.text ++ (o1 ++ o2), ?_, .inr rfl, ?_⟩
      · rw [← g3, inlineText_last, inlineText_nil]; simp
      · rw [e]; exact A.append h4 (A.append hwr g5)
    | false =>
      refine ⟨lossy ip, v.text ++ ([COMMA] ++ (o1 ++ o2)), ?_, .inr rfl, ?_⟩
      · rw [← g3, inlineText_cons _ _ _ _ _ _ _ (by simp [hnil])]; simp
      · rw [e]
        have := A.append h4 (A.append (A.comma (.inl hmem)) (A.append hwr g5))
        simpa using this
  fmStop := by
    intro last tr ip st n _ hn hc hi _
    refine ⟨Pos.refl hn hc, fun _ => rfl, ?_⟩
    rw [slice_self, inlineText_nil, List.append_nil]
    exact A.refl _
  fmLast := by
    intro tr ip st n key m0 v next m _ hu hv hn hc hi hmem
    obtain ⟨u1, u2, u3, u4⟩ := untilColon_spec hn hu
    rcases u4 with ⟨u4, _⟩ | ⟨u4, u5⟩
    · cases u4
    cases u4
    obtain ⟨h1, h2, a, h3, h4⟩ := value_after (s := ⟨wsStr inp (bump inp m0 1), true, false, none⟩) rfl hv rfl u5 (colon_ascii u3)
    refine ⟨⟨by have := h1.1; omega, h1.2⟩, fun h => by simp [Items.isNil] at h, ?_⟩
    have hk : R [peekAt inp m0] [COLON] := by
      rcases u3 with h | h
      · rw [h]; exact A.refl _
      · rw [h]; exact A.nul hmem (mem_of_peek h u5)
    rw [inlineText_last, ← slice_append u1 h1.1, h3]
    have := A.append (A.refl (ip ++ slice inp n m0)) (A.append hk (A.append h4 (A.refl (wsOr inp next m).1)))
    simpa [RStr.write] using this
  fmComma := by
    intro tr ip st n key m0 v next m items tr' w st' m' _ hu hv hcm hrec hn hc hi hmem
    obtain ⟨u1, u2, u3, u4⟩ := untilColon_spec hn hu
    rcases u4 with ⟨u4, _⟩ | ⟨u4, u5⟩
    · cases u4
    cases u4
    obtain ⟨h1, h2, a, h3, h4⟩ := value_after (s := ⟨wsStr inp (bump inp m0 1), true, false, none⟩) rfl hv rfl u5 (colon_ascii u3)
    have hk : R [peekAt inp m0] [COLON] := by
      rcases u3 with h | h
      · rw [h]; exact A.refl _
      · rw [h]; exact A.nul hmem (mem_of_peek h u5)
    have hlost : R (wsOr inp next m).1 [] := by
      rcases h2 with h | ⟨k, b1, b2, h⟩
      · rw [h]; exact A.refl _
      · rw [h]; exact A.lost hmem k b1 b2
    generalize (wsOr inp next m).1 = w1 at *
    generalize (wsOr inp next m).2 = n1 at *
    have hlt := lt_of_peek (inp := inp) (n := n1) (by rw [hcm]; decide)
    have hp := Pos.next h1.2.1 (by rw [hcm]; decide : peekAt inp n1 < 0x80)
    rw [bump_one hlt] at *
    have hw2 := Pos.ws hp.2.1 hp.2.2
    obtain ⟨g1, g2, g3⟩ := hrec hw2.2.1 hw2.2.2 (.of_ws hp.2.1 hp.2.2) hmem
    have l1 := h1.1
    have l2 := hw2.1
    have l3 := g1.1
    refine ⟨⟨by omega, g1.2⟩, fun h => by simp [Items.isNil] at h, ?_⟩
    rw [ws_slice l3] at g3
    rw [inlineText_cons _ _ _ _ _ _ _ g2, ← slice_append (c := m') u1 (by omega), ← slice_append (c := m') l1 (by omega), h3,
      slice_next hcm hlt (by omega)]
    have := A.append (A.refl (ip ++ slice inp n m0)) (A.append hk (A.append h4 (A.append hlost (A.append (A.refl [COMMA]) g3))))
    simpa [RStr.write] using this
  fmOther := by
    intro tr ip st n key m0 v next m items tr' w st' m' _ hu hv _ hrec hn hc hi hmem
    obtain ⟨u1, u2, u3, u4⟩ := untilColon_spec hn hu
    rcases u4 with ⟨u4, _⟩ | ⟨u4, u5⟩
    · cases u4
    cases u4
    obtain ⟨h1, h2, a, h3, h4⟩ := value_after (s := ⟨wsStr inp (bump inp m0 1), true, false, none⟩) rfl hv rfl u5 (colon_ascii u3)
    have hk : R [peekAt inp m0] [COLON] := by
      rcases u3 with h | h
      · rw [h]; exact A.refl _
      · rw [h]; exact A.nul hmem (mem_of_peek h u5)
    have hlost : R (wsOr inp next m).1 [] := by
      rcases h2 with h | ⟨k, b1, b2, h⟩
      · rw [h]; exact A.refl _
      · rw [h]; exact A.lost hmem k b1 b2
    generalize (wsOr inp next m).1 = w1 at *
    generalize (wsOr inp next m).2 = n1 at *
    have hw2 := Pos.ws h1.2.1 h1.2.2
    obtain ⟨g1, g2, g3⟩ := hrec hw2.2.1 hw2.2.2 (.of_ws h1.2.1 h1.2.2) hmem
    have l1 := h1.1
    have l2 := hw2.1
    have l3 := g1.1
    refine ⟨⟨by omega, g1.2⟩, fun h => by simp [Items.isNil] at h, ?_⟩
    rw [ws_slice l3] at g3
    rw [← slice_append (c := m') u1 (by omega), ← slice_append (c := m') l1 (by omega), h3]
    cases hnil : items.isNil with
    | true =>
      cases items with
      | cons => cases hnil
      | nil =>
      have htr := g2 rfl
      subst htr
      rw [inlineText_last]
      rw [inlineText_nil] at g3
      have := A.append (A.refl (ip ++ slice inp n m0)) (A.append hk (A.append h4 (A.append hlost g3)))
      simpa [RStr.write] using this
    | false =>
      rw [inlineText_cons _ _ _ _ _ _ _ (by simp [hnil])]
      have := A.append (A.refl (ip ++ slice inp n m0)) (A.append hk (A.append h4 (A.append hlost
        (A.append (A.comma (.inr hmem)) g3))))
      simpa [RStr.write] using this
  bsLast := by
    intro ind ip n v ws m hd hv _ hn hc hi
    have hlt := lt_of_peek (inp := inp) (n := n) (by rw [hd]; decide)
    obtain ⟨h1, h2, a, h3, h4⟩ := value_after (s := ⟨wsStr inp (bump inp n 1), false, true, none⟩) rfl hv hd hlt (by decide)
    refine ⟨h1, h2, ip ++ DASH :: a, by rw [h3]; simp, ?_⟩
    have := A.append (WsText.lossy A hi) (A.append (A.refl [DASH]) h4)
    simpa [Items.render, sepOf, Tree.text] using this
  bsMore := by
    intro ind ip n v ws m items w m' hd hv _ _ hrec hn hc hi
    have hlt := lt_of_peek (inp := inp) (n := n) (by rw [hd]; decide)
    obtain ⟨h1, h2, a, h3, h4⟩ := value_after (s := ⟨wsStr inp (bump inp n 1), false, true, none⟩) rfl hv hd hlt (by decide)
    obtain ⟨g1, g2, a', g3, g4⟩ := hrec h1.2.1 h1.2.2 h2
    refine ⟨h1.trans g1, g2, ip ++ DASH :: (a ++ a'), ?_, ?_⟩
    · rw [← slice_append h1.1 g1.1, h3]
      simp only [List.cons_append, List.append_assoc, g3]
    · have := A.append (WsText.lossy A hi) (A.append (A.refl [DASH]) (A.append h4 g4))
      simpa [Items.render, sepOf, Tree.text] using this
  bmLast := by
    intro ind st key ip n v ws m hd hv _ hn hc hi
    have hlt := lt_of_peek (inp := inp) (n := n) (by rw [hd]; decide)
    obtain ⟨h1, h2, a, h3, h4⟩ := value_after (s := ⟨wsStr inp (bump inp n 1), false, true, some ind⟩) rfl hv hd hlt (by decide)
    refine ⟨h1, h2, ip ++ key.write ++ COLON :: a, by rw [h3]; simp, ?_⟩
    have := A.append (A.refl (ip ++ key.write)) (A.append (A.refl [COLON]) h4)
    simpa [Items.render, sepOf, Tree.text] using this
  bmEnd := by
    intro ind st key ip n v ws m m0 hd hv _ hk hn hc hi
    have hlt := lt_of_peek (inp := inp) (n := n) (by rw [hd]; decide)
    obtain ⟨h1, h2, a, h3, h4⟩ := value_after (s := ⟨wsStr inp (bump inp n 1), false, true, some ind⟩) rfl hv hd hlt (by decide)
    have hm0 : m0 = (wsOr inp ws m).2 := by
      rcases (nextMappingKey_spec h1.2.1 hk).2.2.2 with h | ⟨h, _⟩
      · exact h.2
      · cases h
    subst hm0
    refine ⟨h1, h2, ip ++ key.write ++ COLON :: a, by rw [h3]; simp, ?_⟩
    have := A.append (A.refl (ip ++ key.write)) (A.append (A.refl [COLON]) h4)
    simpa [Items.render, sepOf, Tree.text] using this
  bmMore := by
    intro ind st key ip n v ws m m0 key' items w m' hd hv _ hk hrec hn hc hi
    have hlt := lt_of_peek (inp := inp) (n := n) (by rw [hd]; decide)
    obtain ⟨h1, h2, a, h3, h4⟩ := value_after (s := ⟨wsStr inp (bump inp n 1), false, true, some ind⟩) rfl hv hd hlt (by decide)
    obtain ⟨u1, u2, u3, u4⟩ := nextMappingKey_spec h1.2.1 hk
    rcases u4 with ⟨u4, _⟩ | ⟨u4, u5⟩
    · cases u4
    cases u4
    obtain ⟨g1, g2, a', g3, g4⟩ := hrec u2 (.inl (colon_ascii u3)) h2
    have l1 := h1.1
    have l2 := g1.1
    refine ⟨⟨by omega, g1.2⟩, g2, ip ++ key.write ++ COLON :: (a ++ a'), ?_, ?_⟩
    · simp only [RStr.write, List.append_assoc] at g3
      rw [slice_append u1 l2] at g3
      rw [← slice_append l1 (c := m') (by omega), h3]
      simp only [List.cons_append, List.append_assoc, g3]
    · have := A.append (A.refl (ip ++ key.write)) (A.append (A.refl [COLON]) (A.append h4 g4))
      simpa [Items.render, sepOf, Tree.text] using this
end
mutual
theorem Tree.label_render (k : Nat) : ∀ t : Tree Unit, (t.label k).render = t.render
  | .leaf _ _ _ => rfl
  | .node _ _ _ _ _ items => by rw [Tree.label, Tree.render, Tree.render, Items.label_render _ items]
theorem Items.label_render {m : Bool} {kd : CollKind} (k : Nat) : ∀ is : Items Unit, (is.label k).render m kd = is.render m kd
  | .nil => rfl
  | .cons _ p key v rest => by
    rw [Items.label, Items.render, Items.render, Tree.label_render _ v, Items.label_render _ rest, Tree.label_pre, Items.label_isNil]
theorem Tree.label_pre (k : Nat) : ∀ t : Tree Unit, (t.label k).pre = t.pre
  | .leaf _ _ _ => rfl
  | .node _ _ _ _ _ _ => rfl
theorem Items.label_isNil (k : Nat) : ∀ is : Items Unit, (is.label k).isNil = is.isNil
  | .nil => rfl
  | .cons _ _ _ _ _ => rfl
end

theorem startLoop_body {inp : Bytes} : ∀ (f k : Nat) {p : Bytes} {n : Nat}, k ≤ inp.length → Cut inp k →
    startLoop inp f (wsEnd inp k) (wsStr inp k) = .ok (p, n) → ∀ g, (inp.drop k).length < g →
    ∃ k', k' ≤ inp.length ∧ Cut inp k' ∧ p = wsStr inp k' ∧ n = wsEnd inp k' ∧ bodyGo g (inp.drop k) = inp.drop k'
  | 0, _, _, _, _, _, h, _, _ => by cases h
  | _, _, _, _, _, _, _, 0, hg => by omega
  | f + 1, k, p, n, hk, hc, h, g + 1, hg => by
    have hw := Pos.ws hk hc
    have hs : skipBlank false (inp.drop k) = inp.drop (wsEnd inp k) := by
      rw [skipBlank_eq, List.drop_drop, wsEnd]
    have hpk : (inp.drop (wsEnd inp k)).headD 0 = peekAt inp (wsEnd inp k) := rfl
    have h3 : (((inp.drop (wsEnd inp k)).take 3 == [DASH, DASH, DASH]) = true) ↔
        (peekAt inp (wsEnd inp k) == DASH && peekAt inp (wsEnd inp k + 1) == DASH && peekAt inp (wsEnd inp k + 2) == DASH) = true := by
      rw [peekAt_add, peekAt_add, show peekAt inp (wsEnd inp k) = hd (inp.drop (wsEnd inp k)) from rfl]
      generalize inp.drop (wsEnd inp k) = t
      have z : ¬ (0 : UInt8) = DASH := by decide
      rcases t with _ | ⟨a, _ | ⟨b, _ | ⟨c, r⟩⟩⟩ <;> simp [z, and_assoc]
    unfold startLoop at h
    unfold bodyGo
    simp only [hs, hpk]
    split at h
    · next hp =>
      rw [if_pos hp]
      simp only [beq_iff_eq] at hp
      have hlt := lt_of_peek (inp := inp) (n := wsEnd inp k) (by rw [hp]; decide)
      have hl := line_end hw.2.1
      have hne : lineEnd inp (wsEnd inp k) = lineEnd inp (wsEnd inp k + 1) := lineEnd_next hlt (by rw [hp]; decide)
      have hge : wsEnd inp k + 1 ≤ lineEnd inp (wsEnd inp k) := by rw [hne]; unfold lineEnd; omega
      have e : (inp.drop (wsEnd inp k)).dropWhile (· != NL) = inp.drop (lineEnd inp (wsEnd inp k)) := by
        rw [dropWhile_findNl, List.drop_drop, lineEnd]
      rw [e]
      refine startLoop_body f (lineEnd inp (wsEnd inp k)) hl.1 hl.2 h g ?_
      have := hw.1
      rw [List.length_drop] at hg ⊢
      omega
    · next hp =>
      rw [if_neg hp]
      split at h
      · next hd =>
        rw [if_pos (h3.2 hd)]
        cases h
        simp only [Bool.and_eq_true, beq_iff_eq] at hd
        have hlt := lt_of_peek (inp := inp) (n := wsEnd inp k + 2) (by rw [hd.2]; decide)
        have hb : bump inp (wsEnd inp k) 3 = wsEnd inp k + 2 + 1 := by unfold bump; omega
        refine ⟨bump inp (wsEnd inp k) 3, bump_le _ _ _, by rw [hb]; exact cut_next (by rw [hd.2]; decide), rfl, rfl, ?_⟩
        rw [List.drop_drop, hb]
      · next hd =>
        rw [if_neg (fun h => hd (h3.1 h))]
        cases h
        exact ⟨k, hk, hc, rfl, rfl, rfl⟩

theorem parse_keep {f : Nat} {inp : Bytes} {R : Bytes → Bytes → Prop} (A : Allows inp R) {t : Tree Unit} {suffix : Bytes}
    (h : pparseF f inp = .ok (t, suffix)) : R (body inp) (t.text ++ suffix) := by
  unfold pparseF startOfDocument at h
  cases hs : startLoop inp f (wsEnd inp 0) (wsStr inp 0) with
  | error e => simp only [hs, bind, Except.bind] at h; cases h
  | ok r =>
    obtain ⟨pre, n⟩ := r
    obtain ⟨k, k1, k2, rfl, rfl, k5⟩ := startLoop_body f 0 (Nat.zero_le _) (cut_zero _) hs (inp.length + 1) (by simp)
    simp only [hs, bind, Except.bind] at h
    cases hv : pvalue inp f ⟨wsStr inp k, false, true, none⟩ (wsEnd inp k) with
    | error e => rw [hv] at h; cases h
    | ok r =>
      obtain ⟨t', ws, m⟩ := r
      rw [hv] at h
      simp only at h
      split at h
      · next he =>
        cases h
        have hw := Pos.ws k1 k2
        obtain ⟨h1, h2, a, h3, h4⟩ := ((keep_rules A).value f _ _ _ _ _ hv).wsOr hw.2.1 hw.2.2 (.of_ws k1 k2)
        simp only [ws_slice h1.1] at h3
        rw [he] at h3
        have e : body inp = slice inp k inp.length := by
          rw [List.drop_zero] at k5
          rw [body, k5, slice, List.take_of_length_le (by simp)]
        rw [e, h3]
        exact A.append h4 (A.refl _)
      · cases h

end Verif
