import Verif.Shows
import Verif.Boundary
import Verif.OpLemmas
/-
Documents whose parts are UTF-8, and what `Display` shows of them after edits.
-/
namespace Verif
set_option linter.unusedSimpArgs false

/-! ### `lossy` leaves exactly the valid texts alone -/

theorem valid_of_lossy : ∀ {s : Bytes}, lossy s = s → validUtf8 s = true := by
  intro s
  induction hn : s.length using Nat.strongRecOn generalizing s with
  | ind n ih =>
    intro h
    cases s with
    | nil => rfl
    | cons b r =>
      have hs := decodeHead_step b r
      rw [valid_cons, Bool.and_eq_true]
      simp only [lossy] at h
      rw [chars_cons, List.flatten_cons] at h
      by_cases hok : (decodeHead (b :: r)).1 = true
      · refine ⟨hok, ih (r.drop ((decodeHead (b :: r)).2 - 1)).length (by simp at hn ⊢; omega) rfl ?_⟩
        rw [if_pos hok] at h
        simp only [lossy]
        have : b :: r = (b :: r.take ((decodeHead (b :: r)).2 - 1)) ++ r.drop ((decodeHead (b :: r)).2 - 1) := by
          simp [List.take_append_drop]
        conv at h => rhs; rw [this]
        exact List.append_cancel_left h
      · exfalso
        rw [if_neg hok] at h
        rw [← h] at hok
        exact hok (by simp [replacement, decodeHead, seqLen, secondOk, isCont])

theorem lossy_iff {s : Bytes} : lossy s = s ↔ validUtf8 s = true := ⟨valid_of_lossy, lossy_valid⟩

theorem valid_append' {a b : Bytes} (ha : validUtf8 a = true) (hb : validUtf8 b = true) : validUtf8 (a ++ b) = true := by
  rw [valid_append ha, hb]

theorem valid_cons_ascii {c : UInt8} {s : Bytes} (hc : c < 0x80) (h : validUtf8 s = true) : validUtf8 (c :: s) = true := by
  rw [valid_ascii hc, h]

theorem valid_spaces (n : Nat) : validUtf8 (List.replicate n SP) = true :=
  valid_of_ascii fun c hc => by rw [List.eq_of_mem_replicate hc]; decide

/-- Text before an ASCII byte. -/
theorem valid_before {a b : Bytes} {c : UInt8} (hc : c < 0x80) (h : validUtf8 (a ++ c :: b) = true) :
    validUtf8 a = true ∧ validUtf8 b = true := by
  have hk : peekAt (a ++ c :: b) a.length < 0x80 := by simpa [peekAt] using hc
  have h1 := valid_take h (n := a.length) (.inl hk)
  rw [List.take_left] at h1
  refine ⟨h1, ?_⟩
  rw [valid_append h1, valid_ascii hc] at h
  exact h

theorem lastLine_split (s : Bytes) : lastLine s = s ∨ ∃ a, s = a ++ NL :: lastLine s := by
  unfold lastLine
  have h := List.takeWhile_append_dropWhile (p := (· != NL)) (l := s.reverse)
  cases hd : s.reverse.dropWhile (· != NL) with
  | nil =>
    left
    rw [hd, List.append_nil] at h
    rw [h, List.reverse_reverse]
  | cons c r =>
    right
    have hc : c = NL := by
      have := List.head?_dropWhile_not (p := (· != NL)) (l := s.reverse)
      rw [hd] at this
      simpa using this
    subst hc
    refine ⟨r.reverse, ?_⟩
    have h2 := congrArg List.reverse h
    rw [hd] at h2
    simpa using h2.symm

theorem valid_lastLine {s : Bytes} (h : validUtf8 s = true) : validUtf8 (lastLine s) = true := by
  rcases lastLine_split s with hl | ⟨a, ha⟩
  · rwa [hl]
  · rw [ha] at h
    exact (valid_before (by decide) h).2

/-- The first characters of a text are a text. -/
theorem valid_take_chars : ∀ {s : Bytes} (n : Nat), validUtf8 s = true → validUtf8 ((chars s).take n).flatten = true := by
  intro s
  induction hn : s.length using Nat.strongRecOn generalizing s with
  | ind k ih =>
    intro n h
    cases s with
    | nil => cases n <;> rfl
    | cons b r =>
      have hs := decodeHead_step b r
      rw [valid_cons, Bool.and_eq_true] at h
      rw [chars_cons, if_pos h.1]
      cases n with
      | zero => rfl
      | succ n =>
        rw [List.take_succ_cons, List.flatten_cons, List.cons_append, valid_cons]
        have hloc := hs.loc h.1 ((chars (r.drop ((decodeHead (b :: r)).2 - 1))).take n).flatten
        rw [List.cons_append] at hloc
        rw [hloc]
        simp only [Bool.true_and]
        have hl : (r.take ((decodeHead (b :: r)).2 - 1)).length = (decodeHead (b :: r)).2 - 1 := by
          have := hs.le; simp; omega
        rw [List.drop_append_of_le_length (by omega), List.drop_of_length_le (by omega), List.nil_append]
        exact ih (r.drop ((decodeHead (b :: r)).2 - 1)).length (by simp at hn ⊢; omega) rfl n h.2

/-! ### Strings -/

theorem escapeByte_ascii {b : UInt8} (h : escapeByte b ≠ none) : b < 0x80 := by
  unfold escapeByte at h
  repeat' split at h
  all_goals first
    | (next hb => simp only [beq_iff_eq] at hb; rw [hb]; decide)
    | skip
  · next hb =>
    simp only [Bool.or_eq_true, decide_eq_true_eq, beq_iff_eq] at hb
    rcases hb with hb | hb
    · exact UInt8.lt_trans hb (by decide)
    · rw [hb]; decide
  · exact absurd rfl h

theorem escapeDoubleDisplay_eq : ∀ {cur s : Bytes}, validUtf8 (cur ++ s) = true →
    escapeDoubleDisplayGo cur s = cur ++ escapeDoubleBody s
  | cur, [], h => by rw [List.append_nil] at h; simp [escapeDoubleDisplayGo, escapeDoubleBody, lossy_valid h]
  | cur, b :: r, h => by
    rw [escapeDoubleDisplayGo, escapeDoubleBody]
    cases he : escapeByte b with
    | none =>
      simp only [Option.getD_none]
      rw [escapeDoubleDisplay_eq (by simpa using h)]
      simp
    | some e =>
      obtain ⟨h1, h2⟩ := valid_before (escapeByte_ascii (by simp [he])) h
      simp only [Option.getD_some]
      rw [escapeDoubleDisplay_eq (by simpa using h2), lossy_valid h1]
      simp

theorem escapeSingleDisplay_eq : ∀ {cur s : Bytes}, validUtf8 (cur ++ s) = true →
    escapeSingleDisplayGo cur s = cur ++ escapeSingleBody s
  | cur, [], h => by rw [List.append_nil] at h; simp [escapeSingleDisplayGo, escapeSingleBody, lossy_valid h]
  | cur, b :: r, h => by
    rw [escapeSingleDisplayGo, escapeSingleBody]
    by_cases hb : (b == SQ) = true
    · rw [if_pos hb, if_pos hb]
      have hb' := beq_iff_eq.1 hb
      obtain ⟨h1, h2⟩ := valid_before (by rw [hb']; decide) h
      rw [escapeSingleDisplay_eq (by simpa using h2), lossy_valid h1]
      simp
    · rw [if_neg hb, if_neg hb, escapeSingleDisplay_eq (by simpa using h)]
      simp

/-- Strings the setters store. -/
theorem RStr.display_eq {k : StrKind} {s : Bytes} (h : validUtf8 s = true) (hk : k = .bare ∨ k = .single ∨ k = .double) :
    RStr.display ⟨k, s, s⟩ = RStr.write ⟨k, s, s⟩ := by
  rcases hk with rfl | rfl | rfl
  · exact lossy_valid h
  · simp [RStr.display, RStr.write, escapeSingle, escapeSingleDisplay_eq (cur := []) h]
  · simp [RStr.display, RStr.write, escapeDouble, escapeDoubleDisplay_eq (cur := []) h]

theorem detectGo_kind : ∀ (l : List Bytes) (f : Bool) (k : StrKind), k = .bare ∨ k = .single ∨ k = .double →
    detectGo f k l = .bare ∨ detectGo f k l = .single ∨ detectGo f k l = .double
  | [], _, _, h => h
  | c :: cs, f, k, h => by
    obtain ⟨b1, h1⟩ : ∃ b1 : Bool, detectGo f k (c :: cs) = if b1 then detectGo false .single cs else if c == [SQ] then .double
      else if c == [COLON] then detectGo false .single cs else if isControlChar c then .double else detectGo false k cs :=
      ⟨_, rfl⟩
    rw [h1]
    cases b1
    · simp only [Bool.false_eq_true, if_false]
      by_cases h2 : (c == [SQ]) = true
      · simp [h2]
      by_cases h3 : (c == [COLON]) = true
      · simp only [h2, h3, if_true]; exact detectGo_kind cs _ _ (.inr (.inl rfl))
      by_cases h4 : isControlChar c = true
      · simp [h2, h3, h4]
      simp only [h2, h3, h4]
      exact detectGo_kind cs _ _ h
    · exact detectGo_kind cs _ _ (.inr (.inl rfl))

theorem detect_kind (s : Bytes) : detect s = .bare ∨ detect s = .single ∨ detect s = .double := by
  unfold detect
  split
  · exact .inr (.inl rfl)
  · exact detectGo_kind _ _ _ (.inl rfl)

/-! ### Trees -/

mutual
/-- `Display` shows every part of the value as it is written, if it shows it. -/
def Tree.sound {α} : Tree α → Prop
  | .leaf _ p s => s.disp = s.write ∧ validUtf8 p = true
  | .node _ p m _ k items => validUtf8 p = true ∧ items.sound m ∧ ∀ tr w, k = .inline tr w → lossy w = w
def Items.sound {α} (m : Bool) : Items α → Prop
  | .nil => True
  | .cons _ p key v rest => lossy p = p ∧ (m = true → key.display = key.write) ∧ v.sound ∧ rest.sound m
end

theorem Tree.sound_pre {α} {t : Tree α} (h : t.sound) : validUtf8 t.pre = true := by
  cases t with
  | leaf => exact h.2
  | node => exact h.1

mutual
theorem Tree.exact_sound {α} : ∀ {t : Tree α}, t.exact → t.sound
  | .leaf _ _ _, h => ⟨h.1, valid_of_lossy h.2.1⟩
  | .node _ _ _ _ _ _, h => ⟨valid_of_lossy h.1, Items.exact_sound h.2.1, h.2.2.2⟩
theorem Items.exact_sound {α} {m : Bool} : ∀ {is : Items α}, is.exact m → is.sound m
  | .nil, _ => trivial
  | .cons _ _ _ _ _, h => ⟨h.1, h.2.1, Tree.exact_sound h.2.2.1, Items.exact_sound h.2.2.2⟩
end

/-- White space that is not shown is not there. -/
def Tree.tight {α} (t : Tree α) : Prop := t.showsPre = false → t.pre = []

mutual
theorem Tree.sound_exact : ∀ {t : Tree Nat}, t.allIds.Nodup → t.sound → (∀ x w, t.find x = some w → w.tight) → t.exact
  | .leaf i p s, _, h, ht => ⟨h.1, lossy_valid h.2, fun hs =>
      ht i (.leaf i p s) (by simp [Tree.find]) (by simp [Tree.showsPre, hs])⟩
  | .node i p m n k items, hn, h, ht => by
    rw [Tree.allIds_node, List.nodup_cons] at hn
    refine ⟨lossy_valid h.1, Items.sound_exact hn.2 h.2.1 fun x w hf => ht x w ?_, fun hk he =>
      ht i (.node i p m n k items) (by simp [Tree.find]) (by simp [Tree.showsPre, hk, he]), h.2.2⟩
    rw [Tree.find, if_neg]
    · exact hf
    · rintro rfl
      exact hn.1 (Items.find_mem i m hf)
theorem Items.sound_exact {c : Nat} {m : Bool} : ∀ {is : Items Nat}, ((is.entries c m).map (·.1)).Nodup → is.sound m →
    (∀ x w, is.find x = some w → w.tight) → is.exact m
  | .nil, _, _, _ => trivial
  | .cons i p key v rest, hn, h, ht => by
    simp only [Items.entries, List.map_cons, List.map_append, List.nodup_cons, List.nodup_append, Tree.allIds_eq] at hn
    obtain ⟨_, hv, hr, hvr⟩ := hn
    refine ⟨h.1, h.2.1, Tree.sound_exact hv h.2.2.1 fun x w hf => ht x w (by simp [Items.find, hf]),
      Items.sound_exact hr h.2.2.2 fun x w hf => ht x w ?_⟩
    have : v.find x = none := by
      cases hc : v.find x with
      | none => rfl
      | some z => exact absurd rfl (hvr x (Tree.find_mem hc) x (Items.find_mem c m hf))
    simp [Items.find, this, hf]
end

mutual
theorem Tree.sound_sublist {α} : ∀ {t : Tree α}, t.sound → t.disp.Sublist t.render
  | .leaf _ _ _, h => by rw [Tree.disp, Tree.render, h.1]; exact List.Sublist.refl _
  | .node _ _ m _ k items, h => by
    rw [Tree.disp, Tree.render]
    refine ((List.Sublist.refl _).append (Items.sound_sublist h.2.1)).append ?_
    cases k with
    | block => exact List.Sublist.refl _
    | inline tr w => simp only [closeOf, closeOfDisplay, h.2.2 tr w rfl]; exact List.Sublist.refl _
theorem Items.sound_sublist {α} {m : Bool} {k : CollKind} : ∀ {is : Items α}, is.sound m →
    (is.disp m k).Sublist (is.render m k)
  | .nil, _ => List.Sublist.refl _
  | .cons _ p key v rest, h => by
    obtain ⟨h1, h2, h3, h4⟩ := h
    rw [Items.disp, Items.render]
    refine List.Sublist.append (List.Sublist.append (List.Sublist.append (List.Sublist.append ?_ ?_) (Tree.sound_sublist h3))
      (List.Sublist.refl _)) (Items.sound_sublist h4)
    · cases m with
      | true => simp [h1, h2 rfl]
      | false => simp
    · split
      · rw [lossy_valid (Tree.sound_pre h3)]; exact List.Sublist.refl _
      · exact List.nil_sublist _
end

mutual
theorem Tree.sound_find {x : Nat} {u : Tree Nat} : ∀ {t : Tree Nat}, t.sound → t.find x = some u → u.sound
  | .leaf i p s, h, hf => by
    simp only [Tree.find] at hf
    split at hf
    · cases hf; exact h
    · cases hf
  | .node i p m n k items, h, hf => by
    simp only [Tree.find] at hf
    split at hf
    · cases hf; exact h
    · exact Items.sound_find h.2.1 hf
theorem Items.sound_find {x : Nat} {u : Tree Nat} {m : Bool} : ∀ {is : Items Nat}, is.sound m → is.find x = some u → u.sound
  | .nil, _, hf => by simp [Items.find] at hf
  | .cons i p key v rest, h, hf => by
    simp only [Items.find, Option.or_eq_some_iff] at hf
    rcases hf with hf | ⟨_, hf⟩
    · exact Tree.sound_find h.2.2.1 hf
    · exact Items.sound_find h.2.2.2 hf
end

mutual
theorem Tree.sound_upd {x : Nat} {u : Tree Nat} (hu : u.sound) : ∀ {t : Tree Nat}, t.sound → (Tree.upd x u t).sound
  | .leaf i p s, h => by
    simp only [Tree.upd]
    split
    · exact hu
    · exact h
  | .node i p m n k items, h => by
    simp only [Tree.upd]
    split
    · exact hu
    · exact ⟨h.1, Items.sound_upd hu h.2.1, h.2.2⟩
theorem Items.sound_upd {x : Nat} {u : Tree Nat} (hu : u.sound) {m : Bool} : ∀ {is : Items Nat}, is.sound m →
    (Items.upd x u is).sound m
  | .nil, _ => trivial
  | .cons i p key v rest, h => by
    simp only [Items.upd]
    split
    · exact ⟨h.1, h.2.1, Tree.sound_upd hu h.2.2.1, h.2.2.2⟩
    · exact ⟨h.1, h.2.1, h.2.2.1, Items.sound_upd hu h.2.2.2⟩
end

theorem Items.sound_append {α} {m : Bool} {b : Items α} (hb : b.sound m) : ∀ {a : Items α}, a.sound m → (a.append b).sound m
  | .nil, _ => hb
  | .cons _ _ _ _ _, h => ⟨h.1, h.2.1, h.2.2.1, Items.sound_append hb h.2.2.2⟩

theorem Items.sound_erase {α} {m : Bool} : ∀ {a : Items α} (n : Nat), a.sound m → (a.eraseIdx n).sound m
  | .nil, _, _ => trivial
  | .cons _ _ _ _ _, 0, h => h.2.2.2
  | .cons _ _ _ _ _, n + 1, h => ⟨h.1, h.2.1, h.2.2.1, Items.sound_erase n h.2.2.2⟩

theorem Items.sound_pairs {α} {m : Bool} {q : RStr × Tree α} : ∀ {a : Items α}, a.sound m → q ∈ a.pairs → q.2.sound
  | .nil, _, h => by simp [Items.pairs] at h
  | .cons _ _ _ _ _, h, hq => by
    simp only [Items.pairs, List.mem_cons] at hq
    rcases hq with rfl | hq
    · exact h.2.2.1
    · exact Items.sound_pairs h.2.2.2 hq

/-! ### Edits -/

/-- The separator is UTF-8. -/
def Separator.utf8 : Separator → Bool
  | .auto => true
  | .custom s => validUtf8 s

/-- All texts in the value are UTF-8. -/
def Val.utf8 : Val → Bool
  | .null sep => sep.utf8
  | .str s => validUtf8 s
  | .block lines _ => lines.all validUtf8
  | .bool _ => true
  | .number s _ => validUtf8 s

/-- All texts given to the edit are UTF-8. -/
def Op.utf8 : Op → Bool
  | .setString s => validUtf8 s
  | .setStringWith s _ => validUtf8 s
  | .setBlock lines _ => lines.all validUtf8
  | .setNumber s _ => validUtf8 s
  | .insert key v => validUtf8 key && v.utf8
  | .push v => v.utf8
  | _ => true

theorem valid_blockText {mark : UInt8} (hm : mark < 0x80) {c : Chomp} {pre : Bytes} (hp : validUtf8 pre = true) {n : Nat}
    {lines : List Bytes} (hl : lines.all validUtf8 = true) : validUtf8 (blockText mark c pre n lines) = true := by
  unfold blockText
  refine valid_cons_ascii hm ?_
  refine valid_append' (by cases c <;> decide) ?_
  induction lines with
  | nil => rfl
  | cons l ls ih =>
    rw [List.all_cons, Bool.and_eq_true] at hl
    rw [List.flatMap_cons]
    refine valid_append' ?_ (ih hl.2)
    refine valid_append' (valid_append' (valid_cons_ascii (by decide) hp) (valid_spaces n)) hl.1

theorem sound_block {u : Tree Nat} (hu : u.sound) {lines : List Bytes} {b : Block} (hl : lines.all validUtf8 = true) :
    (blockScalar (blockIndent u).2 (blockIndent u).1 lines b).disp =
      (blockScalar (blockIndent u).2 (blockIndent u).1 lines b).write := by
  have hp : validUtf8 (blockIndent u).2 = true := by
    cases u with
    | leaf i p s => exact valid_lastLine hu.2
    | node => rfl
  exact lossy_valid (valid_blockText (by cases b <;> (rename_i c; cases c <;> decide)) hp hl)

theorem sound_str {s : Bytes} (h : validUtf8 s = true) : (strScalar s).disp = (strScalar s).write :=
  RStr.display_eq h (detect_kind s)

theorem Op.sound_scalar {op : Op} {u : Tree Nat} {s : Scalar} (hop : op.utf8 = true) (hu : u.sound)
    (hs : op.scalar u = some s) : s.disp = s.write := by
  cases op <;> simp only [Op.scalar, Option.some.injEq, reduceCtorEq] at hs <;> subst hs
  case setNull k => cases k <;> rfl
  case setString s => exact sound_str hop
  case setStringWith s k => exact RStr.display_eq hop (by cases k <;> simp)
  case setBlock l b => exact sound_block hu hop
  case setBool v => cases v <;> rfl
  case setNumber s h => exact lossy_valid hop

theorem Val.sound_scalar {v : Val} {u : Tree Nat} (hv : v.utf8 = true) (hu : u.sound) :
    (v.scalar u).disp = (v.scalar u).write := by
  cases v
  case null sep => rfl
  case str s => exact sound_str hv
  case block l b => exact sound_block hu hv
  case bool v => cases v <;> rfl
  case number s h => exact lossy_valid hv

theorem Val.utf8_sep {v : Val} (hv : v.utf8 = true) : v.sep.utf8 = true := by
  cases v <;> first | exact hv | rfl

theorem addPre_sound (n : Nat) (items : Items Nat) : lossy (addPre n items) = addPre n items := by
  unfold addPre
  split
  · rfl
  · exact lossy_valid (valid_cons_ascii (by decide) (valid_spaces n))

theorem Op.sound_tree {op : Op} {u : Tree Nat} {i v : Nat} {mk : Nat × Bytes} (hop : op.utf8 = true) (hu : u.sound)
    (hmk : validUtf8 mk.2 = true) : (op.tree i v mk u).sound := by
  have hlossy := addPre_sound
  unfold Op.tree
  split
  · next s hs => exact ⟨Op.sound_scalar hop hu hs, Tree.sound_pre hu⟩
  · split
    · next key val x p n k items _ =>
      simp only [Op.utf8, Bool.and_eq_true] at hop
      split
      · refine ⟨hu.1, Items.sound_append (show Items.sound true (.cons _ _ ⟨.bare, key, key⟩ (.leaf _ _ _) .nil) from
          ⟨hlossy _ _, fun _ => lossy_valid hop.1, ⟨Val.sound_scalar hop.2 hu, ?_⟩, trivial⟩) hu.2.1, hu.2.2⟩
        have := Val.utf8_sep hop.2
        cases hs : val.sep with
        | auto => rfl
        | custom s => rw [hs] at this; exact this
      · next w hl =>
        obtain ⟨n, key', hp, _⟩ := Items.lookup_mem hl
        exact Tree.sound_upd (show Tree.sound (.leaf _ _ _) from ⟨Val.sound_scalar hop.2 hu,
          Tree.sound_pre (Items.sound_pairs hu.2.1 (List.mem_of_getElem? hp))⟩) hu
    · split
      · exact hu
      · exact ⟨hu.1, Items.sound_erase _ hu.2.1, hu.2.2⟩
    · exact ⟨hu.1, trivial, hu.2.2⟩
    · next val x p n k items _ =>
      refine ⟨hu.1, Items.sound_append (show Items.sound false (.cons _ _ _ (.leaf _ _ _) .nil) from
          ⟨hlossy _ _, (fun h => by cases h), ⟨Val.sound_scalar hop hu, ?_⟩, trivial⟩) hu.2.1, hu.2.2⟩
      have := Val.utf8_sep (v := val) hop
      unfold pushPre
      split
      · next s hs => rw [hs] at this; exact this
      · split
        · next q hq => exact Tree.sound_pre (Items.sound_pairs hu.2.1 (List.mem_of_getLast? hq))
        · rfl
    · exact ⟨hu.1, Items.sound_erase _ hu.2.1, hu.2.2⟩
    · exact ⟨hu.1, trivial, hu.2.2⟩
    · exact ⟨hmk, trivial, fun _ _ h => by cases h⟩
    · exact ⟨hmk, trivial, fun _ _ h => by cases h⟩
    · exact ⟨hmk, trivial, fun _ _ h => by cases h⟩
    · exact ⟨hmk, trivial, fun _ _ h => by cases h⟩
    · exact hu

theorem Holds.sound_makeIndent {doc : Document} {t w : Tree Nat} {x : Nat} (h : Holds doc t) (ht : t.sound)
    (hf : t.find x = some w) {mk : Nat × Bytes} (hm : Verif.makeIndent doc.data x 0 = .ok mk) : validUtf8 mk.2 = true := by
  have hw := Tree.sound_pre (Tree.sound_find ht hf)
  have hdeep : ∀ (n : Nat) (p : Bytes), validUtf8 p = true → validUtf8 (makeIndent.deeper n p).2 = true := fun n p hp => by
    exact valid_cons_ascii (by decide) (valid_append' (valid_take_chars _ (valid_lastLine hp)) (valid_spaces _))
  rcases h.parent hf with ⟨_, hx⟩ | ⟨c, cpre, m, ind, k, items, i, ip, key, n, q, hc0, _, _, hc, hi, hx⟩
  · simp only [Verif.makeIndent, entry_of hx, bind, Except.bind, pure, Except.pure] at hm
    cases hm
    exact hw
  · have hcp := Tree.sound_pre (Tree.sound_find ht hc0)
    simp only [Verif.makeIndent, entry_of hx, entry_of hi, entry_of hc, bind, Except.bind, pure, Except.pure] at hm
    cases m
    · simp only [collRaw, itemRaw] at hm
      cases k with
      | block => cases hm; rfl
      | inline => cases hm; exact hdeep _ _ hcp
    · cases hm; exact hdeep _ _ hcp

/-- Documents made with UTF-8 texts only. -/
inductive ReachableUtf8 : Document → Prop
  | parsed {inp doc} : validUtf8 inp = true → Parsed inp doc → ReachableUtf8 doc
  | edited {doc doc' x op} : ReachableUtf8 doc → Live doc x → op.utf8 = true → doc.edit x op = .ok doc' → ReachableUtf8 doc'

theorem ReachableUtf8.sound {doc : Document} (h : ReachableUtf8 doc) :
    ∃ t, Holds doc t ∧ t.sound ∧ lossy doc.suffix = doc.suffix := by
  induction h with
  | @parsed inp doc hv h =>
    obtain ⟨f, hf⟩ := h
    rw [parseF_refine] at hf
    cases hp : pparseF f inp with
    | error e => rw [hp] at hf; cases hf
    | ok r =>
      obtain ⟨t, suffix⟩ := r
      rw [hp] at hf
      cases hf
      obtain ⟨h1, h2⟩ := parse_exact hv hp
      exact ⟨_, docOf_holds t suffix, Tree.exact_sound ((Tree.label_exact 0 t).2 h1), h2⟩
  | @edited doc doc' x op _ hl hop he ih =>
    obtain ⟨t, ht, hs, hsuf⟩ := ih
    obtain ⟨u, hu⟩ := (ht.live_iff x).1 hl
    obtain ⟨d', i, v, mk, h1, _, h3, h4⟩ := ht.editTree hu op
    simp only [Document.edit, h1, bind, Except.bind, pure, Except.pure, Except.ok.injEq] at he
    subst he
    exact ⟨_, h4, Tree.sound_upd (Op.sound_tree hop (Tree.sound_find hs hu) (ht.sound_makeIndent hs hu h3)) hs, hsuf⟩

end Verif
