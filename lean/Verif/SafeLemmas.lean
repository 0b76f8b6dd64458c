import Verif.Safe
import Verif.Props.Grammar
import Verif.Good
/-
Helper lemmas: scalars that can be written anywhere.
-/
namespace Verif

def numByte (b : UInt8) : Bool := isDigit b || b == DASH || b == 46 || b == 101 || b == 69

theorem numByte_facts {b : UInt8} (h : numByte b = true) : b ≠ NL ∧ b ≠ COLON ∧ isWs b = false ∧ isIndicator b = false ∧ b ≠ PCT ∧ isCtl b = false := by
  exact byte_cases (p := fun b => numByte b = true → b ≠ NL ∧ b ≠ COLON ∧ isWs b = false ∧ isIndicator b = false ∧ b ≠ PCT ∧ isCtl b = false)
    (by set_option maxRecDepth 100000 in decide) b h

theorem ws_notNum {b : UInt8} (h : isWs b = true) : isDigit b = false ∧ b ≠ 46 :=
  byte_cases (p := fun b => isWs b = true → isDigit b = false ∧ b ≠ 46) (by set_option maxRecDepth 100000 in decide) b h

theorem digits_num {s : Bytes} (h : s.dropWhile isDigit = []) : ∀ b ∈ s, numByte b = true := by
  intro b hb
  have := List.takeWhile_append_dropWhile (p := isDigit) (l := s)
  rw [h, List.append_nil] at this
  rw [← this] at hb
  have := List.all_takeWhile (p := isDigit) (l := s)
  rw [List.all_eq_true] at this
  simp [numByte, this b hb]

theorem mem_digits {s : Bytes} {b : UInt8} (hb : b ∈ s) : isDigit b = true ∨ b ∈ s.dropWhile isDigit := by
  have := List.takeWhile_append_dropWhile (p := isDigit) (l := s)
  rw [← this, List.mem_append] at hb
  rcases hb with hb | hb
  · have := List.all_takeWhile (p := isDigit) (l := s)
    rw [List.all_eq_true] at this
    exact .inl (this b hb)
  · exact .inr hb

theorem mem_tail {s : Bytes} {b : UInt8} (hb : b ∈ s) : s.head? = some b ∨ b ∈ s.tail := by
  cases s with
  | nil => cases hb
  | cons x s => rcases List.mem_cons.1 hb with rfl | hb
                · exact .inl rfl
                · exact .inr hb

theorem exp_bytes {t : Bytes} {Q : Prop} [Decidable Q] (ht : (if (t.head? = some 101 ∨ t.head? = some 69) ∧ Q then t.tail.dropWhile isDigit else t) = []) :
    ∀ b ∈ t, numByte b = true := by
  intro b hb
  split at ht
  · next h =>
    rcases mem_tail hb with h1 | h1
    · rw [h1] at h; rcases h.1 with h | h <;> (cases h; decide)
    · exact digits_num ht b h1
  · rw [ht] at hb; cases hb

theorem isNumber_bytes {s : Bytes} (h : isNumber s = true) : ∀ b ∈ s, numByte b = true := by
  simp only [isNumber, decide_eq_true_eq] at h
  replace h := exp_bytes h.1
  have h2 : ∀ b ∈ (if s.head? = some DASH then s.tail else s), numByte b = true := by
    generalize (if s.head? = some DASH then s.tail else s) = s at h
    intro b hb
    rcases mem_digits hb with h1 | h1
    · simp [numByte, h1]
    · split at h
      · next hd =>
        rcases mem_tail h1 with h2 | h2
        · rw [hd] at h2; cases h2; decide
        · rcases mem_digits h2 with h3 | h3
          · simp [numByte, h3]
          · exact h b h3
      · exact h b h1
  intro b hb
  split at h2
  · next hd =>
    rcases mem_tail hb with h3 | h3
    · rw [hd] at h3; cases h3; decide
    · exact h2 b h3
  · exact h2 b hb

theorem isNumber_dash {r : Bytes} (h : isNumber (DASH :: r) = true) : ∃ b r', r = b :: r' ∧ b ≠ DASH ∧ isWs b = false := by
  simp only [isNumber, List.head?_cons, if_true, List.tail_cons, decide_eq_true_eq] at h
  cases r with
  | nil => simp at h
  | cons b r =>
    refine ⟨b, r, rfl, ?_, ?_⟩
    · rintro rfl
      have e : isDigit DASH = false := by decide
      have e2 : DASH ≠ 46 := by decide
      simp [e, e2] at h
    · cases hw : isWs b with
      | false => rfl
      | true =>
        have hx := ws_notNum hw
        simp [hx.1, hx.2] at h

theorem noKeySep_none : ∀ {s : Bytes}, (∀ b ∈ s, b ≠ COLON) → noKeySep s = true
  | [], _ => rfl
  | b :: r, h => by
    have : (b == COLON) = false := beq_eq_false_iff_ne.2 (h b (by simp))
    simp only [noKeySep, this, Bool.false_and, Bool.not_false, Bool.true_and]
    exact noKeySep_none fun c hc => h c (by simp [hc])

theorem number_safe {s : Bytes} (h : isNumber s = true) : safePlain s = true := by
  have hb := isNumber_bytes h
  cases s with
  | nil => revert h; decide
  | cons b r =>
    have f := fun c hc => numByte_facts (hb c hc)
    have e1 : isIndicator b = false := (f b (by simp)).2.2.2.1
    have e2 : dashed (b :: r) = false := by
      simp only [dashed, List.head?_cons, List.tail_cons]
      by_cases hd : b = DASH
      · subst hd
        obtain ⟨x, r', rfl, _, h2⟩ := isNumber_dash h
        simp [h2]
      · simp [hd]
    have e3 : (b :: r).contains NL = false := by
      rw [List.contains_eq_any_beq, List.any_eq_false]
      intro c hc
      rw [beq_eq_false_iff_ne.2 (Ne.symm (f c hc).1)]; decide
    have e4 : noKeySep (b :: r) = true := noKeySep_none fun c hc => (f c hc).2.1
    have e5 : isWs ((b :: r).getLastD 0) = false := by
      rw [List.getLastD_eq_getLast?, List.getLast?_eq_some_getLast (l := b :: r) (by simp)]
      exact (f _ (List.getLast_mem _)).2.2.1
    have e6 : (b :: r).any isCtl = false := by
      rw [List.any_eq_false]
      intro c hc
      simp [(f c hc).2.2.2.2.2]
    have e7 : b ≠ PCT := (f b (by simp)).2.2.2.2.1
    have e8 : (b! "---").isPrefixOf (b :: r) = false := by
      by_cases hd : b = DASH
      · subst hd
        obtain ⟨x, r', rfl, h2, _⟩ := isNumber_dash h
        show (DASH == DASH && (DASH == x && _)) = false
        rw [show (DASH == x) = false from beq_eq_false_iff_ne.2 (Ne.symm h2)]; rfl
      · exact noDashes hd
    simp only [safePlain, plainBlock, plainFlow, List.isEmpty_cons, List.headD_cons, e1, e2, e3, e4, e5, e6, e8, h, Bool.not_false, Bool.true_and, Bool.true_or,
      Bool.and_true, bne_iff_ne]
    exact e7

/-- The scalar can be written anywhere. -/
structure Scalar.safe (s : Scalar) : Prop where
  flow : s.good true
  block : s.good false
  start : hd s.write ≠ PCT ∧ (b! "---").isPrefixOf s.write = false

theorem Scalar.safe.plain {s : Scalar} {p : Bytes} (h : safePlain p = true) (hf : s.fits (.plain p)) : s.safe := by
  simp only [safePlain, Bool.and_eq_true, bne_iff_ne, Bool.not_eq_true'] at h
  refine ⟨.inr ⟨.plain p, h.1.1.2, hf⟩, .inr ⟨.plain p, h.1.1.1, hf⟩, ?_⟩
  rw [hf.1]
  exact ⟨h.1.2, h.2⟩

theorem null_safe (k : NullKind) : (nullScalar k).safe := by
  cases k with
  | empty => exact ⟨.inl rfl, .inl rfl, by decide⟩
  | keyword => exact .plain (p := b! "null") (by decide) ⟨by decide, by decide⟩
  | tilde => exact .plain (p := b! "~") (by decide) ⟨by decide, by decide⟩

theorem bool_safe (v : Bool) : (boolScalar v).safe := by
  cases v with
  | true => exact .plain (p := b! "true") (by decide) ⟨by decide, by decide⟩
  | false => exact .plain (p := b! "false") (by decide) ⟨by decide, by decide⟩

theorem num_safe {s : Bytes} (h : isNumber s = true) (hint : Hint) : (Scalar.number s hint).safe := .plain (number_safe h) (number_fits h hint)

theorem strWith_safe {s : Bytes} {k : StringKind} (h : safeStr s k = true) : (strWithScalar s k).safe := by
  cases k with
  | bare =>
    simp only [safeStr, Bool.and_eq_true, beq_iff_eq] at h
    exact .plain h.1 ⟨rfl, h.2.symm⟩
  | single =>
    have hf : (strWithScalar s .single).fits (.single s) := ⟨(Atom.text_single s).symm, rfl⟩
    refine ⟨.inr ⟨_, rfl, hf⟩, .inr ⟨_, rfl, hf⟩, ?_⟩
    rw [hf.1]
    exact ⟨by show SQ ≠ PCT; decide, noDashes (by decide)⟩
  | double =>
    have hf : (strWithScalar s .double).fits (.double s) := ⟨(Atom.text_double s).symm, rfl⟩
    refine ⟨.inr ⟨.double s, h, hf⟩, .inr ⟨.double s, h, hf⟩, ?_⟩
    rw [hf.1]
    exact ⟨by show DQ ≠ PCT; decide, noDashes (by decide)⟩

theorem str_safe {s : Bytes} (h : safeStr s (preferred s) = true) : (strScalar s).safe := by
  have e : strScalar s = strWithScalar s (preferred s) := by unfold strScalar strWithScalar; rw [detect_eq]; cases preferred s <;> rfl
  rw [e]; exact strWith_safe h

/-! ### Block scalars to be stored -/

theorem joined_value (join : UInt8) (folded : Bool) (h : join = if folded then SP else NL) (c : Chomp) (l : Bytes) : ∀ ls : List Bytes,
    blockContent join c (l :: ls) = l ++ linesValue folded (ls.map fun x => (0, x)) ++ c.final 1
  | [] => by cases c <;> simp [blockContent, linesValue, Chomp.final]
  | x :: ls => by
    rw [blockContent, joined_value join folded h c x ls]
    · subst h; cases folded <;> simp [linesValue]
    · simp

theorem lines_text {pre : Bytes} {n w : Nat} (h : pre ++ List.replicate n SP = List.replicate w SP) : ∀ ls : List Bytes,
    (ls.flatMap fun l => NL :: pre ++ List.replicate n SP ++ l) = linesText w (ls.map fun x => (0, x))
  | [] => rfl
  | x :: ls => by
    rw [List.flatMap_cons, lines_text h ls]
    simp only [List.map_cons, linesText, ← h]
    simp

/-- The block scalar that is stored. -/
def newBlk (more : Nat) (l : Bytes) (ls : List Bytes) : Block → Blk
  | .literal c => ⟨false, c, [], more, l, ls.map fun x => (0, x), 1⟩
  | .folded c => ⟨true, c, [], more, l, ls.map fun x => (0, x), 1⟩

theorem lines_blk {q : Mode} {lines : List Bytes} {b : Block} (h : q.lines lines b = true) : ∃ l ls, lines = l :: ls ∧
    ∀ more, (newBlk more l ls b).ok = true ∧ q.blk (newBlk more l ls b) = true := by
  have h1 : lines.isEmpty = false ∧ lines.all blkLine = true := by
    cases q <;> simp only [Mode.lines, Bool.and_eq_true, Bool.not_eq_true'] at h
    · cases h
    · exact h.1
    · exact h
  cases lines with
  | nil => cases h1.1
  | cons l ls =>
    refine ⟨l, ls, rfl, fun more => ⟨?_, ?_⟩⟩
    · have h2 := h1.2
      simp only [List.all_cons, Bool.and_eq_true] at h2
      have h3 : ∀ folded : Bool, ((ls.map fun x => (0, x)).all fun l => blkLine l.2 && (!folded || l.1 == 0)) = true := by
        intro f
        rw [List.all_map]
        refine List.all_eq_true.2 fun x hx => ?_
        simp [List.all_eq_true.1 h2.2 x hx]
      cases b with
      | literal c => simp only [newBlk, Blk.ok, h2.1, h3]; cases c <;> rfl
      | folded c => simp only [newBlk, Blk.ok, h2.1, h3]; cases c <;> rfl
    · cases q with
      | none => cases h
      | strip =>
        simp only [Mode.lines, Bool.and_eq_true] at h
        cases b <;> exact h.2
      | tight => cases b <;> simp [newBlk, Mode.blk]

theorem block_isBlk {q : Mode} {lines : List Bytes} {b : Block} {pre : Bytes} {n o w : Nat} (h : q.lines lines b = true)
    (hp : pre ++ List.replicate n SP = List.replicate w SP) (ho : o < w) : (blockScalar pre n lines b).isBlk q o := by
  obtain ⟨l, ls, rfl, hb⟩ := lines_blk h
  refine ⟨_, newBlk (w - o - 1) l ls b, rfl, (hb _).1, (hb _).2, ?_, ?_⟩
  · have hw : o + 1 + (w - o - 1) = w := by omega
    cases b with
    | literal c =>
      show PIPE :: c.asByte ++ _ = _
      rw [Blk.text, lines_text hp]; simp only [newBlk, hw]; cases c <;> simp [Chomp.asByte, Chomp.text]
    | folded c =>
      show GT :: c.asByte ++ _ = _
      rw [Blk.text, lines_text hp]; simp only [newBlk, hw]; cases c <;> simp [Chomp.asByte, Chomp.text]
  · cases b with
    | literal c => exact joined_value NL false rfl c l ls
    | folded c => exact joined_value SP true rfl c l ls

/-- The scalar can be written in a block collection in column `o`. -/
structure Scalar.fine (q : Mode) (o : Nat) (s : Scalar) : Prop where
  block : s.good false ∨ s.isBlk q o
  start : hd s.write ≠ PCT ∧ (b! "---").isPrefixOf s.write = false

theorem Scalar.safe.fine {s : Scalar} (h : s.safe) (q : Mode) (o : Nat) : s.fine q o := ⟨.inl h.block, h.start⟩

theorem block_start (pre : Bytes) (n : Nat) (lines : List Bytes) (b : Block) :
    hd (blockScalar pre n lines b).write ≠ PCT ∧ (b! "---").isPrefixOf (blockScalar pre n lines b).write = false := by
  cases b with
  | literal c => exact ⟨by show PIPE ≠ PCT; decide, noDashes (show PIPE ≠ DASH by decide)⟩
  | folded c => exact ⟨by show GT ≠ PCT; decide, noDashes (show GT ≠ DASH by decide)⟩

theorem block_fine {q : Mode} {lines : List Bytes} {b : Block} {pre : Bytes} {n o w : Nat} (h : q.lines lines b = true)
    (hp : pre ++ List.replicate n SP = List.replicate w SP) (ho : o < w) : (blockScalar pre n lines b).fine q o :=
  ⟨.inr (block_isBlk h hp ho), block_start _ _ _ _⟩

theorem val_safe {q : Mode} {d : Data} {x : Nat} {v : Val} (h : v.safe q d x) (hb : NotInline d x → ∀ l b, v ≠ .block l b) (u : Tree Nat) : (v.scalar u).safe := by
  cases v with
  | null sep => exact null_safe .empty
  | str s => exact str_safe h
  | block l b => exact absurd rfl (hb h.2 l b)
  | bool b => exact bool_safe b
  | number s hint => exact num_safe h hint

/-- In the block collection `u`. -/
theorem val_fine {q : Mode} {d : Data} {x : Nat} {v : Val} (h : v.safe q d x) (i : Nat) (p : Bytes) (m : Bool) (n : Nat) (k : CollKind) (items : Items Nat) :
    (v.scalar (.node i p m n k items)).fine q n := by
  cases v with
  | block l b => exact block_fine h.1 (w := n + 2) (List.nil_append _) (by omega)
  | null sep => exact (null_safe .empty).fine q n
  | str s => exact (str_safe h).fine q n
  | bool b => exact (bool_safe b).fine q n
  | number s hint => exact (num_safe h hint).fine q n

theorem op_safe {q : Mode} {d : Data} {x : Nat} {op : Op} {u : Tree Nat} {s : Scalar} (h : op.safe q d x) (hb : ∀ l b, op ≠ .setBlock l b)
    (hs : op.scalar u = some s) : s.safe := by
  cases op <;> simp only [Op.scalar, reduceCtorEq, Option.some.injEq] at hs
  case setNull k => subst hs; exact null_safe k
  case setString s => subst hs; exact str_safe h
  case setStringWith s k => subst hs; exact strWith_safe h
  case setBlock l b => exact absurd rfl (hb l b)
  case setBool v => subst hs; exact bool_safe v
  case setNumber s hint => subst hs; exact num_safe h hint

theorem val_start {q : Mode} {d : Data} {x : Nat} {v : Val} (h : v.safe q d x) (u : Tree Nat) :
    hd (v.scalar u).write ≠ PCT ∧ (b! "---").isPrefixOf (v.scalar u).write = false := by
  cases v with
  | null sep => exact (null_safe .empty).start
  | str s => exact (str_safe h).start
  | block l b => exact block_start _ _ _ _
  | bool b => exact (bool_safe b).start
  | number s hint => exact (num_safe h hint).start

theorem op_start {q : Mode} {d : Data} {x : Nat} {op : Op} {u : Tree Nat} {s : Scalar} (h : op.safe q d x) (hs : op.scalar u = some s) :
    hd s.write ≠ PCT ∧ (b! "---").isPrefixOf s.write = false := by
  by_cases hb : ∃ l b, op = .setBlock l b
  · obtain ⟨l, b, rfl⟩ := hb
    simp only [Op.scalar, Option.some.injEq] at hs
    subst hs; exact block_start _ _ _ _
  · exact (op_safe h (fun l b e => hb ⟨l, b, e⟩) hs).start

end Verif
