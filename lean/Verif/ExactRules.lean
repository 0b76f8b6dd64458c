import Verif.ExactLead
import Verif.FaultRules
/-
Whole texts, forwards: what fits the specification of `Verif.Place` is read as such.
-/
namespace Verif

/-! ### Keys -/

theorem colonGo_stop : ∀ {k : Bytes} {r : Bytes}, COLON ∉ k → (0 : UInt8) ∉ k → hd r = COLON ∨ hd r = 0 → colonGo (k ++ r) = k.length
  | [], [], _, _, _ => rfl
  | [], b :: r, _, _, h => by
    have h : b = COLON ∨ b = 0 := h
    have : (b == COLON || b == 0) = true := by simpa using h
    rw [List.nil_append, colonGo, this]; rfl
  | c :: k, r, h1, h2, h => by
    rw [List.mem_cons, not_or] at h1 h2
    have : (c == COLON || c == 0) = false := by
      rw [Bool.or_eq_false_iff]; exact ⟨beq_false_of_ne (Ne.symm h1.1), beq_false_of_ne (Ne.symm h2.1)⟩
    rw [List.cons_append, colonGo, this, if_neg (by decide), colonGo_stop h1.2 h2.2 h]; rfl

section
variable {inp : Bytes}

theorem colonGo_at {n q : Nat} (h1 : n ≤ q) (h2 : q ≤ inp.length) (h3 : COLON ∉ slice inp n q) (h4 : (0 : UInt8) ∉ slice inp n q)
    (h5 : peekAt inp q = COLON ∨ peekAt inp q = 0) : n + colonGo (inp.drop n) = q := by
  rw [drop_slice h1, colonGo_stop h3 h4 h5, slice_length h2]; omega

theorem untilColon_of {k : Bytes} {n q : Nat} (h1 : n ≤ q) (h2 : inp[q]? = some COLON ∨ inp[q]? = some 0) (h3 : slice inp n q = k) (h4 : COLON ∉ k) (h5 : 0 ∉ k) :
    untilColon inp n = (q, some ⟨.bare, k, k⟩) := by
  subst h3
  have hq : q < inp.length := by
    rcases h2 with h | h <;> exact (List.getElem?_eq_some_iff.1 h).1
  have := colonGo_at h1 (by omega) h4 h5 (h2.imp some_peek some_peek)
  simp only [untilColon, this]
  rw [if_neg (by omega)]

theorem untilColon_end {n : Nat} (hn : n ≤ inp.length) (h4 : COLON ∉ inp.drop n) (h5 : 0 ∉ inp.drop n) : untilColon inp n = (inp.length, none) := by
  have he : slice inp n inp.length = inp.drop n := by
    have := drop_slice (inp := inp) hn
    rw [List.drop_length, List.append_nil] at this
    exact this.symm
  have := colonGo_at hn (Nat.le_refl _) (he ▸ h4) (he ▸ h5) (.inr (by unfold peekAt; rw [List.drop_length]; rfl))
  simp only [untilColon, this, if_true]

theorem nextKey_of {n q : Nat} (h1 : n < q) (h2 : q ≤ inp.length) (h3 : COLON ∉ slice inp n q) (h4 : (0 : UInt8) ∉ slice inp n q)
    (h5 : peekAt inp q = COLON ∨ peekAt inp q = 0) : nextMappingKey inp n = (q, some ⟨.bare, slice inp n q, slice inp n q⟩) := by
  have := colonGo_at (Nat.le_of_lt h1) h2 h3 h4 h5
  have hl := slice_length (inp := inp) (a := n) h2
  simp only [nextMappingKey, this]
  cases hs : slice inp n q with
  | nil => rw [hs] at hl; simp at hl; omega
  | cons b r => rfl

theorem nextKey_no {n : Nat} (h : peekAt inp n = COLON ∨ peekAt inp n = 0) : nextMappingKey inp n = (n, none) := by
  have : colonGo (inp.drop n) = 0 := colonGo_stop (k := []) (by simp) (by simp) h
  simp only [nextMappingKey, this, Nat.add_zero, slice_self, List.isEmpty_nil, if_true]

theorem LaterKey.next {k : Bytes} {lo q : Nat} (h : LaterKey inp k lo q) : ∃ key : RStr, key.id = k ∧ nextMappingKey inp lo = (q, some key) := by
  obtain ⟨h1, h2, rfl, h4, h5⟩ := h
  have hq := lt_of_peek (inp := inp) (n := q) (by rw [some_peek h2]; decide)
  exact ⟨_, rfl, nextKey_of h1 (by omega) h4 h5 (.inl (some_peek h2))⟩

theorem NextCell.unique {m blk : Bool} {e : Nat} {last last' : Bool} {start start' n n' : Nat} (h : NextCell inp m blk e last start n)
    (h' : NextCell inp m blk e last' start' n') : last = last' ∧ start = start' ∧ n = n' := by
  obtain ⟨c, h1, h2⟩ := h
  obtain ⟨c', h1', h2'⟩ := h'
  obtain rfl : c = c' := by
    split at h1
    · next hc => rw [if_pos hc] at h1'; exact h1.unique h1'
    · next hc => rw [if_neg hc] at h1'; rw [h1, h1']
  rcases h2 with ⟨rfl, a1, a2⟩ | ⟨rfl, a1, a2, a3⟩
  · rcases h2' with ⟨rfl, b1, b2⟩ | ⟨rfl, b1, b2, b3⟩
    · split at a2
      · next hc => rw [if_pos hc] at b2; exact ⟨rfl, by rw [a2.1, b2.1], by rw [a2.2, b2.2]⟩
      · next hc => rw [if_neg hc] at b2; exact ⟨rfl, by rw [a2.1, b2.1], a2.2.unique b2.2⟩
    · exact absurd a1 b1
  · rcases h2' with ⟨rfl, b1, b2⟩ | ⟨rfl, b1, b2, b3⟩
    · exact absurd b1 a1
    · exact ⟨rfl, by rw [a2, b2], a3.unique b3⟩
end

/-! ### Contents -/

mutual
theorem entries_inj : ∀ {a b : Entries}, a.list = b.list → a = b
  | .nil, .nil, _ => rfl
  | .nil, .cons _ _ _, h => by rw [Entries.list, Entries.list] at h; cases h
  | .cons _ _ _, .nil, h => by rw [Entries.list, Entries.list] at h; cases h
  | .cons k v r, .cons k' v' r', h => by
    rw [Entries.list, Entries.list] at h
    injection h with h1 h2
    injection h1 with h3 h4
    rw [h3, h4, entries_inj h2]
theorem elems_inj : ∀ {a b : Elems}, a.list = b.list → a = b
  | .nil, .nil, _ => rfl
  | .nil, .cons _ _, h => by rw [Elems.list, Elems.list] at h; cases h
  | .cons _ _, .nil, h => by rw [Elems.list, Elems.list] at h; cases h
  | .cons v r, .cons v' r', h => by
    rw [Elems.list, Elems.list] at h
    injection h with h1 h2
    rw [h1, elems_inj h2]
end

/-- The contents of items. -/
def Items.contents (m : Bool) (items : Items Unit) : List (Option Bytes × Content) := items.pairs.map fun q => (if m then some q.1.id else none, q.2.content)

theorem contents_cons {m : Bool} {u : Unit} {p : Bytes} {key : RStr} {v : Tree Unit} {rest : Items Unit} :
    Items.contents m (.cons u p key v rest) = (if m then some key.id else none, v.content) :: rest.contents m := rfl

theorem contents_seq {items : Items Unit} {es : Elems} (h : items.contents false = es.list.map fun v => (none, v)) : items.elemsC = es := by
  apply elems_inj
  rw [elemsC_list]
  have := congrArg (List.map (·.2)) h
  simpa [Items.contents, Function.comp_def] using this

theorem contents_map {items : Items Unit} {es : Entries} (h : items.contents true = es.list.map fun e => (some e.1, e.2)) : items.entriesC = es := by
  apply entries_inj
  rw [entriesC_list]
  have := congrArg (List.map fun q : Option Bytes × Content => (q.1.getD [], q.2)) h
  simpa [Items.contents, Function.comp_def] using this

/-! ### Values -/

section
variable (inp : Bytes)

/-- What is read when the parser for values ends at `hi`. -/
def RunV (s : Spot) (x : Content) (lo hi : Nat) : Prop := ∀ st : PSt, st.spot = s → st.tabular = !st.inline → lo ≤ inp.length → wsEnd inp lo = lo →
  ∃ t ws m, VE inp st lo t ws m ∧ t.content = x ∧ Gap inp hi m ∧ (ws = none → hi = m ∧ atBlock inp lo = false) ∧ FullGap inp hi (wsOr inp ws m).2 ∧
    ∀ w, ws = some w → WsAt inp st.inline lo hi w m

def RunRows (c : Nat) (first : Bool) (L : List (Option Bytes × Content)) (lo hi : Nat) : Prop :=
  columnAt inp lo = c ∧
  ((∀ e ∈ L, e.1 = none) → inp[lo]? = some DASH ∧ (first = true → isWs (inp.getD (lo + 1) 0) = true) ∧
    ∀ ip, ∃ items w m, BSE inp c ip lo items w m ∧ items.contents false = L ∧ FullGap inp hi m) ∧
  ((∀ e ∈ L, e.1.isSome = true) → ∃ k q, (if first then FirstKey inp k lo q else LaterKey inp k lo q) ∧
    ∀ key ip, key.id = k → ∃ items w m, BME inp c lo key ip q items w m ∧ items.contents true = L ∧ FullGap inp hi m)

def RunCells (m last : Bool) (L : List (Option Bytes × Content)) (n hi : Nat) : Prop := n ≤ inp.length →
  (m = false → ∀ tr ip, ∃ items tr' w, FSE inp last tr ip n items tr' w hi ∧ items.contents false = L) ∧
  (m = true → ∀ tr ip st, ∃ items tr' w st', FME inp last tr ip st n items tr' w st' hi ∧ items.contents true = L) ∧ inp[hi]? = some (close m)
end

section
variable {inp : Bytes}

theorem run_plain {s : Spot} {a : AnyV} {lo hi : Nat} (hhi : hi ≤ inp.length)
    (h : ∃ sc : Scalar, sc.value = a ∧ ∃ f, lead f inp s.inline (!s.inline) lo = .ok (.scalar sc none hi)) : RunV inp s (.scalar a) lo hi := by
  intro st hs ht hlo hw
  obtain ⟨sc, rfl, f, h⟩ := h
  subst hs
  rw [spot_inline, ← ht] at h
  exact ⟨_, none, hi, (evalRules inp).scalar h, rfl, Gap.refl hhi, fun _ => ⟨rfl, lead_atBlock h⟩, FullGap.ws hhi, fun w h => by cases h⟩

theorem run_lines {s : Spot} {v : Bytes} {lo hi : Nat} (h : BlockAt inp lo v hi) : RunV inp s (.scalar (.string v)) lo hi := by
  intro st hs ht hlo hw
  obtain ⟨sc, h1, f, h2⟩ := lead_block (inline := st.inline) hw h
  rw [← ht] at h2
  have hg := FullGap.ws h.bounds.2
  exact ⟨_, some _, _, (evalRules inp).scalar h2, by rw [← h1]; rfl, hg.1, (fun h => by cases h), hg, fun w hw => by
    cases hw; exact ⟨hg.end, fun _ => ⟨h.atBlock, rfl, rfl⟩⟩⟩

theorem spot_under {st : PSt} {c : Nat} (h : st.spot = .under c) : st.inline = false ∧ st.parentIndent = some c := by
  unfold PSt.spot at h
  cases hi : st.inline with
  | true => rw [hi] at h; cases h
  | false =>
    rw [hi] at h
    cases hp : st.parentIndent with
    | none => rw [hp] at h; cases h
    | some i => rw [hp] at h; cases h; exact ⟨rfl, rfl⟩

theorem spot_not {st : PSt} (h : st.spot ≠ .flow) : st.inline = false := by
  cases hi : st.inline with
  | true => exact absurd (by simp [PSt.spot, hi]) h
  | false => rfl

theorem spot_parent {st : PSt} {c : Nat} (hi : st.inline = false) (h : st.parentIndent = some c) : st.spot = .under c := by
  simp [PSt.spot, hi, h]

theorem run_empty {k : Bytes} {c lo q : Nat} (h : FirstKey inp k lo q) (hc : columnAt inp lo ≤ c) : RunV inp (.under c) (.scalar .null) lo lo := by
  intro st hs ht hlo hw
  obtain ⟨h1, h2⟩ := spot_under hs
  obtain ⟨key, _, f, h3⟩ := lead_firstKey h
  have hl : lead f inp st.inline st.tabular lo = .ok (.key key q) := by rw [ht, h1]; exact h3
  refine ⟨_, some _, _, (evalRules inp).keyNull hl h2 hc, rfl, Gap.refl hlo, (fun h => by cases h), full_of (Gap.refl hlo) hw, fun w _ => ⟨hw, fun h => ?_⟩⟩
  rw [h1] at h; cases h

theorem block_run {st : PSt} {t : Tree Unit} {x : Content} {w : Bytes} {lo hi m : Nat} (hi' : st.inline = false) (h : VE inp st lo t (some w) m) (hx : t.content = x)
    (hg : FullGap inp hi m) : ∃ t ws m, VE inp st lo t ws m ∧ t.content = x ∧ Gap inp hi m ∧ (ws = none → hi = m ∧ atBlock inp lo = false) ∧
      FullGap inp hi (wsOr inp ws m).2 ∧ ∀ w, ws = some w → WsAt inp st.inline lo hi w m :=
  ⟨t, some w, m, h, hx, hg.1, (fun h => by cases h), hg, fun w _ => ⟨hg.end, fun h => by rw [hi'] at h; cases h⟩⟩

theorem lead_dash {f : Nat} {inline tab : Bool} {lo : Nat} (h1 : inp[lo]? = some DASH) (h2 : isWs (inp.getD (lo + 1) 0) = true) (h3 : inline = false) :
    lead f inp inline tab lo = .ok .seq := by
  rw [getD_peek] at h2
  simp only [lead, some_peek h1, h2, h3, beq_self_eq_true, Bool.not_false, Bool.and_self, if_true]
  rfl

theorem run_dashes {s : Spot} {x : Content} {l : List Content} {lo hi : Nat} (hx : contentView.seq x l) (hs' : s ≠ .flow)
    (h : RunRows inp (columnAt inp lo) true (l.map fun v => (none, v)) lo hi) : RunV inp s x lo hi := by
  obtain ⟨es, rfl, rfl⟩ := hx
  intro st hs ht hlo hw
  subst hs
  have hi' := spot_not hs'
  obtain ⟨h1, h2, h3⟩ := h.2.1 (by simp)
  obtain ⟨items, w, m, h4, h5, h6⟩ := h3 []
  refine block_run hi' ((evalRules inp).seq (f := 0) (lead_dash h1 (h2 rfl) hi') h4) ?_ h6
  show Content.seq items.elemsC = _
  rw [contents_seq h5]

theorem run_keys {s : Spot} {x : Content} {l : List (Bytes × Content)} {lo hi : Nat} (hx : contentView.map x l) (hs' : s.allows (columnAt inp lo))
    (h : RunRows inp (columnAt inp lo) true (l.map fun e => (some e.1, e.2)) lo hi) : RunV inp s x lo hi := by
  obtain ⟨es, rfl, rfl⟩ := hx
  intro st hs ht hlo hw
  subst hs
  have hi' := spot_not hs'.1
  obtain ⟨k, q, h1, h3⟩ := h.2.2 (fun e he => by obtain ⟨_, _, rfl⟩ := List.mem_map.1 he; rfl)
  obtain ⟨key, h2, f, hl⟩ := lead_firstKey (by simpa using h1)
  have hl : lead f inp st.inline st.tabular lo = .ok (.key key q) := by rw [ht, hi']; exact hl
  obtain ⟨items, w, m, h4, h5, h6⟩ := h3 key [] h2
  refine block_run hi' ((evalRules inp).keyMap hl (fun i hp => hs'.2 i (spot_parent hi' hp)) h4) ?_ h6
  show Content.map items.entriesC = _
  rw [contents_map h5]

theorem lead_lbr {f : Nat} {inline tab : Bool} {lo : Nat} (h1 : inp[lo]? = some LBR) : lead f inp inline tab lo = .ok .flowSeq := by
  simp only [lead, some_peek h1]
  rfl

theorem lead_lcb {f : Nat} {inline tab : Bool} {lo : Nat} (h1 : inp[lo]? = some LCB) : lead f inp inline tab lo = .ok .flowMap := by
  simp only [lead, some_peek h1]
  rfl

theorem run_brackets {s : Spot} {x : Content} {l : List Content} {lo n hi : Nat} (hx : contentView.seq x l) (h1 : inp[lo]? = some LBR) (h2 : FullGap inp (lo + 1) n)
    (h : RunCells inp false false (l.map fun v => (none, v)) n hi) : RunV inp s x lo (hi + 1) := by
  obtain ⟨es, rfl, rfl⟩ := hx
  intro st hs ht hlo hw
  obtain ⟨h3, -, h4⟩ := h h2.le.2
  have hlt := (List.getElem?_eq_some_iff.1 h1).1
  have hlt' := (List.getElem?_eq_some_iff.1 h4).1
  obtain ⟨items, tr', w, h5, h6⟩ := h3 rfl false (wsStr inp (lo + 1))
  rw [← h2.eq] at h5
  have h7 := (evalRules inp).flowSeq (f := 0) (s := st) (lead_lbr h1) (by rw [bump_one hlt]; exact h5) (some_peek h4)
  rw [bump_one hlt'] at h7
  exact ⟨_, none, _, h7, by show Content.seq items.elemsC = _; rw [contents_seq h6], Gap.refl hlt', fun _ => ⟨rfl, atBlock_peek (some_peek h1) (by decide) (by decide)⟩,
    FullGap.ws hlt', fun w h => by cases h⟩

theorem run_braces {s : Spot} {x : Content} {l : List (Bytes × Content)} {lo n hi : Nat} (hx : contentView.map x l) (h1 : inp[lo]? = some LCB) (h2 : FullGap inp (lo + 1) n)
    (h : RunCells inp true false (l.map fun e => (some e.1, e.2)) n hi) : RunV inp s x lo (hi + 1) := by
  obtain ⟨es, rfl, rfl⟩ := hx
  intro st hs ht hlo hw
  obtain ⟨-, h3, h4⟩ := h h2.le.2
  have hlt := (List.getElem?_eq_some_iff.1 h1).1
  have hlt' := (List.getElem?_eq_some_iff.1 h4).1
  obtain ⟨items, tr', w, st', h5, h6⟩ := h3 rfl false (wsStr inp (lo + 1)) (lo + 1)
  rw [← h2.eq] at h5
  have h7 := (evalRules inp).flowMap (f := 0) (s := st) (lead_lcb h1) (by rw [bump_one hlt]; exact h5) (some_peek h4)
  rw [bump_one hlt'] at h7
  exact ⟨_, none, _, h7, by show Content.map items.entriesC = _; rw [contents_map h6], Gap.refl hlt', fun _ => ⟨rfl, atBlock_peek (some_peek h1) (by decide) (by decide)⟩,
    FullGap.ws hlt', fun w h => by cases h⟩

/-- A value of an item. -/
theorem RunV.item {s : Spot} {x : Content} {a b hi : Nat} (h : RunV inp s x b hi) (st : PSt) (hs : st.spot = s) (ht : st.tabular = !st.inline) (hg : FullGap inp a b) :
    ∃ t ws m, VE inp st (wsEnd inp a) t ws m ∧ t.content = x ∧ Gap inp hi m ∧ (ws = none → hi = m ∧ atBlock inp b = false) ∧ FullGap inp hi (wsOr inp ws m).2 ∧
      ∀ w, ws = some w → WsAt inp st.inline b hi w m := by
  rw [hg.eq]
  exact h st hs ht hg.le.2 hg.end

theorem run_rowLast {c : Nat} {first : Bool} {k : Option Bytes} {v : Content} {lo a b hi q : Nat} (h1 : columnAt inp lo = c) (h2 : Head inp first k lo a)
    (h3 : FullGap inp a b) (h4 : RunV inp (.item c k) v b hi) (h5 : FullGap inp hi q) (h6 : ¬ Goes inp k.isSome c q) : RunRows inp c first [(k, v)] lo hi := by
  refine ⟨h1, fun h => ?_, fun h => ?_⟩
  · obtain rfl : k = none := h (k, v) (by simp)
    obtain ⟨g1, g2, rfl⟩ := h2
    refine ⟨g1, g2, fun ip => ?_⟩
    have hlt := (List.getElem?_eq_some_iff.1 g1).1
    obtain ⟨t, ws, m, e1, rfl, -, -, e4, -⟩ := h4.item ⟨wsStr inp (lo + 1), false, true, none⟩ rfl rfl h3
    rw [← bump_one hlt] at e1
    obtain rfl := h5.unique e4
    refine ⟨_, _, _, (evalRules inp).bsLast (ip := ip) (some_peek g1) e1 (Decidable.or_iff_not_imp_left.2 fun c1 c2 => h6 ⟨Decidable.not_not.1 c1, ?_⟩), rfl, e4⟩
    exact peek_some c2 (by decide)
  · obtain ⟨k, rfl⟩ := Option.isSome_iff_exists.1 (h (k, v) (by simp) : k.isSome = true)
    obtain ⟨p, rfl, g⟩ := h2
    refine ⟨k, p, g, fun key ip hk => ?_⟩
    have hp : inp[p]? = some COLON := by
      cases first with
      | true => exact g.2.1
      | false => exact g.2.1
    have hlt := (List.getElem?_eq_some_iff.1 hp).1
    obtain ⟨t, ws, m, e1, rfl, -, -, e4, -⟩ := h4.item ⟨wsStr inp (p + 1), false, true, some c⟩ rfl rfl h3
    rw [← bump_one hlt] at e1
    obtain rfl := h5.unique e4
    have hc : Items.contents true (.cons () ip key t .nil) = [(some k, t.content)] := by rw [contents_cons, hk]; rfl
    by_cases hcol : columnAt inp (wsOr inp ws m).2 = c
    · have hn : peekAt inp (wsOr inp ws m).2 = COLON ∨ peekAt inp (wsOr inp ws m).2 = 0 := Decidable.or_iff_not_imp_left.2 fun c1 =>
        Decidable.byContradiction fun c2 => h6 ⟨hcol, by
          show _ ≠ _ ∧ _ ≠ _
          rw [getD_peek]; exact ⟨c1, c2⟩⟩
      exact ⟨_, _, _, (evalRules inp).bmEnd (st := lo) (ip := ip) (key := key) (some_peek hp) e1 hcol (nextKey_no hn), hc, e4⟩
    · exact ⟨_, _, _, (evalRules inp).bmLast (st := lo) (ip := ip) (key := key) (some_peek hp) e1 hcol, hc, e4⟩

theorem run_rowMore {c : Nat} {first : Bool} {k : Option Bytes} {v : Content} {rest : List (Option Bytes × Content)} {lo a b e lo' hi : Nat} (h1 : columnAt inp lo = c)
    (h2 : Head inp first k lo a) (h3 : FullGap inp a b) (h4 : RunV inp (.item c k) v b e) (h5 : FullGap inp e lo') (h6 : RunRows inp c false rest lo' hi) :
    RunRows inp c first ((k, v) :: rest) lo hi := by
  refine ⟨h1, fun h => ?_, fun h => ?_⟩
  · obtain rfl : k = none := h (k, v) (by simp)
    obtain ⟨g1, g2, rfl⟩ := h2
    refine ⟨g1, g2, fun ip => ?_⟩
    have hlt := (List.getElem?_eq_some_iff.1 g1).1
    obtain ⟨t, ws, m, e1, rfl, -, -, e4, -⟩ := h4.item ⟨wsStr inp (lo + 1), false, true, none⟩ rfl rfl h3
    rw [← bump_one hlt] at e1
    obtain rfl := h5.unique e4
    obtain ⟨r1, r2, -⟩ := h6
    obtain ⟨r2, -, r3⟩ := r2 fun e he => h e (List.mem_cons_of_mem _ he)
    obtain ⟨items, w, m', r4, r5, r6⟩ := r3 (wsOr inp ws m).1
    exact ⟨_, _, _, (evalRules inp).bsMore (ip := ip) (some_peek g1) e1 r1 (some_peek r2) r4, by rw [contents_cons, r5]; rfl, r6⟩
  · obtain ⟨k, rfl⟩ := Option.isSome_iff_exists.1 (h _ (List.mem_cons_self ..) : k.isSome = true)
    obtain ⟨p, rfl, g⟩ := h2
    refine ⟨k, p, g, fun key ip hk => ?_⟩
    have hp : inp[p]? = some COLON := by
      cases first with
      | true => exact g.2.1
      | false => exact g.2.1
    have hlt := (List.getElem?_eq_some_iff.1 hp).1
    obtain ⟨t, ws, m, e1, rfl, -, -, e4, -⟩ := h4.item ⟨wsStr inp (p + 1), false, true, some c⟩ rfl rfl h3
    rw [← bump_one hlt] at e1
    obtain rfl := h5.unique e4
    obtain ⟨r1, -, r2⟩ := h6
    obtain ⟨k', q', r2, r3⟩ := r2 fun e he => h e (List.mem_cons_of_mem _ he)
    obtain ⟨key', rk, rn⟩ := LaterKey.next (by simpa using r2)
    obtain ⟨items, w, m', r4, r5, r6⟩ := r3 key' (wsOr inp ws m).1 rk
    exact ⟨_, _, _, (evalRules inp).bmMore (st := lo) (ip := ip) (key := key) (some_peek hp) e1 r1 rn r4, by rw [contents_cons, r5, hk]; rfl, r6⟩

theorem opens_not {m : Bool} {n : Nat} (h : Opens inp m n) : ¬ (peekAt inp n = close m ∨ peekAt inp n = 0) := by
  unfold Opens at h
  rw [getD_peek] at h
  exact not_or.2 h

theorem run_cellNone {m last : Bool} {hi : Nat} (h : inp[hi]? = some (close m)) : RunCells inp m last [] hi hi := by
  intro _
  refine ⟨?_, ?_, h⟩
  · rintro rfl tr ip
    exact ⟨_, _, _, (evalRules inp).fsStop (last := last) (tr := tr) (ip := ip) (.inl (some_peek h)), rfl⟩
  · rintro rfl tr ip st
    exact ⟨_, _, _, _, (evalRules inp).fmStop (last := last) (tr := tr) (ip := ip) (st := st) (.inl (some_peek h)), rfl⟩

theorem cellHead_some {k : Bytes} {n a : Nat} (h : CellHead inp (some k) n a) :
    ∃ m0, a = m0 + 1 ∧ m0 < inp.length ∧ untilColon inp n = (m0, some ⟨.bare, k, k⟩) := by
  obtain ⟨q, h1, h2, h3, h4, h5, h6⟩ := h
  refine ⟨q, h3, ?_, untilColon_of h1 h2 h4 h5 h6⟩
  rcases h2 with h | h <;> exact (List.getElem?_eq_some_iff.1 h).1

theorem run_cellFinal {k : Option Bytes} {v : Content} {n a b e hi : Nat} (h1 : Opens inp k.isSome n) (h2 : CellHead inp k n a) (h3 : FullGap inp a b)
    (h4 : RunV inp .flow v b e) (h5 : FullGap inp e hi) (h6 : inp[hi]? = some (close k.isSome)) : RunCells inp k.isSome true [(k, v)] n hi := by
  intro hn
  refine ⟨fun hk tr ip => ?_, fun hk tr ip st => ?_, h6⟩
  · cases k with
    | some k => cases hk
    | none =>
    obtain rfl : a = n := h2
    obtain ⟨t, ws, m, e1, rfl, -, -, e4, -⟩ := h4.item ⟨wsStr inp a, true, false, none⟩ rfl rfl h3
    obtain rfl := h5.unique e4
    exact ⟨_, _, _, (evalRules inp).fsLast (tr := tr) (ip := ip) (opens_not h1) e1, rfl⟩
  · cases k with
    | none => cases hk
    | some k =>
    obtain ⟨m0, rfl, hlt, hu⟩ := cellHead_some h2
    obtain ⟨t, ws, m, e1, rfl, -, -, e4, -⟩ := h4.item ⟨wsStr inp (m0 + 1), true, false, none⟩ rfl rfl h3
    rw [← bump_one hlt] at e1
    obtain rfl := h5.unique e4
    exact ⟨_, _, _, _, (evalRules inp).fmLast (tr := tr) (ip := ip) (st := st) (opens_not h1) hu e1, rfl⟩

theorem map_next {blk : Bool} {e c : Nat} {last : Bool} {start n' : Nat} (h : NextCell inp true blk e last start n') (hc : FullGap inp e c) :
    (peekAt inp c = COMMA ∧ last = false ∧ start = c + 1 ∧ n' = wsEnd inp (c + 1)) ∨
      (peekAt inp c ≠ COMMA ∧ last = true ∧ start = c ∧ n' = wsEnd inp c ∧ n' = c) := by
  obtain ⟨c', h1, h2⟩ := h
  obtain rfl : c = c' := hc.unique h1
  rcases h2 with ⟨a1, a2, a3⟩ | ⟨a1, a2, a3, a4⟩
  · left
    rw [Bool.not_true, Bool.and_false] at a3
    exact ⟨some_peek a2, a1, a3.1, a3.2.eq.symm⟩
  · right
    obtain rfl := hc.unique a4
    exact ⟨fun h => a2 (peek_some h (by decide)), a1, a3, hc.end.symm, rfl⟩

theorem run_cellMore {k : Option Bytes} {v : Content} {rest : List (Option Bytes × Content)} {last : Bool} {n a b e start n' hi : Nat} (h1 : Opens inp k.isSome n)
    (h2 : CellHead inp k n a) (h3 : FullGap inp a b) (h4 : RunV inp .flow v b e) (h5 : NextCell inp k.isSome (atBlock inp b) e last start n')
    (h6 : RunCells inp k.isSome last rest n' hi) : RunCells inp k.isSome false ((k, v) :: rest) n hi := by
  intro hn
  have hn' : n' ≤ inp.length := by
    obtain ⟨c, g1, ⟨_, g2, g3⟩ | ⟨_, _, _, g3⟩⟩ := h5
    · have := (List.getElem?_eq_some_iff.1 g2).1
      split at g3
      · omega
      · exact g3.2.le.2
    · exact g3.le.2
  obtain ⟨r1, r2, r3⟩ := h6 hn'
  refine ⟨fun hk tr ip => ?_, fun hk tr ip st => ?_, r3⟩
  · cases k with
    | some k => cases hk
    | none =>
    obtain rfl : a = n := h2
    obtain ⟨t, ws, m, e1, rfl, e2, e3, e4, e5⟩ := h4.item ⟨wsStr inp a, true, false, none⟩ rfl rfl h3
    by_cases hc : peekAt inp m = COMMA
    · obtain ⟨st, u1, u2, u3⟩ := next_comma e2 e3 e5 hc
      obtain ⟨rfl, rfl, rfl⟩ := h5.unique u1
      have hlt := lt_of_peek (inp := inp) (n := m) (by rw [hc]; decide)
      obtain ⟨items, tr', w, g1, g2⟩ := r1 rfl true (wsOr inp ws (m + 1)).1
      exact ⟨_, _, _, (evalRules inp).fsComma (tr := tr) (ip := ip) (opens_not h1) e1 hc (by rw [bump_one hlt]; exact g1), by rw [contents_cons, g2]; rfl⟩
    · have u1 := next_other e2 e3 e5 e4 hc
      obtain ⟨rfl, rfl, rfl⟩ := h5.unique u1
      obtain ⟨items, tr', w, g1, g2⟩ := r1 rfl false (wsOr inp ws m).1
      exact ⟨_, _, _, (evalRules inp).fsOther (tr := tr) (ip := ip) (opens_not h1) e1 hc g1, by rw [contents_cons, g2]; rfl⟩
  · cases k with
    | none => cases hk
    | some k =>
    obtain ⟨m0, rfl, hlt, hu⟩ := cellHead_some h2
    obtain ⟨t, ws, m, e1, rfl, -, -, e4, -⟩ := h4.item ⟨wsStr inp (m0 + 1), true, false, none⟩ rfl rfl h3
    rw [← bump_one hlt] at e1
    rcases map_next h5 e4 with ⟨hc, rfl, rfl, rfl⟩ | ⟨hc, rfl, rfl, hn1, hn2⟩
    · have hlt := lt_of_peek (inp := inp) (n := (wsOr inp ws m).2) (by rw [hc]; decide)
      obtain ⟨items, tr', w, st', g1, g2⟩ := r2 rfl true (wsStr inp ((wsOr inp ws m).2 + 1)) ((wsOr inp ws m).2 + 1)
      exact ⟨_, _, _, _, (evalRules inp).fmComma (tr := tr) (ip := ip) (st := st) (opens_not h1) hu e1 hc (by rw [bump_one hlt]; exact g1),
        by rw [contents_cons, g2]; rfl⟩
    · obtain ⟨items, tr', w, st', g1, g2⟩ := r2 rfl false (wsStr inp (wsOr inp ws m).2) (wsOr inp ws m).2
      rw [hn1] at g1
      exact ⟨_, _, _, _, (evalRules inp).fmOther (tr := tr) (ip := ip) (st := st) (opens_not h1) hu e1 hc g1, by rw [contents_cons, g2]; rfl⟩

mutual
/-- What fits the specification is read. -/
theorem Sits.run {s : Spot} {x : Content} {lo hi : Nat} : Sits inp contentView s x lo hi → RunV inp s x lo hi
  | .scalar h1 h2 h3 h4 => by cases h1; exact run_plain h3 (lead_token h2 h3 h4)
  | .lines h1 h2 => by cases h1; exact run_lines h2
  | .open h1 h2 h3 h4 => by cases h1; exact run_plain (Nat.le_refl _) (lead_open h3 h4)
  | .empty h1 h2 h3 => by cases h1; exact run_empty h2 h3
  | .dashes h1 h2 h3 => run_dashes h1 h2 h3.run
  | .keys h1 h2 h3 => run_keys h1 h2 h3.run
  | .brackets h1 h2 h3 h4 => run_brackets h1 h2 h3 h4.run
  | .braces h1 h2 h3 h4 => run_braces h1 h2 h3 h4.run
theorem Rows.run {c : Nat} {first : Bool} {l : List (Option Bytes × Content)} {lo hi : Nat} : Rows inp contentView c first l lo hi → RunRows inp c first l lo hi
  | .last h1 h2 h3 h4 h5 h6 => run_rowLast h1 h2 h3 h4.run h5 h6
  | .more h1 h2 h3 h4 h5 h6 => run_rowMore h1 h2 h3 h4.run h5 h6.run
theorem Cells.run {m last : Bool} {l : List (Option Bytes × Content)} {lo hi : Nat} : Cells inp contentView m last l lo hi → RunCells inp m last l lo hi
  | .none h => run_cellNone h
  | .final h1 h2 h3 h4 h5 h6 => run_cellFinal h1 h2 h3 h4.run h5 h6
  | .cell h1 h2 h3 h4 h5 h6 => run_cellMore h1 h2 h3 h4.run h5 h6.run
end
end

end Verif
