import Verif.EchoDocs
import Verif.Leaves
import Verif.GrammarLemmas
/-
What is written for an inline collection, read again.
-/
namespace Verif

/-- It is not written like a block scalar. -/
def notLines (sc : Scalar) : Prop := hd sc.write ≠ PIPE ∧ hd sc.write ≠ GT

/-- An inline collection. -/
def Tree.flowing {α} : Tree α → Bool
  | .node _ _ _ _ (.inline _ _) _ => true
  | _ => false

theorem gapGo_chunk : ∀ {c s : Bytes}, NL ∉ c → gapGo true (c ++ s) = gapGo true s
  | [], _, _ => rfl
  | b :: c, s, h => by
    simp only [List.mem_cons, not_or] at h
    have : (b != NL) = true := bne_iff_ne.2 fun hb => h.1 hb.symm
    rw [List.cons_append, gapGo, this]
    exact gapGo_chunk h.2

theorem gapGo_lossy : ∀ {c : Bool} {s : Bytes}, gapGo c s = true → gapGo c (lossy s) = true := by
  intro c s
  induction hn : s.length using Nat.strongRecOn generalizing s c with
  | ind n ih =>
    intro h
    cases s with
    | nil => exact h
    | cons b r =>
      by_cases hb : b < 0x80
      · rw [lossy_ascii hb]
        have hl : r.length < n := by rw [← hn]; simp
        cases c with
        | true =>
          rw [gapGo] at h ⊢
          exact ih _ hl rfl h
        | false =>
          rw [gapGo] at h ⊢
          by_cases hh : (b == HASH) = true
          · rw [if_pos hh] at h ⊢; exact ih _ hl rfl h
          · rw [if_neg hh, Bool.and_eq_true] at h ⊢
            exact ⟨h.1, ih _ hl rfl h.2⟩
      · have hc : c = true := by
          cases c with
          | true => rfl
          | false =>
            exfalso
            rw [gapGo] at h
            by_cases hh : b = HASH
            · exact hb (by rw [hh]; decide)
            · rw [if_neg (by simpa using hh), Bool.and_eq_true] at h
              rcases (isWs_iff b).1 h.1 with h | h
              · exact hb (by rw [h]; decide)
              · exact hb (otherWs_ascii h)
        subst hc
        have hs := decodeHead_step b r
        have hbn : NL ≠ b := fun h => hb (by rw [← h]; decide)
        have hcn : NL ∉ r.take ((decodeHead (b :: r)).2 - 1) := fun hm => isCont_ge (hs.cont NL hm) (by decide)
        have e : b :: r = (b :: r.take ((decodeHead (b :: r)).2 - 1)) ++ r.drop ((decodeHead (b :: r)).2 - 1) := by
          rw [List.cons_append, List.take_append_drop]
        have h' : gapGo true (r.drop ((decodeHead (b :: r)).2 - 1)) = true := by
          rw [e, gapGo_chunk (by simp [hbn, hcn])] at h; exact h
        have := ih _ (by rw [← hn]; simp; omega) rfl h'
        simp only [lossy] at this ⊢
        rw [chars_cons, List.flatten_cons, gapGo_chunk]
        · exact this
        · split
          · simp [hbn, hcn]
          · decide

theorem gap_lossy {s : Bytes} (h : gap s = true) : gap (lossy s) = true := gapGo_lossy h

theorem ctl_stop {b : UInt8} (h : isCtl b = true) : isWs b = false ∧ b ≠ HASH ∧ b ≠ GT ∧ b ≠ PIPE ∧ numChar b = false ∧ b ≠ DASH := by
  simp only [isCtl, Bool.or_eq_true, beq_iff_eq] at h
  rcases h with (((rfl | rfl) | rfl) | rfl) | rfl <;> decide

/-- Of what follows a scalar in an inline collection only the first byte matters, and nothing that ends a scalar is in the way. -/
theorem Token.next {rest rest' s : Bytes} {a : AnyV} (h : Token true rest s a) (hr : rest'.headD 0 = rest.headD 0 ∨ isCtl (rest'.headD 0) = true) :
    Token true rest' s a := by
  rcases hr with hr | hr
  · cases h with
    | number h1 h2 => exact .number h1 (by rw [hr]; exact h2)
    | plain h1 h2 => exact .plain h1 (by unfold plainText at h2 ⊢; rw [hr]; exact h2)
    | quoted h1 h2 h3 => exact .quoted h1 (fun h => by cases h) (by rw [hr]; exact h3)
  · have hc := ctl_stop hr
    cases h with
    | number h1 h2 =>
      refine .number h1 ?_
      rw [if_pos rfl]
      cases hn : isNumber (s ++ [rest'.headD 0]) with
      | false => rfl
      | true =>
        rcases isNumber_chars hn _ (List.mem_append_right _ (List.mem_singleton.2 rfl)) with h | h
        · rw [hc.2.2.2.2.1] at h; cases h
        · exact absurd h hc.2.2.2.2.2
    | plain h1 h2 =>
      refine .plain h1 ?_
      unfold plainText at h2 ⊢
      simp only [if_true, Bool.and_eq_true] at h2 ⊢
      exact ⟨h2.1, h2.2.1, hr⟩
    | quoted h1 h2 h3 =>
      refine .quoted h1 (fun h => by cases h) fun _ h => ?_
      rw [h] at hr
      revert hr; decide

theorem Token.nil {rest s : Bytes} {a : AnyV} (h : Token true rest s a) (hs : s = []) : isCtl (hd rest) = true := by
  cases h with
  | number h1 => rw [hs] at h1; cases h1
  | plain h1 h2 =>
    unfold plainText at h2
    simp only [if_true, Bool.and_eq_true] at h2
    exact h2.2.2
  | quoted h1 =>
    cases h1 with
    | single s => simp [quoteSingle] at hs
    | double => cases hs

section
variable {T : Bytes}

theorem fullGap_at {p : Nat} {g r : Bytes} (h : T.drop p = g ++ r) (hp : p ≤ T.length) (hg : gap g = true) (hr : isWs (hd r) = false ∧ hd r ≠ HASH) :
    FullGap T p (p + g.length) := by
  have := FullGap.ws (inp := T) hp
  rwa [(ws_gap h hg hr).1] at this

theorem le_of_drop {p : Nat} {b : UInt8} {r : Bytes} (h : T.drop p = b :: r) : p ≤ T.length := Nat.le_of_lt (lt_of_cons h)

theorem at_cons {p : Nat} {b : UInt8} {r : Bytes} (h : T.drop p = b :: r) : T[p]? = some b := by
  rw [← List.head?_drop, h]; rfl

/-- The last item of an inline collection, with no comma after it. -/
theorem cell_end {k : Option Bytes} {v : Content} {n a b e : Nat} {w R : Bytes} (h1 : Opens T k.isSome n) (h2 : CellHead T k n a) (h3 : FullGap T a b)
    (h4 : Sits T contentView .flow v b e) (hb : atBlock T b = false) (h5 : T.drop e = w ++ close k.isSome :: R) (hw : gap w = true) (he : e ≤ T.length) :
    Cells T contentView k.isSome false [(k, v)] n (e + w.length) := by
  have hcl : isWs (close k.isSome) = false ∧ close k.isSome ≠ HASH ∧ close k.isSome ≠ COMMA := by cases k.isSome <;> decide
  have hg : FullGap T e (e + w.length) := fullGap_at h5 he hw ⟨hcl.1, hcl.2.1⟩
  have h6 := at_cons (drop_add h5)
  have hcomma : T[e]? ≠ some COMMA := by
    cases w with
    | nil => rw [at_cons h5]; intro h; exact hcl.2.2 (Option.some.inj h)
    | cons x w =>
      rw [at_cons h5]; rintro h
      rw [Option.some.inj h] at hw
      rw [gap, gapGo, if_neg (by decide), show isWs COMMA = false by decide] at hw
      cases hw
  refine .cell (last := true) (start := if k.isSome then e + w.length else e) (n' := e + w.length) h1 h2 h3 h4 ?_ (.none h6)
  rw [hb]
  cases k with
  | none => exact ⟨e, rfl, .inr ⟨rfl, hcomma, rfl, hg⟩⟩
  | some k => exact ⟨e + w.length, hg, .inr ⟨rfl, by rw [h6]; intro h; exact hcl.2.2 (Option.some.inj h), rfl, hg⟩⟩

/-- An item with a comma after it. -/
theorem cell_comma {k : Option Bytes} {v : Content} {rest : List (Option Bytes × Content)} {n a b e n' hi : Nat} {R : Bytes} (h1 : Opens T k.isSome n)
    (h2 : CellHead T k n a) (h3 : FullGap T a b) (h4 : Sits T contentView .flow v b e) (hb : atBlock T b = false) (h5 : T.drop e = COMMA :: R)
    (hg : FullGap T (e + 1) n') (h6 : Cells T contentView k.isSome false rest n' hi) : Cells T contentView k.isSome false ((k, v) :: rest) n hi := by
  refine .cell (last := false) (start := e + 1) (n' := n') h1 h2 h3 h4 ?_ h6
  rw [hb]
  refine ⟨e, ?_, .inl ⟨rfl, at_cons h5, by simpa using hg⟩⟩
  cases k with
  | none => rfl
  | some k => exact fullGap_at (g := []) h5 (le_of_drop h5) rfl (show isWs COMMA = false ∧ COMMA ≠ HASH by decide)

end

section
variable (inp : Bytes)

def AV (s : PSt) (n : Nat) (t : Tree Unit) (ws : Option Bytes) (m : Nat) : Prop := s.inline = true ∨ t.flowing = true → s.tabular = !s.inline → n ≤ inp.length →
  wsEnd inp n = n → gap s.pre = true → t.flowing = true ∨ m < inp.length → t.all notLines →
  ws = none ∧ (∃ o, t.text = s.pre ++ o ∧ (o = [] ∧ n = m ∧ isCtl (peekAt inp n) = true ∨ o ≠ [] ∧ hd o = peekAt inp n)) ∧
  ∀ T p R, T.drop p = t.text ++ R → t.flowing = true ∨ R ≠ [] → t.flowing = true ∨ hd R = peekAt inp m ∨ isCtl (hd R) = true →
    FullGap T p (p + s.pre.length) ∧ Sits T contentView s.spot t.content (p + s.pre.length) (p + t.text.length) ∧ atBlock T (p + s.pre.length) = false

def AFS (_last _tr : Bool) (ip : Bytes) (n : Nat) (items : Items Unit) (tr' : Bool) (w : Bytes) (m : Nat) : Prop :=
  n ≤ inp.length → wsEnd inp n = n → gap ip = true → peekAt inp m = RBR → items.all notLines →
  ∀ T p R, T.drop p = inlineText false items tr' w ++ RBR :: R →
    ∃ n', FullGap T p n' ∧ Cells T contentView false false (items.contents false) n' (p + (inlineText false items tr' w).length)

def AFM (_last _tr : Bool) (ip : Bytes) (_st n : Nat) (items : Items Unit) (tr' : Bool) (w : Bytes) (_st' m : Nat) : Prop :=
  n ≤ inp.length → wsEnd inp n = n → gap ip = true → peekAt inp m = RCB → items.all notLines →
  ∀ T p R, T.drop p = inlineText true items tr' w ++ RCB :: R →
    ∃ n', FullGap T p n' ∧ Cells T contentView true false (items.contents true) n' (p + (inlineText true items tr' w).length)
end

section
variable {inp : Bytes}

theorem le_wsOr (ws : Option Bytes) (m : Nat) : m ≤ (wsOr inp ws m).2 := by
  cases ws with
  | none => exact le_wsEnd _ _
  | some w => exact Nat.le_refl _

theorem gap_ws {m : Nat} (h : wsEnd inp m < inp.length) : gap (wsStr inp m) = true := by
  have := (FullGap.ws (inp := inp) (n := m) (by have := le_wsEnd inp m; omega)).1.2.2
  rcases this with h1 | ⟨h1, -⟩
  · exact h1
  · omega

theorem hd_ws {m : Nat} {b : UInt8} {R : Bytes} : hd (wsStr inp m ++ b :: R) = peekAt inp m ∨ hd (wsStr inp m ++ b :: R) = b := by
  by_cases h : m < wsEnd inp m
  · left
    have : hd (wsStr inp m) = peekAt inp m := peek_slice h
    rw [← this]
    have hne : wsStr inp m ≠ [] := by
      intro h0
      rw [h0] at this
      have h2 : wsEnd inp m ≤ m := by
        have := congrArg List.length h0
        by_cases hm : m ≤ inp.length
        · rw [wsStr_length hm] at this; simp at this; omega
        · unfold wsEnd at h ⊢
          rw [List.drop_eq_nil_of_le (by omega)] at h ⊢
          simp [wsGo] at h
      omega
    cases hw : wsStr inp m with
    | nil => exact absurd hw hne
    | cons x y => rfl
  · right
    have : wsStr inp m = [] := by
      have := le_wsEnd inp m
      unfold wsStr slice
      rw [show wsEnd inp m - m = 0 by omega]; rfl
    rw [this]; rfl

theorem ws_nil {n : Nat} (h : wsEnd inp n = n) : wsStr inp n = [] := by
  unfold wsStr; rw [h]; exact slice_self _ _

theorem elems_contents (items : Items Unit) : (items.elemsC.list.map fun v => ((none : Option Bytes), v)) = items.contents false := by
  rw [elemsC_list]; simp [Items.contents]

theorem entries_contents (items : Items Unit) : (items.entriesC.list.map fun e => (some e.1, e.2)) = items.contents true := by
  rw [entriesC_list]; simp [Items.contents]

theorem fullGap_cat {T : Bytes} {p : Nat} {g r : Bytes} (h : T.drop p = g ++ r) (hg : gap g = true) (h2 : FullGap T (p + g.length) (p + g.length)) :
    FullGap T p (p + g.length) := by
  refine fullGap_at h (by have := h2.le.2; omega) hg ?_
  have h3 := h2.2
  rw [getD_peek, peek_of (drop_add h)] at h3
  exact h3

/-- An item of an inline sequence. -/
theorem seq_item {n m : Nat} {v : Tree Unit} {next : Option Bytes} (hv : AV inp ⟨wsStr inp n, true, false, none⟩ (wsEnd inp n) v next m) (hn : n ≤ inp.length)
    (hw : wsEnd inp n = n) (ho : ¬ (peekAt inp n = RBR ∨ peekAt inp n = 0)) (hm : m < inp.length) (hnl : v.all notLines) :
    next = none ∧ (v.text = [] → n = m) ∧ ∀ T p R, T.drop p = v.text ++ R → R ≠ [] → hd R = peekAt inp m ∨ isCtl (hd R) = true → (v.text = [] → hd R = COMMA) →
      Opens T false p ∧ FullGap T p p ∧ Sits T contentView .flow v.content p (p + v.text.length) ∧ atBlock T p = false := by
  rw [hw, ws_nil hw] at hv
  obtain ⟨h1, ⟨o, h2, h3⟩, h4⟩ := hv (.inl rfl) rfl hn hw rfl (.inr hm) hnl
  have h2 : v.text = o := h2
  refine ⟨h1, ?_, fun T p R h hR hc he => ?_⟩
  · intro h
    rw [← h2] at h3
    exact h3.elim (·.2.1) (fun h' => absurd h h'.1)
  · obtain ⟨g1, g2, g3⟩ := h4 T p R h (.inr hR) (.inr hc)
    refine ⟨?_, g1, g2, g3⟩
    rw [← h2] at h3
    unfold Opens
    rw [getD_peek, peek_of h]
    rcases h3 with h3 | h3
    · rw [h3.1]
      show hd R ≠ _ ∧ hd R ≠ _
      rw [he h3.1]; decide
    · cases hx : v.text with
      | nil => exact absurd hx h3.1
      | cons x y =>
        rw [hx] at h3
        show hd (x :: y) ≠ _ ∧ hd (x :: y) ≠ _
        rw [h3.2]
        exact not_or.1 ho

theorem WritesCells.nothing {m last : Bool} {w out : Bytes} {n hi : Nat} (h : WritesCells inp m last w n out hi) (hn : n = hi) (hc : peekAt inp hi = close m) : out = w := by
  cases h with
  | none => rfl
  | final h1 => rw [hn] at h1; unfold Opens at h1; rw [getD_peek] at h1; exact absurd hc h1.1
  | cell h1 => rw [hn] at h1; unfold Opens at h1; rw [getD_peek] at h1; exact absurd hc h1.1

/-- An item of an inline mapping. -/
theorem map_item {n m0 m : Nat} {key : RStr} {v : Tree Unit} {next : Option Bytes} (hk : untilColon inp n = (m0, some key))
    (hv0 : PV inp ⟨wsStr inp (m0 + 1), true, false, none⟩ (wsEnd inp (m0 + 1)) v next m)
    (hv : AV inp ⟨wsStr inp (m0 + 1), true, false, none⟩ (wsEnd inp (m0 + 1)) v next m) (hn : n ≤ inp.length)
    (hw : wsEnd inp n = n) (ho : ¬ (peekAt inp n = RCB ∨ peekAt inp n = 0)) (hm : m < inp.length) (hnl : v.all notLines) :
    next = none ∧ ∀ T p R, T.drop p = key.write ++ COLON :: (v.text ++ R) → R ≠ [] → hd R = peekAt inp m ∨ isCtl (hd R) = true →
      Opens T true p ∧ CellHead T (some key.id) p (p + key.write.length + 1) ∧ FullGap T p p ∧ ∃ b, FullGap T (p + key.write.length + 1) b ∧
        Sits T contentView .flow v.content b (p + key.write.length + 1 + v.text.length) ∧ atBlock T b = false := by
  obtain ⟨g1, g2, g3, g4, g5⟩ := untilColon_back hn hk
  obtain ⟨e, s1, s2, -⟩ := hv0 (wsEnd_le g2) (wsEnd_idem _ _) rfl
  have s1 := s1.le
  have s2 := s2.1
  obtain ⟨h1, -, h4⟩ := hv (.inl rfl) rfl (wsEnd_le g2) (wsEnd_idem _ _) (gap_ws (by omega)) (.inr hm) hnl
  have hkw : key.write = slice inp n m0 := by
    obtain ⟨-, -, -, u⟩ := untilColon_spec hn hk
    rcases u with ⟨u, -⟩ | ⟨u, -⟩
    · cases u
    · cases u; rfl
  refine ⟨h1, fun T p R h hR hc => ?_⟩
  have h2 := drop_add h
  have h3 := drop_cons h2
  obtain ⟨c1, c2, c3⟩ := h4 T _ R h3 (.inr hR) (.inr hc)
  have hh : hd (key.write ++ COLON :: (v.text ++ R)) = peekAt inp n ∨ hd (key.write ++ COLON :: (v.text ++ R)) = COLON := by
    rcases Nat.eq_or_lt_of_le g1 with rfl | hlt
    · rw [hkw, slice_self]; exact .inr rfl
    · have := peek_slice (inp := inp) hlt
      rw [hkw]
      cases hs : slice inp n m0 with
      | nil =>
        have := congrArg List.length hs
        rw [slice_length (by omega)] at this; simp at this; omega
      | cons x y => rw [hs] at this; exact .inl this
  have hst := wsEnd_start hw
  refine ⟨?_, ⟨p + key.write.length, Nat.le_add_right _ _, .inl (at_cons h2), rfl, ?_, g5⟩, fullGap_at (g := []) h (by have := lt_of_cons h2; omega) rfl ?_, _, c1, c2, c3⟩
  · unfold Opens
    rw [getD_peek, peek_of h]
    rcases hh with hh | hh <;> rw [hh]
    · exact not_or.1 ho
    · decide
  · rw [slice_of h, hkw, g4]
  · show isWs (hd (key.write ++ COLON :: (v.text ++ R))) = false ∧ hd (key.write ++ COLON :: (v.text ++ R)) ≠ HASH
    rcases hh with hh | hh <;> rw [hh]
    · exact hst
    · decide

theorem block_head {n m : Nat} {s : RStr} {ws : Bytes} (h : BlockRead inp n s ws m) : hd (Scalar.string s).write = peekAt inp n := by
  obtain ⟨st, stop, ws0, g1, g2, g3, g4, g5, g6, g7, g8, g9, g10, g11, g12, g13⟩ := h.ex
  have : (Scalar.string s).write = slice inp n stop := by
    simp only [Scalar.write, RStr.write, g1, g2]
    exact slice_append (by omega) g4
  rw [this]
  exact peek_slice (by omega)

theorem again_rules : Rules inp (fun s n t ws m => PV inp s n t ws m ∧ EV inp s n t ws m ∧ AV inp s n t ws m)
    (fun last tr ip n items tr' w m => PFS inp last tr ip n items tr' w m ∧ EFS inp last tr ip n items tr' w m ∧ AFS inp last tr ip n items tr' w m)
    (fun last tr ip st n items tr' w st' m => PFM inp last tr ip st n items tr' w st' m ∧ EFM inp last tr ip st n items tr' w st' m ∧
      AFM inp last tr ip st n items tr' w st' m)
    (fun ind ip n items w m => PBS inp ind ip n items w m ∧ EBS inp ind ip n items w m)
    (fun ind st key ip n items w m => PBM inp ind st key ip n items w m ∧ EBM inp ind st key ip n items w m) where
  scalar := by
    intro f s n sc ws m hl
    refine ⟨place_rules.scalar hl, echo_rules.scalar hl, fun hs ht hn hw hg hm hnl => ?_⟩
    have hi : s.inline = true := hs.resolve_right (by simp [Tree.flowing])
    have hm : m < inp.length := hm.resolve_left (by simp [Tree.flowing])
    have hsp : s.spot = .flow := by simp [PSt.spot, hi]
    have hnl : notLines sc := hnl
    have hL := (lead_spec hn).ok hl
    have hb := (lead_back hn hw ht hl).1 _ _ _ rfl
    cases hb with
    | text h1 h2 h3 =>
      cases hL with
      | scalar _ _ _ h4 _ =>
      rw [hi] at h3
      have hblk := lead_atBlock hl
      have hst := wsEnd_start hw
      refine ⟨rfl, ⟨sc.write, rfl, ?_⟩, ?_⟩
      · rw [h4]
        rcases Nat.eq_or_lt_of_le h1 with rfl | h1
        · left
          rw [slice_self] at h3 ⊢
          refine ⟨rfl, rfl, ?_⟩
          rw [peek_of rfl]; exact h3.nil rfl
        · right
          refine ⟨?_, peek_slice h1⟩
          intro h
          have := congrArg List.length h
          rw [slice_length h2] at this; simp at this; omega
      · intro T p R h hR hc
        have hR := hR.resolve_left (by simp [Tree.flowing])
        have hc := hc.resolve_left (by simp [Tree.flowing])
        rw [leaf_text, List.append_assoc] at h
        have hp : p ≤ T.length := by
          refine Decidable.byContradiction fun hp => hR ?_
          rw [List.drop_eq_nil_of_le (by omega)] at h
          simpa using (List.append_eq_nil_iff.1 (List.append_eq_nil_iff.1 h.symm).2).2
        have hd2 := drop_add h
        have hd3 := drop_add hd2
        have hh : hd (sc.write ++ R) = peekAt inp n ∨ isCtl (hd (sc.write ++ R)) = true := by
          rcases Nat.eq_or_lt_of_le h1 with rfl | h1
          · rw [h4, slice_self]
            rcases hc with hc | hc
            · exact .inl hc
            · exact .inr hc
          · left
            rw [h4]
            have := peek_slice (inp := inp) h1
            rw [← this]
            cases hs : slice inp n m with
            | nil =>
              have := congrArg List.length hs
              rw [slice_length h2] at this; simp at this; omega
            | cons x y => rfl
        have hstop : isWs (hd (sc.write ++ R)) = false ∧ hd (sc.write ++ R) ≠ HASH := by
          rcases hh with hh | hh
          · rw [hh]; exact hst
          · exact ⟨(ctl_stop hh).1, (ctl_stop hh).2.1⟩
        refine ⟨fullGap_at h hp hg hstop, ?_, ?_⟩
        · rw [hsp, leaf_text, List.length_append, ← Nat.add_assoc]
          refine .scalar (a := sc.value) rfl (Nat.le_add_right _ _) ?_ ?_
          · have := congrArg List.length hd3
            rw [List.length_drop] at this
            refine Decidable.byContradiction fun hlt => hR (List.length_eq_zero_iff.1 ?_)
            omega
          · rw [hd3, slice_of hd2, h4]
            exact h3.next hc
        · unfold atBlock
          rw [getD_peek, peek_of hd2]
          rcases hh with hh | hh
          · rw [hh]; unfold atBlock at hblk; rw [getD_peek] at hblk; exact hblk
          · rw [beq_false_of_ne (ctl_stop hh).2.2.1, beq_false_of_ne (ctl_stop hh).2.2.2.1]; rfl
    | «open» h1 h2 h3 => omega
    | block h1 h2 h3 =>
      cases hL with
      | block hp hb =>
        exfalso
        have : hd (Scalar.string _).write = peekAt inp n := block_head hb
        unfold notLines at hnl
        rw [this] at hnl
        exact hp.elim hnl.2 hnl.1
  seq := fun hl hb => ⟨place_rules.seq hl hb.1, echo_rules.seq hl hb.2, fun hs => by
    obtain ⟨-, -, hi⟩ := lead_seq hl
    rw [hi] at hs
    rcases hs with hs | hs <;> cases hs⟩
  flowSeq := by
    intro f s n items tr w m hl hb hr
    refine ⟨place_rules.flowSeq hl hb.1 hr, echo_rules.flowSeq hl hb.2.1 hr, fun _ ht hn hw hg _ hnl => ?_⟩
    obtain ⟨hb1, hb2, hb3⟩ := hb
    cases (lead_spec hn).ok hl with
    | flowSeq h1 =>
    have hlt := lt_of_peek (inp := inp) (n := n) (by rw [h1]; decide)
    have hltm := lt_of_peek (inp := inp) (n := m) (by rw [hr]; decide)
    rw [bump_one hlt] at hb1 hb2 hb3
    have hle := wsEnd_le (inp := inp) (n := n + 1) hlt
    obtain ⟨k1, k2, -⟩ := hb2 hle hr
    have hcl := (hb1 hle hr).le
    have ht := collText false tr w items s.pre k2
    simp only [Bool.false_eq_true, if_false] at ht
    refine ⟨rfl, ⟨_, ht, .inr ⟨(fun h => by cases h), h1.symm⟩⟩, fun T p R h _ _ => ?_⟩
    have h' := h
    rw [ht, List.append_assoc] at h
    have hp : p ≤ T.length := by
      refine Decidable.byContradiction fun hp => ?_
      rw [List.drop_eq_nil_of_le (by omega)] at h
      have := congrArg List.length h
      simp at this
    have hd2 := drop_add h
    have hd3 := drop_cons hd2
    replace hd3 : T.drop (p + s.pre.length + 1) = inlineText false items tr w ++ RBR :: R := by rw [hd3]; show _ ++ R = _; simp
    obtain ⟨n', c1, c2⟩ := hb3 hle (wsEnd_idem _ _) (gap_ws (by omega)) hr hnl T _ R hd3
    refine ⟨fullGap_at h hp hg (show isWs LBR = false ∧ LBR ≠ HASH by decide), ?_, atBlock_peek (peek_cons hd2) (by decide) (by decide)⟩
    rw [ht]
    have := Sits.brackets (inp := T) (V := contentView) (s := s.spot) (x := Tree.content (.node () s.pre false 0 (.inline tr w) items)) (l := items.elemsC.list)
      ⟨_, rfl, rfl⟩ (at_cons hd2) c1 (by rw [elems_contents]; exact c2)
    simpa [Nat.add_assoc, Nat.add_comm, Nat.add_left_comm] using this
  flowMap := by
    intro f s n items tr w st m hl hb hr
    refine ⟨place_rules.flowMap hl hb.1 hr, echo_rules.flowMap hl hb.2.1 hr, fun _ ht hn hw hg _ hnl => ?_⟩
    obtain ⟨hb1, hb2, hb3⟩ := hb
    cases (lead_spec hn).ok hl with
    | flowMap h1 =>
    have hlt := lt_of_peek (inp := inp) (n := n) (by rw [h1]; decide)
    have hltm := lt_of_peek (inp := inp) (n := m) (by rw [hr]; decide)
    rw [bump_one hlt] at hb1 hb2 hb3
    have hle := wsEnd_le (inp := inp) (n := n + 1) hlt
    obtain ⟨k1, k2, -⟩ := hb2 hle hr
    have hcl := (hb1 hle hr).le
    have ht := collText true tr w items s.pre k2
    simp only [if_true] at ht
    refine ⟨rfl, ⟨_, ht, .inr ⟨(fun h => by cases h), h1.symm⟩⟩, fun T p R h _ _ => ?_⟩
    have h' := h
    rw [ht, List.append_assoc] at h
    have hp : p ≤ T.length := by
      refine Decidable.byContradiction fun hp => ?_
      rw [List.drop_eq_nil_of_le (by omega)] at h
      have := congrArg List.length h
      simp at this
    have hd2 := drop_add h
    have hd3 := drop_cons hd2
    replace hd3 : T.drop (p + s.pre.length + 1) = inlineText true items tr w ++ RCB :: R := by rw [hd3]; show _ ++ R = _; simp
    obtain ⟨n', c1, c2⟩ := hb3 hle (wsEnd_idem _ _) (gap_ws (by omega)) hr hnl T _ R hd3
    refine ⟨fullGap_at h hp hg (show isWs LCB = false ∧ LCB ≠ HASH by decide), ?_, atBlock_peek (peek_cons hd2) (by decide) (by decide)⟩
    rw [ht]
    have := Sits.braces (inp := T) (V := contentView) (s := s.spot) (x := Tree.content (.node () s.pre true 0 (.inline tr w) items)) (l := items.entriesC.list)
      ⟨_, rfl, rfl⟩ (at_cons hd2) c1 (by rw [entries_contents]; exact c2)
    simpa [Nat.add_assoc, Nat.add_comm, Nat.add_left_comm] using this
  keyNull := fun hl hp hi => ⟨place_rules.keyNull hl hp hi, echo_rules.keyNull hl hp hi, fun hs ht hn => by
    cases (lead_spec hn).ok hl with
    | key _ _ _ _ h =>
      rw [h] at hs
      rcases hs with hs | hs <;> cases hs⟩
  keyMap := fun hl hp hb => ⟨place_rules.keyMap hl hp hb.1, echo_rules.keyMap hl hp hb.2, fun hs ht hn => by
    cases (lead_spec hn).ok hl with
    | key _ _ _ _ h =>
      rw [h] at hs
      rcases hs with hs | hs <;> cases hs⟩
  fsStop := by
    intro last tr ip n hs
    refine ⟨place_rules.fsStop (tr := tr) (ip := ip) hs, echo_rules.fsStop hs, fun hn hw hg hr _ T p R h => ?_⟩
    rw [inlineText_nil] at h ⊢
    have h2 := drop_add h
    exact ⟨_, fullGap_at h (by have := lt_of_cons h2; omega) hg (show isWs RBR = false ∧ RBR ≠ HASH by decide), .none (at_cons h2)⟩
  fsLast := by
    intro tr ip n v next m ho hv
    refine ⟨place_rules.fsLast ho hv.1, echo_rules.fsLast ho hv.2.1, fun hn hw hg hr hnl T p R h => ?_⟩
    have hlt := lt_of_peek (inp := inp) (n := (wsOr inp next m).2) (by rw [hr]; decide)
    have hm : m < inp.length := Nat.lt_of_le_of_lt (le_wsOr next m) hlt
    obtain ⟨rfl, g1, g2⟩ := seq_item hv.2.2 hn hw ho hm hnl.1
    rw [inlineText_last] at h ⊢
    simp only [Bool.false_eq_true, if_false, List.append_assoc] at h
    have h2 := drop_add h
    have h3 := drop_add h2
    obtain ⟨c1, c2, c3, c4⟩ := g2 T _ _ h2 (by simp) ((hd_ws (R := R)).imp id fun h => by
      have h : hd (wsStr inp m ++ RBR :: R) = RBR := h
      show isCtl (hd (wsStr inp m ++ RBR :: R)) = true
      rw [h]; decide) (fun h => absurd (.inl (by
        rw [g1 h] at hw ⊢
        have hr : peekAt inp (wsEnd inp m) = RBR := hr
        rwa [hw] at hr)) ho)
    refine ⟨_, fullGap_cat h (gap_lossy hg) c2, ?_⟩
    have := cell_end (k := none) c1 rfl c2 c3 c4 h3 (gap_ws hlt) (by have := c2.le; have := lt_of_cons (drop_add h3); omega)
    simpa [Nat.add_assoc, contents_cons, Items.contents, Items.pairs] using this
  fsComma := by
    intro tr ip n v next m items tr' w m' ho hv hc hr
    refine ⟨place_rules.fsComma ho hv.1 hc hr.1, echo_rules.fsComma ho hv.2.1 hc hr.2.1, fun hn hw hg hm hnl T p R h => ?_⟩
    have hlt := lt_of_peek (inp := inp) (n := m) (by rw [hc]; decide)
    have hlm := lt_of_peek (inp := inp) (n := m') (by rw [hm]; decide)
    obtain ⟨rfl, g1, g2⟩ := seq_item hv.2.2 hn hw ho hlt hnl.1
    rw [bump_one hlt] at hr
    obtain ⟨r1, r2, r3⟩ := hr
    have hle := wsEnd_le (inp := inp) (n := m + 1) hlt
    obtain ⟨-, k2, k3⟩ := r2 hle hm
    have hcl := (r1 hle hm).le
    rw [inlineText_more (last := false) (h1 := k2) (h2 := k3)] at h ⊢
    simp only [Bool.false_eq_true, if_false, List.append_assoc, false_and] at h
    have h2 := drop_add h
    have h3 := drop_add h2
    have h4 := drop_cons h3
    obtain ⟨c1, c2, c3, c4⟩ := g2 T _ _ h2 (by simp) (.inr (show isCtl COMMA = true by decide)) (fun _ => rfl)
    obtain ⟨n', d1, d2⟩ := r3 hle (wsEnd_idem _ _) (gap_ws (Nat.lt_of_le_of_lt hcl hlm)) hm hnl.2 T _ R h4
    refine ⟨_, fullGap_cat h (gap_lossy hg) c2, ?_⟩
    have := cell_comma (k := none) c1 rfl c2 c3 c4 h3 d1 d2
    simpa [Nat.add_assoc, Nat.add_comm 1, contents_cons] using this
  fsOther := by
    intro tr ip n v next m items tr' w m' ho hv hc hr
    refine ⟨place_rules.fsOther ho hv.1 hc hr.1, echo_rules.fsOther ho hv.2.1 hc hr.2.1, fun hn hw hg hm hnl T p R h => ?_⟩
    obtain ⟨e, -, h5⟩ := hv.2.1 n hn rfl rfl rfl
    have hle := h5.2.2.1.le.2
    obtain ⟨r1, r2, r3⟩ := hr
    have hlm := lt_of_peek (inp := inp) (n := m') (by rw [hm]; decide)
    have hcl := (r1 hle hm).le
    have hlt : m < inp.length := Nat.lt_of_le_of_lt (Nat.le_trans (le_wsOr next m) hcl) hlm
    obtain ⟨rfl, g1, g2⟩ := seq_item hv.2.2 hn hw ho hlt hnl.1
    obtain ⟨k1, k2, k3⟩ := r2 hle hm
    rw [inlineText_more (last := true) (h1 := k2) (h2 := k3)] at h ⊢
    cases items with
    | nil =>
      have hne := k3.1 rfl
      have hw' := k1.nothing hne hm
      rw [inlineText_nil] at hw' h ⊢
      subst hw'
      rw [if_pos (c := true = true ∧ _) ⟨rfl, hne⟩] at h ⊢
      simp only [Bool.false_eq_true, if_false, List.append_assoc, List.nil_append] at h
      have h2 := drop_add h
      have h3 := drop_add h2
      have hr : peekAt inp (wsEnd inp m) = RBR := by
        have hne : wsEnd inp m = m' := hne
        rw [hne]; exact hm
      obtain ⟨c1, c2, c3, c4⟩ := g2 T _ _ h2 (by simp) ((hd_ws (R := R)).imp id fun h => by
        have h : hd (wsStr inp m ++ RBR :: R) = RBR := h
        show isCtl (hd (wsStr inp m ++ RBR :: R)) = true
        rw [h]; decide) (fun h => absurd (.inl (by
          rw [g1 h] at hw ⊢
          rwa [hw] at hr)) ho)
      refine ⟨_, fullGap_cat h (gap_lossy hg) c2, ?_⟩
      have := cell_end (k := none) c1 rfl c2 c3 c4 h3 (gap_ws (Nat.lt_of_le_of_lt hcl hlm)) (by have := c2.le; have := lt_of_cons (drop_add h3); omega)
      simpa [Nat.add_assoc, contents_cons, Items.contents, Items.pairs] using this
    | cons i p' k' v' rest =>
      have hnn : ¬ (true = true ∧ (wsOr inp none m).2 = m') := fun h => by have := k3.2 h.2; simp [Items.isNil] at this
      rw [if_neg hnn] at h ⊢
      simp only [Bool.false_eq_true, if_false, List.append_assoc] at h
      have h2 := drop_add h
      have h3 := drop_add h2
      have h4 := drop_cons h3
      obtain ⟨c1, c2, c3, c4⟩ := g2 T _ _ h2 (by simp) (.inr (show isCtl COMMA = true by decide)) (fun _ => rfl)
      obtain ⟨n', d1, d2⟩ := r3 hle (wsEnd_idem _ _) (gap_ws (Nat.lt_of_le_of_lt hcl hlm)) hm hnl.2 T _ R h4
      refine ⟨_, fullGap_cat h (gap_lossy hg) c2, ?_⟩
      have := cell_comma (k := none) c1 rfl c2 c3 c4 h3 d1 d2
      rw [contents_cons]
      simpa [Nat.add_assoc, Nat.add_comm 1] using this
  fmStop := by
    intro last tr ip st n hs
    refine ⟨place_rules.fmStop (tr := tr) (ip := ip) (st := st) hs, echo_rules.fmStop (st := st) hs, fun hn hw hg hr _ T p R h => ?_⟩
    rw [inlineText_nil] at h ⊢
    have h2 := drop_add h
    exact ⟨_, fullGap_at h (by have := lt_of_cons h2; omega) hg (show isWs RCB = false ∧ RCB ≠ HASH by decide), .none (at_cons h2)⟩
  fmLast := by
    intro tr ip st n key m0 v next m ho hk hv
    refine ⟨place_rules.fmLast (st := st) ho hk hv.1, echo_rules.fmLast (st := st) ho hk hv.2.1, fun hn hw hg hr hnl T p R h => ?_⟩
    obtain ⟨-, g2, -⟩ := untilColon_back hn hk
    rw [bump_one g2] at hv
    have hlt := lt_of_peek (inp := inp) (n := (wsOr inp next m).2) (by rw [hr]; decide)
    have hm : m < inp.length := Nat.lt_of_le_of_lt (le_wsOr next m) hlt
    obtain ⟨rfl, g2⟩ := map_item hk hv.1 hv.2.2 hn hw ho hm hnl.1
    rw [inlineText_last, if_pos rfl] at h ⊢
    simp only [List.append_assoc, List.cons_append, List.nil_append] at h
    have h2 := drop_add h
    obtain ⟨c1, c2, c3, b, c4, c5, c6⟩ := g2 T _ _ h2 (by simp) ((hd_ws (R := R)).imp id fun h => by
      have h : hd (wsStr inp m ++ RCB :: R) = RCB := h
      show isCtl (hd (wsStr inp m ++ RCB :: R)) = true
      rw [h]; decide)
    have h5 := drop_add (drop_cons (drop_add h2))
    refine ⟨_, fullGap_cat h hg c3, ?_⟩
    have := cell_end (k := some key.id) c1 c2 c4 c5 c6 h5 (gap_ws hlt) (by have := lt_of_cons (drop_add h5); omega)
    simpa [Nat.add_assoc, Nat.add_comm 1, Nat.add_left_comm 1, contents_cons, Items.contents, Items.pairs] using this
  fmComma := by
    intro tr ip st n key m0 v next m items tr' w st' m' ho hk hv hc hr
    refine ⟨place_rules.fmComma (st := st) ho hk hv.1 hc hr.1, echo_rules.fmComma (st := st) ho hk hv.2.1 hc hr.2.1, fun hn hw hg hm hnl T p R h => ?_⟩
    obtain ⟨-, g2, -⟩ := untilColon_back hn hk
    rw [bump_one g2] at hv
    have hlt := lt_of_peek (inp := inp) (n := (wsOr inp next m).2) (by rw [hc]; decide)
    have hlm := lt_of_peek (inp := inp) (n := m') (by rw [hm]; decide)
    obtain ⟨rfl, g2⟩ := map_item hk hv.1 hv.2.2 hn hw ho (Nat.lt_of_le_of_lt (le_wsOr next m) hlt) hnl.1
    rw [bump_one hlt] at hr
    obtain ⟨r1, r2, r3⟩ := hr
    have hle := wsEnd_le (inp := inp) (n := (wsOr inp none m).2 + 1) hlt
    obtain ⟨-, k2, k3⟩ := r2 hle hm
    have hcl := (r1 hle hm).le
    rw [inlineText_more (last := false) (h1 := k2) (h2 := k3), if_pos rfl] at h ⊢
    simp only [Bool.false_eq_true, if_false, List.append_assoc, false_and, List.cons_append, List.nil_append] at h
    have h2 := drop_add h
    obtain ⟨c1, c2, c3, b, c4, c5, c6⟩ := g2 T _ _ h2 (by simp) (.inr (show isCtl COMMA = true by decide))
    have h3 := drop_add (drop_cons (drop_add h2))
    have h4 := drop_cons h3
    obtain ⟨n', d1, d2⟩ := r3 hle (wsEnd_idem _ _) (gap_ws (Nat.lt_of_le_of_lt hcl hlm)) hm hnl.2 T _ R h4
    refine ⟨_, fullGap_cat h hg c3, ?_⟩
    have := cell_comma (k := some key.id) c1 c2 c4 c5 c6 h3 d1 d2
    simpa [Nat.add_assoc, Nat.add_comm 1, Nat.add_left_comm 1, Nat.add_comm 2, contents_cons] using this
  fmOther := by
    intro tr ip st n key m0 v next m items tr' w st' m' ho hk hv hc hr
    refine ⟨place_rules.fmOther (st := st) ho hk hv.1 hc hr.1, echo_rules.fmOther (st := st) ho hk hv.2.1 hc hr.2.1, fun hn hw hg hm hnl T p R h => ?_⟩
    obtain ⟨-, g2, -⟩ := untilColon_back hn hk
    rw [bump_one g2] at hv
    obtain ⟨e, -, h5⟩ := hv.2.1 (m0 + 1) g2 rfl rfl rfl
    have hend := h5.2.2.1.end
    have hle := h5.2.2.1.le.2
    rw [hend, ws_nil hend] at hr
    obtain ⟨r1, r2, r3⟩ := hr
    have hlm := lt_of_peek (inp := inp) (n := m') (by rw [hm]; decide)
    have hcl := (r1 hle hm).le
    have hlt : m < inp.length := Nat.lt_of_le_of_lt (Nat.le_trans (le_wsOr next m) hcl) hlm
    obtain ⟨rfl, g2⟩ := map_item hk hv.1 hv.2.2 hn hw ho hlt hnl.1
    obtain ⟨k1, k2, k3⟩ := r2 hle hm
    rw [inlineText_more (last := true) (h1 := k2) (h2 := k3), if_pos rfl] at h ⊢
    cases items with
    | nil =>
      have hne := k3.1 rfl
      have hw' := k1.nothing hne hm
      rw [inlineText_nil] at hw' h ⊢
      subst hw'
      rw [if_pos (c := true = true ∧ _) ⟨rfl, hne⟩] at h ⊢
      simp only [List.append_assoc, List.cons_append, List.nil_append] at h
      have h2 := drop_add h
      obtain ⟨c1, c2, c3, b, c4, c5, c6⟩ := g2 T _ _ h2 (by simp) (.inr (show isCtl RCB = true by decide))
      have h3 := drop_add (drop_cons (drop_add h2))
      refine ⟨_, fullGap_cat h hg c3, ?_⟩
      have := cell_end (k := some key.id) (w := []) c1 c2 c4 c5 c6 h3 rfl (by have := lt_of_cons h3; omega)
      simpa [Nat.add_assoc, Nat.add_comm 1, Nat.add_left_comm 1, contents_cons, Items.contents, Items.pairs] using this
    | cons i p' k' v' rest =>
      have hnn : ¬ (true = true ∧ (wsOr inp none m).2 = m') := fun h => by have := k3.2 h.2; simp [Items.isNil] at this
      rw [if_neg hnn] at h ⊢
      simp only [List.append_assoc, List.cons_append, List.nil_append] at h
      have h2 := drop_add h
      obtain ⟨c1, c2, c3, b, c4, c5, c6⟩ := g2 T _ _ h2 (by simp) (.inr (show isCtl COMMA = true by decide))
      have h3 := drop_add (drop_cons (drop_add h2))
      have h4 := drop_cons h3
      obtain ⟨n', d1, d2⟩ := r3 hle hend rfl hm hnl.2 T _ R h4
      refine ⟨_, fullGap_cat h hg c3, ?_⟩
      have := cell_comma (k := some key.id) c1 c2 c4 c5 c6 h3 d1 d2
      rw [contents_cons]
      simpa [Nat.add_assoc, Nat.add_comm 1, Nat.add_left_comm 1, Nat.add_comm 2] using this
  bsLast := fun h1 h2 h3 => ⟨place_rules.bsLast h1 h2.1 h3, echo_rules.bsLast h1 h2.2.1 h3⟩
  bsMore := fun h1 h2 h3 h4 h5 => ⟨place_rules.bsMore h1 h2.1 h3 h4 h5.1, echo_rules.bsMore h1 h2.2.1 h3 h4 h5.2⟩
  bmLast := fun h1 h2 h3 => ⟨place_rules.bmLast h1 h2.1 h3, echo_rules.bmLast h1 h2.2.1 h3⟩
  bmEnd := fun h1 h2 h3 h4 => ⟨place_rules.bmEnd h1 h2.1 h3 h4, echo_rules.bmEnd h1 h2.2.1 h3 h4⟩
  bmMore := fun h1 h2 h3 h4 h5 => ⟨place_rules.bmMore h1 h2.1 h3 h4 h5.1, echo_rules.bmMore h1 h2.2.1 h3 h4 h5.2⟩
end

/-- Where there is a bracket there is an inline collection. -/
theorem flowing_of {f : Nat} {s : PSt} {n : Nat} {t : Tree Unit} {ws : Option Bytes} {m : Nat} (h : pvalue inp f s n = .ok (t, ws, m))
    (hb : peekAt inp n = LBR ∨ peekAt inp n = LCB) : t.flowing = true ∧ t.pre = s.pre ∧ (hd t.render = LBR ∨ hd t.render = LCB) := by
  cases f with
  | zero => cases h
  | succ f =>
    unfold pvalue at h
    rcases hb with hb | hb
    · have hl : lead f inp s.inline s.tabular n = .ok .flowSeq := by
        unfold lead; simp only [hb]; rfl
      simp only [hl, bind, Except.bind, pflowSeq] at h
      split at h
      · cases h
      · split at h
        · cases h; exact ⟨rfl, rfl, .inl rfl⟩
        · cases h
    · have hl : lead f inp s.inline s.tabular n = .ok .flowMap := by
        unfold lead; simp only [hb]; rfl
      simp only [hl, bind, Except.bind, pflowMap] at h
      split at h
      · cases h
      · split at h
        · cases h; exact ⟨rfl, rfl, .inr rfl⟩
        · cases h

/-- What is written for an inline collection without block scalars says what was read. -/
theorem again_of {f : Nat} {t : Tree Unit} {suffix : Bytes} (hp : pparseF f inp = .ok (t, suffix))
    (hb : hd (skipBlank false (body inp)) = LBR ∨ hd (skipBlank false (body inp)) = LCB) (hnl : t.all notLines) : Accepts (t.text ++ suffix) t.content := by
  unfold pparseF startOfDocument at hp
  cases hs : startLoop inp f (wsEnd inp 0) (wsStr inp 0) with
  | error e => simp only [hs, bind, Except.bind] at hp; cases hp
  | ok r =>
    obtain ⟨pre, n⟩ := r
    obtain ⟨k, k1, k2, rfl, rfl, k5⟩ := startLoop_body f 0 (Nat.zero_le _) (cut_zero _) hs (inp.length + 1) (by simp)
    simp only [hs, bind, Except.bind] at hp
    cases hv : pvalue inp f ⟨wsStr inp k, false, true, none⟩ (wsEnd inp k) with
    | error e => rw [hv] at hp; cases hp
    | ok r =>
      obtain ⟨t', ws, m⟩ := r
      rw [hv] at hp
      simp only at hp
      split at hp
      · next he =>
        cases hp
        have hk : peekAt inp (wsEnd inp k) = hd (skipBlank false (body inp)) := by
          rw [skipBlank_eq, body]
          rw [List.drop_zero] at k5
          rw [k5, List.drop_drop, wsEnd]
          rfl
        rw [← hk] at hb
        have hlt := lt_of_peek (inp := inp) (n := wsEnd inp k) (by rcases hb with hb | hb <;> rw [hb] <;> decide)
        obtain ⟨f1, f2, f3⟩ := flowing_of hv hb
        obtain ⟨a1, a2, a3⟩ := again_rules.value f _ _ _ _ _ hv
        obtain ⟨e, -, p2, -⟩ := a1 (Nat.le_of_lt hlt) (wsEnd_idem _ _) rfl
        obtain ⟨rfl, -, h4⟩ := a3 (.inr f1) rfl (Nat.le_of_lt hlt) (wsEnd_idem _ _) (gap_ws hlt) (.inl f1) hnl
        obtain ⟨c1, c2, c3⟩ := h4 (t.text ++ wsStr inp m) 0 (wsStr inp m) rfl (.inl f1) (.inl f1)
        rw [Nat.zero_add] at c1 c2
        rw [Nat.zero_add] at c2
        have hskip : skipBlank false (t.text ++ wsStr inp m) = (t.text ++ wsStr inp m).drop (wsStr inp k).length := by
          rw [skipBlank_eq, ← c1.eq, wsEnd]; simp
        have hd2 : (t.text ++ wsStr inp m).drop (wsStr inp k).length = t.render ++ wsStr inp m := by
          rw [Tree.text, f2, List.append_assoc, List.drop_left]
        have hd3 : hd (t.render ++ wsStr inp m) = LBR ∨ hd (t.render ++ wsStr inp m) = LCB := by
          cases hr : t.render with
          | nil => rw [hr] at f3; exact absurd f3 (by decide)
          | cons b r => rw [hr] at f3; exact f3
        have hh : hasHeader (t.text ++ wsStr inp m) = false := by
          simp only [hasHeader, hskip, hd2]
          cases hr : t.render ++ wsStr inp m with
          | nil => rfl
          | cons b r =>
            rw [hr] at hd3
            have hd3 : b = LBR ∨ b = LCB := hd3
            rcases hd3 with rfl | rfl <;> rfl
        refine ⟨_, _, ?_, ?_, c2, ?_⟩
        · rw [Tree.text, f2]; simp
        · show (t.text ++ wsStr inp m).drop (wsStr inp k).length = skipBlank false (body (t.text ++ wsStr inp m))
          rw [body_eq hh, hskip]
        · have hw : (wsOr inp none m).1 = wsStr inp m := rfl
          rw [hw]
          have hme : wsEnd inp m = inp.length := he
          have hml : m ≤ inp.length := p2.2.1
          have hg := (FullGap.ws (inp := inp) hml).1.2.2
          have hsl : slice (t.text ++ wsStr inp m) t.text.length (t.text ++ wsStr inp m).length = wsStr inp m := by
            simp [slice]
          refine ⟨⟨by simp, Nat.le_refl _, .inr ⟨rfl, ?_⟩⟩, ?_, ?_⟩
          · rw [hsl]; exact wsStr_blank inp m
          · rw [getD_peek, peekAt_ge (Nat.le_refl _)]; decide
          · rw [getD_peek, peekAt_ge (Nat.le_refl _)]; decide
      · cases hp

end Verif
