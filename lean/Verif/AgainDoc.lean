import Verif.AgainRules
import Verif.SerdeLemmas
import Verif.Lined
/-
What is written for a document, read again.
-/
namespace Verif

section
variable {inp : Bytes}

theorem slice_ne {a b : Nat} (h : a < b) (hb : b ≤ inp.length) : slice inp a b ≠ [] := by
  intro hs
  have := congrArg List.length hs
  rw [slice_length hb] at this
  simp at this; omega

/-- The white space before a value is written with it. -/
theorem Writes.head {s : Spot} {a hi : Nat} {v : Bytes} (hw : Writes inp s a v hi) (hs : s = .block) (h : isWs (peekAt inp a) = true) : hd v = peekAt inp a := by
  have key : ∀ {lo : Nat}, FullGap inp a lo → ∀ r, hd (slice inp a lo ++ r) = peekAt inp a := by
    intro lo hg r
    have hlt : a < lo := by
      rcases Nat.eq_or_lt_of_le hg.le.1 with rfl | h0
      · have := hg.2.1
        rw [getD_peek, h] at this
        cases this
      · exact h0
    rw [hd_append (slice_ne hlt hg.le.2), peek_slice hlt]
  cases hw with
  | scalar h1 h2 =>
    rw [← slice_append h1.le.1 h2]
    exact key h1 _
  | «open» h1 =>
    rw [← slice_append h1.le.1 h1.le.2]
    exact key h1 _
  | lines h1 h2 =>
    rw [← slice_append h1.le.1 h2.le]
    exact key h1 _
  | line h1 h2 =>
    rw [← slice_append h1.le.1 h1.le.2]
    exact key h1 _
  | empty => cases hs
  | dashes h1 => exact key h1 _
  | keys h1 => exact key h1 _
  | brackets h1 =>
    rw [List.append_assoc, List.append_assoc]
    exact key h1 _
  | braces h1 =>
    rw [List.append_assoc, List.append_assoc]
    exact key h1 _

theorem WritesRows.start {m : Bool} {c : Nat} {first : Bool} {lo hi : Nat} {out : Bytes} (h : WritesRows inp m c first lo out hi) :
    ∃ k a v e x, m = k.isSome ∧ Head inp first k lo a ∧ Writes inp (.item c k) a v e ∧ out = slice inp lo a ++ v ++ x := by
  cases h with
  | last h1 h2 h3 => exact ⟨_, _, _, _, [], rfl, h2, h3, (List.append_nil _).symm⟩
  | more h1 h2 h3 => exact ⟨_, _, _, _, _, rfl, h2, h3, List.append_assoc ..⟩

/-- What can make a header. -/
def startsHeader (t : Bytes) : Bool := t.headD 0 == PCT || t.take 3 == [DASH, DASH, DASH]

theorem hasHeader_gap {g r : Bytes} (hg : gap g = true) (hr : isWs (hd r) = false ∧ hd r ≠ HASH) : hasHeader (g ++ r) = startsHeader r := by
  have h1 : skipBlank false (g ++ r) = r := by
    have := (ws_gap (inp := g ++ r) (n := 0) (List.drop_zero ..) hg hr).1
    unfold wsEnd at this
    rw [skipBlank_eq]
    have : (wsGo false (g ++ r)).1 = g.length := by simpa using this
    rw [this, List.drop_left]
  unfold hasHeader
  rw [h1]; rfl

theorem hasHeader_byte {g r : Bytes} {b : UInt8} (hg : gap g = true) (hr : isWs b = false ∧ b ≠ HASH) : hasHeader (g ++ ([b] ++ r)) = startsHeader (b :: r) :=
  hasHeader_gap hg (r := b :: r) hr

theorem take3 {k x y : Bytes} (h : (k ++ COLON :: x).take 3 = [DASH, DASH, DASH]) : (k ++ COLON :: y).take 3 = [DASH, DASH, DASH] := by
  match k, h with
  | [], h => cases h
  | [_], h => simp at h; exact absurd h.2.1 (by decide)
  | [_, _], h => simp at h; exact absurd h.2.2 (by decide)
  | _ :: _ :: _ :: _, h => simpa using h

/-- What is written for a value does not start with a header if there is none in the text. -/
theorem Writes.noHeader {a hi : Nat} {v : Bytes} (hw : Writes inp .block a v hi) (hh : hasHeader (inp.drop a) = false) :
    hasHeader (v ++ slice inp hi inp.length) = false := by
  have hall : ∀ {x : Nat}, x ≤ inp.length → slice inp x inp.length = inp.drop x := by
    intro x hx
    unfold slice
    rw [List.take_of_length_le (by simp)]
  have hsplit : ∀ {lo : Nat}, FullGap inp a lo → inp.drop a = slice inp a lo ++ inp.drop lo := by
    intro lo hg
    obtain ⟨k, rfl⟩ := Nat.le.dest hg.le.1
    unfold slice
    rw [Nat.add_sub_cancel_left, ← List.drop_drop, List.take_append_drop]
  have hstart : ∀ {lo : Nat}, FullGap inp a lo → lo < inp.length → startsHeader (inp.drop lo) = false := by
    intro lo hg hlt
    rw [hsplit hg, hasHeader_gap (gap_at hg hlt) (wsEnd_start hg.end)] at hh
    exact hh
  cases hw with
  | scalar h1 h2 h3 =>
    rw [slice_append (Nat.le_trans h1.le.1 h2) h3, hall (Nat.le_trans h1.le.1 h1.le.2)]
    exact hh
  | «open» h1 =>
    rw [slice_self, List.append_nil, hall (Nat.le_trans h1.le.1 h1.le.2)]
    exact hh
  | lines h1 h2 =>
    rw [slice_append (Nat.le_trans h1.le.1 h2.le) h2.bounds.2, hall (Nat.le_trans h1.le.1 h1.le.2)]
    exact hh
  | @line _ _ _ lo _ h1 h2 =>
    have hlt : lo < inp.length := Nat.lt_of_lt_of_le h2.bounds.1 h2.bounds.2
    have hb : peekAt inp lo = GT ∨ peekAt inp lo = PIPE := by
      have := h2.atBlock
      rw [atBlock, getD_peek] at this
      simpa using this
    rw [hall (Nat.le_trans h1.le.1 h1.le.2), hsplit h1, List.append_assoc]
    have e1 : hd (inp.drop lo ++ slice inp hi inp.length) = peekAt inp lo := by
      rw [hd_append (by intro h; have := congrArg List.length h; simp at this; omega)]; rfl
    rw [hasHeader_gap (gap_at h1 hlt) (by rw [e1]; exact wsEnd_start h1.end)]
    unfold startsHeader
    cases hr : inp.drop lo ++ slice inp hi inp.length with
    | nil => rfl
    | cons x r =>
      rw [hr] at e1
      have e1 : x = peekAt inp lo := e1
      rcases hb with hb | hb <;> rw [hb] at e1 <;> subst e1 <;> rfl
  | @dashes _ _ lo _ out h1 _ h2 =>
    obtain ⟨k, a', v', e', x, hk, g2, g3, rfl⟩ := h2.start
    cases k with
    | some k => cases hk
    | none =>
    obtain ⟨k1, k2, rfl⟩ := g2
    have hlt := lt_of_peek (inp := inp) (n := lo) (by rw [some_peek k1]; decide)
    have k2 : isWs (peekAt inp (lo + 1)) = true := by rw [getD_peek] at k2; exact k2 rfl
    have hv := g3.head rfl k2
    rw [head_dash (some_peek k1)]
    rw [← hv] at k2
    simp only [List.append_assoc]
    rw [hasHeader_byte (gap_at h1 hlt) (b := DASH) (by decide)]
    unfold startsHeader
    cases v' with
    | nil => exact absurd k2 (by decide)
    | cons b r =>
      have : b ≠ DASH := by rintro rfl; exact absurd (show isWs DASH = true from k2) (by decide)
      simp [this]
      decide
  | @keys _ _ lo _ out h1 _ h2 =>
    obtain ⟨k, a', v', e', x', hk, g2, g3, rfl⟩ := h2.start
    cases k with
    | none => cases hk
    | some k =>
    obtain ⟨q, rfl, g2⟩ := g2
    have g2 : FirstKey inp k lo q := g2
    have hq := lt_of_peek (inp := inp) (n := q) (by rw [some_peek g2.2.1]; decide)
    have hlt : lo < inp.length := Nat.lt_of_le_of_lt g2.1 hq
    have h3 : inp.drop lo = slice inp lo q ++ COLON :: inp.drop (q + 1) := by
      have h4 := drop_colon (some_peek g2.2.1)
      rw [← h4]
      obtain ⟨i, rfl⟩ := Nat.le.dest g2.1
      unfold slice
      rw [Nat.add_sub_cancel_left, ← List.drop_drop, List.take_append_drop]
    rw [head_colon g2.1 (some_peek g2.2.1)]
    generalize slice inp lo q = k at h3 ⊢
    generalize inp.drop (q + 1) = y at h3
    generalize hx : v' ++ x' ++ slice inp hi inp.length = x
    have hx : slice inp a lo ++ (k ++ [COLON] ++ v' ++ x') ++ slice inp hi inp.length = slice inp a lo ++ (k ++ COLON :: x) := by
      rw [← hx]; simp
    rw [hx]
    have hs := hstart h1 hlt
    have e1 : hd (k ++ COLON :: x) = peekAt inp lo := by
      unfold peekAt
      rw [h3]
      cases k <;> rfl
    rw [hasHeader_gap (gap_at h1 hlt) (by rw [e1]; exact wsEnd_start h1.end)]
    rw [h3] at hs
    unfold startsHeader at hs ⊢
    rw [Bool.or_eq_false_iff] at hs ⊢
    refine ⟨?_, ?_⟩
    · have : (k ++ COLON :: x).headD 0 = (k ++ COLON :: y).headD 0 := by cases k <;> rfl
      rw [this]; exact hs.1
    · have := hs.2
      rw [beq_eq_false_iff_ne] at this ⊢
      intro h0
      exact this (take3 h0)
  | @brackets _ _ lo _ _ out h1 h2 =>
    have hlt := lt_of_peek (inp := inp) (n := lo) (by rw [some_peek h2]; decide)
    simp only [List.append_assoc]
    rw [hasHeader_byte (gap_at h1 hlt) (b := LBR) (by decide)]
    rfl
  | @braces _ _ lo _ _ out h1 h2 =>
    have hlt := lt_of_peek (inp := inp) (n := lo) (by rw [some_peek h2]; decide)
    simp only [List.append_assoc]
    rw [hasHeader_byte (gap_at h1 hlt) (b := LCB) (by decide)]
    rfl

theorem wsStr_lead {k : Nat} : wsStr inp k = leadBlank (inp.drop k) := by
  unfold leadBlank
  have h1 := (wsGo_spec false (inp.drop k)).1
  rw [skipBlank_eq, List.length_drop (i := (wsGo false (inp.drop k)).1), show (inp.drop k).length - ((inp.drop k).length - (wsGo false (inp.drop k)).1) = (wsGo false (inp.drop k)).1 by omega]
  simp [wsStr, slice, wsEnd]

/-- What is written says what was read, if it is written on the same lines. -/
theorem again_lines {h : Bool} {f : Nat} {t : Tree Unit} {suffix : Bytes} (hp : pparseF f inp = .ok (t, suffix))
    (hc : h = true → ∀ i, peekAt inp i = COLON → peekAt inp (i + 1) ≠ HASH) (hn : t.neat h)
    (hs : hasHeader inp = false ∨ NL ∈ leadBlank (body inp)) (hh : hasHeader (body inp) = false) : Accepts (t.text ++ suffix) t.content := by
  unfold pparseF startOfDocument at hp
  cases hs' : startLoop inp f (wsEnd inp 0) (wsStr inp 0) with
  | error e => simp only [hs', bind, Except.bind] at hp; cases hp
  | ok r =>
    obtain ⟨pre, n⟩ := r
    obtain ⟨k, k1, k2, rfl, rfl, k5⟩ := startLoop_body f 0 (Nat.zero_le _) (cut_zero _) hs' (inp.length + 1) (by simp)
    simp only [hs', bind, Except.bind] at hp
    have hbody : body inp = inp.drop k := k5
    cases hv : pvalue inp f ⟨wsStr inp k, false, true, none⟩ (wsEnd inp k) with
    | error e => rw [hv] at hp; cases hp
    | ok r =>
      obtain ⟨t', ws, m⟩ := r
      rw [hv] at hp
      simp only at hp
      split at hp
      · next he =>
        cases hp
        obtain ⟨⟨-, a2, -⟩, hb⟩ := (block_rules hc).value f _ _ _ _ _ hv
        obtain ⟨e, w1, -, -, w4, w5, -⟩ := a2 k k1 rfl rfl rfl
        have he : (wsOr inp ws m).2 = inp.length := he
        have hno : hasHeader (t.text ++ (wsOr inp ws m).1) = false := by
          rw [w5, he]
          exact w1.noHeader (by rw [← hbody]; exact hh)
        have hll : lastLine (wsStr inp k) = lastLine (inp.take (wsEnd inp k)) := by
          rw [take_slice (le_wsEnd inp k)]
          rcases hs with hs | hs
          · have hk : k = 0 := by
              rw [body_eq hs] at hbody
              have := congrArg List.length hbody
              rw [List.length_drop] at this
              omega
            subst hk
            rfl
          · rw [hbody, ← wsStr_lead] at hs
            rw [lastLine_next (b := slice inp k (wsEnd inp k)) hs]
            rfl
        obtain ⟨-, -, b, e', c1, c2, c3⟩ := hb rfl rfl k k1 rfl rfl hn (t.text ++ (wsOr inp ws m).1) 0 (wsOr inp ws m).1 [] (by simp) (Nat.zero_le _) (by simpa using hll)
          (.done he rfl rfl)
        refine ⟨b, e', c1.le.2, ?_, c2, ?_⟩
        · rw [body_eq hno, skipBlank_eq, ← c1.eq, wsEnd]; simp
        · have : (t.text ++ (wsOr inp ws m).1).length = 0 + t.text.length + (wsOr inp ws m).1.length := by simp
          rw [this]
          exact c3
      · cases hp
end

/-! ### Documents -/

theorem Rep.prefixOf {d : Data} {par : Option Nat} {u : Tree Nat} (h : Rep d par u) : Verif.prefixOf d u.id = u.pre := by
  obtain ⟨rest, hr⟩ := u.entries_head par
  have := h u.id ⟨u.raw, u.pre, par⟩ (by rw [hr]; simp)
  simp [Verif.prefixOf, Data.entry, this]

theorem Rep.find {d : Data} {par : Option Nat} {t u : Tree Nat} {x : Nat} (h : Rep d par t) (hn : t.allIds.Nodup) (hf : t.find x = some u) :
    ∃ p, Rep d p u ∧ u.allIds.Nodup := by
  obtain ⟨p, A, B, ra, rb, h0, h1⟩ := Tree.focus par hf
  have he := (h1 u (Tree.find_id hf)).2.1
  rw [h0] at he
  refine ⟨p, fun i e hi => h i e (by rw [he]; simp [hi]), ?_⟩
  rw [← t.allIds_eq par, he] at hn
  simp only [List.map_append, Tree.allIds_eq, List.nodup_append] at hn
  first | exact hn.1.2.1 | exact hn.2.1.1

set_option linter.unusedSectionVars false
section
variable {d : Data} {h : Bool} {L : Nat → Prop}
  (C1 : ∀ v s, L v → valueText d v = .ok s → (hd s = PIPE ∨ hd s = GT → blank (s.dropWhile (· != NL)) = false) ∧ (h = false → s ≠ []))
  (C2 : ∀ c v s, L c → ¬ NotInline d c → Below d c v → valueText d v = .ok s → hd s ≠ PIPE ∧ hd s ≠ GT)
  (C3 : ∀ c k i, L c → d.raw c = .ok (.sequence k) ∨ d.raw c = .ok (.mapping k) → k.kind = .block → i ∈ k.items.tail →
    NL ∈ prefixOf d i ∧ (h = true → ∀ key v s, d.raw i = .ok (.sequenceItem v) ∨ d.raw i = .ok (.mappingItem key v) → valueText d v = .ok s →
      (prefixOf d v ++ s = [] ∨ isWs (hd (prefixOf d v ++ s)) = true) ∧ (d.raw i = .ok (.mappingItem key v) → hd key.write ≠ DQ ∧ hd key.write ≠ SQ)))
include C1 C2 C3

mutual
theorem Tree.neat_of : ∀ {u : Tree Nat} {par : Option Nat}, Rep d par u → u.allIds.Nodup → (∀ x w, u.find x = some w → L x) → u.neat h
  | .leaf i p sc, par, hr, hn, hl => by
    have ht := hr.text hn
    exact C1 i _ (hl i (.leaf i p sc) (by simp [Tree.find])) ht
  | .node i p m ind (.inline tr w) items, par, hr, hn, hl => by
    have ht := hr.text hn
    have hni : ¬ NotInline d i := fun hc => by
      have := hc _ ht
      cases m
      · exact this.1 rfl
      · exact this.2 rfl
    refine Tree.all_of_find (P := notLines) hn fun x j q s hf => ?_
    have hb : Below d i x := Tree.below_of_find hr hf
    obtain ⟨p', h1, h2⟩ := Rep.find hr hn hf
    have h3 := h1.text h2
    rw [Tree.find_id hf] at h3
    exact C2 i x _ (hl i _ (Tree.find_self (.node i p m ind (.inline tr w) items))) hni hb h3
  | .node i p m ind .block items, par, hr, hn, hl => by
    obtain ⟨h1, h2⟩ := hr.node
    rw [Tree.allIds, Tree.entries, List.map_cons, List.nodup_cons] at hn
    have hraw : d.raw i = .ok (collRaw m ⟨ind, .block, items.ids⟩) := by simp [Data.raw, Data.entry, h1, bind, Except.bind, pure, Except.pure]
    refine Items.neat_of (items := items) (first := true) h2 hn.2 (fun x w hf => hl x w ?_) fun j hj => ?_
    · have hne : i ≠ x := by
        rintro rfl
        have := Items.find_subset i m hf
        exact hn.1 (this _ (by rw [Tree.allIds_eq_cons, Items.find_id hf]; simp))
      simp only [Tree.find, if_neg hne, hf]
    · have hc := C3 i ⟨ind, .block, items.ids⟩ j (hl i _ (Tree.find_self (.node i p m ind .block items))) (by rw [hraw]; cases m; exact .inl rfl; exact .inr rfl) rfl hj
      refine ⟨hc.1, fun hh key v s hv hs => ?_⟩
      have := hc.2 hh key v s (by rw [hv]; cases m; exact .inl rfl; exact .inr rfl) hs
      exact ⟨this.1, fun hm => this.2 (by rw [hv, hm]; rfl)⟩
theorem Items.neat_of : ∀ {items : Items Nat} {c : Nat} {m first : Bool}, RepItems d c m items → ((items.entries c m).map (·.1)).Nodup →
    (∀ x w, items.find x = some w → L x) →
    (∀ i, i ∈ (if first then items.ids.tail else items.ids) → NL ∈ prefixOf d i ∧
      (h = true → ∀ key v s, d.raw i = .ok (itemRaw m key v) → valueText d v = .ok s →
      (prefixOf d v ++ s = [] ∨ isWs (hd (prefixOf d v ++ s)) = true) ∧ (m = true → hd key.write ≠ DQ ∧ hd key.write ≠ SQ))) →
    items.neat h m first
  | .nil, _, _, _, _, _, _, _ => trivial
  | .cons i p key v rest, c, m, first, hr, hn, hl, hC => by
    obtain ⟨h1, h2, h3⟩ := hr.cons
    simp only [Items.entries, List.map_cons, List.map_append, List.nodup_cons, List.nodup_append, Tree.allIds_eq] at hn
    refine ⟨fun h0 => ?_, Tree.neat_of h2 hn.2.1 fun x w hf => hl x w (by simp [Items.find, hf]), Items.neat_of (first := false) h3 hn.2.2.1 (fun x w hf => hl x w ?_) fun j hj => hC j ?_⟩
    · subst h0
      obtain ⟨c1, c2⟩ := hC i (by simp [Items.ids])
      rw [show prefixOf d i = p by simp [prefixOf, Data.entry, h1]] at c1
      refine ⟨c1, fun hh => ?_⟩
      have := c2 hh key v.id v.render (by simp [Data.raw, Data.entry, h1, bind, Except.bind, pure, Except.pure]) (h2.text hn.2.1)
      rw [h2.prefixOf] at this
      exact this
    · have hx := Items.find_subset c m hf x (by rw [Tree.allIds_eq_cons, Items.find_id hf]; simp)
      cases hv : v.find x with
      | none => simp [Items.find, hv, hf]
      | some w => exact absurd rfl (hn.2.2.2 x (Tree.find_subset hv x (by rw [Tree.allIds_eq_cons, Tree.find_id hv]; simp)) x hx)
    · cases first with
      | true => exact hj
      | false => exact List.mem_cons_of_mem _ hj
end
end

mutual
theorem Tree.all_unlabel {P : Scalar → Prop} (k : Nat) : ∀ {t : Tree Unit}, (t.label k).all P → t.all P
  | .leaf _ _ _, h => h
  | .node _ _ _ _ _ items, h => Items.all_unlabel (k + 1) (items := items) h
theorem Items.all_unlabel {P : Scalar → Prop} (k : Nat) : ∀ {items : Items Unit}, (items.label k).all P → items.all P
  | .nil, _ => trivial
  | .cons _ _ _ v rest, h => ⟨Tree.all_unlabel (t := v) _ h.1, Items.all_unlabel (items := rest) _ h.2⟩
end

mutual
theorem Tree.neat_unlabel {h : Bool} (k : Nat) : ∀ {t : Tree Unit}, (t.label k).neat h → t.neat h
  | .leaf _ _ _, hn => hn
  | .node _ _ _ _ (.inline _ _) items, hn => Items.all_unlabel (k + 1) (items := items) hn
  | .node _ _ _ _ .block items, hn => Items.neat_unlabel (k + 1) (items := items) hn
theorem Items.neat_unlabel {h m first : Bool} (k : Nat) : ∀ {items : Items Unit}, (items.label k).neat h m first → items.neat h m first
  | .nil, _ => trivial
  | .cons _ _ key v rest, hn => ⟨fun h0 => ⟨(hn.1 h0).1, fun hh => by
      have := (hn.1 h0).2 hh
      unfold spaced at this ⊢
      rw [show (v.label (k + 1)).text = v.text by rw [Tree.text, Tree.text, Tree.label_render, Tree.label_pre]] at this
      exact this⟩, Tree.neat_unlabel (t := v) _ hn.2.1, Items.neat_unlabel (items := rest) _ hn.2.2⟩
end

end Verif
