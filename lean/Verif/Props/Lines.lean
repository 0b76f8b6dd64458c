import Verif.LinesDocs
import Verif.Props.Series
/-
C90: in a document of plain lines, any series of plain edits is read back.  All conditions are on the text at the start and on each edit by itself.
-/
namespace Verif

/-- A text that can be a new value: not empty, on one line, without white space at its end, and not like the header of a document. -/
def wordText (ascii : Bool) (s : Bytes) : Bool :=
  !s.isEmpty && s.all (lineByte ascii) && !s.contains NL && !(match s.getLast? with | some b => isOtherWs b | none => false) && s.headD 0 != PCT && s.take 3 != [DASH, DASH, DASH]

/-- White space and comments before a new item, without white space at the end of a line. -/
def wordGap (ascii : Bool) (s : Bytes) : Bool := gap s && s.all (lineByte ascii) && noTrail s

/-- What is written in the place of a value by methods that set it, if that is read as the same value. -/
def Op.word : Op → Option Bytes
  | .setBool v => some (if v then b! "true" else b! "false")
  | .setNull .keyword => some (b! "null")
  | .setNull .tilde => some (b! "~")
  | .setNumber s _ => if isNumber s then some s else none
  | .setString s => if preferred s = .bare ∧ plainItem s = true then some s else none
  | _ => none

/-- Neither a mapping nor a sequence. -/
def Scalar? (d : Data) (x : Nat) : Prop := ∀ m C, collAt m d x ≠ .ok C

/-- The edits of the value `x`. -/
inductive PlainEdit (ascii : Bool) (doc : Document) (x : Nat) : Op → Prop
  /-- A value that is neither a mapping nor a sequence is set. -/
  | set {op : Op} {s : Bytes} : Scalar? doc.data x → op.word = some s → wordText ascii s = true → PlainEdit ascii doc x op
  /-- An entry with a new key is inserted in a mapping. -/
  | insert {key : Bytes} {val : Val} {C : Coll} : doc.data.mapping x = .ok C → mapGet doc.data x key = .ok none → keyBlock key = true → key.all (lineByte ascii) = true → val.kept = true →
    wordText ascii (val.newText 0) = true → PlainEdit ascii doc x (.insert key val)
  /-- An item is pushed to a sequence.  Between the dash and the new value is what is before the last item. -/
  | push {val : Val} {C : Coll} {w : Nat} {auto : Bytes} : doc.data.sequence x = .ok C → lastIn doc.data x = some w → doc.data.pre w = .ok auto → wordGap ascii auto = true → val.kept = true →
    wordText ascii (val.newText 0) = true → PlainEdit ascii doc x (.push val)
  /-- An entry is removed from a mapping, but not the first one, nor one after a mapping or a sequence. -/
  | remove {key : Bytes} {L : List (Bytes × Nat)} {n : Nat} {k' : Bytes} {w : Nat} : mapEntries doc.data x = .ok L → L.findIdx? (·.1 == key) = some (n + 1) → L[n]? = some (k', w) →
    Scalar? doc.data w → PlainEdit ascii doc x (.remove key)
  /-- An item is removed from a sequence, but not the first one, nor one after a mapping or a sequence. -/
  | removeAt {L : List Nat} {n w : Nat} : seqValues doc.data x = .ok L → n + 1 < L.length → L[n]? = some w → Scalar? doc.data w → PlainEdit ascii doc x (.removeAt (n + 1))

/-- Edits one after the other. -/
inductive PlainEdits (ascii : Bool) : Document → Document → Prop
  | nil {doc : Document} : PlainEdits ascii doc doc
  | cons {doc doc' doc'' : Document} {x : Nat} {op : Op} : Live doc x → PlainEdit ascii doc x op → doc.edit x op = .ok doc' → PlainEdits ascii doc' doc'' → PlainEdits ascii doc doc''

theorem wordText_iff {ascii : Bool} {s : Bytes} (h : wordText ascii s = true) :
    s ≠ [] ∧ (∀ b ∈ s, lineByte ascii b = true) ∧ NL ∉ s ∧ (∀ b, s.getLast? = some b → isOtherWs b = false) ∧ s.headD 0 ≠ PCT ∧ s.take 3 ≠ [DASH, DASH, DASH] := by
  simp only [wordText, Bool.and_eq_true, Bool.not_eq_true', List.isEmpty_eq_false_iff, List.all_eq_true, List.contains_eq_mem, decide_eq_false_iff_not, bne_iff_ne, ne_eq] at h
  obtain ⟨⟨⟨⟨⟨h1, h2⟩, h3⟩, h4⟩, h5⟩, h6⟩ := h
  refine ⟨h1, h2, h3, fun b hb => ?_, h5, h6⟩
  rw [hb] at h4
  exact h4

theorem wordText_head {ascii : Bool} {s : Bytes} (h : wordText ascii s = true) : s.headD 0 ≠ 0 ∧ s.headD 0 ≠ PIPE ∧ s.headD 0 ≠ GT := by
  obtain ⟨h1, h2, -⟩ := wordText_iff h
  cases s with
  | nil => exact absurd rfl h1
  | cons b s =>
    have := h2 b (List.mem_cons_self ..)
    show b ≠ 0 ∧ b ≠ PIPE ∧ b ≠ GT
    refine ⟨?_, ?_, ?_⟩ <;> rintro rfl <;> revert this <;> cases ascii <;> decide

/-- A new value. -/
theorem word_token {op : Op} {s : Bytes} (h : op.word = some s) (u : Tree Nat) {R : Bytes} (hR : R.headD NL = NL) :
    op.isSet = true ∧ ∃ sc, op.scalar u = some sc ∧ sc.write = s ∧ Token false R s sc.value ∧ isWs (s.headD 0) = false ∧ s.headD 0 ≠ HASH := by
  cases op with
  | setBool v =>
    cases Option.some.inj h
    refine ⟨rfl, boolScalar v, rfl, rfl, ?_⟩
    have := Val.kept_token (v := .bool v) rfl hR
    cases v <;> exact ⟨this.1, this.2.1, this.2.2.1⟩
  | setNull k =>
    cases k with
    | keyword =>
      cases Option.some.inj h
      exact ⟨rfl, nullScalar .keyword, rfl, rfl, plain_token (s := b! "null") hR (by decide) (by decide) (by decide), by decide, by decide⟩
    | tilde =>
      cases Option.some.inj h
      exact ⟨rfl, nullScalar .tilde, rfl, rfl, plain_token (s := b! "~") hR (by decide) (by decide) (by decide), by decide, by decide⟩
    | empty => cases h
  | setNumber s hint =>
    rw [Op.word] at h
    split at h
    · next hs =>
      cases h
      have := Val.kept_token (v := .number s hint) hs hR
      exact ⟨rfl, .number s hint, rfl, rfl, this.1, this.2.1, this.2.2.1⟩
    · cases h
  | setString s =>
    rw [Op.word] at h
    split at h
    · next hs =>
      cases h
      have e : Val.newText 0 (.str s) = s := by rw [Val.newText, hs.1, quoted]
      have := Val.kept_token (v := .str s) (by rw [Val.kept, hs.1]; exact hs.2) hR
      rw [e] at this
      exact ⟨rfl, strScalar s, rfl, by rw [strScalar_eq, strWithScalar_write, hs.1, quoted], this.1, this.2.1, this.2.2.1⟩
    · cases h
  | _ => cases h

theorem slice_getD {inp : Bytes} {p d : Nat} (h : p < d) (hd : d ≤ inp.length) : slice inp p d = inp.getD p 0 :: slice inp (p + 1) d := by
  rw [← slice_append (b := p + 1) (by omega) h]
  have : slice inp p (p + 1) = [inp.getD p 0] := by
    rw [slice, List.drop_eq_getElem_cons (by omega), Nat.add_sub_cancel_left, List.getD_eq_getElem?_getD, List.getElem?_eq_getElem (by omega)]
    rfl
  rw [this]; rfl

/-- A text without keys has none in its place. -/
theorem noKeySep_keyEnd {inp : Bytes} {b d p : Nat} (h : noKeySep (slice inp b d) = true) (hd : d ≤ inp.length) (h1 : b ≤ p) (h2 : p < d) : ¬ KeyEnd inp p := by
  rintro ⟨h3, h4⟩
  have h5 := noKeySep_drop (p - b) h
  rw [slice_dropL, show b + (p - b) = p by omega, slice_getD h2 hd] at h5
  have e : inp.getD p 0 = COLON := by rw [List.getD_eq_getElem?_getD, h3]; rfl
  rw [e, noKeySep, Bool.and_eq_true] at h5
  have h6 := h5.1
  rcases Nat.lt_or_ge (p + 1) d with hl | hl
  · rw [slice_headD hl] at h6
    rcases h4 with h4 | h4 <;> rw [h4] at h6 <;> simp at h6
  · rw [slice_none hl] at h6
    simp at h6

theorem head?_left {x y : Bytes} (h : x ≠ []) : (x ++ y).head? = x.head? := by
  cases x with
  | nil => exact absurd rfl h
  | cons => rfl

/-- A new line. -/
theorem Lines.addRow {ascii : Bool} {inp : Bytes} (H : Lines ascii inp) {d : Nat} (hd : inp[d]? = some NL) {mid word : Bytes} (h1 : ∀ b ∈ mid, lineByte ascii b = true) (h2 : noTrail mid = true)
    (h3 : mid ≠ []) (h4 : mid.head? ≠ some NL) (hw : wordText ascii word = true) (n : Nat) : Lines ascii (inp.take d ++ ([NL] ++ (List.replicate n SP ++ (mid ++ word))) ++ inp.drop d) := by
  obtain ⟨w1, w2, w3, w4, w5, w6⟩ := wordText_iff hw
  have hsp : ∀ b ∈ List.replicate n SP, b = SP := fun b hb => (List.mem_replicate.1 hb).2
  refine H.swap hd (fun b hb => ?_) ?_ (fun _ => hd) fun a ha => ?_
  · simp only [List.mem_append, List.mem_singleton] at hb
    rcases hb with rfl | hb | hb | hb
    · cases ascii <;> decide
    · rw [hsp b hb]; cases ascii <;> decide
    · exact h1 b hb
    · exact w2 b hb
  · refine noTrail_append (by decide) (noTrail_append (noTrail_free fun h => by cases hsp _ h) (noTrail_append h2 (noTrail_free w3) fun h => ?_) fun h => ?_) fun _ a ha => ?_
    · exact absurd (List.mem_of_head? h) w3
    · rw [head?_left h3] at h
      exact absurd h h4
    · obtain rfl : NL = a := by simpa using ha
      decide
  · refine w4 a ?_
    rw [← ha, getLast?_right (by simp), getLast?_right (by simp [w1]), getLast?_right (by simp [w1]), getLast?_right w1]

theorem drop_nl {inp : Bytes} {d : Nat} (h : inp[d]? = some NL) : inp.drop d = NL :: inp.drop (d + 1) := by
  obtain ⟨h1, h2⟩ := List.getElem?_eq_some_iff.1 h
  rw [List.drop_eq_getElem_cons h1, h2]

/-- There is no key in a scalar. -/
theorem Lies.noKey {ascii : Bool} {inp : Bytes} (H : Lines ascii inp) {s : Spot} {a b d : Nat} {t : Tree Unit} (hg : FullGap inp a b) (hbd : b < d) : Lies inp s a t d → s ≠ .flow →
    ∀ {pre sc}, t = .leaf () pre sc → noKeySep (slice inp b d) = true
  | .scalar (sc := sc) (lo := lo) (hi := hi) h1 h2 h3 h4 h5, hs, _, _, _ => by
    obtain rfl : b = lo := hg.unique h1
    have hfl : Spot.inline s = false := by cases s <;> first | rfl | exact absurd rfl hs
    rw [hfl] at h4
    generalize sc.value = av at h4
    cases h4 with
    | number g1 g2 => exact noKeySep_none fun c hc e => absurd (isNumber_chars g1 c hc) (by rw [e]; decide)
    | plain _ g2 =>
      unfold plainText at g2
      simp only [Bool.false_eq_true, if_false, Bool.and_eq_true] at g2
      exact g2.2.1.1.2
    | quoted g1 _ _ =>
      exfalso
      have hm : hd (slice inp b hi) ∈ inp := by
        cases hsl : slice inp b hi with
        | nil => rw [slice_getD hbd h3] at hsl; cases hsl
        | cons b' r => exact slice_sub (lo := b) (hi := hi) (by rw [hsl]; exact List.mem_cons_self ..)
      rcases inQuotes_hd g1 with h | h
      · rw [h] at hm; exact H.dq hm
      · rw [h] at hm; exact H.sq hm
  | .open (lo := lo) h1 h2 h3 h4 h5, hs, _, _, _ => by
    exfalso
    exact H.dq (List.mem_of_mem_drop (i := lo) (by rw [h3]; exact List.mem_cons_self ..))
  | .lines (lo := lo) h1 h2 h3 h4 h5, hs, _, _, _ => by
    exfalso
    obtain ⟨folded, chomp, hh, n, w, g1, g2, g3, -⟩ := h2
    have hm : (if folded then GT else PIPE) ∈ inp := slice_sub (lo := lo) (hi := hh) (by rw [g3]; exact List.mem_cons_self ..)
    cases folded
    · exact H.pipe hm
    · exact H.gt hm
  | .empty _ _ _, hs, _, _, _ => absurd hg.le.1 (by omega)
  | .dashes _ _ _, _, _, _, h => by cases h
  | .keys _ _ _, _, _, _, h => by cases h
  | .brackets _ _ _ _ _, _, _, _, h => by cases h
  | .braces _ _ _ _ _, _, _, _, h => by cases h

section
variable {ascii : Bool} {inp : Bytes} {doc : Document} {t : Tree Nat} {e0 : Nat}

/-- A value that is neither a mapping nor a sequence. -/
theorem Laid.scalar (h : Laid inp doc t e0) {x : Nat} {u : Tree Nat} (hu : t.find x = some u) (hs : Scalar? doc.data x) : ∃ pre sc, u = .leaf x pre sc := by
  obtain ⟨p, ha⟩ := h.laid.holds.at hu
  have hid := ha.id
  cases u with
  | leaf i pre sc => exact ⟨pre, sc, by simpa [Tree.id] using hid⟩
  | node i pre m ind k items =>
    obtain rfl : i = x := hid
    exact absurd (collAt_of ha) (hs m _)

theorem Laid.plainSet (h : Laid inp doc t e0) (H : Lines ascii inp) (hh : hasHeader inp = false) (hn : t.nested) {x : Nat} (hx : Live doc x) {op : Op} {s : Bytes} (hsc : Scalar? doc.data x)
    (hop : op.word = some s) (hs : wordText ascii s = true) :
    ∃ doc' out t' e', doc.edit x op = .ok doc' ∧ Laid out doc' t' e' ∧ Lines ascii out ∧ hasHeader out = false ∧ t'.nested := by
  obtain ⟨u, hu⟩ := (h.laid.holds.live_iff x).1 hx
  obtain ⟨p, ha⟩ := h.laid.holds.at hu
  obtain ⟨u', r, sp, b0, b, d, E, hu', hl, hg, hr, h1, h2, hws, h3, h4, h5, h6, h7⟩ := h.setT hh H.followed (.inr H.lbr) H.utf8 hx ha.text (h.textHead H hn hu)
  obtain rfl := Option.some.inj (hu'.symm.trans hu)
  obtain ⟨pre, sc, rfl⟩ := h.scalar hu hsc
  have hnu := Tree.nested_find hn hu
  obtain ⟨f1, f2⟩ := outer_block h6 H.lbr H.lcb
  have hnf : sp ≠ .flow := fun he => by rw [he] at f1; cases f1
  have hnl := hl.lineEnd H hnf (Tree.nested_erase hnu)
  obtain ⟨l1, l2⟩ := lineBreak_endsLine hnl
  obtain ⟨k0, sc', k1, k2, k3, k4, k5⟩ := word_token hop (.leaf x pre sc) l1
  obtain ⟨w1, w2, w3, w4, w5, w6⟩ := wordText_iff hs
  obtain ⟨z0, z1, z2⟩ := wordText_head hs
  obtain ⟨d1, i1, v1, mk, he, _⟩ := h.laid.holds.editTree hu op
  have he : ∃ doc', doc.edit x op = .ok doc' := ⟨⟨doc.suffix, doc.root, d1⟩, by simp [Document.edit, he, bind, Except.bind, pure, Except.pure]⟩
  obtain ⟨doc', he⟩ := he
  obtain ⟨sc2, m1, -, -, m2⟩ := h.laid.holds.editSet hu k0 he
  obtain rfl := Option.some.inj (k1.symm.trans m1)
  obtain ⟨_, hat⟩ := m2.at (Tree.find_upd hu rfl)
  have htext := hat.text
  rw [Tree.render, k2] at htext
  have hkeys : KeysKept inp b d s := by
    have hq := KeysKept.plain (inp := inp) (b := b) (d := b) (new := s) (by omega) (fun hm => H.dq (List.mem_of_mem_take hm)) (fun hm => H.sq (List.mem_of_mem_take hm))
      (by rw [slice_none (Nat.le_refl _)]; simp) w3
    have hks : noKeySep (slice inp b d) = true := by
      rw [Tree.erase] at hl
      exact hl.noKey H hg h1 hnf rfl
    rcases hq with hq | ⟨q1, -, q3⟩
    · exact .inl hq
    · exact .inr ⟨q1, fun p p1 p2 => noKeySep_keyEnd hks h2 p1 p2, q3⟩
  have hn0 : inp.getD b 0 ≠ 0 := by
    have := h.textHead H hn hu
    rw [h3, slice_headD h1] at this
    exact this
  obtain ⟨sc3, e', n1, n2⟩ := h7 op doc' s sc'.value k0 he htext (asAny_leaf hat.rep) (fits_block H.lbr H.lcb h6 h1 h2 hn0 hws k3 z0 l2 hkeys)
  refine ⟨doc', _, _, e', he, n2, ?_, ?_, ?_⟩
  · refine H.swap hnl w2 (noTrail_free w3) (fun h => absurd (List.mem_of_head? h) w3) fun a ha => w4 a ?_
    rwa [getLast?_right w1] at ha
  · rw [List.append_assoc]
    have hz : (s ++ inp.drop d).headD 0 = s.headD 0 := by
      cases s with
      | nil => exact absurd rfl w1
      | cons => rfl
    refine h5.header H.lbr H.lcb hh (gap_start hh (by have := h5.le; omega) (by rw [body_eq hh]; exact hr)) (by omega) (by rw [hz]; exact ⟨k4, k5⟩) (by rw [hz]; exact w5) ?_
    intro he
    apply w6
    rcases s with _ | ⟨a1, _ | ⟨a2, _ | ⟨a3, s⟩⟩⟩
    · exact absurd rfl w1
    · rw [drop_nl hnl] at he; simp [NL, DASH] at he
    · rw [drop_nl hnl] at he; simp [NL, DASH] at he
    · simpa using he
  · exact Tree.nested_set hn hu (by rw [n1]; exact ⟨z0, z1, z2⟩)

theorem Laid.plainInsert (h : Laid inp doc t e0) (H : Lines ascii inp) (hh : hasHeader inp = false) (hn : t.nested) {x : Nat} (hx : Live doc x) {key : Bytes} {val : Val} {C : Coll}
    (hC : doc.data.mapping x = .ok C) (hg : mapGet doc.data x key = .ok none) (hkey : keyBlock key = true) (hkb : key.all (lineByte ascii) = true) (hv : val.kept = true)
    (hs : wordText ascii (val.newText 0) = true) :
    ∃ doc' out t' e', doc.edit x (.insert key val) = .ok doc' ∧ Laid out doc' t' e' ∧ Lines ascii out ∧ hasHeader out = false ∧ t'.nested := by
  obtain ⟨u, hu⟩ := (h.laid.holds.live_iff x).1 hx
  obtain ⟨p, ha⟩ := h.laid.holds.at hu
  obtain ⟨pre, items, rfl⟩ := collAt_node h.laid.holds hu (m := true) hC
  have hnu := Tree.nested_find hn hu
  have hk : C.kind = .block := by
    cases hk : C.kind with
    | block => rfl
    | inline => rw [hk, Tree.nested] at hnu; exact hnu.elim
  obtain ⟨b, d, h1, h2, h3, h4, -, ⟨u', hu', hto⟩, h6⟩ := h.insertT hh H.followed (.inr H.lbr) H.utf8 hx ha.text (h.textHead H hn hu) (f := false) hC hk (fun pre' items' hf => by
    have := Tree.nested_find hn hf
    rw [Tree.nested] at this
    exact Items.nested_tail this.2)
  have hnl := LiesTo.lineEnd H hn hu' hto
  have hdl := (List.getElem?_eq_some_iff.1 hnl).1
  obtain ⟨l1, l2⟩ := lineBreak_endsLine hnl
  have hsep : val.sepText (b! " ") = b! " " := by
    cases val with
    | null => cases hv
    | _ => rfl
  obtain ⟨k1, k2, k3, k4⟩ := Val.kept_token hv l1
  obtain ⟨w1, w2, w3, w4, w5, w6⟩ := wordText_iff hs
  obtain ⟨z0, z1, z2⟩ := wordText_head hs
  have hkey' : laterKey key = true ∧ NL ∉ key := by
    simp only [keyBlock, isIndicator, Bool.and_eq_true, Bool.not_eq_true', List.isEmpty_eq_false_iff, bne_iff_ne, ne_eq, Bool.or_eq_false_iff, beq_eq_false_iff_ne, List.contains_eq_mem,
      decide_eq_false_iff_not] at hkey
    refine ⟨laterKey_iff.2 ⟨hkey.1.1.1.1.1, hkey.1.2, hkey.2, hkey.1.1.1.1.2.1.1.1.1.1.1.1, hkey.1.1.1.1.2.1.1.1.1.1.1.2, hkey.1.1.1.2⟩, hkey.1.1.2⟩
  rw [List.all_eq_true] at hkb
  obtain ⟨doc', g1, ⟨t', e1, g2, g3⟩, -⟩ := h6 key val hg hkey'.1 (fun h => by cases h) (by rw [hsep]; decide) (by rw [Val.kept_text hv]; exact k1) (by rw [Val.kept_text hv]; exact z0) hdl l2
    (.plain hnl (fun hm => H.dq (List.mem_of_mem_take hm)) (fun hm => H.sq (List.mem_of_mem_take hm))) _ rfl
  rw [Val.kept_text hv] at g3
  refine ⟨doc', _, t', e1, g1, g2, ?_, ?_, g3 hn z1 z2⟩
  · rw [Val.kept_text hv, hsep]
    have hc : ∀ b ∈ key ++ b! ":" ++ b! " ", lineByte ascii b = true := fun b hb => by
      simp only [List.mem_append] at hb
      rcases hb with (hb | hb) | hb
      · exact hkb b hb
      · obtain rfl : b = COLON := by simpa using hb
        cases ascii <;> decide
      · obtain rfl : b = SP := by simpa using hb
        cases ascii <;> decide
    have hnlk : NL ∉ key ++ b! ":" ++ b! " " := fun hb => by
      simp only [List.mem_append] at hb
      rcases hb with (hb | hb) | hb
      · exact hkey'.2 hb
      · revert hb; decide
      · revert hb; decide
    have := H.addRow hnl hc (noTrail_free hnlk) (by simp) (fun h => hnlk (List.mem_of_head? h)) hs C.indent
    simpa only [List.append_assoc] using this
  · obtain ⟨r, r1, r2⟩ := h4.start hh h1 h2
    rw [List.append_assoc]
    refine header_same hh r1 (by omega) h2 ?_
    rcases Nat.lt_or_ge d (r + 3) with h | h
    · exact .inr (.inr ⟨h, by simp only [List.append_assoc]; exact (by decide : NL ≠ DASH)⟩)
    · exact .inl h

theorem Laid.plainPush (h : Laid inp doc t e0) (H : Lines ascii inp) (hh : hasHeader inp = false) (hn : t.nested) {x : Nat} (hx : Live doc x) {val : Val} {C : Coll} {w : Nat} {auto : Bytes}
    (hC : doc.data.sequence x = .ok C) (hlast : lastIn doc.data x = some w) (hauto : doc.data.pre w = .ok auto) (hga : wordGap ascii auto = true) (hv : val.kept = true)
    (hs : wordText ascii (val.newText 0) = true) :
    ∃ doc' out t' e', doc.edit x (.push val) = .ok doc' ∧ Laid out doc' t' e' ∧ Lines ascii out ∧ hasHeader out = false ∧ t'.nested := by
  obtain ⟨u, hu⟩ := (h.laid.holds.live_iff x).1 hx
  obtain ⟨p, ha⟩ := h.laid.holds.at hu
  obtain ⟨pre, items, rfl⟩ := collAt_node h.laid.holds hu (m := false) hC
  have hnu := Tree.nested_find hn hu
  have hk : C.kind = .block := by
    cases hk : C.kind with
    | block => rfl
    | inline => rw [hk, Tree.nested] at hnu; exact hnu.elim
  obtain ⟨b, d, h1, h2, h3, h4, -, ⟨u', hu', hto⟩, h6⟩ := h.pushT hh H.followed (.inr H.lbr) H.utf8 hx ha.text (h.textHead H hn hu) hC hk (fun pre' items' hf => by
    have := Tree.nested_find hn hf
    rw [Tree.nested] at this
    exact Items.nested_tail this.2) hlast hauto
  have hnl := LiesTo.lineEnd H hn hu' hto
  have hdl := (List.getElem?_eq_some_iff.1 hnl).1
  obtain ⟨l1, l2⟩ := lineBreak_endsLine hnl
  have hsep : val.sepText auto = auto := by
    cases val with
    | null => cases hv
    | _ => rfl
  obtain ⟨k1, k2, k3, k4⟩ := Val.kept_token hv l1
  obtain ⟨z0, z1, z2⟩ := wordText_head hs
  simp only [wordGap, Bool.and_eq_true, List.all_eq_true] at hga
  obtain ⟨doc', g1, ⟨t', e1, g2, g3⟩, -⟩ := h6 val (by rw [hsep]; exact hga.1.1) (by rw [Val.kept_text hv]; exact k1) (by rw [Val.kept_text hv]; exact z0) hdl l2
    (.plain hnl (fun hm => H.dq (List.mem_of_mem_take hm)) (fun hm => H.sq (List.mem_of_mem_take hm))) _ rfl
  rw [Val.kept_text hv] at g3
  refine ⟨doc', _, t', e1, g1, g2, ?_, ?_, g3 hn z1 z2⟩
  · rw [Val.kept_text hv, hsep]
    have hmid : noTrail (b! "-" ++ auto) = true := noTrail_append (x := b! "-") (by decide) hga.2 fun _ a ha => by
      obtain rfl : DASH = a := by simpa using ha
      decide
    have := H.addRow hnl (mid := b! "-" ++ auto) (fun b hb => by
      simp only [List.mem_append] at hb
      rcases hb with hb | hb
      · obtain rfl : b = DASH := by simpa using hb
        cases ascii <;> decide
      · exact hga.1.2 b hb) hmid (by simp) (by simp [NL]) hs C.indent
    simpa only [List.append_assoc] using this
  · obtain ⟨r, r1, r2⟩ := h4.start hh h1 h2
    rw [List.append_assoc]
    refine header_same hh r1 (by omega) h2 ?_
    rcases Nat.lt_or_ge d (r + 3) with h | h
    · exact .inr (.inr ⟨h, by simp only [List.append_assoc]; exact (by decide : NL ≠ DASH)⟩)
    · exact .inl h

theorem Laid.simple (h : Laid inp doc t e0) (hn : t.nested) {w : Nat} {u : Tree Nat} (hu : t.find w = some u) (hs : Scalar? doc.data w) : Simple doc.data w := by
  obtain ⟨pre, sc, rfl⟩ := h.scalar hu hs
  obtain ⟨p, ha⟩ := h.laid.holds.at hu
  have := Tree.nested_find hn hu
  rw [Tree.nested] at this
  refine ⟨fun t ht => ?_, fun C hC => absurd hC (hs true C), fun C hC => absurd hC (hs false C)⟩
  rw [ha.text, Tree.render] at ht
  obtain rfl := Except.ok.inj ht
  exact ⟨fun he => this.1 (by rw [he]; rfl), this.2⟩

/-- What is common to both removals. -/
theorem Lines.cutRow (H : Lines ascii inp) (hh : hasHeader inp = false) {x b e e' d : Nat} (hrf : ReadFrom inp doc x b d) (h1 : b < e) (h2 : e < e') (h3 : e' ≤ d) (h4 : d ≤ inp.length)
    (he : inp[e]? = some NL) (he' : inp[e']? = some NL) : Lines ascii (inp.take e ++ inp.drop e') ∧ hasHeader (inp.take e ++ inp.drop e') = false := by
  constructor
  · have := H.swap (d := e) (e := e') (y := []) he' (fun _ h => by cases h) rfl (fun h => by cases h) (by rw [List.append_nil]; exact H.before he)
    rwa [List.append_nil] at this
  · obtain ⟨r, r1, r2⟩ := hrf.start hh (by omega) h4
    refine header_same hh r1 (by omega) (by omega) ?_
    rcases Nat.lt_or_ge e (r + 3) with h | h
    · refine .inr (.inr ⟨h, ?_⟩)
      rw [List.headD_eq_head?_getD, List.head?_drop, he']
      exact (by decide : NL ≠ DASH)
    · exact .inl h

theorem Laid.plainRemove (h : Laid inp doc t e0) (H : Lines ascii inp) (hh : hasHeader inp = false) (hn : t.nested) {x : Nat} (hx : Live doc x) {key : Bytes} {L : List (Bytes × Nat)} {n : Nat}
    {k' : Bytes} {w : Nat} (hL : mapEntries doc.data x = .ok L) (hkey : L.findIdx? (·.1 == key) = some (n + 1)) (hb : L[n]? = some (k', w)) (hw : Scalar? doc.data w) :
    ∃ doc' out t' e', doc.edit x (.remove key) = .ok doc' ∧ Laid out doc' t' e' ∧ Lines ascii out ∧ hasHeader out = false ∧ t'.nested := by
  obtain ⟨pre, ind, k, items, p, hu, ha, -⟩ := h.laid.holds.mapNode hx hL
  have hC := mapping_of ha.get
  have hnu := Tree.nested_find hn hu
  have hk : k = .block := by
    cases k with
    | block => rfl
    | inline => rw [Tree.nested] at hnu; exact hnu.elim
  obtain ⟨b, e, e', d, i, h1, h2, h3, h4, h5, h6, -, ⟨u, u', u0, hu1, hto, hu2, hto', hu3, hto3⟩, -, -, h10⟩ := h.removeT hh H.followed (.inr H.lbr) H.utf8 hx ha.text (h.textHead H hn hu) hC hk hL hkey hb
  have he := LiesTo.lineEnd H hn hu1 hto
  have he' := LiesTo.lineEnd H hn hu2 hto'
  have hsm := h.simple hn hu1 hw
  have hd := LiesTo.lineEnd H hn hu3 hto3
  obtain ⟨doc', g1, ⟨t', e1, g2, g3⟩, -⟩ := h10 _ false (.ws (by omega)) he' (lineBreak_endsLine hd).2
    (.plain he (fun hm => H.dq (List.mem_of_mem_take hm)) (fun hm => H.sq (List.mem_of_mem_take hm))) (fun h => by cases h) (hsm.closes _ _ _) hsm.ends
  obtain ⟨q1, q2⟩ := H.cutRow hh h6 h1 h2 h3 h4 he he'
  exact ⟨doc', _, t', e1, g1, g2, q1, q2, g3 hn⟩

theorem Laid.plainRemoveAt (h : Laid inp doc t e0) (H : Lines ascii inp) (hh : hasHeader inp = false) (hn : t.nested) {x : Nat} (hx : Live doc x) {L : List Nat} {n : Nat}
    {w : Nat} (hL : seqValues doc.data x = .ok L) (hlen : n + 1 < L.length) (hb : L[n]? = some w) (hw : Scalar? doc.data w) :
    ∃ doc' out t' e', doc.edit x (.removeAt (n + 1)) = .ok doc' ∧ Laid out doc' t' e' ∧ Lines ascii out ∧ hasHeader out = false ∧ t'.nested := by
  obtain ⟨pre, ind, k, items, p, hu, ha, hLi⟩ := h.laid.holds.seqNode hx hL
  have hC := sequence_of ha.get
  have hnu := Tree.nested_find hn hu
  have hk : k = .block := by
    cases k with
    | block => rfl
    | inline => rw [Tree.nested] at hnu; exact hnu.elim
  have hl : n + 1 < items.ids.length := by
    rw [hLi, List.length_map, Items.length_pairs] at hlen
    exact hlen
  obtain ⟨b, e, e', d, i, h1, h2, h3, h4, h5, h6, -, ⟨u, u', u0, hu1, hto, hu2, hto', hu3, hto3⟩, -, -, h10⟩ := h.removeAtT hh H.followed (.inr H.lbr) H.utf8 hx ha.text (h.textHead H hn hu) hC hk hL hl hb
  have he := LiesTo.lineEnd H hn hu1 hto
  have he' := LiesTo.lineEnd H hn hu2 hto'
  have hsm := h.simple hn hu1 hw
  have hd := LiesTo.lineEnd H hn hu3 hto3
  obtain ⟨doc', g1, ⟨t', e1, g2, g3⟩, -⟩ := h10 _ false (.ws (by omega)) he' (lineBreak_endsLine hd).2
    (.plain he (fun hm => H.dq (List.mem_of_mem_take hm)) (fun hm => H.sq (List.mem_of_mem_take hm))) (fun h => by cases h) (hsm.closes _ _ _) hsm.ends
  obtain ⟨q1, q2⟩ := H.cutRow hh h6 h1 h2 h3 h4 he he'
  exact ⟨doc', _, t', e1, g1, g2, q1, q2, g3 hn⟩

/-- One edit. -/
theorem Laid.plainStep (h : Laid inp doc t e0) (H : Lines ascii inp) (hh : hasHeader inp = false) (hn : t.nested) {x : Nat} (hx : Live doc x) {op : Op} (ho : PlainEdit ascii doc x op) :
    ∃ doc' out t' e', doc.edit x op = .ok doc' ∧ Laid out doc' t' e' ∧ Lines ascii out ∧ hasHeader out = false ∧ t'.nested := by
  cases ho with
  | set h1 h2 h3 => exact h.plainSet H hh hn hx h1 h2 h3
  | insert h1 h2 h3 h4 h5 h6 => exact h.plainInsert H hh hn hx h1 h2 h3 h4 h5 h6
  | push h1 h2 h3 h4 h5 h6 => exact h.plainPush H hh hn hx h1 h2 h3 h4 h5 h6
  | remove h1 h2 h3 h4 => exact h.plainRemove H hh hn hx h1 h2 h3 h4
  | removeAt h1 h2 h3 h4 => exact h.plainRemoveAt H hh hn hx h1 h2 h3 h4

theorem Laid.plainSeries {doc' : Document} (hs : PlainEdits ascii doc doc') : ∀ {inp : Bytes} {t : Tree Nat} {e0 : Nat}, Laid inp doc t e0 → Lines ascii inp → hasHeader inp = false → t.nested →
    ∃ out t' e', Laid out doc' t' e' ∧ Lines ascii out ∧ hasHeader out = false ∧ t'.nested := by
  induction hs with
  | nil => exact fun h H hh hn => ⟨_, _, _, h, H, hh, hn⟩
  | cons hx ho he _ ih =>
    intro inp t e0 h H hh hn
    obtain ⟨doc1, out, t', e', h1, h2, h3, h4, h5⟩ := h.plainStep H hh hn hx ho
    obtain rfl := Except.ok.inj (h1.symm.trans he)
    exact ih h2 h3 h4 h5

end

/-- C90: a text of plain lines is parsed, and any plain edits are made one after the other.  Then what is written is again a text of plain lines, and is read back; and every plain edit that can be
made next works, so that it can be continued without end. -/
theorem C90_lines {ascii : Bool} {inp : Bytes} {doc doc' : Document} (h : Parsed inp doc) (H : Lines ascii inp) (hh : hasHeader inp = false) (hn : Nested doc) (hs : PlainEdits ascii doc doc') :
    (∃ out, doc'.write = .ok out ∧ Lines ascii out ∧ hasHeader out = false) ∧ Stable doc' ∧ ∀ x op, Live doc' x → PlainEdit ascii doc' x op → ∃ doc'', doc'.edit x op = .ok doc'' := by
  obtain ⟨t, e, hl⟩ := h.laid (C01_block_partial inp doc h hh H.followed H.utf8 H.lbr H.lcb) hh
  obtain ⟨out, t', e', h1, h2, h3, h4⟩ := Laid.plainSeries hs hl H hh (hl.nested H hn)
  refine ⟨⟨out, h1.write, h2, h3⟩, h1.stable h3, fun x op hx ho => ?_⟩
  obtain ⟨doc'', _, _, _, g1, -⟩ := h1.plainStep h2 h3 h4 hx ho
  exact ⟨doc'', g1⟩

/-! ## A case -/

/-- `Nested` for a document of which all values are in the list. -/
def nestedB (doc : Document) (l : List Nat) : Bool :=
  l.contains doc.root && l.all fun x => (match valueText doc.data x with | .ok [] => false | _ => true) && (kids doc.data x).all fun y => l.contains y &&
    [true, false].all fun m => [true, false].all fun m' => match collAt m doc.data x, collAt m' doc.data y with
      | .ok C, .ok C' => if m' || !m then decide (C.indent < C'.indent) else decide (C.indent ≤ C'.indent)
      | _, _ => true

theorem nestedB_nested {doc : Document} {l : List Nat} (h : nestedB doc l = true) : Nested doc := by
  rw [nestedB, Bool.and_eq_true, List.all_eq_true] at h
  obtain ⟨h1, h2⟩ := h
  have hl : ∀ x, Live doc x → x ∈ l := by
    intro x hx
    induction hx with
    | self => simpa using h1
    | step _ hc ih =>
      have := h2 _ ih
      rw [Bool.and_eq_true, List.all_eq_true] at this
      have := this.2 _ hc.kids.2
      rw [Bool.and_eq_true] at this
      simpa using this.1
  refine ⟨fun x hx he => ?_, fun x y m C m' C' hx hc hC hC' => ?_⟩
  · have := h2 _ (hl x hx)
    rw [Bool.and_eq_true, he] at this
    exact absurd this.1 (by decide)
  · have := h2 _ (hl x hx)
    rw [Bool.and_eq_true, List.all_eq_true] at this
    have := this.2 _ hc.kids.2
    rw [Bool.and_eq_true, List.all_eq_true] at this
    have := this.2 m (by cases m <;> decide)
    rw [List.all_eq_true] at this
    have := this m' (by cases m' <;> decide)
    rw [hC, hC'] at this
    dsimp only at this
    split at this
    · next hm => rw [if_pos hm]; exact of_decide_eq_true this
    · next hm => rw [if_neg hm]; exact of_decide_eq_true this

/-- Five edits in one document: a text is set, an entry is inserted in a nested mapping, the one before it is removed, an item is pushed to a sequence, and the one before it is removed. -/
example : ∃ doc doc', Parsed (b! "# list\nname: demo\ndeps:\n  serde: 1.0\n  toml: 0.8 # old\nfiles:\n- a.rs\n- b.rs\n") doc ∧ PlainEdits true doc doc' ∧
    doc'.write = .ok (b! "# list\nname: nicer\ndeps:\n  serde: 1.0\n  log: true\nfiles:\n- a.rs\n- c.rs\n") ∧ Stable doc' := by
  let doc := docOfText (b! "# list\nname: demo\ndeps:\n  serde: 1.0\n  toml: 0.8 # old\nfiles:\n- a.rs\n- b.rs\n")
  let doc1 := doc.after 2 (.setString (b! "nicer"))
  let doc2 := doc1.after 4 (.insert (b! "log") (.bool true))
  let doc3 := doc2.after 4 (.remove (b! "toml"))
  let doc4 := doc3.after 10 (.push (.str (b! "c.rs")))
  let doc5 := doc4.after 10 (.removeAt 1)
  have hp : Parsed (b! "# list\nname: demo\ndeps:\n  serde: 1.0\n  toml: 0.8 # old\nfiles:\n- a.rs\n- b.rs\n") doc := ⟨100, by decide +kernel⟩
  have live : ∀ {doc : Document} {L : List (Bytes × Nat)} (k : Bytes) {x : Nat}, asMapping doc.data doc.root = .ok (some doc.root) → mapEntries doc.data doc.root = .ok L → (k, x) ∈ L → Live doc x :=
    fun k _ h1 h2 h3 => .viaMap _ k .self h1 h2 h3
  have sc : ∀ {d : Data} {x : Nat}, (match d.mapping x, d.sequence x with | .error _, .error _ => true | _, _ => false) = true → Scalar? d x := by
    intro d x h m C hC
    cases m
    · have hC : d.sequence x = .ok C := hC
      rw [hC] at h
      revert h
      cases d.mapping x <;> exact fun h => by cases h
    · have hC : d.mapping x = .ok C := hC
      rw [hC] at h
      cases h
  have hs : PlainEdits true doc doc5 := by
    refine .cons (doc' := doc1) (x := 2) (op := .setString (b! "nicer")) (live (b! "name") (by decide +kernel) (L := [(b! "name", 2), (b! "deps", 4), (b! "files", 10)]) (by decide +kernel) (by decide))
      (.set (s := b! "nicer") (sc (by decide +kernel)) (by decide +kernel) (by decide +kernel)) (by decide +kernel) ?_
    refine .cons (doc' := doc2) (x := 4) (op := .insert (b! "log") (.bool true)) (live (b! "deps") (by decide +kernel) (L := [(b! "name", 2), (b! "deps", 4), (b! "files", 10)]) (by decide +kernel) (by decide))
      (.insert (C := ⟨2, .block, [5, 7]⟩) (by decide +kernel) (by decide +kernel) (by decide +kernel) (by decide +kernel) (by decide +kernel) (by decide +kernel)) (by decide +kernel) ?_
    refine .cons (doc' := doc3) (x := 4) (op := .remove (b! "toml")) (live (b! "deps") (by decide +kernel) (L := [(b! "name", 2), (b! "deps", 4), (b! "files", 10)]) (by decide +kernel) (by decide))
      (.remove (L := [(b! "serde", 6), (b! "toml", 8), (b! "log", 16)]) (n := 0) (k' := b! "serde") (w := 6) (by decide +kernel) (by decide +kernel) rfl (sc (by decide +kernel))) (by decide +kernel) ?_
    refine .cons (doc' := doc4) (x := 10) (op := .push (.str (b! "c.rs"))) (live (b! "files") (by decide +kernel) (L := [(b! "name", 2), (b! "deps", 4), (b! "files", 10)]) (by decide +kernel) (by decide))
      (.push (C := ⟨0, .block, [11, 13]⟩) (w := 14) (auto := b! " ") (by decide +kernel) (by decide +kernel) (by decide +kernel) (by decide +kernel) (by decide +kernel) (by decide +kernel)) (by decide +kernel) ?_
    refine .cons (doc' := doc5) (x := 10) (op := .removeAt 1) (live (b! "files") (by decide +kernel) (L := [(b! "name", 2), (b! "deps", 4), (b! "files", 10)]) (by decide +kernel) (by decide))
      (.removeAt (L := [12, 14, 7]) (n := 0) (w := 12) (by decide +kernel) (by decide) rfl (sc (by decide +kernel))) (by decide +kernel) .nil
  exact ⟨doc, doc5, hp, hs, by decide +kernel, (C90_lines hp ⟨by decide +kernel, by decide +kernel, by decide +kernel⟩ (by decide +kernel)
    (nestedB_nested (l := [0, 2, 4, 6, 8, 10, 12, 14]) (by decide +kernel)) hs).2.1⟩

end Verif
