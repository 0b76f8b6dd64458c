import Verif.Sound
import Verif.Props.RoundTrip
import Verif.Props.Shape
import Verif.Leaves
/-
`Display` against `write_to` (C02, C03).
-/
namespace Verif

/-- What `to_string` gives for `x`, parsed. -/
def shown (x : Bytes) : Except Stop Bytes := do (← fromSlice x).display

/-- C02: a UTF-8 document that is not edited is displayed as it is written. -/
theorem C02_display (x : Bytes) (doc : Document) (hv : validUtf8 x = true) (h : Parsed x doc) :
    ∃ out, doc.write = .ok out ∧ doc.display = .ok out := by
  obtain ⟨f, hf⟩ := h
  rw [parseF_refine] at hf
  cases hp : pparseF f x with
  | error e => rw [hp] at hf; cases hf
  | ok r =>
    obtain ⟨t, suffix⟩ := r
    rw [hp] at hf
    cases hf
    obtain ⟨h1, h2⟩ := parse_exact hv hp
    have h3 := (Tree.label_exact 0 t).2 h1
    have hh := docOf_holds t suffix
    refine ⟨_, hh.write, ?_⟩
    rw [hh.display, Tree.exact_disp h3, Tree.text, show (docOf t suffix).suffix = suffix from rfl, h2]
    congr 3
    cases t
    · exact h3.2.1
    · exact h3.1

example : validUtf8 (b! "é: 'ü' # ö\nlist:\n  - |\n    ß\n  - {k: \"a\\n\", n: ~}\nb:\n") = true ∧
    ∃ doc, Parsed (b! "é: 'ü' # ö\nlist:\n  - |\n    ß\n  - {k: \"a\\n\", n: ~}\nb:\n") doc :=
  ⟨by decide, parsed_of_accepts (by decide)⟩

/-- The hypothesis is needed: bytes that are not UTF-8 are written as they are but displayed as U+FFFD. -/
example : shown [0xFF] = .ok [0xEF, 0xBF, 0xBD] ∧ rewritten [0xFF] = .ok [0xFF] := by decide

/-! ### C03 -/

/-- C03 is false: white space before a value that is written as nothing is not displayed.  Here `a: 1` with the value set
to null. -/
theorem C03_display_false : ¬ ∀ doc, ReachableUtf8 doc → doc.display = doc.write := by
  intro h
  have h1 : Parsed (b! "a: 1") (docOfText (b! "a: 1")) := ⟨20, by decide⟩
  have h2 : (docOfText (b! "a: 1")).edit 2 (.setNull .empty) = .ok ((docOfText (b! "a: 1")).after 2 (.setNull .empty)) := by decide
  have h3 : Live (docOfText (b! "a: 1")) 2 := .viaMap [(b! "a", 2)] (b! "a") .self (by decide) (by decide) (by decide)
  exact absurd (h _ (.edited (.parsed (by decide) h1) h3 rfl h2)) (by decide)

/-- No `null` is written as nothing but the one that is stored as such. -/
def NullText (s : Scalar) : Prop := s ≠ .null (.keyword [])

theorem plainScalar_nullText (s : Bytes) : NullText (plainScalar s) := by
  unfold plainScalar NullText
  repeat' split
  all_goals simp
  rename_i h
  rintro rfl
  revert h
  decide

theorem lead_nullText {f : Nat} {inp : Bytes} {inline tab : Bool} {n : Nat} {s : Scalar} {ws : Option Bytes} {m : Nat}
    (h : lead f inp inline tab n = .ok (.scalar s ws m)) : NullText s := by
  rintro rfl
  simp only [lead, bind, Except.bind, pure, Except.pure] at h
  repeat' split at h
  all_goals first
    | (cases h; done)
    | (simp only [Except.ok.injEq, Lead.scalar.injEq] at h; exact plainScalar_nullText _ h.1)
    | skip
  rename_i hn
  cases h
  unfold number at hn
  simp only at hn
  repeat' split at hn
  all_goals cases hn

theorem ReachableUtf8.nullText {doc : Document} (h : ReachableUtf8 doc) : ∃ t, Holds doc t ∧ t.all NullText := by
  induction h with
  | parsed _ h => exact parsed_all h (by simp [NullText]) fun h => lead_nullText h
  | @edited doc doc' x op _ hl _ he ih =>
    obtain ⟨t, ht, ha⟩ := ih
    obtain ⟨u, hu⟩ := (ht.live_iff x).1 hl
    obtain ⟨d', i, v, mk, h1, _, _, h2⟩ := ht.editTree hu op
    have : doc' = ⟨doc.suffix, doc.root, d'⟩ := by
      simp [Document.edit, h1, bind, Except.bind, pure, Except.pure] at he; exact he.symm
    subst this
    refine ⟨_, h2, Tree.all_upd (Op.tree_all (Tree.all_find ha hu) (fun s hs => ?_) fun val _ => ?_) ha⟩
    · cases op <;> simp only [Op.scalar, Option.some.injEq, reduceCtorEq] at hs <;> subst hs
      · cases ‹NullKind› <;> simp [NullText, nullScalar]
      all_goals simp [NullText, strScalar, strWithScalar, blockScalar, boolScalar]
    · cases val <;> simp [NullText, Val.scalar, strScalar, blockScalar, boolScalar]

/-- The value is null, a mapping or a sequence, and nothing is written for it. -/
def WrittenAsNothing (doc : Document) (x : Nat) : Prop :=
  valueText doc.data x = .ok [] ∧ (asAny doc.data x = .ok .null ∨ asAny doc.data x = .ok (.mapping x) ∨ asAny doc.data x = .ok (.sequence x))

/-- These are the values of which the white space before them is not displayed. -/
theorem At.hidden {doc : Document} {x : Nat} {w : Tree Nat} {q : Option Nat} (ha : At doc x w q) (hn : ∀ i p, w ≠ .leaf i p (.null (.keyword []))) :
    WrittenAsNothing doc x ↔ w.showsPre = false := by
  have h1 := ha.text
  have h2 := asAny_of ha.rep
  rw [ha.id] at h2
  have hid := ha.id
  unfold WrittenAsNothing
  rw [h1, h2]
  cases w with
  | leaf i p s =>
    cases s with
    | null n =>
      cases n with
      | keyword s =>
        have : s ≠ [] := fun h => hn i p (by rw [h])
        simp [Tree.render, Scalar.write, RNull.write, Tree.showsPre, this]
      | tilde => simp [Tree.render, Scalar.write, RNull.write, Tree.showsPre]
      | empty => simp [Tree.render, Scalar.write, RNull.write, Tree.showsPre]
    | bool b t => simp [Tree.showsPre]
    | number b t => simp [Tree.showsPre]
    | string b => simp [Tree.showsPre]
  | node i p m n k items =>
    simp only [Tree.id] at hid
    subst hid
    cases k with
    | inline tr w => cases m <;> simp [Tree.render, Tree.showsPre, openOf]
    | block =>
      cases items with
      | nil => cases m <;> simp [Tree.render, Tree.showsPre, openOf, closeOf, Items.render, Items.isNil]
      | cons j q key v rest => cases m <;> simp [Tree.render, Tree.showsPre, openOf, closeOf, Items.render, Items.isNil]

mutual
/-- If nothing is left out, there is nothing to leave out. -/
theorem Tree.disp_tight : ∀ {t : Tree Nat}, t.sound → t.disp = t.render → ∀ x w, t.find x = some w → x ≠ t.id → w.tight
  | .leaf i p s, _, _, x, w, hf, hx => by
    simp only [Tree.find] at hf
    split at hf
    · next h => exact absurd h.symm hx
    · cases hf
  | .node i p m n k items, h, he, x, w, hf, hx => by
    rw [Tree.find, if_neg fun h => hx h.symm] at hf
    refine Items.disp_tight (m := m) (k := k) h.2.1 ?_ x w hf
    rw [Tree.disp, Tree.render] at he
    have hc : closeOfDisplay k (if m then RCB else RBR) = closeOf k (if m then RCB else RBR) := by
      cases k with
      | block => rfl
      | inline tr w => simp only [closeOf, closeOfDisplay, h.2.2 tr w rfl]
    rw [hc] at he
    exact List.append_cancel_left (List.append_cancel_right he)
theorem Items.disp_tight {m : Bool} {k : CollKind} : ∀ {is : Items Nat}, is.sound m → is.disp m k = is.render m k → ∀ x w, is.find x = some w → w.tight
  | .nil, _, _, x, w, hf => by simp [Items.find] at hf
  | .cons i p key v rest, h, he, x, w, hf => by
    obtain ⟨h1, h2, h3, h4⟩ := h
    have s1 := Tree.sound_sublist h3
    have s2 := Items.sound_sublist (k := k) h4
    have l1 := s1.length_le
    have l2 := s2.length_le
    have hl := congrArg List.length he
    have hp := lossy_valid (Tree.sound_pre h3)
    have hh : (lossy p ++ (if m then key.display ++ [COLON] else if k = .block then [DASH] else [])).length =
        (if m then p ++ key.write ++ [COLON] else lossy p ++ (if k = .block then [DASH] else [])).length := by
      cases m with
      | true => simp [h1, h2 rfl]
      | false => simp
    rw [Items.disp, Items.render] at hl
    simp only [List.length_append, hp] at hl hh
    have hv : (if v.showsPre then v.pre else []).length ≤ v.pre.length := by split <;> simp
    have ht : v.tight := fun h => by
      rw [h] at hl
      simp only [Bool.false_eq_true, if_false, List.length_nil] at hl
      exact List.eq_nil_of_length_eq_zero (by omega)
    have hv' := s1.eq_of_length (by omega)
    have hr := s2.eq_of_length (by omega)
    rw [Items.find] at hf
    cases hc : v.find x with
    | none => rw [hc] at hf; exact Items.disp_tight h4 hr x w hf
    | some z =>
      rw [hc] at hf
      cases hf
      by_cases hx : x = v.id
      · subst hx
        rw [Tree.find_self] at hc
        cases hc
        exact ht
      · exact Tree.disp_tight h3 hv' x w hc hx
end

/-- C03, when it holds: after any edits with UTF-8 texts, `Display` shows what is written exactly if no white space is before a null,
mapping or sequence that is written as nothing. -/
theorem C03_exact (doc : Document) (h : ReachableUtf8 doc) :
    doc.display = doc.write ↔ ∀ x, Live doc x → x ≠ doc.root → WrittenAsNothing doc x → doc.data.pre x = .ok [] := by
  obtain ⟨t, hh, hs, hsuf⟩ := h.sound
  have hr := hh.root
  have key : ∀ x w, t.find x = some w → (WrittenAsNothing doc x ↔ w.showsPre = false) ∧ doc.data.pre x = .ok w.pre := by
    intro x w hf
    obtain ⟨q, ha⟩ := hh.at hf
    refine ⟨ha.hidden ?_, pre_of ha.get⟩
    rintro i p rfl
    obtain ⟨t', hh', hn⟩ := h.nullText
    obtain ⟨w', hf'⟩ := (hh'.live_iff x).1 ((hh.live_iff x).2 ⟨_, hf⟩)
    obtain ⟨q', ha'⟩ := hh'.at hf'
    have hg := ha.get.symm.trans ha'.get
    have hw := Tree.all_find hn hf'
    cases w' with
    | leaf j p' s =>
      simp only [Tree.raw, Option.some.injEq, Entry.mk.injEq] at hg
      cases s <;> simp only [Scalar.toRaw, Raw.null.injEq, reduceCtorEq, false_and] at hg
      rw [← hg.1] at hw
      exact hw rfl
    | node j p' m n k items => cases m <;> cases hg
  have hdisp : doc.display = doc.write ↔ t.disp = t.render := by
    rw [hh.display, hh.write, hsuf, lossy_valid (Tree.sound_pre hs), Tree.text]
    simp
  rw [hdisp]
  constructor
  · intro hd x hl hx hw
    obtain ⟨w, hf⟩ := (hh.live_iff x).1 hl
    obtain ⟨k1, k2⟩ := key x w hf
    rw [k2, Tree.disp_tight hs hd x w hf (by rw [← hr]; exact hx) (k1.1 hw)]
  · intro hw
    cases t with
    | leaf i p s => exact hs.1
    | node i p m n k items =>
      have hn := hh.nodup
      rw [Tree.allIds_node, List.nodup_cons] at hn
      have he : items.exact m := Items.sound_exact hn.2 hs.2.1 fun x w hf => by
        have hx : i ≠ x := by
          rintro rfl
          exact hn.1 (Items.find_mem i m hf)
        have hf' : (Tree.node i p m n k items).find x = some w := by rw [Tree.find, if_neg hx]; exact hf
        intro hsh
        obtain ⟨k1, k2⟩ := key x w hf'
        have h1 := hw x ((hh.live_iff x).2 ⟨w, hf'⟩) (by rw [hr]; exact fun h => hx h.symm) (k1.2 hsh)
        rw [k2] at h1
        exact Except.ok.inj h1
      rw [Tree.disp, Tree.render, Items.exact_disp he]
      congr 1
      cases k with
      | block => rfl
      | inline tr w => simp only [closeOf, closeOfDisplay, hs.2.2 tr w rfl]

/-- C03, the part that holds: after any edits with UTF-8 texts, `Display` shows what is written if every value that is written as nothing
has no white space before it.  Missing: documents with such values, where the white space is not displayed. -/
theorem C03_display_partial (doc : Document) (h : ReachableUtf8 doc)
    (hw : ∀ x, Live doc x → x ≠ doc.root → valueText doc.data x = .ok [] → doc.data.pre x = .ok []) :
    ∃ out, doc.write = .ok out ∧ doc.display = .ok out := by
  obtain ⟨t, hh, -, -⟩ := h.sound
  refine ⟨_, hh.write, ?_⟩
  rw [(C03_exact doc h).2 fun x hl hx hn => hw x hl hx hn.1]
  exact hh.write

/-- C03, what always holds: what is displayed is what is written with parts left out, and nothing else. -/
theorem C03_sublist_partial (doc : Document) (h : ReachableUtf8 doc) :
    ∃ out s, doc.write = .ok out ∧ doc.display = .ok s ∧ s.Sublist out := by
  obtain ⟨t, hh, hs, hsuf⟩ := h.sound
  refine ⟨_, _, hh.write, hh.display, ?_⟩
  rw [hsuf, lossy_valid (Tree.sound_pre hs), Tree.text]
  exact ((List.Sublist.refl _).append (Tree.sound_sublist hs)).append (List.Sublist.refl _)

/-- Both sides of `C03_exact` are met and both are missed: by `a: 1` as it is, and with the value set to the empty null. -/
example : (docOfText (b! "a: 1")).display = (docOfText (b! "a: 1")).write ∧
    ((docOfText (b! "a: 1")).after 2 (.setNull .empty)).display = .ok (b! "a:") ∧
    ((docOfText (b! "a: 1")).after 2 (.setNull .empty)).write = .ok (b! "a: ") ∧
    WrittenAsNothing ((docOfText (b! "a: 1")).after 2 (.setNull .empty)) 2 ∧
    ((docOfText (b! "a: 1")).after 2 (.setNull .empty)).data.pre 2 = .ok [SP] :=
  ⟨by decide, by decide, by decide, ⟨by decide, .inl (by rfl)⟩, by decide⟩

/-- A string that is written as nothing does show the white space before it. -/
example : ((docOfText (b! "a: 1")).after 2 (.setStringWith (b! "") .bare)).display = .ok (b! "a: ") := by decide

/-- The sample with a string that has to be quoted and escaped, and a new entry. -/
def sampleQuoted : Document := (sample.after 2 (.setString (b! "ü:\t\""))).after 0 (.insert (b! "é") (.block [b! "ß", b! "a"] (.literal .clip)))

theorem sampleQuoted_reachable : ReachableUtf8 sampleQuoted := by
  have h1 : sample.edit 2 (.setString (b! "ü:\t\"")) = .ok (sample.after 2 (.setString (b! "ü:\t\""))) := by decide
  have h2 : (sample.after 2 (.setString (b! "ü:\t\""))).edit 0 (.insert (b! "é") (.block [b! "ß", b! "a"] (.literal .clip))) =
      .ok sampleQuoted := by decide
  exact .edited (.edited (.parsed (by decide) sample_parsed) sample_live_a (by decide) h1) .self (by decide) h2

example : sampleQuoted.display = .ok (b! "a: \"ü:\\t\\\"\"\nlist:\n  - x # c\n  - {k: 'v', n: ~}\nb: [p, q]\né: |\n  ß\n  a\n") := by decide

/-- Every value of it is written as something. -/
example : (∀ x, Live sampleQuoted x → x ≠ sampleQuoted.root → valueText sampleQuoted.data x = .ok [] →
    sampleQuoted.data.pre x = .ok []) := by
  obtain ⟨t, hh, -, -⟩ := sampleQuoted_reachable.sound
  intro x hl
  have hx : x < 30 := by
    obtain ⟨w, hf⟩ := (hh.live_iff x).1 hl
    obtain ⟨p, ha⟩ := hh.at hf
    have := ha.get
    refine Nat.lt_of_not_le fun hc => ?_
    unfold Slab.get at this
    rw [List.getElem?_eq_none (Nat.le_trans (show sampleQuoted.data.slab.slots.length ≤ 30 by decide) hc)] at this
    cases this
  clear hl
  revert x
  decide

end Verif
