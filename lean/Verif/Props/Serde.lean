import Verif.SerdeLemmas
import Verif.Props.Grammar
import Verif.Props.Samples
/-
C39, C40, C50: serialization and deserialization.
-/
namespace Verif

/-! ### Samples -/

/-- All number texts in the arena stand for a number. -/
def numbersFit (d : Data) : Bool := (List.range d.slab.slots.length).all fun i => match asNumber d i with | .ok (some s) => fits s | _ => true

theorem numbersFit_live {doc : Document} (h : numbersFit doc.data = true) (x : Nat) (s : Bytes) (hn : asNumber doc.data x = .ok (some s)) : fits s = true := by
  have hx : x < doc.data.slab.slots.length := by
    refine Classical.byContradiction fun hx => ?_
    have : doc.data.slab.get x = none := by simp [Slab.get, List.getElem?_eq_none (Nat.le_of_not_lt hx)]
    simp [asNumber, Data.raw, Data.entry, this, bind, Except.bind] at hn
  have := List.all_eq_true.1 h x (List.mem_range.2 hx)
  rw [hn] at this
  exact this

theorem sample_sound (wide : Bool) : Sound wide sample := .parsed sample_parsed fun x s _ h => numbersFit_live (by decide) x s h

/-- The sample with a number of 128 bits. -/
def opWide : Op := .setNumber (b! "340282366920938463463374607431768211455") .u128
def sampleWide : Document := sample.after 2 opWide
theorem opWide_typed : opWide.typed true := .inl ⟨.u128, 340282366920938463463374607431768211455, rfl, by decide, by decide, (fun h => by cases h)⟩
theorem sampleWide_sound : Sound true sampleWide := .edited (sample_sound true) sample_live_a opWide_typed (show sample.edit 2 opWide = _ by decide)

/-- The sample with another number, and one more. -/
def opNeg : Op := .setNumber (b! "-7") .i8
def opFloat : Op := .push (.number (b! "1.5") .f32)
def sampleNum : Document := (sample.after 2 opNeg).after 14 opFloat
theorem opNeg_typed (wide : Bool) : opNeg.typed wide := .inl ⟨.i8, -7, rfl, by decide, by decide, (fun _ => by decide)⟩
theorem opFloat_typed (wide : Bool) : opFloat.typed wide := .inr ⟨.inl rfl, by decide⟩
theorem sampleNum_sound (wide : Bool) : Sound wide sampleNum :=
  .edited (doc := sample.after 2 opNeg) (x := 14) (op := opFloat)
    (.edited (sample_sound wide) sample_live_a (opNeg_typed wide) (show sample.edit 2 opNeg = _ by decide))
    (.viaMap [(b! "a", 2), (b! "list", 4), (b! "b", 14)] (b! "b") .self (by decide) (by decide) (by decide)) (opFloat_typed wide) (by decide)
theorem sampleNum_live_b : Live sampleNum 14 :=
  .viaMap [(b! "a", 2), (b! "list", 4), (b! "b", 14)] (b! "b") .self (by decide) (by decide) (by decide)

/-- What the sequence in it reads as. -/
def contentB : Content := .seq (.cons (.scalar (.string (b! "p"))) (.cons (.scalar (.string (b! "q"))) (.cons (.scalar (.number (b! "1.5"))) .nil)))
theorem sampleNum_reads : Reads sampleNum.data 14 contentB :=
  ⟨[16, 18, 20], ⟨by decide, by decide⟩, _, _, rfl, ⟨by decide, rfl⟩, _, _, rfl, ⟨by decide, rfl⟩, _, _, rfl, ⟨by decide, rfl⟩, rfl⟩

/-- Every value of a document reads as something (as one thing: `Reads.unique`). -/
theorem reads_some {doc : Document} {x : Nat} (h : Reachable doc) (hl : Live doc x) : ∃ c, Reads doc.data x c := by
  obtain ⟨t, ht⟩ := h.holds
  obtain ⟨u, hu⟩ := (ht.live_iff x).1 hl
  obtain ⟨p, hat⟩ := ht.at hu
  exact ⟨_, Tree.find_id hu ▸ Tree.content_reads hat.rep⟩

/-! ### C39 -/

/-- C39 is false: a number that does not fit is serialized as null. -/
theorem C39_number_false : ¬ ∀ doc x e s, Reachable doc → Live doc x → asNumber doc.data x = .ok (some s) → serialize doc.data x = .ok e → e ≠ [.none] := by
  intro h
  exact h (docOfText (b! "18446744073709551616")) 0 [.none] (b! "18446744073709551616") (.parsed (inp := b! "18446744073709551616") ⟨40, by decide⟩) .self
    (by decide) (by decide) rfl

/-- C39, but for those numbers: whatever a value reads as, that is what is serialized: its entries and elements in order, with their number ahead, strings, booleans and
nulls; a number as one written the same, or as null. -/
theorem C39_image_partial {doc : Document} {x : Nat} {c : Content} (h : Reachable doc) (hl : Live doc x) (hc : Reads doc.data x c) :
    ∃ e, serialize doc.data x = .ok e ∧ Says (fun s n => n = .none ∨ n.shows s) strEv some c e := by
  obtain ⟨t, ht⟩ := h.holds
  obtain ⟨u, hu⟩ := (ht.live_iff x).1 hl
  obtain ⟨p, hat⟩ := ht.at hu
  have hid := Tree.find_id hu
  rw [Reads.unique hc (hid ▸ Tree.content_reads hat.rep), serialize, ← hid]
  refine serializeF_tree hat.rep hat.fuel (Tree.all_true fun s => ?_)
  cases s <;> try trivial
  exact numEv_shows _ _

example : ∃ e, serialize sampleNum.data 14 = .ok e ∧ Says (fun s n => n = .none ∨ n.shows s) strEv some contentB e :=
  C39_image_partial (.edited (.edited sample_reachable sample_live_a (show sample.edit 2 opNeg = .ok (sample.after 2 opNeg) by decide))
    (.viaMap [(b! "a", 2), (b! "list", 4), (b! "b", 14)] (b! "b") .self (by decide) (by decide) (by decide)) (show (sample.after 2 opNeg).edit 14 opFloat = .ok sampleNum by decide)) sampleNum_live_b sampleNum_reads
/-- `a: 1`, `list: [x # c, {k: v, n: null}]`, `b: [p, q]`. -/
example : serialize sample.data 0 = .ok [.map (some 3), .str (b! "a"), .int .u64 1, .str (b! "list"), .seq (some 2), .str (b! "x # c"),
    .map (some 2), .str (b! "k"), .str (b! "v"), .str (b! "n"), .none, .stop, .stop, .str (b! "b"), .seq (some 2), .str (b! "p"), .str (b! "q"), .stop, .stop] := by decide

/-- C39 for documents in which all numbers of the text fit: a number is serialized as the number written. -/
theorem C39_numbers_partial {doc : Document} {x : Nat} {c : Content} (h : Sound true doc) (hl : Live doc x) (hc : Reads doc.data x c) :
    ∃ e, serialize doc.data x = .ok e ∧ Says (fun s n => n.shows s) strEv some c e := by
  obtain ⟨t, ht, ha⟩ := h.holds
  obtain ⟨u, hu⟩ := (ht.live_iff x).1 hl
  obtain ⟨p, hat⟩ := ht.at hu
  have hid := Tree.find_id hu
  rw [Reads.unique hc (hid ▸ Tree.content_reads hat.rep), serialize, ← hid]
  refine serializeF_tree hat.rep hat.fuel (Tree.all_mono (fun s hs => ?_) (Tree.all_find ha hu))
  cases s <;> try trivial
  exact NumOk.shows hs

example : ∃ e, serialize sampleNum.data 14 = .ok e ∧ Says (fun s n => n.shows s) strEv some contentB e := C39_numbers_partial (sampleNum_sound true) sampleNum_live_b sampleNum_reads
example : ∃ c e, Reads sampleWide.data 0 c ∧ serialize sampleWide.data 0 = .ok e ∧ Says (fun s n => n.shows s) strEv some c e := by
  obtain ⟨c, hc⟩ := reads_some (.edited sample_reachable sample_live_a (show sample.edit 2 opWide = .ok sampleWide by decide)) .self
  obtain ⟨e, he⟩ := C39_numbers_partial sampleWide_sound .self hc
  exact ⟨c, e, hc, he⟩

/-! ### C40 -/

/-- C40 is false: with a number that does not fit, `deserialize_any` and `deserialize_u64` call each other without end. -/
theorem C40_end_false : ¬ ∀ doc x m, Reachable doc → Live doc x → ∃ f r, deserialize f doc.data x m = r ∧ r ≠ .error (.other .fuel) := by
  intro h
  obtain ⟨f, r, h1, h2⟩ := h (docOfText (b! "18446744073709551616")) 0 .any (.parsed (inp := b! "18446744073709551616") ⟨40, by decide⟩) .self
  rw [(deserialize_never (s := b! "18446744073709551616") (h := .u64) (by decide) (by decide) (by decide) f).1] at h1
  exact h2 h1.symm

/-- C40 for documents in which all numbers of the text fit: every request ends, after at most three steps, with a call of the visitor or an error. -/
theorem C40_end_partial {doc : Document} {x : Nat} (h : Sound true doc) (hl : Live doc x) (m : Method) :
    ∃ r, (∀ st, r ≠ .error (.other st)) ∧ ∀ f, deserialize (f + 3) doc.data x m = r := by
  obtain ⟨t, ht, ha⟩ := h.holds
  obtain ⟨u, hu⟩ := (ht.live_iff x).1 hl
  obtain ⟨p, hat⟩ := ht.at hu
  have hid := Tree.find_id hu
  subst hid
  have hu := Tree.all_find ha hu
  have hany : ∃ r : Except SErr Visit, (∀ st, r ≠ .error (.other st)) ∧ ∀ f, deserialize (f + 2) doc.data u.id .any = r := by
    by_cases hw : ∃ i p s hh, u = .leaf i p (.number s hh) ∧ (hh = .u128 ∨ hh = .i128)
    · refine ⟨.error .unsupported, (fun st h => by cases h), fun f => ?_⟩
      obtain ⟨i, p, s, hh, rfl, hw⟩ := hw
      have hr := raw_of hat.rep.head
      exact deserialize_number hr _ (by rw [deserialize_method hr, if_pos hw])
    · refine ⟨.ok u.visit, (fun st h => by cases h), fun f => ?_⟩
      rcases deserialize_tree hat.rep (fun i p s hh he => .inl (by subst he; exact Ev.shows_ne (NumOk.shows hu))) f with h | ⟨i, p, s, hh, h1, h2, _⟩
      · exact h
      · exact absurd ⟨_, _, _, _, h1, h2⟩ hw
  obtain ⟨r, h1, h2⟩ := hany
  obtain ⟨r', h3, h4⟩ := deserialize_ends hat.rep h2 m
  refine ⟨r', ?_, h4⟩
  rcases h3 with rfl | rfl | ⟨v, rfl⟩
  · exact h1
  · exact fun st h => by cases h
  · exact fun st h => by cases h

example (m : Method) : ∃ r, (∀ st, r ≠ .error (.other st)) ∧ ∀ f, deserialize (f + 3) sampleNum.data 14 m = r := C40_end_partial (sampleNum_sound true) sampleNum_live_b m

/-- Exactly the numbers that do not fit make `deserialize_any` of a parsed document run forever. -/
theorem C40_exact_partial {inp : Bytes} {doc : Document} {x : Nat} (h : Parsed inp doc) (hl : Live doc x) :
    (∀ f, deserialize f doc.data x .any = .error (.other .fuel)) ↔ ∃ s, asNumber doc.data x = .ok (some s) ∧ fits s = false := by
  obtain ⟨t, ht, ha⟩ := parsed_like h
  obtain ⟨u, hu⟩ := (ht.live_iff x).1 hl
  obtain ⟨p, hat⟩ := ht.at hu
  have hid := Tree.find_id hu
  subst hid
  have hu := Tree.all_find ha hu
  have narrow : ∀ {s hh}, NumLike s hh → ¬ (hh = .u128 ∨ hh = .i128) := by
    rintro s hh (⟨rfl, _⟩ | ⟨rfl, _⟩ | ⟨rfl, _⟩) (h | h) <;> cases h
  constructor
  · intro hf
    refine Classical.byContradiction fun hno => ?_
    have hok : ∀ i p s hh, u = .leaf i p (.number s hh) → numEv s hh ≠ .none ∨ hh = .u128 ∨ hh = .i128 := by
      rintro i p s hh rfl
      refine .inl (Ev.shows_ne (NumOk.shows (wide := false) ((hu s hh rfl).ok ?_)))
      cases hs : fits s with
      | true => rfl
      | false =>
        refine absurd ⟨s, ?_, hs⟩ hno
        have hr := raw_of hat.rep.head
        simp only [Tree.id_leaf] at hr ⊢
        simp [asNumber, hr, Tree.raw, Scalar.toRaw, bind, Except.bind, pure, Except.pure]
    rcases deserialize_tree hat.rep hok 0 with h | ⟨i, p, s, hh, h1, h2, _⟩
    · rw [hf] at h; cases h
    · subst h1
      exact narrow (hu _ _ rfl) h2
  · rintro ⟨s, hn, hs⟩ f
    obtain ⟨i, p, hh, rfl⟩ := asNumber_leaf hat.rep hn
    have hr := raw_of hat.rep.head
    exact (deserialize_never hr (narrow (hu _ _ rfl)) ((hu _ _ rfl).none hs) f).1

/-- Numbers that run forever: an exponent without digits, an integer of 65 bits. -/
example : ∀ f, deserialize f (docOfText (b! "1e")).data 0 .any = .error (.other .fuel) :=
  (C40_exact_partial (inp := b! "1e") ⟨20, by decide⟩ .self).2 ⟨b! "1e", by decide, by decide⟩
example : ¬ ∀ f, deserialize f sample.data 2 .any = .error (.other .fuel) := by
  rw [C40_exact_partial sample_parsed sample_live_a]
  rintro ⟨s, h1, h2⟩
  rw [numbersFit_live (doc := sample) (by decide) 2 s h1] at h2
  cases h2

/-! ### C50 -/

/-- C50: whoever deserializes everything gets exactly what the value reads as. -/
theorem C50_take {doc : Document} {x : Nat} {c : Content} (h : Sound false doc) (hl : Live doc x) (hc : Reads doc.data x c) :
    ∃ e, takeF (doc.data.fuel + 1) doc.data x = .ok e ∧ Says (fun s n => n.shows s) Ev.bytes (fun _ => none) c e := by
  obtain ⟨t, ht, ha⟩ := h.holds
  obtain ⟨u, hu⟩ := (ht.live_iff x).1 hl
  obtain ⟨p, hat⟩ := ht.at hu
  have hid := Tree.find_id hu
  rw [Reads.unique hc (hid ▸ Tree.content_reads hat.rep), ← hid]
  exact takeF_tree hat.rep (Nat.succ_le_succ hat.fuel) (Tree.all_find ha hu)

example : ∃ e, takeF (sampleNum.data.fuel + 1) sampleNum.data 14 = .ok e ∧ Says (fun s n => n.shows s) Ev.bytes (fun _ => none) contentB e :=
  C50_take (sampleNum_sound false) sampleNum_live_b sampleNum_reads

/-- C50: a request for a number, or for anything, gets the number written. -/
theorem C50_number {doc : Document} {x : Nat} {s : Bytes} {m : Method} (h : Sound false doc) (hl : Live doc x) (hn : asNumber doc.data x = .ok (some s))
    (hm : m.numeric = true ∨ m = .any) : ∃ n : Ev, n.shows s ∧ ∀ f, deserialize (f + 3) doc.data x m = .ok n.visit := by
  obtain ⟨t, ht, ha⟩ := h.holds
  obtain ⟨u, hu⟩ := (ht.live_iff x).1 hl
  obtain ⟨p, hat⟩ := ht.at hu
  have hid := Tree.find_id hu
  subst hid
  obtain ⟨i, p, hh, rfl⟩ := asNumber_leaf hat.rep hn
  have hu : NumOk false s hh := Tree.all_find ha hu
  have hr : doc.data.raw i = .ok (.number s hh) := raw_of hat.rep.head
  have hany : ∀ f, deserialize (f + 2) doc.data i .any = .ok (numEv s hh).visit := fun f =>
    deserialize_number hr _ (by rw [deserialize_method hr, if_neg hu.narrow, if_neg (Ev.shows_ne hu.shows)])
  have hf : asFloat doc.data i = .ok (if floatText s then some s else none) := by simp [asFloat, hr, bind, Except.bind, pure, Except.pure]
  have hi : ∀ t, asInt t doc.data i = .ok (lexParse t s) := by intro t; simp [asInt, hr, bind, Except.bind, pure, Except.pure]
  show ∃ n : Ev, n.shows s ∧ ∀ f, deserialize (f + 3) doc.data i m = .ok n.visit
  rcases hm with hm | rfl
  · cases m <;> try (cases hm; done)
    case int t =>
      have ht : ¬ (t = .u128 ∨ t = .i128) := by
        rintro (rfl | rfl) <;> cases hm
      cases hp : lexParse t s with
      | none => exact ⟨_, hu.shows, fun f => by rw [deserialize, if_neg ht]; simp only [hi, hp, lift, bind, Except.bind]; exact hany f⟩
      | some v => exact ⟨.int t v, lexParse_decimal hp, fun f => by rw [deserialize, if_neg ht]; simp only [hi, hp, lift, bind, Except.bind]; rfl⟩
    case f32 =>
      cases hp : floatText s with
      | false => exact ⟨_, hu.shows, fun f => by rw [deserialize]; simp only [hf, hp, lift, bind, Except.bind]; exact hany f⟩
      | true => exact ⟨.f32 s, ⟨rfl, (floatText_iff s).1 hp⟩, fun f => by rw [deserialize]; simp only [hf, hp, lift, bind, Except.bind]; rfl⟩
    case f64 =>
      cases hp : floatText s with
      | false => exact ⟨_, hu.shows, fun f => by rw [deserialize]; simp only [hf, hp, lift, bind, Except.bind]; exact hany f⟩
      | true => exact ⟨.f64 s, ⟨rfl, (floatText_iff s).1 hp⟩, fun f => by rw [deserialize]; simp only [hf, hp, lift, bind, Except.bind]; rfl⟩
  · exact ⟨_, hu.shows, fun f => hany (f + 1)⟩

example : ∃ n : Ev, n.shows (b! "-7") ∧ ∀ f, deserialize (f + 3) sampleNum.data 2 (.int .u16) = .ok n.visit :=
  C50_number (sampleNum_sound false)
    (.viaMap [(b! "a", 2), (b! "list", 4), (b! "b", 14)] (b! "a") .self (by decide) (by decide) (by decide)) (by decide) (.inl rfl)

/-- C50: a request for an integer type gets it, if the number fits. -/
theorem C50_integer {doc : Document} {x : Nat} {s : Bytes} {t : IntTy} {v : Int} (hn : asNumber doc.data x = .ok (some s)) (hd : decimal s = some v)
    (ht : t.has v = true) (hb : t.bits ≠ 128) (hs : t.signed = true ∨ Verif.hd s ≠ DASH) (f : Nat) : deserialize (f + 1) doc.data x (.int t) = .ok (.int t v) := by
  have hi : asInt t doc.data x = .ok (some v) := by
    simp only [asNumber, asInt, bind, Except.bind, pure, Except.pure] at hn ⊢
    cases hr : doc.data.raw x with
    | error e => rw [hr] at hn; cases hn
    | ok r =>
      rw [hr] at hn
      cases r <;> simp only [Except.ok.injEq] at hn <;> cases hn
      simp only [lexParse_of_decimal hd ht hs]
  have h2 : ¬ (t = .u128 ∨ t = .i128) := by rintro (rfl | rfl) <;> exact hb rfl
  rw [deserialize, if_neg h2]
  simp only [hi, lift, bind, Except.bind]; rfl

example (f : Nat) : deserialize (f + 1) sample.data 2 (.int .i8) = .ok (.int .i8 1) := C50_integer (s := b! "1") (by decide) (by decide) (by decide) (by decide) (.inl rfl) f

/-- C50: the other requests get what the accessors give; absence only for null. -/
theorem C50_others {doc : Document} {x : Nat} (h : Reachable doc) (hl : Live doc x) (f : Nat) :
    (∀ b, asBool doc.data x = .ok (some b) → ∀ m, m = .bool ∨ m = .any → deserialize (f + 1) doc.data x m = .ok (.bool b)) ∧
    (∀ s, asStr doc.data x = .ok (some s) → ∀ m, m = .str ∨ m = .string ∨ m = .char ∨ m = .any → deserialize (f + 1) doc.data x m = .ok (.str s)) ∧
    (∀ s, asBstr doc.data x = .ok (some s) → ∀ m, m = .bytes ∨ m = .byteBuf → deserialize (f + 1) doc.data x m = .ok (.bytes s)) ∧
    (∀ l, IsSeq doc.data x l → ∀ m, m = .seq ∨ m = .tuple ∨ m = .any →
      ∃ it, deserialize (f + 1) doc.data x m = .ok (.seq it) ∧ it.rest.mapM doc.data.sequenceItem = .ok l) ∧
    (∀ l, IsMap doc.data x l → ∀ m, m = .map ∨ m = .any →
      ∃ it, deserialize (f + 1) doc.data x m = .ok (.map it) ∧ it.rest.mapM (mapItemOf doc.data) = .ok l) ∧
    (asAny doc.data x = .ok .null → deserialize (f + 1) doc.data x .option = .ok .none) ∧
    (∀ v, asAny doc.data x = .ok v → v ≠ .null → deserialize (f + 1) doc.data x .option = .ok (.some x)) := by
  obtain ⟨t, ht⟩ := h.holds
  obtain ⟨u, hu⟩ := (ht.live_iff x).1 hl
  obtain ⟨p, hat⟩ := ht.at hu
  have hid := Tree.find_id hu
  subst hid
  have hr := raw_of hat.rep.head
  refine ⟨?_, ?_, ?_, ?_, ?_, ?_, ?_⟩
  · intro b hb m hm
    have hq : ∃ s, u.raw = .bool b s := by
      simp only [asBool, hr, bind, Except.bind, pure, Except.pure] at hb
      cases hu : u.raw <;> rw [hu] at hb <;> simp only [Except.ok.injEq] at hb <;> cases hb
      exact ⟨_, rfl⟩
    obtain ⟨s, hq⟩ := hq
    rcases hm with rfl | rfl <;> rw [deserialize]
    · simp only [hb, lift, bind, Except.bind]; rfl
    · simp only [hr, hq, lift, bind, Except.bind]; rfl
  · intro s hs m hm
    have hq : ∃ r, u.raw = .string r ∧ r.id = s ∧ validUtf8 s = true := by
      simp only [asStr, hr, bind, Except.bind, pure, Except.pure] at hs
      cases hu : u.raw <;> rw [hu] at hs <;> simp only [Except.ok.injEq] at hs <;> try (cases hs; done)
      split at hs
      · next hv => cases hs; exact ⟨_, rfl, rfl, hv⟩
      · cases hs
    obtain ⟨r, hq, rfl, hv⟩ := hq
    rcases hm with rfl | rfl | rfl | rfl <;> rw [deserialize]
    · simp only [hs, lift, bind, Except.bind]; rfl
    · simp only [hs, lift, bind, Except.bind]; rfl
    · simp only [hs, lift, bind, Except.bind]; rfl
    · simp only [hr, hq, lift, bind, Except.bind, hv, if_true]; rfl
  · intro s hs m hm
    rcases hm with rfl | rfl <;> rw [deserialize] <;> simp only [hs, lift, bind, Except.bind] <;> rfl
  · rintro l ⟨h1, h2⟩ m hm
    have hq : ∃ c, u.raw = .sequence c := by
      simp only [asSequence, hr, bind, Except.bind, pure, Except.pure] at h1
      cases hu : u.raw <;> rw [hu] at h1 <;> simp only [Except.ok.injEq] at h1 <;> try (cases h1; done)
      exact ⟨_, rfl⟩
    obtain ⟨c, hq⟩ := hq
    have hit : ∃ it, seqIter doc.data u.id = .ok it ∧ it.rest.mapM doc.data.sequenceItem = .ok l := by
      simp only [seqValues, bind, Except.bind] at h2
      cases hs : seqIter doc.data u.id with
      | error e => rw [hs] at h2; cases h2
      | ok c => rw [hs] at h2; exact ⟨_, rfl, h2⟩
    obtain ⟨it, h3, h4⟩ := hit
    refine ⟨it, ?_, h4⟩
    rcases hm with rfl | rfl | rfl <;> rw [deserialize]
    · simp only [h1, h3, lift, bind, Except.bind]; rfl
    · simp only [h1, h3, lift, bind, Except.bind]; rfl
    · simp only [hr, hq, h3, lift, bind, Except.bind]; rfl
  · rintro l ⟨h1, h2⟩ m hm
    have hq : ∃ c, u.raw = .mapping c := by
      simp only [asMapping, hr, bind, Except.bind, pure, Except.pure] at h1
      cases hu : u.raw <;> rw [hu] at h1 <;> simp only [Except.ok.injEq] at h1 <;> try (cases h1; done)
      exact ⟨_, rfl⟩
    obtain ⟨c, hq⟩ := hq
    have hit : ∃ it, mapIter doc.data u.id = .ok it ∧ it.rest.mapM (mapItemOf doc.data) = .ok l := by
      simp only [mapEntries, bind, Except.bind] at h2
      cases hs : mapIter doc.data u.id with
      | error e => rw [hs] at h2; cases h2
      | ok c => rw [hs] at h2; exact ⟨_, rfl, h2⟩
    obtain ⟨it, h3, h4⟩ := hit
    refine ⟨it, ?_, h4⟩
    rcases hm with rfl | rfl <;> rw [deserialize]
    · simp only [h1, h3, lift, bind, Except.bind]; rfl
    · simp only [hr, hq, h3, lift, bind, Except.bind]; rfl
  · intro ha
    rw [deserialize]
    simp only [asAny, hr, bind, Except.bind, pure, Except.pure] at ha
    simp only [hr, lift, bind, Except.bind]
    cases hu : u.raw <;> rw [hu] at ha <;> simp only [Except.ok.injEq] at ha <;> first | (cases ha; done) | rfl
  · intro v ha hv
    rw [deserialize]
    simp only [asAny, hr, bind, Except.bind, pure, Except.pure] at ha
    simp only [hr, lift, bind, Except.bind]
    cases hu : u.raw <;> rw [hu] at ha <;> simp only [Except.ok.injEq] at ha <;> first | rfl | exact absurd ha.symm hv

example (f : Nat) : deserialize (f + 1) sample.data 10 .string = .ok (.str (b! "v")) :=
  (C50_others sample_reachable sample_live_k f).2.1 _ (by decide) _ (.inr (.inl rfl))
example (f : Nat) : ∃ it, deserialize (f + 1) sample.data 0 .map = .ok (.map it) ∧ it.rest.mapM (mapItemOf sample.data) = .ok [(b! "a", 2), (b! "list", 4), (b! "b", 14)] :=
  (C50_others sample_reachable sample_live_root f).2.2.2.2.1 _ ⟨by decide, sample_entries⟩ _ (.inl rfl)

/-- C50: a number read as a floating point number gives its text if and only if that is the text of one. -/
theorem C50_floats {d : Data} {x : Nat} {s : Bytes} (h : asNumber d x = .ok (some s)) :
    asFloat d x = .ok (some s) ∧ IsFloat s ∨ asFloat d x = .ok none ∧ ¬ IsFloat s := by
  simp only [asNumber, asFloat, bind, Except.bind, pure, Except.pure] at h ⊢
  cases hr : d.raw x with
  | error => rw [hr] at h; cases h
  | ok r =>
    rw [hr] at h
    cases r <;> cases h
    rw [← floatText_iff]
    cases hf : floatText s <;> simp [hf]

example : asFloat (docOfText (b! "-1.50e7")).data 0 = .ok (some (b! "-1.50e7")) ∧ IsFloat (b! "-1.50e7") :=
  (C50_floats (x := 0) (s := b! "-1.50e7") (d := (docOfText (b! "-1.50e7")).data) (by decide)).resolve_right (fun h => absurd h.1 (by decide))
example : asFloat (docOfText (b! "1.e")).data 0 = .ok none ∧ ¬ IsFloat (b! "1.e") :=
  (C50_floats (x := 0) (s := b! "1.e") (d := (docOfText (b! "1.e")).data) (by decide)).resolve_left (fun h => absurd h.1 (by decide))

end Verif
