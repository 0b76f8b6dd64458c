import Verif.SerdeSpec
import Verif.Leaves
import Verif.GrammarDocs
import Verif.Props.Ints
/-
Lemmas for the `serde` properties.
-/
namespace Verif

/-! ### Number texts -/

theorem digitsVal_eq : ∀ {s : Bytes} {acc : Nat}, s.all isDigit = true → digitsVal acc s = some (s.foldl (fun a b => a * 10 + (b.toNat - 48)) acc)
  | [], _, _ => rfl
  | b :: r, acc, h => by
    simp only [List.all_cons, Bool.and_eq_true] at h
    simp only [digitsVal, h.1, if_true, List.foldl_cons]
    exact digitsVal_eq h.2

theorem natOf_eq {s : Bytes} (h : s.all isDigit = true) (hn : s ≠ []) : natOf s = digitsVal 0 s := by
  have : s.isEmpty = false := by simpa using hn
  rw [natOf, this, h, digitsVal_eq h]; rfl

theorem natOf_natText (n : Nat) : natOf (natText n) = some n := by
  rw [natOf_eq (s := natText n) (List.all_eq_true.2 fun b h => digitsF_digits b h) (natText_ne n), natText_val]

theorem decimal_intText (x : Int) : decimal (intText x) = some x := by
  cases x with
  | ofNat n =>
    obtain ⟨b, r, h1, h2⟩ := natText_cons n
    have := natOf_natText n
    rw [h1] at this
    simp only [intText, h1, decimal, beq_eq_false_iff_ne.2 (digit_ne h2).2.1, beq_eq_false_iff_ne.2 (digit_ne h2).1, Bool.false_eq_true, if_false, this]
    rfl
  | negSucc n =>
    simp only [intText, decimal, beq_self_eq_true, if_true, natOf_natText, Option.map_some]
    rfl

/-- What the parser makes a number of. -/
def NumLike (s : Bytes) (h : Hint) : Prop :=
  (h = .u64 ∧ s ≠ [] ∧ s.all isDigit = true) ∨ (h = .i64 ∧ ∃ r, s = DASH :: r ∧ r ≠ [] ∧ r.all isDigit = true) ∨
  (h = .f64 ∧ decimal s = none)

theorem numGo_digits : ∀ {s : Bytes} {wd we hn : Bool} {k : Nat} {fl : Bool}, numGo wd we hn s = (k, fl) →
    k ≤ s.length ∧ (s.take k).all isDigit = !fl
  | [], _, _, _, _, _, h => by cases h; simp
  | b :: r, wd, we, hn, k, fl, h => by
    simp only [numGo] at h
    split at h
    · next hb =>
      cases hr : numGo false we hn r with
      | mk k' f' =>
        rw [hr] at h; cases h
        have hb : b = 46 := by rw [Bool.and_eq_true] at hb; exact beq_iff_eq.1 hb.1
        have := numGo_digits hr
        refine ⟨by simp; omega, ?_⟩
        subst hb
        simp [show isDigit 46 = false by decide]
    · split at h
      · next hb =>
        cases hr : numGo false false hn r with
        | mk k' f' =>
          rw [hr] at h; cases h
          have := numGo_digits hr
          refine ⟨by simp; omega, ?_⟩
          have hb : b = 101 ∨ b = 69 := by rw [Bool.and_eq_true, Bool.or_eq_true] at hb; simpa using hb.1
          rcases hb with rfl | rfl
          · simp [show isDigit 101 = false by decide]
          · simp [show isDigit 69 = false by decide]
      · split at h
        · next hd =>
          cases hr : numGo wd we true r with
          | mk k' f' =>
            rw [hr] at h; cases h
            have := numGo_digits hr
            exact ⟨by simp; omega, by simp [hd, this.2]⟩
        · cases h; simp

theorem natOf_none {s : Bytes} (h : s.all isDigit = false) : natOf s = none := by simp [natOf, h]

theorem number_like {inp : Bytes} {t : Bool} {n e : Nat} {s : Bytes} {h : Hint} (hn : number inp t n = (e, some (.number s h))) : NumLike s h := by
  simp only [number] at hn
  cases hneg : peekAt inp n == DASH with
  | true =>
    simp only [hneg, if_true] at hn
    have hp : peekAt inp n = DASH := beq_iff_eq.1 hneg
    have hne : inp.drop n ≠ [] := by intro h1; unfold peekAt at hp; rw [h1] at hp; exact absurd hp (by decide)
    obtain ⟨b, r, hbr⟩ := List.exists_cons_of_ne_nil hne
    have hb : b = DASH := by rw [← peek_cons hbr, hp]
    subst hb
    simp only [bump_cons hbr, drop_cons hbr] at hn
    cases hg : numGo true true false r with
    | mk k fl =>
      rw [hg] at hn
      obtain ⟨h1, h2⟩ := numGo_digits hg
      simp only at hn
      split at hn
      · cases hn
      · next hk =>
        split at hn
        · cases hn
        · cases hn
          have hs : slice inp n (n + 1 + k) = DASH :: r.take k := by
            rw [slice, hbr, show n + 1 + k - n = k + 1 by omega]; rfl
          rw [hs]
          cases fl with
          | true =>
            right; right
            refine ⟨rfl, ?_⟩
            simp only [decimal, beq_self_eq_true, if_true, natOf_none (s := r.take k) (by simpa using h2)]; rfl
          | false =>
            right; left
            refine ⟨rfl, _, rfl, ?_, by simpa using h2⟩
            intro h0
            have := congrArg List.length h0
            simp only [List.length_take, List.length_nil] at this; omega
  | false =>
    simp only [hneg, Bool.false_eq_true, if_false] at hn
    have hp : peekAt inp n ≠ DASH := fun h => by rw [h] at hneg; exact absurd hneg (by decide)
    cases hg : numGo true true false (inp.drop n) with
    | mk k fl =>
      rw [hg] at hn
      obtain ⟨h1, h2⟩ := numGo_digits hg
      simp only at hn
      split at hn
      · cases hn
      · next hk =>
        split at hn
        · cases hn
        · cases hn
          have hs : slice inp n (n + k) = (inp.drop n).take k := by rw [slice, show n + k - n = k by omega]
          rw [hs]
          have hne : (inp.drop n).take k ≠ [] := by
            intro h0
            have := congrArg List.length h0
            simp at this h1; omega
          cases fl with
          | true =>
            right; right
            refine ⟨rfl, ?_⟩
            obtain ⟨b, r, hbr⟩ := List.exists_cons_of_ne_nil hne
            have hb : b = peekAt inp n := by
              unfold peekAt
              cases hd : inp.drop n with
              | nil => rw [hd] at hbr; simp at hbr
              | cons b' r' =>
                rw [hd] at hbr
                cases k with
                | zero => simp at hbr
                | succ k => simp at hbr; exact hbr.1.symm
            rw [hbr] at h2 ⊢
            have hb43 : b ≠ 43 := by
              rintro rfl
              cases hd : inp.drop n with
              | nil => rw [hd] at hbr; simp at hbr
              | cons b' r' =>
                have : b' = 43 := by rw [hb]; unfold peekAt; rw [hd]; rfl
                subst this
                rw [hd, numGo] at hg
                simp only [show ((43 : UInt8) == 46) = false by decide, show ((43 : UInt8) == 101) = false by decide, show ((43 : UInt8) == 69) = false by decide,
                  show isDigit 43 = false by decide, Bool.false_and, Bool.or_self, Bool.false_eq_true, if_false] at hg
                cases hg
            simp only [decimal, beq_eq_false_iff_ne.2 (hb ▸ hp), beq_eq_false_iff_ne.2 hb43, Bool.false_eq_true, if_false, natOf_none (s := b :: r) (by simpa using h2)]; rfl
          | false =>
            left
            exact ⟨rfl, hne, by simpa using h2⟩

theorem lead_like {inp : Bytes} {f : Nat} {i t : Bool} {n m : Nat} {s : Bytes} {h : Hint} {ws : Option Bytes}
    (hl : lead f inp i t n = .ok (.scalar (.number s h) ws m)) : NumLike s h := by
  have plain : ∀ x, plainScalar x ≠ .number s h := by
    intro x; unfold plainScalar
    repeat' split
    all_goals simp
  simp only [lead, bind, Except.bind, pure, Except.pure] at hl
  split at hl
  · cases hl
  · split at hl
    · split at hl
      · cases hl
      · split at hl <;> cases hl
    · split at hl
      · split at hl
        · cases hl
        · split at hl <;> cases hl
      · split at hl
        · cases hl
        · split at hl
          · cases hl
          · split at hl
            · split at hl
              · cases hl
              · cases hl
            · split at hl
              · next hn =>
                cases hl
                exact number_like hn
              · split at hl
                · simp only [Except.ok.injEq, Lead.scalar.injEq] at hl
                  exact absurd hl.1 (plain _)
                · split at hl
                  · cases hl
                  · simp only [Except.ok.injEq, Lead.scalar.injEq] at hl
                    exact absurd hl.1 (plain _)

/-- The text is a number that can be read as the hint says. -/
def NumOk (wide : Bool) (s : Bytes) (h : Hint) : Prop :=
  (∃ t x, h = IntTy.hint t ∧ lexParse t s = some x ∧ decimal s = some x ∧ t.has x = true ∧ (wide = false → t.bits ≠ 128)) ∨
  ((h = .f32 ∨ h = .f64) ∧ floatText s = true)

def ScalarOk (wide : Bool) : Scalar → Prop
  | .number s h => NumOk wide s h
  | _ => True

theorem NumLike.ok {wide : Bool} {s : Bytes} {h : Hint} (hl : NumLike s h) (hf : fits s = true) : NumOk wide s h := by
  rcases hl with ⟨rfl, hn, hd⟩ | ⟨rfl, r, rfl, hn, hd⟩ | ⟨rfl, hd⟩
  · obtain ⟨b, r, rfl⟩ := List.exists_cons_of_ne_nil hn
    have hb : isDigit b = true := by simp at hd; exact hd.1
    obtain ⟨h1, h2, _⟩ := digit_ne hb
    have hv := digitsVal_eq (acc := 0) hd
    have hdec : decimal (b :: r) = some (((b :: r).foldl (fun a b => a * 10 + (b.toNat - 48)) 0 : Nat) : Int) := by
      simp only [decimal, beq_eq_false_iff_ne.2 h2, beq_eq_false_iff_ne.2 h1, Bool.false_eq_true, if_false, natOf_eq hd (by simp), hv]; rfl
    generalize ((b :: r).foldl (fun a b => a * 10 + (b.toNat - 48)) 0 : Nat) = v at hv hdec
    have hhas : IntTy.u64.has v = true := by
      simp only [fits, hdec, Bool.and_eq_true, decide_eq_true_eq] at hf
      simp only [IntTy.has, IntTy.min, IntTy.max, IntTy.signed, IntTy.bits, Bool.false_eq_true, if_false, Bool.and_eq_true, decide_eq_true_eq]
      omega
    refine .inl ⟨.u64, v, rfl, ?_, hdec, hhas, by simp [IntTy.bits]⟩
    simp only [lexParse, beq_eq_false_iff_ne.2 h1, beq_eq_false_iff_ne.2 h2, Bool.false_and, Bool.false_eq_true, if_false, List.isEmpty_cons, hv, hhas, if_true]
  · have he : r.isEmpty = false := by simpa using hn
    have hv := digitsVal_eq (acc := 0) hd
    have hdec : decimal (DASH :: r) = some (-((r.foldl (fun a b => a * 10 + (b.toNat - 48)) 0 : Nat) : Int)) := by
      simp only [decimal, beq_self_eq_true, if_true, natOf_eq hd hn, hv]; rfl
    generalize (r.foldl (fun a b => a * 10 + (b.toNat - 48)) 0 : Nat) = v at hv hdec
    have hhas : IntTy.i64.has (-(v : Int)) = true := by
      simp only [fits, hdec, Bool.and_eq_true, decide_eq_true_eq] at hf
      simp only [IntTy.has, IntTy.min, IntTy.max, IntTy.signed, IntTy.bits, if_true, Bool.and_eq_true, decide_eq_true_eq]
      omega
    refine .inl ⟨.i64, _, rfl, ?_, hdec, hhas, by simp [IntTy.bits]⟩
    simp only [lexParse, show (DASH == 43) = false by decide, Bool.false_eq_true, if_false, beq_self_eq_true, IntTy.signed, Bool.and_self, if_true, he, hv, hhas]
  · refine .inr ⟨.inr rfl, ?_⟩
    simpa [fits, hd, floatText_iff] using hf

theorem IsNumberOf.ok {wide : Bool} {s : Bytes} {h : Hint} (hn : IsNumberOf wide h s) : NumOk wide s h := by
  rcases hn with ⟨t, x, rfl, h1, rfl, h2⟩ | h
  · refine .inl ⟨t, x, rfl, ?_, decimal_intText x, h1, h2⟩
    simp only [IntTy.has, Bool.and_eq_true, decide_eq_true_eq] at h1
    rw [lexParse_intText, if_pos h1]
  · exact .inr ⟨h.1, (floatText_iff s).2 h.2⟩

theorem digitsVal_some : ∀ {s : Bytes} {acc v : Nat}, digitsVal acc s = some v → s.all isDigit = true
  | [], _, _, _ => rfl
  | b :: r, acc, v, h => by
    simp only [digitsVal] at h
    split at h
    · next hb => rw [List.all_cons, hb, digitsVal_some h]; rfl
    · cases h

/-- The end of `lexParse`. -/
def lexFin (t : IntTy) (p : Bool × Bytes) : Option Int :=
  if p.2.isEmpty then none
  else
    match digitsVal 0 p.2 with
    | none => none
    | some v => if t.has (if p.1 then -(v : Int) else v) then some (if p.1 then -(v : Int) else v) else none

theorem lexParse_fin (t : IntTy) (b : UInt8) (r : Bytes) : lexParse t (b :: r) = lexFin t (if b == 43 then (false, r) else if b == DASH && t.signed then (true, r) else (false, b :: r)) := rfl

theorem lexFin_some {t : IntTy} {neg : Bool} {r : Bytes} {x : Int} (h : lexFin t (neg, r) = some x) :
    ∃ v : Nat, natOf r = some v ∧ x = (if neg then -(v : Int) else v) ∧ t.has x = true := by
  simp only [lexFin] at h
  split at h
  · cases h
  · next he =>
    cases hv : digitsVal 0 r with
    | none => rw [hv] at h; cases h
    | some v =>
      rw [hv] at h
      simp only at h
      generalize hx : (if neg = true then -(v : Int) else v) = y at h
      split at h
      · next hh =>
        cases h
        exact ⟨v, by rw [natOf_eq (digitsVal_some hv) (by simpa using he), hv], hx.symm, hh⟩
      · cases h

/-- What `lexical_core` makes of a text is the number written. -/
theorem lexParse_decimal {t : IntTy} {s : Bytes} {x : Int} (h : lexParse t s = some x) : decimal s = some x ∧ t.has x = true := by
  cases s with
  | nil => simp [lexParse] at h
  | cons b r =>
    rw [lexParse_fin] at h
    simp only [decimal]
    by_cases h1 : b = 43
    · subst h1
      obtain ⟨v, e1, e2, e3⟩ := lexFin_some (neg := false) (r := r) h
      refine ⟨?_, e3⟩
      simp only [show ((43 : UInt8) == DASH) = false by decide, Bool.false_eq_true, if_false, beq_self_eq_true, if_true, e1, e2]
      rfl
    · simp only [beq_eq_false_iff_ne.2 h1, Bool.false_eq_true, if_false] at h ⊢
      by_cases h2 : b = DASH
      · subst h2
        cases hs : t.signed with
        | true =>
          simp only [hs, beq_self_eq_true, Bool.and_self, if_true] at h
          obtain ⟨v, e1, e2, e3⟩ := lexFin_some h
          refine ⟨?_, e3⟩
          simp only [beq_self_eq_true, if_true, e1, e2]
          rfl
        | false =>
          simp only [hs, Bool.and_false, Bool.false_eq_true, if_false] at h
          obtain ⟨v, e1, e2, e3⟩ := lexFin_some h
          have : natOf (DASH :: r) = none := natOf_none (by simp [show isDigit DASH = false by decide])
          rw [this] at e1; cases e1
      · simp only [beq_eq_false_iff_ne.2 h2, Bool.false_and, Bool.false_eq_true, if_false] at h ⊢
        obtain ⟨v, e1, e2, e3⟩ := lexFin_some h
        refine ⟨?_, e3⟩
        simp only [e1, e2]
        rfl

theorem natOf_some {s : Bytes} {v : Nat} (h : natOf s = some v) : s ≠ [] ∧ digitsVal 0 s = some v := by
  simp only [natOf] at h
  split at h
  · cases h
  · next hc =>
    rw [Bool.or_eq_true, not_or] at hc
    have hd : s.all isDigit = true := by simpa using hc.2
    refine ⟨by simpa using hc.1, ?_⟩
    rw [digitsVal_eq hd]; exact h

theorem lexFin_of {t : IntTy} {neg : Bool} {r : Bytes} {v : Nat} (h : natOf r = some v) (ht : t.has (if neg then -(v : Int) else v) = true) :
    lexFin t (neg, r) = some (if neg then -(v : Int) else v) := by
  obtain ⟨h1, h2⟩ := natOf_some h
  have he : r.isEmpty = false := by simpa using h1
  simp only [lexFin, he, Bool.false_eq_true, if_false, h2]
  rw [if_pos ht]

/-- A number written within the range of a type is read. -/
theorem lexParse_of_decimal {t : IntTy} {s : Bytes} {x : Int} (h : decimal s = some x) (ht : t.has x = true) (hs : t.signed = true ∨ hd s ≠ DASH) : lexParse t s = some x := by
  cases s with
  | nil => simp [decimal] at h
  | cons b r =>
    rw [lexParse_fin]
    simp only [decimal] at h
    by_cases h2 : b = DASH
    · subst h2
      have hs : t.signed = true := hs.resolve_right (fun h => h rfl)
      simp only [beq_self_eq_true, if_true, Option.map_eq_some_iff] at h
      obtain ⟨v, h1, rfl⟩ := h
      simp only [show (DASH == 43) = false by decide, Bool.false_eq_true, if_false, beq_self_eq_true, hs, Bool.and_self, if_true]
      exact lexFin_of (neg := true) h1 ht
    · simp only [beq_eq_false_iff_ne.2 h2, Bool.false_eq_true, if_false, Bool.false_and] at h ⊢
      split at h
      · next h3 =>
        rw [if_pos h3]
        simp only [Option.map_eq_some_iff] at h
        obtain ⟨v, h1, rfl⟩ := h
        exact lexFin_of (neg := false) h1 ht
      · next h3 =>
        rw [if_neg h3]
        simp only [Option.map_eq_some_iff] at h
        obtain ⟨v, h1, rfl⟩ := h
        exact lexFin_of (neg := false) h1 ht

/-! ### Serialization of trees -/

/-- The call for a number. -/
def numEv (s : Bytes) : Hint → Ev
  | .f32 => if floatText s then .f32 s else .none
  | .f64 => if floatText s then .f64 s else .none
  | h => match h.ty with
    | some t => (match lexParse t s with | some v => .int t v | none => .none)
    | none => .none

theorem serNumber_eq {d : Data} {x : Nat} {s : Bytes} {h : Hint} (hr : d.raw x = .ok (.number s h)) (h' : Hint) : serNumber d x h' = .ok (numEv s h') := by
  have hf : asFloat d x = .ok (if floatText s then some s else none) := by simp [asFloat, hr, bind, Except.bind, pure, Except.pure]
  have hi : ∀ t, asInt t d x = .ok (lexParse t s) := by intro t; simp [asInt, hr, bind, Except.bind, pure, Except.pure]
  cases h'
  case f32 => cases hft : floatText s <;> simp [serNumber, numEv, hf, hft, bind, Except.bind, pure, Except.pure]
  case f64 => cases hft : floatText s <;> simp [serNumber, numEv, hf, hft, bind, Except.bind, pure, Except.pure]
  all_goals
    simp only [serNumber, numEv, hi, bind, Except.bind, pure, Except.pure, Hint.ty]
    generalize lexParse _ s = o
    cases o <;> rfl

mutual
/-- What a tree reads as. -/
def Tree.content {α} : Tree α → Content
  | .leaf _ _ s => .scalar s.value
  | .node _ _ true _ _ items => .map items.entriesC
  | .node _ _ false _ _ items => .seq items.elemsC
def Items.entriesC {α} : Items α → Entries
  | .nil => .nil
  | .cons _ _ key v rest => .cons key.id v.content rest.entriesC
def Items.elemsC {α} : Items α → Elems
  | .nil => .nil
  | .cons _ _ _ v rest => .cons v.content rest.elemsC
end

mutual
theorem Tree.content_reads {d : Data} : ∀ {t : Tree Nat} {par : Option Nat}, Rep d par t → Reads d t.id t.content
  | .leaf i p s, par, h => ⟨asAny_leaf h, by cases s <;> rfl⟩
  | .node i p true ind k items, par, h => ⟨_, isMap_node h, Items.entriesC_reads h.node.2⟩
  | .node i p false ind k items, par, h => ⟨_, isSeq_node h, Items.elemsC_reads h.node.2⟩
theorem Items.entriesC_reads {d : Data} : ∀ {is : Items Nat} {c : Nat}, RepItems d c true is →
    ReadsMap d (is.pairs.map fun q => (q.1.id, q.2.id)) is.entriesC
  | .nil, _, _ => rfl
  | .cons i p key v rest, c, h => ⟨_, _, rfl, Tree.content_reads h.cons.2.1, Items.entriesC_reads h.cons.2.2⟩
theorem Items.elemsC_reads {d : Data} : ∀ {is : Items Nat} {c : Nat}, RepItems d c false is →
    ReadsSeq d (is.pairs.map (·.2.id)) is.elemsC
  | .nil, _, _ => rfl
  | .cons i p key v rest, c, h => ⟨_, _, rfl, Tree.content_reads h.cons.2.1, Items.elemsC_reads h.cons.2.2⟩
end

theorem Items.entriesC_length {α} : ∀ is : Items α, is.entriesC.length = is.pairs.length
  | .nil => rfl
  | .cons _ _ _ _ r => by simp [Items.entriesC, Entries.length, Items.pairs, Items.entriesC_length r]
theorem Items.elemsC_length {α} : ∀ is : Items α, is.elemsC.length = is.pairs.length
  | .nil => rfl
  | .cons _ _ _ _ r => by simp [Items.elemsC, Elems.length, Items.pairs, Items.elemsC_length r]

/-- The number, if it is one, is handed over. -/
def NumP (num : Bytes → Ev → Prop) : Scalar → Prop
  | .number s h => num s (numEv s h)
  | _ => True

mutual
theorem serializeF_tree {d : Data} {num : Bytes → Ev → Prop} : ∀ {t : Tree Nat} {par : Option Nat} {f : Nat}, Rep d par t → t.depth ≤ f →
    t.all (NumP num) → ∃ e, serializeF f d t.id = .ok e ∧ Says num strEv some t.content e
  | .leaf i p s, par, f, h, hf, ha => by
    obtain ⟨f, rfl⟩ : ∃ g, f = g + 1 := ⟨f - 1, by simp [Tree.depth] at hf; omega⟩
    have hr := raw_of h.head
    simp only [Tree.id_leaf] at hr
    cases s with
    | number s hh =>
      refine ⟨[numEv s hh], ?_, _, rfl, ha⟩
      have hr : d.raw i = .ok (.number s hh) := hr
      simp [serializeF, hr, lift, serNumber_eq hr, bind, Except.bind, pure, Except.pure]
    | null n => exact ⟨[.none], by simp [serializeF, hr, lift, Tree.raw, Scalar.toRaw, bind, Except.bind, pure, Except.pure], rfl⟩
    | bool b s => exact ⟨[.bool b], by simp [serializeF, hr, lift, Tree.raw, Scalar.toRaw, bind, Except.bind, pure, Except.pure], rfl⟩
    | string s => exact ⟨[strEv s.id], by simp [serializeF, hr, lift, Tree.raw, Scalar.toRaw, bind, Except.bind, pure, Except.pure], rfl⟩
  | .node i p m ind k items, par, f, h, hf, ha => by
    obtain ⟨f, rfl⟩ : ∃ g, f = g + 1 := ⟨f - 1, by simp [Tree.depth] at hf; omega⟩
    simp only [Tree.depth] at hf
    have hr := raw_of h.head
    simp only [Tree.id_node] at hr
    have hi := h.node.2
    cases m with
    | true =>
      obtain ⟨e, h1, h2⟩ := serMapItems_items hi (f := f) (by omega) ha
      refine ⟨.map (some items.ids.length) :: e ++ [.stop], ?_, e, ?_, h2⟩
      · simp [serializeF, hr, lift, Tree.raw, collRaw, mapLen, mapIter, mapping_of h.node.1, h1, bind, Except.bind, pure, Except.pure]
      · rw [Items.entriesC_length, Items.length_pairs]
    | false =>
      obtain ⟨e, h1, h2⟩ := serSeqItems_items hi (f := f) (by omega) ha
      refine ⟨.seq (some items.ids.length) :: e ++ [.stop], ?_, e, ?_, h2⟩
      · simp [serializeF, hr, lift, Tree.raw, collRaw, seqLen', seqIter, sequence_of h.node.1, h1, bind, Except.bind, pure, Except.pure]
      · rw [Items.elemsC_length, Items.length_pairs]
theorem serMapItems_items {d : Data} {num : Bytes → Ev → Prop} : ∀ {is : Items Nat} {c : Nat} {f : Nat}, RepItems d c true is → is.depth ≤ f + 1 →
    is.all (NumP num) → ∃ e, serMapItems (serializeF f d) d is.ids = .ok e ∧ SaysMap num strEv some is.entriesC e
  | .nil, _, _, _, _, _ => ⟨[], rfl, rfl⟩
  | .cons i p key v rest, c, f, h, hf, ha => by
    simp only [Items.depth] at hf
    obtain ⟨h1, h2, h3⟩ := h.cons
    obtain ⟨a, a1, a2⟩ := serializeF_tree h2 (f := f) (by omega) ha.1
    obtain ⟨b, b1, b2⟩ := serMapItems_items h3 (f := f) (by omega) ha.2
    refine ⟨strEv key.id :: a ++ b, ?_, a, b, rfl, a2, b2⟩
    simp [Items.ids, serMapItems, mapItemOf, mappingItem_of h1, lift, a1, b1, bind, Except.bind, pure, Except.pure]
theorem serSeqItems_items {d : Data} {num : Bytes → Ev → Prop} : ∀ {is : Items Nat} {c : Nat} {f : Nat}, RepItems d c false is → is.depth ≤ f + 1 →
    is.all (NumP num) → ∃ e, serSeqItems (serializeF f d) d is.ids = .ok e ∧ SaysSeq num strEv some is.elemsC e
  | .nil, _, _, _, _, _ => ⟨[], rfl, rfl⟩
  | .cons i p key v rest, c, f, h, hf, ha => by
    simp only [Items.depth] at hf
    obtain ⟨h1, h2, h3⟩ := h.cons
    obtain ⟨a, a1, a2⟩ := serializeF_tree h2 (f := f) (by omega) ha.1
    obtain ⟨b, b1, b2⟩ := serSeqItems_items h3 (f := f) (by omega) ha.2
    refine ⟨a ++ b, ?_, a, b, rfl, a2, b2⟩
    simp [Items.ids, serSeqItems, sequenceItem_of h1, lift, a1, b1, bind, Except.bind, pure, Except.pure]
end

/-! ### Numbers, handed over or not -/

theorem NumOk.shows {wide : Bool} {s : Bytes} {h : Hint} (hn : NumOk wide s h) : (numEv s h).shows s := by
  rcases hn with ⟨t, x, rfl, h1, h2, h3, _⟩ | ⟨rfl | rfl, h1⟩
  · cases t <;> simp only [numEv, IntTy.hint, Hint.ty, h1] <;> exact ⟨h2, h3⟩
  · simp only [numEv, h1, if_true]; exact ⟨rfl, (floatText_iff s).1 h1⟩
  · simp only [numEv, h1, if_true]; exact ⟨rfl, (floatText_iff s).1 h1⟩

theorem numEv_shows (s : Bytes) (h : Hint) : numEv s h = .none ∨ (numEv s h).shows s := by
  have hi : ∀ t, (match lexParse t s with | some v => Ev.int t v | none => .none) = .none ∨ (match lexParse t s with | some v => Ev.int t v | none => .none).shows s := by
    intro t
    cases hl : lexParse t s with
    | none => exact .inl rfl
    | some v => exact .inr (lexParse_decimal hl)
  cases h
  case f32 =>
    cases hf : floatText s with
    | true => right; simp only [numEv, hf, if_true]; exact ⟨rfl, (floatText_iff s).1 hf⟩
    | false => left; simp [numEv, hf]
  case f64 =>
    cases hf : floatText s with
    | true => right; simp only [numEv, hf, if_true]; exact ⟨rfl, (floatText_iff s).1 hf⟩
    | false => left; simp [numEv, hf]
  all_goals exact hi _

theorem NumLike.none {s : Bytes} {h : Hint} (hl : NumLike s h) (hf : fits s = false) : numEv s h = .none := by
  have hint : ∀ t : IntTy, (t = .u64 ∨ t = .i64) → lexParse t s = .none := by
    intro t ht
    cases hp : lexParse t s with
    | none => rfl
    | some x =>
      obtain ⟨h1, h2⟩ := lexParse_decimal hp
      exfalso
      simp only [fits, h1] at hf
      rw [← Bool.not_eq_true, Bool.and_eq_true, decide_eq_true_eq, decide_eq_true_eq] at hf
      rcases ht with rfl | rfl <;>
        simp only [IntTy.has, IntTy.min, IntTy.max, IntTy.signed, IntTy.bits, Bool.false_eq_true, if_false, if_true, Bool.and_eq_true, decide_eq_true_eq] at h2 <;> omega
  rcases hl with ⟨rfl, _⟩ | ⟨rfl, _⟩ | ⟨rfl, hd⟩
  · simp [numEv, Hint.ty, hint]
  · simp [numEv, Hint.ty, hint]
  · simp only [fits, hd, ← floatText_iff, decide_eq_false_iff_not, Bool.not_eq_true] at hf
    simp [numEv, hf]

theorem parsed_like {inp : Bytes} {doc : Document} (h : Parsed inp doc) :
    ∃ t, Holds doc t ∧ t.all (fun sc => ∀ s h, sc = .number s h → NumLike s h) :=
  parsed_all h (fun s h he => by cases he) (fun hl s h he => by subst he; exact lead_like hl)

theorem asNumber_leaf {d : Data} {par : Option Nat} {u : Tree Nat} {s : Bytes} (h : Rep d par u) (hn : asNumber d u.id = .ok (some s)) :
    ∃ i p hh, u = .leaf i p (.number s hh) := by
  have hr := raw_of h.head
  cases u with
  | leaf i p sc =>
    simp only [Tree.id_leaf] at hr hn
    cases sc <;> simp [asNumber, hr, Tree.raw, Scalar.toRaw, bind, Except.bind, pure, Except.pure] at hn
    subst hn; exact ⟨_, _, _, rfl⟩
  | node i p m ind k items =>
    simp only [Tree.id_node] at hr hn
    cases m <;> simp [asNumber, hr, Tree.raw, collRaw, bind, Except.bind, pure, Except.pure] at hn

mutual
theorem Tree.all_of_find {P : Scalar → Prop} : ∀ {t : Tree Nat}, t.allIds.Nodup → (∀ x i p s, t.find x = some (.leaf i p s) → P s) → t.all P
  | .leaf i p s, _, h => h i i p s (by simp [Tree.find])
  | .node i p m ind k items, hn, h => by
    rw [Tree.allIds, Tree.entries, List.map_cons, List.nodup_cons] at hn
    refine Items.all_of_find (c := i) (m := m) (items := items) hn.2 fun x j q s hf => h x j q s ?_
    have hne : i ≠ x := by
      rintro rfl
      have := Items.find_subset i m hf
      rw [← show (Tree.leaf j q s).id = i from Items.find_id hf] at hn
      exact hn.1 (by rw [show (Tree.leaf j q s).id = i from Items.find_id hf]; exact this _ (by rw [Tree.allIds_eq_cons, Items.find_id hf]; simp))
    simp only [Tree.find, if_neg hne, hf]
theorem Items.all_of_find {P : Scalar → Prop} {c : Nat} {m : Bool} : ∀ {items : Items Nat}, ((items.entries c m).map (·.1)).Nodup →
    (∀ x i p s, items.find x = some (.leaf i p s) → P s) → items.all P
  | .nil, _, _ => trivial
  | .cons i p key v rest, hn, h => by
    simp only [Items.entries, List.map_cons, List.map_append, List.nodup_cons, List.nodup_append, Tree.allIds_eq] at hn
    refine ⟨Tree.all_of_find hn.2.1 fun x j q s hf => h x j q s (by simp [Items.find, hf]), Items.all_of_find hn.2.2.1 fun x j q s hf => h x j q s ?_⟩
    have hx := Items.find_subset c m hf x (by rw [Tree.allIds_eq_cons, Items.find_id hf]; simp)
    cases hv : v.find x with
    | none => simp [Items.find, hv, hf]
    | some w => exact absurd rfl (hn.2.2.2 x (Tree.find_subset hv x (by rw [Tree.allIds_eq_cons, Tree.find_id hv]; simp)) x hx)
end

theorem Sound.holds {wide : Bool} {doc : Document} (h : Sound wide doc) : ∃ t, Holds doc t ∧ t.all (ScalarOk wide) := by
  induction h with
  | parsed hp hf =>
    obtain ⟨t, ht, ha⟩ := parsed_like hp
    refine ⟨t, ht, Tree.all_of_find ht.nodup fun x i p s hx => ?_⟩
    cases s <;> try trivial
    case number s hh =>
      have hl := Tree.all_find ha hx s hh rfl
      obtain ⟨q, hat⟩ := ht.at hx
      have hr := raw_of hat.rep.head
      have hid : i = x := Tree.find_id hx
      subst hid
      refine hl.ok (hf i s ((ht.live_iff i).2 ⟨_, hx⟩) ?_)
      simp only [Tree.id_leaf] at hr
      simp [asNumber, hr, Tree.raw, Scalar.toRaw, bind, Except.bind, pure, Except.pure]
  | @edited doc doc' x op hs hl ht he ih =>
    obtain ⟨t, h1, h2⟩ := ih
    obtain ⟨u, hu⟩ := (h1.live_iff x).1 hl
    obtain ⟨i, v, mk, _, _, _, _, h3⟩ := h1.editDoc hu he
    have hnum : ∀ sc : Scalar, (∀ s h, sc = .number s h → NumOk wide s h) → ScalarOk wide sc := by
      intro sc h
      cases sc <;> try trivial
      exact h _ _ rfl
    have hval : ∀ val : Val, (∀ s h, val = .number s h → NumOk wide s h) → ScalarOk wide (val.scalar u) := by
      intro val h
      cases val
      case number s hh => exact h _ _ rfl
      case null => trivial
      all_goals exact hnum _ (fun s h he => by simp only [Val.scalar, strScalar, blockScalar, boolScalar] at he; (repeat' split at he) <;> cases he)
    refine ⟨_, h3, Tree.all_upd (Op.tree_all (Tree.all_find h2 hu) ?_ ?_) h2⟩
    · intro s hs
      cases op <;> simp only [Op.scalar, Option.some.injEq] at hs <;> try (cases hs; done)
      case setNumber s h => subst hs; exact IsNumberOf.ok ht
      all_goals
        subst hs
        exact hnum _ (fun s h he => by simp only [nullScalar, strScalar, strWithScalar, blockScalar, boolScalar] at he; (repeat' split at he) <;> cases he)
    · rintro val (⟨key, rfl⟩ | rfl)
      · exact hval _ fun s h he => by subst he; exact IsNumberOf.ok ht
      · exact hval _ fun s h he => by subst he; exact IsNumberOf.ok ht

/-! ### Deserialization of trees -/

/-- The call that `deserialize_any` makes. -/
def Tree.visit : Tree Nat → Visit
  | .leaf _ _ (.number s h) => (numEv s h).visit
  | .leaf _ _ (.null _) => .none
  | .leaf _ _ (.bool b _) => .bool b
  | .leaf _ _ (.string s) => (strEv s.id).visit
  | .node _ _ true _ _ items => .map ⟨items.ids⟩
  | .node _ _ false _ _ items => .seq ⟨items.ids⟩

theorem deserialize_number {d : Data} {x : Nat} {s : Bytes} {h : Hint} {r : Except SErr Visit} (hr : d.raw x = .ok (.number s h)) (f : Nat)
    (hh : deserialize f d x h.method = r) : deserialize (f + 1) d x .any = r := by
  subst hh; simp [deserialize, hr, lift, bind, Except.bind]

theorem deserialize_method {d : Data} {x : Nat} {s : Bytes} {h : Hint} (hr : d.raw x = .ok (.number s h)) (f : Nat) :
    deserialize (f + 1) d x h.method =
      if h = .u128 ∨ h = .i128 then .error .unsupported else if numEv s h = .none then deserialize f d x .any else .ok (numEv s h).visit := by
  have hf : asFloat d x = .ok (if floatText s then some s else none) := by simp [asFloat, hr, bind, Except.bind, pure, Except.pure]
  have hi : ∀ t, asInt t d x = .ok (lexParse t s) := by intro t; simp [asInt, hr, bind, Except.bind, pure, Except.pure]
  have key : ∀ (t : IntTy) (h : Hint), (numEv s h = match lexParse t s with | some v => Ev.int t v | none => .none) → t ≠ .u128 → t ≠ .i128 →
      deserialize (f + 1) d x (.int t) = if numEv s h = .none then deserialize f d x .any else .ok (numEv s h).visit := by
    intro t h hn h1 h2
    cases ho : lexParse t s with
    | none =>
      rw [ho] at hn
      rw [if_pos hn]
      simp [deserialize, h1, h2, hi, ho, lift, bind, Except.bind]
    | some v =>
      rw [ho] at hn
      simp only at hn
      rw [if_neg (by rw [hn]; exact fun h => by cases h), hn]
      simp [deserialize, h1, h2, hi, ho, lift, Ev.visit, bind, Except.bind, pure, Except.pure]
  cases h
  case f32 => cases hft : floatText s <;> simp [Hint.method, deserialize, numEv, hf, hft, lift, Ev.visit, bind, Except.bind, pure, Except.pure]
  case f64 => cases hft : floatText s <;> simp [Hint.method, deserialize, numEv, hf, hft, lift, Ev.visit, bind, Except.bind, pure, Except.pure]
  case u128 => simp [Hint.method, deserialize]
  case i128 => simp [Hint.method, deserialize]
  all_goals
    rw [if_neg (by decide)]
    exact key _ _ rfl (by decide) (by decide)

/-- What `deserialize_any` does with a value that is not a number that cannot be read. -/
theorem deserialize_tree {d : Data} {par : Option Nat} {u : Tree Nat} (h : Rep d par u) (hn : ∀ i p s hh, u = .leaf i p (.number s hh) → numEv s hh ≠ .none ∨ hh = .u128 ∨ hh = .i128) (f : Nat) :
    deserialize (f + 2) d u.id .any = .ok u.visit ∨ (∃ i p s hh, u = .leaf i p (.number s hh) ∧ (hh = .u128 ∨ hh = .i128) ∧ deserialize (f + 2) d u.id .any = .error .unsupported) := by
  have hr := raw_of h.head
  cases u with
  | leaf i p sc =>
    simp only [Tree.id_leaf] at hr
    cases sc with
    | number s hh =>
      have hr : d.raw i = .ok (.number s hh) := hr
      by_cases hw : hh = .u128 ∨ hh = .i128
      · exact .inr ⟨_, _, _, _, rfl, hw, deserialize_number hr _ (by rw [deserialize_method hr, if_pos hw])⟩
      · refine .inl (deserialize_number hr _ ?_)
        rw [deserialize_method hr, if_neg hw, if_neg ((hn _ _ _ _ rfl).resolve_right hw)]; rfl
    | null n => left; simp [deserialize, hr, lift, Tree.raw, Scalar.toRaw, Tree.visit, bind, Except.bind, pure, Except.pure]
    | bool b s => left; simp [deserialize, hr, lift, Tree.raw, Scalar.toRaw, Tree.visit, bind, Except.bind, pure, Except.pure]
    | string s =>
      left
      cases hv : validUtf8 s.id <;> simp [deserialize, hr, lift, Tree.raw, Scalar.toRaw, Tree.visit, strEv, Ev.visit, hv, bind, Except.bind, pure, Except.pure]
  | node i p m ind k items =>
    left
    simp only [Tree.id_node] at hr
    cases m with
    | true => simp [deserialize, hr, lift, Tree.raw, collRaw, Tree.visit, mapIter, mapping_of h.node.1, bind, Except.bind, pure, Except.pure]
    | false => simp [deserialize, hr, lift, Tree.raw, collRaw, Tree.visit, seqIter, sequence_of h.node.1, bind, Except.bind, pure, Except.pure]

/-- A number that cannot be read is never handed over. -/
theorem deserialize_never {d : Data} {x : Nat} {s : Bytes} {h : Hint} (hr : d.raw x = .ok (.number s h)) (hw : ¬ (h = .u128 ∨ h = .i128)) (hn : numEv s h = .none) :
    ∀ f, deserialize f d x .any = .error (.other .fuel) ∧ deserialize f d x h.method = .error (.other .fuel)
  | 0 => ⟨rfl, rfl⟩
  | f + 1 => ⟨deserialize_number hr f (deserialize_never hr hw hn f).2, by rw [deserialize_method hr, if_neg hw, if_pos hn]; exact (deserialize_never hr hw hn f).1⟩

/-- The other methods end if `deserialize_any` does. -/
theorem deserialize_ends {d : Data} {par : Option Nat} {u : Tree Nat} (h : Rep d par u) {r : Except SErr Visit} (ha : ∀ f, deserialize (f + 2) d u.id .any = r) (m : Method) :
    ∃ r', (r' = r ∨ r' = .error .unsupported ∨ ∃ v, r' = .ok v) ∧ ∀ f, deserialize (f + 3) d u.id m = r' := by
  have hr := raw_of h.head
  have ha' : ∀ f, deserialize (f + 1 + 1) d u.id .any = r := ha
  have facts : (∃ o, asBool d u.id = .ok o) ∧ (∀ t, ∃ o, asInt t d u.id = .ok o) ∧ (∃ o, asFloat d u.id = .ok o) ∧ (∃ o, asStr d u.id = .ok o) ∧ (∃ o, asBstr d u.id = .ok o) := by
    simp only [asBool, asInt, asFloat, asStr, asBstr, hr, bind, Except.bind, pure, Except.pure]
    cases u.raw <;> simp
  have coll : (∃ o, asSequence d u.id = .ok o ∧ ∀ v ∈ o, ∃ w, seqIter d v = .ok w) ∧ (∃ o, asMapping d u.id = .ok o ∧ ∀ v ∈ o, ∃ w, mapIter d v = .ok w) := by
    cases u with
    | leaf i p sc =>
      simp only [Tree.id_leaf] at hr ⊢
      simp only [asSequence, asMapping, hr, bind, Except.bind, pure, Except.pure]
      cases sc <;> exact ⟨⟨none, rfl, fun v h => by cases h⟩, ⟨none, rfl, fun v h => by cases h⟩⟩
    | node i p m ind k items =>
      simp only [Tree.id_node] at hr ⊢
      simp only [asSequence, asMapping, hr, bind, Except.bind, pure, Except.pure]
      cases m with
      | true => exact ⟨⟨none, rfl, fun v h => by cases h⟩, ⟨some i, rfl, fun v h => by cases h; exact ⟨⟨items.ids⟩, by simp [mapIter, mapping_of h.node.1, bind, Except.bind, pure, Except.pure]⟩⟩⟩
      | false => exact ⟨⟨some i, rfl, fun v h => by cases h; exact ⟨⟨items.ids⟩, by simp [seqIter, sequence_of h.node.1, bind, Except.bind, pure, Except.pure]⟩⟩, ⟨none, rfl, fun v h => by cases h⟩⟩
  obtain ⟨f1, f2, f3, f4, f5⟩ := facts
  obtain ⟨c1, c2⟩ := coll
  cases m
  case any => exact ⟨r, .inl rfl, fun f => ha (f + 1)⟩
  case bool =>
    obtain ⟨o, ho⟩ := f1
    cases o with
    | none => exact ⟨r, .inl rfl, fun f => by rw [deserialize]; simp only [ho, lift, bind, Except.bind]; exact ha f⟩
    | some v => exact ⟨.ok (.bool v), .inr (.inr ⟨_, rfl⟩), fun f => by rw [deserialize]; simp only [ho, lift, bind, Except.bind, pure, Except.pure]⟩
  case f32 =>
    obtain ⟨o, ho⟩ := f3
    cases o with
    | none => exact ⟨r, .inl rfl, fun f => by rw [deserialize]; simp only [ho, lift, bind, Except.bind]; exact ha f⟩
    | some v => exact ⟨.ok (.f32 v), .inr (.inr ⟨_, rfl⟩), fun f => by rw [deserialize]; simp only [ho, lift, bind, Except.bind, pure, Except.pure]⟩
  case f64 =>
    obtain ⟨o, ho⟩ := f3
    cases o with
    | none => exact ⟨r, .inl rfl, fun f => by rw [deserialize]; simp only [ho, lift, bind, Except.bind]; exact ha f⟩
    | some v => exact ⟨.ok (.f64 v), .inr (.inr ⟨_, rfl⟩), fun f => by rw [deserialize]; simp only [ho, lift, bind, Except.bind, pure, Except.pure]⟩
  case char =>
    obtain ⟨o, ho⟩ := f4
    cases o with
    | none => exact ⟨r, .inl rfl, fun f => by rw [deserialize]; simp only [ho, lift, bind, Except.bind]; exact ha f⟩
    | some v => exact ⟨.ok (.str v), .inr (.inr ⟨_, rfl⟩), fun f => by rw [deserialize]; simp only [ho, lift, bind, Except.bind, pure, Except.pure]⟩
  case str =>
    obtain ⟨o, ho⟩ := f4
    cases o with
    | none => exact ⟨r, .inl rfl, fun f => by rw [deserialize]; simp only [ho, lift, bind, Except.bind]; exact ha f⟩
    | some v => exact ⟨.ok (.str v), .inr (.inr ⟨_, rfl⟩), fun f => by rw [deserialize]; simp only [ho, lift, bind, Except.bind, pure, Except.pure]⟩
  case string =>
    obtain ⟨o, ho⟩ := f4
    cases o with
    | none => exact ⟨r, .inl rfl, fun f => by rw [deserialize]; simp only [ho, lift, bind, Except.bind]; exact ha f⟩
    | some v => exact ⟨.ok (.str v), .inr (.inr ⟨_, rfl⟩), fun f => by rw [deserialize]; simp only [ho, lift, bind, Except.bind, pure, Except.pure]⟩
  case bytes =>
    obtain ⟨o, ho⟩ := f5
    cases o with
    | none => exact ⟨r, .inl rfl, fun f => by rw [deserialize]; simp only [ho, lift, bind, Except.bind]; exact ha f⟩
    | some v => exact ⟨.ok (.bytes v), .inr (.inr ⟨_, rfl⟩), fun f => by rw [deserialize]; simp only [ho, lift, bind, Except.bind, pure, Except.pure]⟩
  case byteBuf =>
    obtain ⟨o, ho⟩ := f5
    cases o with
    | none => exact ⟨r, .inl rfl, fun f => by rw [deserialize]; simp only [ho, lift, bind, Except.bind]; exact ha f⟩
    | some v => exact ⟨.ok (.bytes v), .inr (.inr ⟨_, rfl⟩), fun f => by rw [deserialize]; simp only [ho, lift, bind, Except.bind, pure, Except.pure]⟩
  case int t =>
    by_cases ht : t = .u128 ∨ t = .i128
    · exact ⟨_, .inr (.inl rfl), fun f => by rw [deserialize, if_pos ht]⟩
    · obtain ⟨o, ho⟩ := f2 t
      cases o with
      | none => exact ⟨r, .inl rfl, fun f => by rw [deserialize, if_neg ht]; simp only [ho, lift, bind, Except.bind]; exact ha f⟩
      | some v => exact ⟨.ok (.int t v), .inr (.inr ⟨_, rfl⟩), fun f => by rw [deserialize, if_neg ht]; simp only [ho, lift, bind, Except.bind, pure, Except.pure]⟩
  case seq =>
    obtain ⟨o, ho, hw⟩ := c1
    cases o with
    | none => exact ⟨r, .inl rfl, fun f => by rw [deserialize]; simp only [ho, lift, bind, Except.bind]; exact ha f⟩
    | some v =>
      obtain ⟨w, hw⟩ := hw v rfl
      exact ⟨.ok (.seq w), .inr (.inr ⟨_, rfl⟩), fun f => by rw [deserialize]; simp only [ho, hw, lift, bind, Except.bind, pure, Except.pure]⟩
  case tuple =>
    obtain ⟨o, ho, hw⟩ := c1
    cases o with
    | none => exact ⟨r, .inl rfl, fun f => by rw [deserialize]; simp only [ho, lift, bind, Except.bind]; exact ha f⟩
    | some v =>
      obtain ⟨w, hw⟩ := hw v rfl
      exact ⟨.ok (.seq w), .inr (.inr ⟨_, rfl⟩), fun f => by rw [deserialize]; simp only [ho, hw, lift, bind, Except.bind, pure, Except.pure]⟩
  case map =>
    obtain ⟨o, ho, hw⟩ := c2
    cases o with
    | none => exact ⟨r, .inl rfl, fun f => by rw [deserialize]; simp only [ho, lift, bind, Except.bind]; exact ha f⟩
    | some v =>
      obtain ⟨w, hw⟩ := hw v rfl
      exact ⟨.ok (.map w), .inr (.inr ⟨_, rfl⟩), fun f => by rw [deserialize]; simp only [ho, hw, lift, bind, Except.bind, pure, Except.pure]⟩
  case option =>
    cases hu : u.raw with
    | null n => exact ⟨.ok .none, .inr (.inr ⟨_, rfl⟩), fun f => by rw [deserialize]; simp only [hr, hu, lift, bind, Except.bind, pure, Except.pure]⟩
    | _ => exact ⟨.ok (.some u.id), .inr (.inr ⟨_, rfl⟩), fun f => by rw [deserialize]; simp only [hr, hu, lift, bind, Except.bind, pure, Except.pure]⟩
  all_goals exact ⟨r, .inl rfl, fun f => by rw [deserialize]; exact ha f⟩

/-! ### The client -/

theorem NumOk.narrow {s : Bytes} {h : Hint} (hn : NumOk false s h) : ¬ (h = .u128 ∨ h = .i128) := by
  rcases hn with ⟨t, x, rfl, _, _, _, h⟩ | ⟨rfl | rfl, _⟩
  · have := h rfl
    cases t <;> first | exact absurd rfl this | (intro h; rcases h with h | h <;> cases h)
  · intro h; rcases h with h | h <;> cases h
  · intro h; rcases h with h | h <;> cases h

theorem Ev.shows_ne {s : Bytes} {n : Ev} (h : n.shows s) : n ≠ .none := by rintro rfl; exact h

mutual
theorem takeF_tree {d : Data} : ∀ {t : Tree Nat} {par : Option Nat} {f : Nat}, Rep d par t → t.depth + 1 ≤ f → t.all (ScalarOk false) →
    ∃ e, takeF f d t.id = .ok e ∧ Says (fun s n => n.shows s) Ev.bytes (fun _ => none) t.content e
  | .leaf i p s, par, f, h, hf, ha => by
    obtain ⟨f, rfl⟩ : ∃ g, f = g + 2 := ⟨f - 2, by simp [Tree.depth] at hf; omega⟩
    have hv : deserialize (f + 2) d i .any = .ok (Tree.leaf i p s).visit := by
      rcases deserialize_tree h (fun i p s hh he => by cases he; exact .inl (Ev.shows_ne (NumOk.shows ha))) f with h | ⟨i, p, s, hh, he, hw, _⟩
      · exact h
      · cases he; exact absurd hw (NumOk.narrow ha)
    cases s with
    | number s hh =>
      have hs := NumOk.shows (wide := false) ha
      refine ⟨[numEv s hh], ?_, _, rfl, hs⟩
      simp only [takeF, Tree.id_leaf, hv, Tree.visit, bind, Except.bind, pure, Except.pure]
      cases hn : numEv s hh <;> rw [hn] at hs <;> first | exact absurd hs id | rfl
    | null n => exact ⟨[.none], by simp only [takeF, Tree.id_leaf, hv, Tree.visit, bind, Except.bind, pure, Except.pure], rfl⟩
    | bool b s => exact ⟨[.bool b], by simp only [takeF, Tree.id_leaf, hv, Tree.visit, bind, Except.bind, pure, Except.pure], rfl⟩
    | string s =>
      refine ⟨[strEv s.id], ?_, rfl⟩
      simp only [takeF, Tree.id_leaf, hv, Tree.visit, bind, Except.bind, pure, Except.pure, strEv]
      cases validUtf8 s.id <;> rfl
  | .node i p m ind k items, par, f, h, hf, ha => by
    obtain ⟨f, rfl⟩ : ∃ g, f = g + 2 := ⟨f - 2, by simp [Tree.depth] at hf; omega⟩
    simp only [Tree.depth] at hf
    have hv : deserialize (f + 2) d i .any = .ok (Tree.node i p m ind k items).visit := by
      rcases deserialize_tree h (fun i p s hh he => by cases he) f with h | ⟨i, p, s, hh, he, hw, _⟩
      · exact h
      · cases he
    have hi := h.node.2
    cases m with
    | true =>
      obtain ⟨e, h1, h2⟩ := takeMap_items hi (f := f + 1) (by omega) ha none
      refine ⟨.map none :: e ++ [.stop], ?_, e, rfl, h2⟩
      rw [takeF]
      simp [hv, Tree.visit, h1, bind, Except.bind, pure, Except.pure]
    | false =>
      obtain ⟨e, h1, h2⟩ := takeSeq_items hi (f := f + 1) (by omega) ha
      refine ⟨.seq none :: e ++ [.stop], ?_, e, rfl, h2⟩
      rw [takeF]
      simp [hv, Tree.visit, h1, bind, Except.bind, pure, Except.pure]
theorem takeMap_items {d : Data} : ∀ {is : Items Nat} {c : Nat} {f : Nat}, RepItems d c true is → is.depth + 1 ≤ f + 1 →
    is.all (ScalarOk false) → ∀ val, ∃ e, takeMap (takeF f d) d (is.ids.length + 1) ⟨⟨is.ids⟩, val⟩ = .ok e ∧
      SaysMap (fun s n => n.shows s) Ev.bytes (fun _ => none) is.entriesC e
  | .nil, _, _, _, _, _, _ => ⟨[], rfl, rfl⟩
  | .cons i p key v rest, c, f, h, hf, ha, _ => by
    simp only [Items.depth] at hf
    obtain ⟨h1, h2, h3⟩ := h.cons
    obtain ⟨a, a1, a2⟩ := takeF_tree h2 (f := f) (by omega) ha.1
    obtain ⟨b, b1, b2⟩ := takeMap_items h3 (f := f) (by omega) ha.2 none
    refine ⟨.bytes key.id :: a ++ b, ?_, a, b, rfl, a2, b2⟩
    simp only [Items.ids, List.length_cons, takeMap, MapAccess.nextKey, Iter.next, mapItemOf, mappingItem_of h1, lift, MapAccess.nextValue, a1, b1, bind, Except.bind, pure, Except.pure]
theorem takeSeq_items {d : Data} : ∀ {is : Items Nat} {c : Nat} {f : Nat}, RepItems d c false is → is.depth + 1 ≤ f + 1 →
    is.all (ScalarOk false) → ∃ e, takeSeq (takeF f d) d (is.ids.length + 1) ⟨is.ids⟩ = .ok e ∧
      SaysSeq (fun s n => n.shows s) Ev.bytes (fun _ => none) is.elemsC e
  | .nil, _, _, _, _, _ => ⟨[], rfl, rfl⟩
  | .cons i p key v rest, c, f, h, hf, ha => by
    simp only [Items.depth] at hf
    obtain ⟨h1, h2, h3⟩ := h.cons
    obtain ⟨a, a1, a2⟩ := takeF_tree h2 (f := f) (by omega) ha.1
    obtain ⟨b, b1, b2⟩ := takeSeq_items h3 (f := f) (by omega) ha.2
    refine ⟨a ++ b, ?_, a, b, rfl, a2, b2⟩
    simp only [Items.ids, List.length_cons, takeSeq, seqAccessNext, Iter.next, sequenceItem_of h1, lift, a1, b1, bind, Except.bind, pure, Except.pure]
end

end Verif
