import Verif.Join
import Verif.LineEnd
import Verif.Props.Exact
/-
Texts put together from lines.
-/
namespace Verif

/-! ### Specification -/

/-- The text starts with an item of a block collection (`m`: a mapping): a dash and white space, or a key of one line without quotes, a colon and white space.  A key with `%`
at its start would be a directive at the start of the text. -/
def startsItem (m : Bool) (x : Bytes) : Bool :=
  if m then
    keyBlock (x.takeWhile (· != COLON)) && x.headD 0 != PCT && (x.dropWhile (· != COLON)).headD 0 == COLON && isWs ((x.dropWhile (· != COLON)).tail.headD 0)
  else x.headD 0 == DASH && isWs (x.tail.headD 0)

/-- One more line. -/
def probe (m : Bool) : Bytes := if m then b! "z: 0\n" else b! "- 0\n"

/-- The item on that line. -/
def probeItem (m : Bool) : Option Bytes × Content := (if m then some (b! "z") else none, .scalar (.number (b! "0")))

/-! ### Lemmas -/

theorem starts_key {x : Bytes} (h : startsItem true x = true) : ∃ k b r, x = k ++ COLON :: b :: r ∧ isWs b = true ∧ keyBlock k = true ∧ k.headD 0 ≠ PCT := by
  simp only [startsItem, if_true, Bool.and_eq_true, bne_iff_ne, ne_eq, beq_iff_eq] at h
  obtain ⟨⟨⟨h1, h2⟩, h3⟩, h4⟩ := h
  have hx := List.takeWhile_append_dropWhile (p := (· != COLON)) (l := x)
  generalize x.takeWhile (· != COLON) = k at h1 hx
  generalize x.dropWhile (· != COLON) = d at h3 h4 hx
  subst hx
  match d, h3, h4 with
  | [], h3, _ => exact absurd h3 (by decide)
  | [b], _, h4 => exact absurd (show isWs 0 = true from h4) (by decide)
  | b :: b' :: r, h3, h4 =>
    rw [List.headD_cons] at h3
    subst h3
    refine ⟨k, b', r, rfl, h4, h1, ?_⟩
    have := (keyBlock_mem h1).1
    cases k with
    | nil => exact absurd rfl this
    | cons c k => exact h2

theorem starts_dash {x : Bytes} (h : startsItem false x = true) : ∃ b r, x = DASH :: b :: r ∧ isWs b = true := by
  simp only [startsItem, Bool.false_eq_true, if_false, Bool.and_eq_true, beq_iff_eq] at h
  match x, h with
  | [], h => exact absurd h.1 (by decide)
  | [b], h => exact absurd (show isWs 0 = true from h.2) (by decide)
  | b :: b' :: r, h => exact ⟨b', r, by rw [← h.1]; rfl, h.2⟩

theorem starts_head {m : Bool} {x : Bytes} (h : startsItem m x = true) : isIndicator (x.headD 0) = false ∧ x.headD 0 ≠ COLON ∧ x.headD 0 ≠ 0 ∧ x.headD 0 ≠ PCT ∧
    (x.headD 0 = DASH ↔ m = false) := by
  cases m with
  | true =>
    obtain ⟨k, b, r, rfl, -, hk, hp⟩ := starts_key h
    obtain ⟨k1, k2, k3, -, k5, k6⟩ := keyBlock_mem hk
    cases k with
    | nil => exact absurd rfl k1
    | cons c k => exact ⟨k2, fun h => k5 (by rw [← h]; simp), fun h => k6 (by rw [← h]; simp), hp, (by simpa using k3)⟩
  | false =>
    obtain ⟨b, r, rfl, -⟩ := starts_dash h
    exact ⟨rfl, show DASH ≠ COLON by decide, show DASH ≠ 0 by decide, show DASH ≠ PCT by decide, by simp⟩

theorem starts_ne {m : Bool} {x : Bytes} (h : startsItem m x = true) : x ≠ [] := by
  rintro rfl
  exact (starts_head h).2.2.1 rfl

/-- The key at the start. -/
theorem key_start {k : Bytes} {b : UInt8} {r : Bytes} (hk : keyBlock k = true) (hb : isWs b = true) : FirstKey (k ++ COLON :: b :: r) k 0 k.length := by
  obtain ⟨k1, k2, k3, k4, k5, k6⟩ := keyBlock_mem hk
  have hs : slice (k ++ COLON :: b :: r) 0 k.length = k := by simp [slice]
  have hg : ∀ p, p < k.length → (k ++ COLON :: b :: r)[p]? ≠ some COLON := by
    intro p hp h
    rw [List.getElem?_append_left hp] at h
    exact k5 (List.mem_of_getElem? h)
  refine ⟨Nat.zero_le _, by simp, .inr ⟨hs, ?_, ?_, k4, ⟨by simp, .inl ?_⟩, fun p _ hp h => hg p hp h.1⟩⟩
  · cases k with
    | nil => exact absurd rfl k1
    | cons c k => exact k2
  · cases k with
    | nil => exact absurd rfl k1
    | cons c k =>
      have : (c == DASH) = false := by simpa using k3
      simp [dashes, this]
  · rw [List.getD_eq_getElem?_getD, List.getElem?_append_right (by omega), Nat.add_sub_cancel_left]
    exact hb

theorem quote_head {s v : Bytes} (h : InQuotes s v) (h2 : isIndicator (s.headD 0) = false) : False := by
  cases h with
  | single s => simp only [quoteSingle, List.cons_append, List.headD_cons] at h2; exact absurd h2 (by decide)
  | double _ _ => simp only [List.cons_append, List.headD_cons] at h2; exact absurd h2 (by decide)

/-- There is no other key at the start. -/
theorem key_only {k : Bytes} {b : UInt8} {r : Bytes} (hk : keyBlock k = true) (hb : isWs b = true) {k' : Bytes} {q : Nat} (h : FirstKey (k ++ COLON :: b :: r) k' 0 q) :
    k' = k ∧ q = k.length := by
  obtain ⟨k1, k2, k3, k4, k5, k6⟩ := keyBlock_mem hk
  have hs : slice (k ++ COLON :: b :: r) 0 k.length = k := by simp [slice]
  have hke := (key_start (r := r) hk hb).2.2
  obtain ⟨h1, h2, h3⟩ := h
  have hkq : k.length ≤ q := by
    rcases Nat.lt_or_ge q k.length with hq | hq
    · rw [List.getElem?_append_left hq] at h2
      exact absurd (List.mem_of_getElem? h2) k5
    · exact hq
  rcases h3 with h3 | ⟨h3, -, -, -, -, h4⟩
  · exfalso
    have hh : (slice (k ++ COLON :: b :: r) 0 q).headD 0 = k.headD 0 := by
      cases k with
      | nil => exact absurd rfl k1
      | cons c k =>
        cases q with
        | zero => simp at hkq
        | succ q => rfl
    generalize slice (k ++ COLON :: b :: r) 0 q = s at h3 hh
    rw [← hh] at k2
    exact quote_head h3 k2
  · have : q = k.length := by
      rcases Nat.lt_or_ge k.length q with hq | hq
      · exfalso
        rcases hke with hke | hke
        · exfalso
          rw [hs] at hke
          exact quote_head hke k2
        · exact h4 _ (Nat.zero_le _) hq hke.2.2.2.2.1
      · omega
    subst this
    exact ⟨by rw [← h3, hs], rfl⟩

/-- The first item is also one that is not the first. -/
theorem head_later {m : Bool} {p y : Bytes} (h : startsItem m y = true) {k : Option Bytes} {a : Nat} (hk : k.isSome = m) (hh : Head (p ++ y) true k p.length a) :
    Head (p ++ y) false k p.length a := by
  cases k with
  | none => exact ⟨hh.1, (fun h => by cases h), hh.2.2⟩
  | some k =>
    obtain rfl : true = m := hk
    obtain ⟨k0, b, r, rfl, hb, hk0, -⟩ := starts_key h
    obtain ⟨q, rfl, hq⟩ := hh
    have hq : FirstKey (p ++ (k0 ++ COLON :: b :: r)) k p.length q := hq
    obtain ⟨j, rfl⟩ := Nat.exists_eq_add_of_le hq.1
    obtain ⟨rfl, rfl⟩ := key_only hk0 hb ((sh_firstKey (p := p) (lo := 0)).1 hq)
    obtain ⟨k1, -, -, -, k5, k6⟩ := keyBlock_mem hk0
    refine ⟨p.length + k.length, rfl, ?_⟩
    have := List.length_pos_iff.2 k1
    refine ⟨by omega, hq.2.1, ?_, k5, k6⟩
    have := sh_slice p (k ++ COLON :: b :: r) 0 k.length
    rw [Nat.add_zero] at this
    rw [this]
    simp [slice]

theorem Rows.later {α : Type} {V : View α} {m : Bool} {p y : Bytes} (h : startsItem m y = true) {c : Nat} {l : List (Option Bytes × α)} {hi : Nat}
    (hl : ∀ e ∈ l, e.1.isSome = m) : Rows (p ++ y) V c true l p.length hi → Rows (p ++ y) V c false l p.length hi
  | .last h1 h2 h3 h4 h5 h6 => .last h1 (head_later h (hl _ (List.mem_cons_self ..)) h2) h3 h4 h5 h6
  | .more h1 h2 h3 h4 h5 h6 => .more h1 (head_later h (hl _ (List.mem_cons_self ..)) h2) h3 h4 h5 h6

theorem wsGo_joint {t : Bytes} (ht : stopWs t) : ∀ {c : Bool} {r : Bytes}, (r = [] ∧ c = false ∨ r.getLast? = some NL) → (wsGo c (r ++ t)).1 ≤ r.length
  | c, [], h => by
    rcases h with ⟨-, rfl⟩ | h
    · have := wsGo_append (w := []) (by simp) ht
      rw [this]
      exact Nat.le_refl _
    · cases h
  | c, b :: r, h => by
    have hl : (b :: r).getLast? = some NL := by rcases h with ⟨h, -⟩ | hl <;> first | cases h | exact hl
    have hl' : ∀ c', (c' = true → b ≠ NL) → r = [] ∧ c' = false ∨ r.getLast? = some NL := fun c' hc' => by
      cases r with
      | nil =>
        simp at hl
        cases c' with
        | false => exact .inl ⟨rfl, rfl⟩
        | true => exact absurd hl (hc' rfl)
      | cons a r => exact .inr (by simpa using hl)
    have h1 := wsGo_joint ht (c := false) (hl' false (fun h => by cases h))
    cases c with
    | true =>
      rw [List.cons_append, wsGo]
      by_cases hn : b = NL
      · simp only [hn, beq_self_eq_true, if_true, List.length_cons]
        omega
      · have hn' : (b == NL) = false := by simpa using hn
        have := wsGo_joint ht (c := true) (hl' true (fun _ => hn))
        simp only [hn', Bool.false_eq_true, if_false, List.length_cons]
        omega
    | false =>
      rw [List.cons_append, wsGo]
      by_cases hh : b = HASH
      · have := wsGo_joint ht (c := true) (hl' true (fun _ => by rw [hh]; decide))
        simp only [hh, beq_self_eq_true, if_true, List.length_cons]
        omega
      · have hh' : (b == HASH) = false := by simpa using hh
        simp only [hh', Bool.false_eq_true, if_false, List.length_cons]
        split
        · simp only; omega
        · split
          · simp only; omega
          · simp

/-- White space and comments do not go on into the next lines. -/
theorem Joint.stops {x t t' : Bytes} (H : Joint x t t') {a b : Nat} (h : FullGap (x ++ t) a b) (ha : a ≤ x.length) : b ≤ x.length := by
  rw [← h.eq, wsEnd, List.drop_append_of_le_length ha]
  have := wsGo_joint H.stop (c := false) (r := x.drop a) (by
    rcases Nat.lt_or_ge a x.length with h | h
    · exact .inr (H.tail.dropLast h)
    · exact .inl ⟨List.drop_eq_nil_iff.2 h, rfl⟩)
  rw [List.length_drop] at this
  omega

theorem plainValue_number {s n : Bytes} (h : plainValue s = .number n) : s = n := by
  unfold plainValue at h
  split at h
  · cases h; rfl
  · repeat' split at h
    all_goals cases h

/-- Where a number is. -/
theorem sits_number {inp n : Bytes} {s : Spot} {lo hi : Nat} (h : Sits inp contentView s (.scalar (.number n)) lo hi) : lo ≤ hi ∧ hi ≤ inp.length ∧ slice inp lo hi = n := by
  cases h with
  | scalar h1 h2 h3 h4 =>
    cases h1
    refine ⟨h2, h3, ?_⟩
    generalize slice inp lo hi = s' at h4
    generalize hv : AnyV.number n = v at h4
    cases h4 with
    | number => cases hv; rfl
    | plain => exact plainValue_number hv.symm
    | quoted => cases hv
  | lines h1 => cases h1
  | «open» h1 => cases h1
  | empty h1 => cases h1
  | dashes h1 => obtain ⟨es, h, -⟩ := h1; cases h
  | keys h1 => obtain ⟨es, h, -⟩ := h1; cases h
  | brackets h1 => obtain ⟨es, h, -⟩ := h1; cases h
  | braces h1 => obtain ⟨es, h, -⟩ := h1; cases h

theorem joint_probe {m : Bool} {x y : Bytes} (hx : x.getLast? = some NL) (hy : startsItem m y = true) : Joint x (probe m) y := by
  obtain ⟨s1, s2, s3, -, s5⟩ := starts_head hy
  refine ⟨hx, ?_, ⟨s1, s2, s3⟩, ?_, ?_, ?_⟩
  · cases m <;> decide
  · rw [s5]; cases m <;> decide
  · intro n hn
    cases m with
    | false => exact absurd (List.mem_of_getElem? hn) (by decide)
    | true =>
      match n, hn with
      | 0, hn => exact absurd hn (by decide)
      | 1, _ => decide
      | 2, hn => exact absurd hn (by decide)
      | 3, hn => exact absurd hn (by decide)
      | 4, hn => exact absurd hn (by decide)
      | n + 5, hn => cases hn
  · intro k q hq
    cases m with
    | false => exact absurd (List.mem_of_getElem? hq.2.1) (by decide)
    | true =>
      obtain ⟨k, b, r, rfl, hb, hk, -⟩ := starts_key hy
      exact ⟨k, _, key_start hk hb⟩

/-- The last line is the last item. -/
theorem probe_at {m : Bool} {x : Bytes} (hx : x.getLast? = some NL) {c lo hi : Nat} (h : Rows (x ++ probe m) contentView c false [probeItem m] lo hi)
    (hg : FullGap (x ++ probe m) hi (x ++ probe m).length) : lo = x.length := by
  have H : Joint x (probe m) (probe m) := joint_probe hx (by cases m <;> decide)
  have hlen := H.lt_length (Nat.le_refl x.length)
  have hpos := H.tail.pos
  have h0 : (x ++ probe m)[x.length]? = (probe m)[0]? := by
    have := sh_get x (probe m) 0
    rwa [Nat.add_zero] at this
  generalize hi' : probeItem m = it at h
  cases h with
  | @last _ _ k v _ a b _ q h1 h2 h3 h4 h5 h6 =>
    have hv : v = .scalar (.number (b! "0")) := by cases m <;> (cases hi'; rfl)
    subst hv
    have hk : k = if m then some (b! "z") else none := by cases m <;> (cases hi'; rfl)
    obtain ⟨g1, g2, g3⟩ := sits_number h4
    rcases Nat.lt_trichotomy lo x.length with hlt | heq | hgt
    · exfalso
      have ha : a ≤ x.length := by
        cases m with
        | false =>
          subst hk
          obtain ⟨e1, -, rfl⟩ := h2
          exact hlt
        | true =>
          subst hk
          obtain ⟨q, rfl, e1, e2, e3, -⟩ := h2
          have hl := (List.getElem?_eq_some_iff.1 e2).1
          have := slice_length (inp := x ++ probe true) (a := lo) (b := q) (by omega)
          rw [e3] at this
          have hq : q = lo + 1 := by
            have h' : (b! "z").length = 1 := rfl
            omega
          subst hq
          rcases Nat.lt_or_ge (lo + 1) x.length with h' | h'
          · exact h'
          · rw [show lo + 1 = x.length by omega, h0] at e2
            exact absurd e2 (by decide)
      have hb := H.stops h3 ha
      have hbn : b ≠ x.length := by
        rintro rfl
        have hl := slice_length (inp := x ++ probe m) (a := x.length) g2
        have hh : (slice (x ++ probe m) x.length hi)[0]? = some 48 := by rw [g3]; rfl
        unfold slice at hh
        rw [List.getElem?_take, if_pos (by rw [g3] at hl; have h' : (b! "0").length = 1 := rfl; omega), List.getElem?_drop, Nat.add_zero, h0] at hh
        revert hh
        cases m <;> decide
      have hl := slice_length (inp := x ++ probe m) (a := b) g2
      rw [g3] at hl
      have h' : (b! "0").length = 1 := rfl
      have := H.stops hg (by omega)
      omega
    · exact heq
    · exfalso
      obtain ⟨j, rfl⟩ := Nat.exists_eq_add_of_le (Nat.le_of_lt hgt)
      have hj : 0 < j := by omega
      cases m with
      | false =>
        subst hk
        obtain ⟨e1, -⟩ := h2
        rw [sh_get] at e1
        match j, e1 with
        | 1, e1 => exact absurd e1 (by decide)
        | 2, e1 => exact absurd e1 (by decide)
        | 3, e1 => exact absurd e1 (by decide)
        | j + 4, e1 => cases e1
      | true =>
        subst hk
        obtain ⟨q, rfl, e1, e2, e3, -⟩ := h2
        obtain ⟨j', rfl⟩ := Nat.exists_eq_add_of_le (show x.length ≤ q by omega)
        rw [sh_get] at e2
        match j', e2 with
        | 0, _ => omega
        | 1, _ => omega
        | 2, e2 => exact absurd e2 (by decide)
        | 3, e2 => exact absurd e2 (by decide)
        | 4, e2 => exact absurd e2 (by decide)
        | j + 5, e2 => cases e2
  | more _ _ _ _ _ h => cases h

theorem Rows.join {α : Type} {V : View α} {x t t' : Bytes} (H : Joint x t t') {c : Nat} {z : Option Bytes × α} {L : List (Option Bytes × α)} {hi hi' : Nat}
    (hz : ∀ lo, Rows (x ++ t) V c false [z] lo hi → lo = x.length) (hL : Rows (x ++ t') V c false L x.length hi') :
    ∀ {E : List (Option Bytes × α)} {first : Bool} {lo : Nat}, E ≠ [] → Rows (x ++ t) V c first (E ++ [z]) lo hi →
      lo ≤ x.length ∧ Rows (x ++ t') V c first (E ++ L) lo hi'
  | [], _, _, h, _ => absurd rfl h
  | [e], first, lo, _, h => by
    cases h with
    | @more _ _ k v _ _ a b e lo' _ h1 h2 h3 h4 h5 h6 =>
      have := hz _ h6
      subst this
      have h7 := h4.le
      have h8 := h3.le
      have h9 := h2.lt
      have h10 := h5.le
      exact ⟨by omega, .more (by rw [Joint.column (by omega)]; exact h1) (H.head h2 (by omega)).2 (H.full h3 (by omega)) (h4.joint H h5 (Nat.le_refl _))
        (H.full h5 (Nat.le_refl _)) hL⟩
  | e :: e' :: E, first, lo, _, h => by
    cases h with
    | @more _ _ k v _ _ a b e lo' _ h1 h2 h3 h4 h5 h6 =>
      obtain ⟨h11, h12⟩ := Rows.join H hz hL (E := e' :: E) (by simp) h6
      have h7 := h4.le
      have h8 := h3.le
      have h9 := h2.lt
      have h10 := h5.le
      exact ⟨by omega, .more (by rw [Joint.column (by omega)]; exact h1) (H.head h2 (by omega)).2 (H.full h3 (by omega)) (h4.joint H h5 h11)
        (H.full h5 h11) h12⟩

/-- The collection with the items. -/
def collView (m : Bool) (c : Content) (l : List (Option Bytes × Content)) : Prop :=
  if m then ∃ es : Entries, c = .map es ∧ l = es.list.map fun e => (some e.1, e.2) else ∃ es : Elems, c = .seq es ∧ l = es.list.map fun v => (none, v)

theorem collView.keys {m : Bool} {c : Content} {l : List (Option Bytes × Content)} (h : collView m c l) : ∀ e ∈ l, e.1.isSome = m := by
  intro e he
  cases m with
  | true =>
    obtain ⟨es, -, rfl⟩ := h
    obtain ⟨e', -, rfl⟩ := List.mem_map.1 he
    rfl
  | false =>
    obtain ⟨es, -, rfl⟩ := h
    obtain ⟨e', -, rfl⟩ := List.mem_map.1 he
    rfl

theorem starts_body {m : Bool} {x : Bytes} (hs : startsItem m x = true) : skipBlank false (body x) = x := by
  obtain ⟨s1, s2, s3, s4, s5⟩ := starts_head hs
  have hne := starts_ne hs
  have hsk : skipBlank false x = x := by
    cases x with
    | nil => rfl
    | cons b x =>
      have := stop_of (k := [b]) (r := x) (by simp) s1
      rw [skipBlank, if_neg (by simpa using this.2), if_neg (by rw [show isWs b = false from this.1]; decide)]
  have hh : hasHeader x = false := by
    rw [hasHeader, hsk]
    simp only [Bool.or_eq_false_iff, beq_eq_false_iff_ne]
    refine ⟨s4, ?_⟩
    intro h
    cases m with
    | true =>
      cases x with
      | nil => exact hne rfl
      | cons b x =>
        rw [List.take_succ_cons] at h
        exact absurd (s5.1 (List.cons.inj h).1) (by decide)
    | false =>
      obtain ⟨b, r, rfl, hb⟩ := starts_dash hs
      rw [List.take_succ_cons, List.take_succ_cons] at h
      have := (List.cons.inj (List.cons.inj h).2).1
      rw [this] at hb
      exact absurd hb (by decide)
  rw [body_eq hh, hsk]

theorem rows_of {m : Bool} {x : Bytes} {c : Content} {l : List (Option Bytes × Content)} (hs : startsItem m x = true) (hv : collView m c l) :
    Accepts x c ↔ ∃ hi, Rows x contentView 0 true l 0 hi ∧ FullGap x hi x.length := by
  obtain ⟨s1, -⟩ := starts_head hs
  have hne := starts_ne hs
  have hbody := starts_body hs
  have hi0 : ∀ b, x[0]? = some b → isIndicator b = false := by
    intro b hb
    cases x with
    | nil => cases hb
    | cons c x => cases hb; exact s1
  constructor
  · rintro ⟨lo, hi, h1, h2, h3, h4⟩
    rw [hbody] at h2
    have : lo = 0 := by
      have h' := congrArg List.length h2
      rw [List.length_drop] at h'
      have := List.length_pos_iff.2 hne
      omega
    subst this
    refine ⟨hi, ?_, h4⟩
    cases m with
    | true =>
      obtain ⟨es, rfl, rfl⟩ := hv
      cases h3 with
      | keys g1 g2 g3 => obtain ⟨es', h, rfl⟩ := g1; cases h; exact g3
      | scalar g1 => cases g1
      | lines g1 => cases g1
      | «open» g1 => cases g1
      | dashes g1 => obtain ⟨es, h, -⟩ := g1; cases h
      | brackets g1 => obtain ⟨es, h, -⟩ := g1; cases h
      | braces _ g2 => exact absurd (hi0 _ g2) (by decide)
    | false =>
      obtain ⟨es, rfl, rfl⟩ := hv
      cases h3 with
      | dashes g1 g2 g3 => obtain ⟨es', h, rfl⟩ := g1; cases h; exact g3
      | scalar g1 => cases g1
      | lines g1 => cases g1
      | «open» g1 => cases g1
      | keys g1 => obtain ⟨es, h, -⟩ := g1; cases h
      | braces g1 => obtain ⟨es, h, -⟩ := g1; cases h
      | brackets _ g2 => exact absurd (hi0 _ g2) (by decide)
  · rintro ⟨hi, h1, h2⟩
    refine ⟨0, hi, Nat.zero_le _, by rw [hbody, List.drop_zero], ?_, h2⟩
    cases m with
    | true =>
      obtain ⟨es, rfl, rfl⟩ := hv
      exact .keys ⟨es, rfl, rfl⟩ ⟨by decide, fun _ h => by cases h⟩ h1
    | false =>
      obtain ⟨es, rfl, rfl⟩ := hv
      exact .dashes ⟨es, rfl, rfl⟩ (by decide) h1

theorem starts_append {m : Bool} {x : Bytes} (hs : startsItem m x = true) (y : Bytes) : startsItem m (x ++ y) = true := by
  cases m with
  | true =>
    obtain ⟨k, b, r, rfl, hb, hk, hp⟩ := starts_key hs
    obtain ⟨k1, -, -, -, k5, -⟩ := keyBlock_mem hk
    have ht : ∀ (k s : Bytes), COLON ∉ k → (k ++ COLON :: s).takeWhile (· != COLON) = k ∧ (k ++ COLON :: s).dropWhile (· != COLON) = COLON :: s := by
      intro k s
      induction k with
      | nil => intro _; exact ⟨rfl, rfl⟩
      | cons c k ih =>
        intro h
        simp only [List.mem_cons, not_or] at h
        have hc : (c != COLON) = true := by simpa using fun h' : c = COLON => h.1 h'.symm
        rw [List.cons_append, List.takeWhile_cons, List.dropWhile_cons, if_pos hc, if_pos hc, (ih h.2).1, (ih h.2).2]
        exact ⟨rfl, rfl⟩
    obtain ⟨t1, t2⟩ := ht k (b :: (r ++ y)) k5
    have hh : (k ++ COLON :: b :: (r ++ y)).headD 0 = k.headD 0 := by
      cases k with
      | nil => exact absurd rfl k1
      | cons c k => rfl
    rw [List.append_assoc, List.cons_append, List.cons_append]
    unfold startsItem
    rw [if_pos rfl, t1, t2, hk, hh]
    simp only [Bool.true_and, List.headD_cons, List.tail_cons, hb, Bool.and_true, beq_self_eq_true, bne_iff_ne]
    exact hp
  | false =>
    obtain ⟨b, r, rfl, hb⟩ := starts_dash hs
    simpa [startsItem] using hb

/-- Lines that are complete, with others after them. -/
theorem rows_cat {m : Bool} {x y : Bytes} {l L : List (Option Bytes × Content)} (hx : startsItem m x = true) (hn : x.getLast? = some NL) (hy : startsItem m y = true)
    (hl : ∀ e ∈ l, e.1.isSome = m) (hL : ∀ e ∈ L, e.1.isSome = m)
    (h1 : ∃ hi, Rows (x ++ probe m) contentView 0 true (l ++ [probeItem m]) 0 hi ∧ FullGap (x ++ probe m) hi (x ++ probe m).length)
    (h2 : ∃ hi, Rows y contentView 0 true L 0 hi ∧ FullGap y hi y.length) :
    ∃ hi, Rows (x ++ y) contentView 0 true (l ++ L) 0 hi ∧ FullGap (x ++ y) hi (x ++ y).length := by
  obtain ⟨hi, r1, g1⟩ := h1
  obtain ⟨hi', r2, g2⟩ := h2
  have H := joint_probe hn hy
  have r3 := (r2.shove (p := x) (.inr hn)).later hy hL
  have hz : ∀ lo, Rows (x ++ probe m) contentView 0 false [probeItem m] lo hi → lo = x.length := fun lo h => probe_at hn h g1
  have hne : l ≠ [] := by
    rintro rfl
    have := Rows.later (p := []) (y := x ++ probe m) (starts_append hx _) (fun e he => by
      rw [List.nil_append, List.mem_singleton] at he
      subst he
      cases m <;> rfl) r1
    have := hz _ this
    have := H.tail.pos
    simp at *
    omega
  refine ⟨x.length + hi', (Rows.join H hz r3 hne r1).2, ?_⟩
  rw [sh_len]
  exact sh_full.2 g2

end Verif
