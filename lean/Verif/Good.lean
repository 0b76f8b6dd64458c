import Verif.GrammarDocs
import Verif.OpLemmas
import Verif.Safe
/-
Trees laid out as in strict documents of the grammar, except that there may be values written as nothing; what edits keep of that.
-/
namespace Verif

set_option linter.unusedVariables false

/-- The scalar can be written where it is, or is a hole. -/
def Scalar.good (inl : Bool) (s : Scalar) : Prop := s = .null .empty ∨ ∃ a : Atom, a.ok inl = true ∧ s.fits a

def Tree.isBlock : Tree Nat → Bool
  | .node _ _ _ _ .block _ => true
  | _ => false

def Tree.isBlockSeq : Tree Nat → Bool
  | .node _ _ false _ .block _ => true
  | _ => false

def keyGoodF (k : RStr) : Prop := k.write = k.id ∧ keyFlow k.id = true
def keyGoodY (k : RStr) : Prop := k.write = k.id ∧ keyBlock k.id = true ∧ hd k.id ≠ PCT

mutual
/-- In inline collections. -/
def Tree.goodF : Tree Nat → Prop
  | .leaf _ _ s => s.good true
  | .node _ _ m _ k items => k = .inline false [] ∧ items.goodF m
def Items.goodF (m : Bool) : Items Nat → Prop
  | .nil => True
  | .cons _ ip k v rest => (gap ip = true ∧ validUtf8 ip = true ∧ gap v.pre = true ∧ (m = false → validUtf8 v.pre = true) ∧ (m = true → keyGoodF k)) ∧
      v.goodF ∧ rest.goodF m
end

/-- Text before an item other than the first. -/
def lineOk (q : Mode) (b : Bytes) : Prop := blank b = true ∧ (b = [] ∨ hd b = NL) ∧ validUtf8 b = true ∧ q.line b = true

/-- Text before an item in column `c`. -/
def itemPre (q : Mode) (c : Nat) (first : Bool) (ip : Bytes) : Prop :=
  if first then ip = [] ∨ ∃ b, blank b = true ∧ validUtf8 b = true ∧ ip = newLine c b else ∃ b, lineOk q b ∧ ip = newLine c b

/-- A block scalar in a collection in column `c`. -/
def Scalar.isBlk (q : Mode) (c : Nat) (s : Scalar) : Prop := ∃ (r : RStr) (b : Blk), s = .string r ∧ b.ok = true ∧ q.blk b = true ∧ r.write = b.text c ∧ r.id = b.value

/-- Where a value may be. -/
def placeOk (m block seq : Bool) (place : Place) : Prop := place.ok (!block || (m && seq)) = true ∧ (m = true → block = true → place.isHere = false)

mutual
/-- In column `c`, and in a collection in column `o`. -/
def Tree.goodY (q : Mode) (o c : Nat) : Tree Nat → Prop
  | .leaf _ _ s => s.good false ∨ s.isBlk q o
  | .node _ _ m ind k items => (k = .inline false [] ∧ items.goodF m) ∨ (k = .block ∧ ind = c ∧ items.goodY q m c true)
def Items.goodY (q : Mode) (m : Bool) (c : Nat) (first : Bool) : Items Nat → Prop
  | .nil => True
  | .cons _ ip k v rest => (itemPre q c first ip ∧ (m = true → keyGoodY k)) ∧
      (∃ place : Place, (v.pre = place.sep c ∧ placeOk m v.isBlock v.isBlockSeq place) ∧ v.goodY q c (place.col c)) ∧ rest.goodY q m c false
end

/-- The value of an item of a block collection in column `c`. -/
def Tree.slot (q : Mode) (m : Bool) (c : Nat) (v : Tree Nat) : Prop :=
  ∃ place : Place, (v.pre = place.sep c ∧ placeOk m v.isBlock v.isBlockSeq place) ∧ v.goodY q c (place.col c)

/-- A document. -/
structure GoodDoc (q : Mode) (doc : Document) (t : Tree Nat) (l : Bytes) (c : Nat) : Prop where
  holds : Holds doc t
  lead : leadOk l = true
  pre : t.pre = l ++ List.replicate c SP
  good : t.goodY q c c
  start : ∀ i p s, t = .leaf i p s → hd s.write ≠ PCT ∧ (b! "---").isPrefixOf s.write = false
  tail : blank doc.suffix = true ∧ (doc.suffix = [] ∨ hd doc.suffix = NL)
  last : q.tail doc.suffix = true

/-! ### Strict documents are good -/

mutual
theorem F.Fits.good : ∀ {f : F} {pre : Bytes} {t : Tree Nat}, F.Fits f pre t → f.ok true = true → t.goodF
  | .atom a, _, _, .atom h, hok => .inr ⟨a, hok, h⟩
  | .coll m items, _, _, .coll h, hok => ⟨rfl, h.good (by rw [F.ok] at hok; exact hok)⟩
theorem Fs.Fits.good : ∀ {m : Bool} {xs : Fs} {its : Items Nat}, Fs.Fits m xs its → xs.ok m = true → its.goodF m
  | m, .nil, _, .nil, _ => trivial
  | m, .cons pre key sep v rest, .cons i ip k v' r, .cons h1 h2 h3, hok => by
    simp only [Fs.ok, Bool.and_eq_true] at hok
    obtain ⟨⟨⟨⟨o1, o2⟩, o3⟩, o4⟩, o5⟩ := hok
    refine ⟨?_, h2.good o4, h3.good o5⟩
    cases m with
    | true =>
      simp only [if_true] at h1
      obtain ⟨h1, h4, rfl, rfl⟩ := h1
      simp only [Bool.not_true, Bool.false_or, Bool.and_eq_true] at o3
      refine ⟨o1, o2, ?_, (fun h => by cases h), fun _ => ?_⟩
      · rw [h2.pre]; exact o3.2
      · exact ⟨by rw [h1, h4], by rw [h4]; exact o3.1⟩
    | false =>
      simp only [Bool.false_eq_true, if_false] at h1
      obtain ⟨_, h1, h4, h5, h6⟩ := h1
      exact ⟨h1, h5, by rw [h2.pre]; exact h4, fun _ => by rw [h2.pre]; exact h6, (fun h => by cases h)⟩
end

theorem Y.Fits.kind {c : Nat} {y : Y} {pre : Bytes} {t : Tree Nat} (h : Y.Fits c y pre t) : t.isBlock = !y.isFlow ∧ t.isBlockSeq = y.isSeq := by
  cases h with
  | flow h => cases h with
    | atom => exact ⟨rfl, rfl⟩
    | @coll m _ _ _ _ _ _ => cases m <;> exact ⟨rfl, rfl⟩
  | block => exact ⟨rfl, rfl⟩
  | hole => exact ⟨rfl, rfl⟩
  | coll => rename_i m _ _ _ _ _ _ _; cases m <;> exact ⟨rfl, rfl⟩

theorem F.ok_false {f : F} (h : ∀ a, f ≠ .atom a) (inl : Bool) : f.ok inl = f.ok true := by
  cases f with
  | atom a => exact absurd rfl (h a)
  | coll m items => simp only [F.ok]

theorem Ys.before_ok {q : Mode} {prev : Y} {b : Bytes} {p : Place} {k : Bytes} {v : Y} {r : Ys} (h : (Ys.cons b p k v r).beforeOk true prev = true)
    (hc : (Ys.cons b p k v r).calm q false = true) : lineOk q b := by
  simp only [Ys.beforeOk, afterOk, Bool.and_eq_true, Bool.or_eq_true, List.isEmpty_iff, beq_iff_eq, Bool.not_true, Bool.false_and, Bool.false_eq_true,
    or_false] at h
  simp only [Ys.calm, Bool.false_or, Bool.and_eq_true] at hc
  exact ⟨h.1.1, h.1.2, h.2.1, hc.1.1⟩

mutual
/-- The block scalar a document ends with is one that it may use. -/
theorem Y.calm_endBlk {q : Mode} : ∀ {y : Y} {b : Blk}, y.calm q = true → y.endBlk = some b → q.blk b = true
  | .flow _, _, _, h => by cases h
  | .block b, _, h, e => by cases e; exact h
  | .hole, _, _, h => by cases h
  | .coll m items, b, h, e => by
    rw [Y.calm] at h
    exact Ys.calm_endBlk h e
theorem Ys.calm_endBlk {q : Mode} : ∀ {first : Bool} {ys : Ys} {b : Blk}, ys.calm q first = true → ys.endBlk = some b → q.blk b = true
  | _, .nil, _, _, h => by cases h
  | first, .cons b place key v rest, b', h, e => by
    simp only [Ys.calm, Bool.and_eq_true] at h
    rw [Ys.endBlk] at e
    split at e
    · exact Y.calm_endBlk h.1.2 e
    · exact Ys.calm_endBlk h.2 e
end

/-- After a block scalar, before an item. -/
theorem Y.calm_before {q : Mode} {y : Y} {b : Bytes} (h : y.calm q = true) (hb : q.line b = true) : y.blkAfter (b ++ [NL]) = true := by
  unfold Y.blkAfter
  cases he : y.endBlk with
  | none => rfl
  | some k =>
    have hk := Y.calm_endBlk h he
    have h1 : ((b ++ [NL]).getLastD 0 == NL) = true := by simp [List.getLastD_eq_getLast?]
    have h2 : (b ++ [NL]).isEmpty = false := by simp
    show k.after (b ++ [NL]) = true
    rw [Blk.after, h2, if_neg (by decide), h1, Bool.true_and]
    cases q with
    | none => cases hk
    | strip => have : (k.chomp == .strip) = true := hk
               rw [this]; rfl
    | tight =>
      have hb : b = [] := by simpa [Mode.line] using hb
      subst hb
      simp only [Mode.blk, Bool.or_eq_true, beq_iff_eq] at hk ⊢
      rcases hk with hk | hk
      · exact .inl hk
      · right; rw [hk]; decide

/-- At the end of the document. -/
theorem Y.calm_tail {q : Mode} {y : Y} {b : Bytes} (h : y.calm q = true) (hb : q.tail b = true) : y.blkAfter b = true := by
  unfold Y.blkAfter
  cases he : y.endBlk with
  | none => rfl
  | some k =>
    have hk := Y.calm_endBlk h he
    show k.after b = true
    rw [Blk.after]
    cases q with
    | none => cases hk
    | strip =>
      have h3 : (k.chomp == .strip) = true := hk
      have h4 : (b.getLastD 0 == NL) = true := hb
      have h2 : b.isEmpty = false := by
        cases b with
        | nil => revert h4; decide
        | cons => rfl
      rw [h2, if_neg (by decide), h4, h3]; rfl
    | tight =>
      have hb : b = [NL] := by simpa [Mode.tail] using hb
      subst hb
      simp only [Mode.blk, Bool.or_eq_true, beq_iff_eq] at hk
      simp only [List.isEmpty_cons, Bool.false_eq_true, if_false, Bool.and_eq_true, Bool.or_eq_true, beq_iff_eq]
      refine ⟨by decide, ?_⟩
      rcases hk with hk | hk
      · exact .inl hk
      · right; rw [hk]; decide

mutual
theorem Y.Fits.good {q : Mode} : ∀ {o c : Nat} {y : Y} {pre : Bytes} {t : Tree Nat}, Y.Fits (if y.isFlow then o else c) y pre t → y.ok true = true → y.calm q = true →
    t.goodY q o c
  | _, _, .flow (.atom a), _, _, .flow (.atom h), hok, _ => .inl (.inr ⟨a, by simpa only [Y.ok, F.ok] using hok, h⟩)
  | _, _, .block b, _, _, .block h1 h2, hok, hc => .inr ⟨_, b, rfl, hok, hc, h1, h2⟩
  | _, _, .hole, _, _, .hole, hok, _ => by cases hok
  | _, _, .flow (.coll m items), _, _, .flow (.coll h), hok, _ => .inl ⟨rfl, h.good (by simpa only [Y.ok, F.ok] using hok)⟩
  | _, c, .coll m items, _, .node i p _ _ _ its, .coll h1 h2 h3, hok, hc => by
    simp only [Y.ok, Bool.and_eq_true] at hok
    rw [Y.calm] at hc
    exact .inr ⟨rfl, rfl, h1.good hok.2 hc (by
      cases its with
      | nil => cases items <;> trivial
      | cons i ip k v r => cases items <;> first | trivial | exact h3)⟩
theorem Ys.Fits.good {q : Mode} : ∀ {m : Bool} {c : Nat} {first : Bool} {ys : Ys} {its : Items Nat}, Ys.Fits m c first ys its → ys.ok true m = true →
    ys.calm q first = true → (match ys, its with
      | .cons b _ _ _ _, .cons _ ip _ _ _ => if first then (ip = [] ∨ ∃ b, blank b = true ∧ validUtf8 b = true ∧ ip = newLine c b) else lineOk q b
      | _, _ => True) → its.goodY q m c first
  | m, c, first, .nil, _, .nil, _, _, _ => trivial
  | m, c, first, .cons b place key v rest, .cons i ip k v' r, .cons h1 h2 h3 h4 h5, hok, hc, hb => by
    obtain ⟨_, o3, o4, o5⟩ := Ys.ok_cons hok
    have o3 := (o3.resolve_left (fun h => by cases h.2.1)).2
    simp only [Ys.calm, Bool.and_eq_true] at hc
    rw [Ys.ok] at hok
    simp only [Bool.and_eq_true] at hok
    have o1 := hok.1.1.1
    obtain ⟨place0, p1, p2, p3, p4⟩ := h3.resolve_left (fun h => by
      cases v with
      | hole => cases o3
      | _ => cases h)
    refine ⟨⟨?_, ?_⟩, ⟨place0, ⟨p3, ?_, ?_⟩, ?_⟩, h5.good o5 hc.2 ?_⟩
    · unfold itemPre
      cases first with
      | true => exact hb
      | false => exact ⟨b, hb, h1 rfl⟩
    · rintro rfl
      simp only [if_true] at h2
      simp only [Bool.not_true, Bool.false_or, Bool.and_eq_true, bne_iff_ne] at o1
      exact ⟨by rw [h2.1, h2.2], by rw [h2.2]; exact o1.1.1, by rw [h2.2]; exact o1.2⟩
    · rw [h4.kind.1, h4.kind.2, Bool.not_not]; exact p1
    · rw [h4.kind.1]
      intro hm hf
      exact p2 hm (by simpa using hf)
    · refine Y.Fits.good (y := v) (pre := place.sep c) ?_ o3 hc.1.2
      cases hv : v.isFlow with
      | false => rw [p4 hv, ← Y.col_coll hv]; exact h4
      | true =>
        cases v with
        | coll => cases hv
        | _ => exact h4
    · cases rest with
      | nil => cases h5; trivial
      | cons b2 p2 k2 v2 r2 => cases h5; exact Ys.before_ok o4 hc.2
end

theorem FitsDoc.good {q : Mode} {doc : Document} {p : Page} (h : FitsDoc doc p) (hp : p.ok true = true) (hc : p.calm q = true) :
    ∃ t l c, GoodDoc q doc t l c := by
  obtain ⟨t, h1, h2, ⟨l, c, h3, h4, h5⟩, h6⟩ := h
  simp only [Page.ok, Bool.and_eq_true, bne_iff_ne, Bool.not_eq_true'] at hp
  simp only [Page.calm, Bool.and_eq_true] at hc
  obtain ⟨⟨⟨⟨o1, o2⟩, o3, _⟩, o4⟩, o5⟩ := hp
  obtain ⟨l, c, h3, h4, h5⟩ : ∃ l c, leadOk l = true ∧ t.pre = l ++ List.replicate c SP ∧ c = p.col := by
    cases hf : p.body.isFlow with
    | false => exact ⟨l, c, h3, h4, h5 hf⟩
    | true =>
      refine ⟨p.lead, p.col, o1, ?_, rfl⟩
      cases hb : p.body with
      | coll => rw [hb] at hf; cases hf
      | hole => rw [hb] at o2; cases o2
      | flow f => rw [hb] at h2; cases h2 with | flow h => exact h.pre
      | block b =>
        rw [hb] at h2
        generalize p.lead ++ List.replicate p.col SP = w at *
        cases h2; rfl
  subst h5
  refine ⟨t, l, _, h1, h3, h4, ?_, ?_, ?_, by rw [h6]; exact hc.2⟩
  · exact Y.Fits.good (pre := p.lead ++ List.replicate p.col SP) (by rw [ite_self]; exact h2) o2 hc.1
  · rintro i q s rfl
    have : p.body.text p.col = s.write := by
      cases hb : p.body with
      | coll => rw [hb] at h2; cases h2
      | block b =>
        rw [hb] at h2
        cases h2 with
        | block h _ => rw [Y.text, ← h]; rfl
      | hole => rw [hb] at o2; cases o2
      | flow f => rw [hb] at h2; cases h2 with | flow h => cases h with | atom h => rw [Y.text, F.text, h.1]
    rw [this] at o4 o5
    exact ⟨o4, o5⟩
  · rw [h6]
    simp only [afterOk, Bool.and_eq_true, Bool.or_eq_true, List.isEmpty_iff, beq_iff_eq, Bool.not_true, Bool.false_and, Bool.false_eq_true,
      or_false] at o3
    exact o3

/-! ### Good documents without holes are documents of the grammar -/

mutual
/-- Nothing is written as nothing. -/
def Tree.full : Tree Nat → Prop
  | .leaf _ _ s => s.write ≠ []
  | .node _ _ _ _ k items => (k = .block → items.isNil = false) ∧ items.full
def Items.full : Items Nat → Prop
  | .nil => True
  | .cons _ _ _ v rest => v.full ∧ rest.full
end

theorem Scalar.good.atom {inl : Bool} {s : Scalar} (h : s.good inl) (hf : s.write ≠ []) : ∃ a : Atom, a.ok inl = true ∧ s.fits a := by
  rcases h with rfl | h
  · exact absurd rfl hf
  · exact h

mutual
theorem Tree.goodF.fits : ∀ {t : Tree Nat}, t.goodF → t.full → ∃ f : F, f.ok true = true ∧ F.Fits f t.pre t
  | .leaf i p s, h, hf => by
    obtain ⟨a, ha, hs⟩ := Scalar.good.atom h hf
    exact ⟨.atom a, ha, .atom hs⟩
  | .node i p m ind k items, ⟨h1, h2⟩, hf => by
    obtain ⟨xs, hx, hs, _⟩ := Items.goodF.fits h2 hf.2
    subst h1
    exact ⟨.coll m xs, by rw [F.ok]; exact hx, .coll hs⟩
theorem Items.goodF.fits : ∀ {m : Bool} {its : Items Nat}, its.goodF m → its.full → ∃ xs : Fs, xs.ok m = true ∧ Fs.Fits m xs its ∧ xs.isNil = its.isNil
  | m, .nil, _, _ => ⟨.nil, rfl, .nil, rfl⟩
  | m, .cons i ip k v rest, ⟨⟨h1, h2, h3, h4, h5⟩, h6, h7⟩, hf => by
    obtain ⟨f, f1, f2⟩ := Tree.goodF.fits h6 hf.1
    obtain ⟨xs, x1, x2, _⟩ := Items.goodF.fits h7 hf.2
    cases m with
    | true =>
      refine ⟨.cons ip k.id v.pre f xs, ?_, .cons (by simp [(h5 rfl).1]) f2 x2, rfl⟩
      simp [Fs.ok, h1, h2, h3, (h5 rfl).2, f1, x1]
    | false =>
      refine ⟨.cons (ip ++ v.pre) [] [] f xs, ?_, .cons (by simp [h1, h2, h3, h4]) f2 x2, rfl⟩
      have hg : gap (ip ++ v.pre) = true := by unfold gap at *; rw [gapGo_append h1]; exact h3
      simp [Fs.ok, hg, valid_append h2, h4, f1, x1]
end

theorem blankGo_cat : ∀ {c : Bool} {a b : Bytes}, gapGo c a = true → blank b = true → blankGo c (a ++ b) = true
  | c, [], b, h, hb => by
    cases c with
    | true => cases h
    | false => exact hb
  | true, x :: a, b, h, hb => by rw [gapGo] at h; rw [List.cons_append, blankGo]; exact blankGo_cat h hb
  | false, x :: a, b, h, hb => by
    rw [gapGo] at h; rw [List.cons_append, blankGo]
    split at h
    · next e => rw [if_pos e]; exact blankGo_cat h hb
    · next e => rw [if_neg e]; simp only [Bool.and_eq_true] at h ⊢; exact ⟨h.1, blankGo_cat h.2 hb⟩

theorem blank_cat {a b : Bytes} (h : gap a = true) (hb : blank b = true) : blank (a ++ b) = true := blankGo_cat h hb

/-- Text before a value and before its first item, together. -/
theorem placeOk.more {m block seq : Bool} {place : Place} (h : placeOk m block seq place) (c : Nat) {b : Bytes} (hb : blank b = true) :
    ∃ place' : Place, placeOk m block seq place' ∧ place'.sep c = place.sep c ++ newLine (place.col c) b ∧ place'.col c = place.col c := by
  have hle := place.le_col c
  refine ⟨.below (place.sep c ++ b) (place.col c - c), ⟨?_, fun _ _ => rfl⟩, ?_, ?_⟩
  · have h1 := blank_cat (Place.sep_gap h.1 c) hb
    have h2 := Place.sep_hd h.1 c b
    simp only [Place.ok, h1, Bool.true_and, Bool.and_eq_true, Bool.or_eq_true]
    refine ⟨.inr h2, ?_⟩
    have h3 := h.1
    cases place with
    | here n => right; show decide (0 < c + 2 + n - c) = true; rw [decide_eq_true_eq]; omega
    | below g n => simp only [Place.ok, Bool.and_eq_true, Bool.or_eq_true] at h3; simpa [Place.col] using h3.2
    | none => cases h3
  · simp only [Place.sep, newLine, List.append_assoc]
    rw [show c + (place.col c - c) = place.col c by omega]
  · simp only [Place.col]; cases place <;> simp only [Place.col] <;> omega

theorem Y.Fits.of_pre {c : Nat} {y : Y} {p q : Bytes} {t : Tree Nat} (h : Y.Fits c y p t) (e : p = q) : Y.Fits c y q t := e ▸ h

/-- Text before a tree and its first item. -/
def Tree.lead (t : Tree Nat) : Bytes :=
  match t with
  | .node _ p _ _ .block items => p ++ items.firstPre
  | t => t.pre

theorem Tree.goodY.lead {q : Mode} {o c : Nat} {t : Tree Nat} (h : t.goodY q o c) :
    t.lead = t.pre ∨ (t.isBlock = true ∧ ∃ b, blank b = true ∧ t.lead = t.pre ++ newLine c b) := by
  cases t with
  | leaf => exact .inl rfl
  | node i p m ind k items =>
    rcases h with ⟨rfl, _⟩ | ⟨rfl, rfl, h⟩
    · exact .inl rfl
    · cases items with
      | nil => exact .inl (List.append_nil p)
      | cons i ip k v r =>
        rcases h.1.1 with h | ⟨b, h1, _, h2⟩
        · left; show p ++ ip = p; rw [h, List.append_nil]
        · right; exact ⟨rfl, b, h1, by show p ++ ip = _; rw [h2]; rfl⟩

mutual
theorem Tree.goodY.fits {q : Mode} : ∀ {t : Tree Nat} {o c : Nat}, t.goodY q o c → t.full →
    ∃ y : Y, y.ok true = true ∧ y.calm q = true ∧ Y.Fits (if y.isFlow then o else c) y t.lead t
  | .leaf i p s, o, c, .inl h, hf => by
    obtain ⟨a, ha, hs⟩ := Scalar.good.atom h hf
    exact ⟨.flow (.atom a), ha, rfl, .flow (.atom hs)⟩
  | .leaf i p _, o, c, .inr ⟨r, b, rfl, h1, h2, h3, h4⟩, hf => ⟨.block b, h1, h2, .block h3 h4⟩
  | .node i p m ind k items, o, c, .inl ⟨h1, h2⟩, hf => by
    obtain ⟨xs, hx, hs, _⟩ := Items.goodF.fits h2 hf.2
    subst h1
    exact ⟨.flow (.coll m xs), by rw [Y.ok, F.ok]; exact hx, rfl, .flow (.coll hs)⟩
  | .node i p m ind k items, o, c, .inr ⟨h1, h2, h3⟩, hf => by
    obtain ⟨ys, y1, y4, y2, y3, _⟩ := Items.goodY.fits h3 hf.2
    subst h1; subst h2
    refine ⟨.coll m ys, by rw [Y.ok, y3, hf.1 rfl, y1]; rfl, by rw [Y.calm]; exact y4, .coll y2 rfl ?_⟩
    cases items with
    | nil => exact .inl rfl
    | cons i ip k v r => exact h3.1.1
theorem Items.goodY.fits {q : Mode} : ∀ {its : Items Nat} {m : Bool} {c : Nat} {first : Bool}, its.goodY q m c first → its.full →
    ∃ ys : Ys, ys.ok true m = true ∧ ys.calm q first = true ∧ Ys.Fits m c first ys its ∧ ys.isNil = its.isNil ∧
      (first = false → ∀ prev : Y, prev.calm q = true → ys.beforeOk true prev = true)
  | .nil, m, c, first, _, _ => ⟨.nil, rfl, rfl, .nil, rfl, fun _ _ _ => rfl⟩
  | .cons i ip k v rest, m, c, first, ⟨⟨h1, h2⟩, ⟨place, ⟨h3, h4⟩, h5⟩, h6⟩, hf => by
    obtain ⟨y, y1, y3, y2⟩ := Tree.goodY.fits h5 hf.1
    obtain ⟨ys, z1, z4, z2, _, z3⟩ := Items.goodY.fits h6 hf.2
    have hk := y2.kind
    obtain ⟨place', p1, p2, p3⟩ : ∃ place' : Place, placeOk m v.isBlock v.isBlockSeq place' ∧ place'.sep c = v.lead ∧ place'.col c = place.col c := by
      rcases h5.lead with h | ⟨_, b, hb, h⟩
      · exact ⟨place, h4, by rw [h, h3], rfl⟩
      · obtain ⟨p', q1, q2, q3⟩ := h4.more c hb
        exact ⟨p', q1, by rw [q2, h, h3], q3⟩
    obtain ⟨b, b1, b2⟩ : ∃ b, (first = false → lineOk q b ∧ ip = newLine c b) ∧ lossy ip = ip := by
      unfold itemPre at h1
      cases first with
      | true =>
        refine ⟨[], (fun h => by cases h), ?_⟩
        rcases h1 with rfl | ⟨b, _, h, rfl⟩
        · rfl
        · exact lossy_newLine c h
      | false =>
        obtain ⟨b, h, rfl⟩ := h1
        exact ⟨b, fun _ => ⟨h, rfl⟩, lossy_newLine c h.2.2.1⟩
    rw [hk.1, hk.2, placeOk, Bool.not_not] at p1 h4
    refine ⟨.cons b place' k.id y ys, ?_, ?_, .cons (fun h => (b1 h).2) ?_ (.inr ⟨place, h4.1, fun hm hv => h4.2 hm (by simp [hv]), h3, fun _ => p3.symm⟩)
      ?_ z2, rfl, fun h prev hprev => ?_⟩
    · have ho : (!m || (keyBlock k.id && (y.isFlow || !place'.isHere) && (!true || k.id.headD 0 != PCT))) = true := by
        cases m with
        | false => rfl
        | true =>
          obtain ⟨_, g2, g3⟩ := h2 rfl
          have : (y.isFlow || !place'.isHere) = true := by
            cases hy : y.isFlow with
            | true => rfl
            | false => rw [p1.2 rfl (by simp [hy])]; rfl
          simp only [g2, this, Bool.not_true, Bool.false_or, Bool.true_and, Bool.and_eq_true, bne_iff_ne]
          exact g3
      rw [Ys.ok, ho, p1.1, y1, z3 rfl y y3, z1]; simp
    · rw [Ys.calm, y3, z4, Bool.and_true, Bool.and_true, Bool.or_eq_true]
      cases hfi : first with
      | true => exact .inl rfl
      | false => exact .inr (b1 hfi).1.2.2.2
    · cases m with
      | true => simp only [if_true]; exact ⟨(h2 rfl).1, trivial⟩
      | false => simp only [Bool.false_eq_true, if_false]; exact b2
    · rw [p2]
      cases hy : y.isFlow with
      | false => rw [Y.col_coll hy, p3]; rw [hy] at y2; exact y2
      | true =>
        cases y with
        | coll => cases hy
        | flow f => exact y2
        | block => exact y2
        | hole => cases y1
    · obtain ⟨⟨g1, g2, g3, g4⟩, _⟩ := b1 h
      simp only [Ys.beforeOk, Y.calm_before hprev g4, afterOk, g1, g3, Bool.and_true, Bool.true_and, Bool.not_true, Bool.false_and, Bool.or_false, Bool.or_eq_true, List.isEmpty_iff,
        beq_iff_eq]
      exact g2
end

theorem lead_gap {l : Bytes} (h : leadOk l = true) : gap l = true := by
  simp only [leadOk, Bool.and_eq_true, Bool.or_eq_true, beq_iff_eq] at h
  cases he : l.isEmpty with
  | true => rw [List.isEmpty_iff.1 he]; rfl
  | false =>
    rw [he] at h
    obtain ⟨r, rfl⟩ := eq_concat_of_getLastD he (by simpa using h.2)
    rw [Verif.gap, blank_gap (blankGo_append h.1)]; rfl

theorem noDashes {x : UInt8} {r : Bytes} (h : x ≠ DASH) : (b! "---").isPrefixOf (x :: r) = false := by
  show (DASH == x && _) = false
  rw [show (DASH == x) = false from beq_eq_false_iff_ne.2 (Ne.symm h)]; rfl

theorem Y.noHeader {y : Y} (h : y.ok true = true) (ha : ∀ a, y ≠ .flow (.atom a)) (c : Nat) :
    hd (y.text c) ≠ PCT ∧ (b! "---").isPrefixOf (y.text c) = false := by
  cases y with
  | block b =>
    rw [Y.text, Blk.text]
    cases b.folded with
    | true => exact ⟨by show GT ≠ PCT; decide, noDashes (by decide)⟩
    | false => exact ⟨by show PIPE ≠ PCT; decide, noDashes (by decide)⟩
  | hole => cases h
  | flow f =>
    cases f with
    | atom a => exact absurd rfl (ha a)
    | coll m items =>
      rw [Y.text, F.text]
      cases m with
      | true => exact ⟨by show LCB ≠ PCT; decide, noDashes (by decide)⟩
      | false => exact ⟨by show LBR ≠ PCT; decide, noDashes (by decide)⟩
  | coll m items =>
    simp only [Y.ok, Bool.and_eq_true, Bool.not_eq_true'] at h
    cases items with
    | nil => cases h.1
    | cons b place key v rest =>
      have h2 := h.2
      rw [Y.text]
      cases m with
      | true =>
        have h3 := (Ys.start h2 rfl c []).2 rfl
        simp only [Ys.ok, Bool.and_eq_true, Bool.not_true, Bool.false_or, bne_iff_ne] at h2
        obtain ⟨⟨⟨⟨⟨o1, _⟩, o2⟩, _⟩, _⟩, _⟩ := h2
        cases key with
        | nil => simp [keyBlock] at o1
        | cons x key =>
          rw [List.append_nil] at h3
          exact ⟨o2, noDashes h3⟩
      | false =>
        refine ⟨by show DASH ≠ PCT; decide, ?_⟩
        have : place.ok (v.isFlow || (false && v.isSeq)) = true := by
          exact ((Ys.ok_cons h2).2.1.resolve_left (fun h => by cases h.1)).1
        have h3 := Place.sep_hd this c (v.text (v.col place c) ++ rest.text false c false)
        simp only [Ys.text, if_true, List.nil_append, List.cons_append, Bool.false_eq_true, if_false, List.append_assoc]
        generalize place.sep c ++ (v.text (v.col place c) ++ rest.text false c false) = w at h3
        cases w with
        | nil => rfl
        | cons x w =>
          have hx : x ≠ DASH := by
            rintro rfl
            exact absurd h3 (by show ¬ isWs DASH = true; decide)
          show (DASH == DASH && (DASH == x && _)) = false
          rw [show (DASH == x) = false from beq_eq_false_iff_ne.2 (Ne.symm hx)]; rfl

theorem GoodDoc.page {q : Mode} {doc : Document} {t : Tree Nat} {l : Bytes} {c : Nat} (h : GoodDoc q doc t l c) (hf : t.full) :
    ∃ p : Page, p.ok true = true ∧ p.calm q = true ∧ FitsDoc doc p := by
  obtain ⟨y, y1, y3, y2⟩ := h.good.fits hf
  rw [ite_self] at y2
  have hst : hd (y.text c) ≠ PCT ∧ (b! "---").isPrefixOf (y.text c) = false := by
    cases y with
    | coll => exact Y.noHeader y1 (fun a h => by cases h) c
    | block => exact Y.noHeader y1 (fun a h => by cases h) c
    | hole => cases y1
    | flow f =>
      cases f with
      | coll => exact Y.noHeader y1 (fun a h => by cases h) c
      | atom a =>
        generalize t.lead = q at y2
        cases y2 with
        | flow h2 =>
          cases h2 with
          | atom hs => have := h.start _ _ _ rfl; rw [hs.1] at this; exact this
  have hta : afterOk true y doc.suffix = true := by
    simp only [afterOk, h.tail.1, Bool.true_and, Bool.not_true, Bool.false_and, Bool.or_false, Bool.or_eq_true, List.isEmpty_iff, beq_iff_eq]
    exact h.tail.2
  obtain ⟨l', l1, l2⟩ : ∃ l', leadOk l' = true ∧ t.lead = l' ++ List.replicate c SP := by
    rcases h.good.lead with e | ⟨_, b, hb, e⟩
    · exact ⟨l, h.lead, by rw [e, h.pre]⟩
    · refine ⟨l ++ List.replicate c SP ++ b ++ [NL], ?_, by rw [e, h.pre]; simp [newLine]⟩
      have hg : gap (l ++ List.replicate c SP) = true := by
        have h1 := lead_gap h.lead
        unfold gap at *; rw [gapGo_append h1]; exact gap_spaces c
      have hb2 : blank (b ++ [NL]) = true := by
        have := gap_newLine 0 hb
        have := blank_cat this (b := []) rfl
        simpa [newLine] using this
      have := blank_cat hg hb2
      simp only [leadOk, Bool.and_eq_true, Bool.or_eq_true, beq_iff_eq]
      refine ⟨by simpa using this, .inr ?_⟩
      simp [List.getLastD_eq_getLast?]
  refine ⟨⟨l', c, y, doc.suffix⟩, ?_, by rw [Page.calm, y3, h.last]; rfl, t, h.holds, by rw [← l2]; exact y2, ⟨l, c, h.lead, h.pre, fun _ => rfl⟩, rfl⟩
  simp only [Page.ok, l1, y1, hta, Y.calm_tail y3 h.last, hst.2, Bool.true_and, Bool.and_eq_true, bne_iff_ne]
  exact ⟨hst.1, rfl⟩

end Verif
