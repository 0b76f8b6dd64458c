import Verif.Props.Restored
/-
What is loaded from saved data is in that data.
-/
namespace Verif

/-! What the theorems are about. -/

mutual
/-- Everything in the second is in the first, in the same place; the first may have more entries in its maps. -/
inductive Covers {H : Type} : Sd H → Sd H → Prop
  | same (v) : Covers v v
  | some {v w} : Covers v w → Covers (.some v) (.some w)
  | map {l l'} : CoversAll l l' → Covers (.map l) (.map l')
/-- Each entry of the second is covered by an entry of the first with the same key. -/
inductive CoversAll {H : Type} : List (Sd H × Sd H) → List (Sd H × Sd H) → Prop
  | nil {l} : CoversAll l []
  | cons {l l' k v w} : (k, v) ∈ l → Covers v w → CoversAll l l' → CoversAll l ((k, w) :: l')
end

/-! Lemmas -/

namespace Slab
variable {α : Type}

theorem Built.some : ∀ (r l : List (Nat × α)) (b : Builder α), Built b l →
    ∃ l', Built (r.foldl Builder.pair b) l' ∧ (∀ p ∈ l', p ∈ l ∨ p ∈ r) ∧ ∀ p, p ∈ l ∨ p ∈ r → ∃ a, (p.1, a) ∈ l'
  | [], l, _, h => ⟨l, h, fun _ => .inl, fun p hp => ⟨p.2, hp.resolve_right (by simp)⟩⟩
  | (k, a) :: r, l, b, h => by
    by_cases hk : ∃ a', (k, a') ∈ l
    · obtain ⟨a', hk⟩ := hk
      obtain ⟨l', h1, h2, h3⟩ := Built.some r _ _ (h.again (a := a) hk)
      refine ⟨l', h1, fun p hp => ?_, fun p hp => ?_⟩
      · rcases h2 p hp with h | h
        · rcases List.mem_append.1 h with h | h
          · exact .inl (List.mem_filter.1 h).1
          · exact .inr (List.mem_cons.2 (.inl (List.mem_singleton.1 h)))
        · exact .inr (List.mem_cons_of_mem _ h)
      · by_cases he : p.1 = k
        · rw [he]
          exact h3 (k, a) (.inl (by simp))
        · refine h3 p ?_
          rcases hp with hp | hp
          · exact .inl (List.mem_append_left _ (List.mem_filter.2 ⟨hp, by simpa using he⟩))
          · rcases List.mem_cons.1 hp with rfl | hp
            · exact absurd rfl he
            · exact .inr hp
    · obtain ⟨l', h1, h2, h3⟩ := Built.some r _ _ (h.pair (a := a) fun a' hm => hk ⟨a', hm⟩)
      refine ⟨l', h1, fun p hp => ?_, fun p hp => h3 p ?_⟩
      · have := h2 p hp
        simp only [List.mem_append, List.mem_cons, List.not_mem_nil, or_false] at this ⊢
        rw [or_assoc] at this; exact this
      · simp only [List.mem_append, List.mem_cons, List.not_mem_nil, or_false] at hp ⊢
        rw [or_assoc]; exact hp

theorem ofPairs_mem {l : List (Nat × α)} {s : Slab α} (h : Slab.ofPairs l = some s) :
    (∀ i a, s.get i = some a → (i, a) ∈ l) ∧ ∀ p ∈ l, ∃ a, s.get p.1 = some a := by
  have h0 : Built (⟨Slab.empty, 0, false, none⟩ : Builder α) [] := ⟨by simp [Slab.get, Slab.empty], rfl, fun _ i nx => by simp [Slab.empty]⟩
  obtain ⟨l', hb, h1, h2⟩ := Built.some l [] _ h0
  obtain ⟨s', g1, -, g2⟩ := hb.build
  rw [Slab.ofPairs, g1] at h
  cases h
  refine ⟨fun i a hi => (h1 _ ((g2 i a).1 hi)).resolve_left (by simp), fun p hp => ?_⟩
  obtain ⟨a, ha⟩ := h2 p (.inr hp)
  exact ⟨a, (g2 _ a).2 ha⟩

theorem Built.last : ∀ (r l : List (Nat × α)) (b : Builder α), Built b l →
    ∃ l', Built (r.foldl Builder.pair b) l' ∧ (∀ p ∈ l, (∀ q ∈ r, q.1 ≠ p.1) → p ∈ l') ∧ ∀ r1 p r2, r = r1 ++ p :: r2 → (∀ q ∈ r2, q.1 ≠ p.1) → p ∈ l'
  | [], l, _, h => ⟨l, h, fun _ hp _ => hp, fun r1 p r2 e => by simp at e⟩
  | (k, a) :: r, l, b, h => by
    have key : ∃ l0, Built (b.pair (k, a)) l0 ∧ (k, a) ∈ l0 ∧ ∀ p ∈ l, k ≠ p.1 → p ∈ l0 := by
      by_cases hk : ∃ a', (k, a') ∈ l
      · obtain ⟨a', hk⟩ := hk
        exact ⟨_, h.again (a := a) hk, by simp, fun p hp hn => List.mem_append_left _ (List.mem_filter.2 ⟨hp, by simpa using fun e => hn e.symm⟩)⟩
      · exact ⟨_, h.pair (a := a) fun a' hm => hk ⟨a', hm⟩, by simp, fun p hp _ => List.mem_append_left _ hp⟩
    obtain ⟨l0, h0, hm, ho⟩ := key
    obtain ⟨l', h1, h2, h3⟩ := Built.last r l0 _ h0
    refine ⟨l', h1, fun p hp hn => h2 p (ho p hp (hn (k, a) (by simp))) fun q hq => hn q (List.mem_cons_of_mem _ hq), fun r1 p r2 e hn => ?_⟩
    cases r1 with
    | nil =>
      simp only [List.nil_append, List.cons.injEq] at e
      obtain ⟨rfl, rfl⟩ := e
      exact h2 _ hm hn
    | cons x r1 =>
      simp only [List.cons_append, List.cons.injEq] at e
      exact h3 r1 p r2 e.2 hn

theorem ofPairs_last {r1 r2 : List (Nat × α)} {p : Nat × α} {s : Slab α} (h : Slab.ofPairs (r1 ++ p :: r2) = some s) (hn : ∀ q ∈ r2, q.1 ≠ p.1) :
    s.get p.1 = some p.2 := by
  have h0 : Built (⟨Slab.empty, 0, false, none⟩ : Builder α) [] := ⟨by simp [Slab.get, Slab.empty], rfl, fun _ i nx => by simp [Slab.empty]⟩
  obtain ⟨l', hb, -, h1⟩ := Built.last (r1 ++ p :: r2) [] _ h0
  obtain ⟨s', g1, -, g2⟩ := hb.build
  rw [Slab.ofPairs, g1] at h
  cases h
  exact (g2 _ _).2 (h1 _ _ _ rfl hn)

end Slab

variable {H : Type}

theorem CoversAll.of {l : List (Sd H × Sd H)} : ∀ {l' : List (Sd H × Sd H)}, (∀ p ∈ l', ∃ v, (p.1, v) ∈ l ∧ Covers v p.2) → CoversAll l l'
  | [], _ => .nil
  | (k, w) :: l', h => by
    obtain ⟨v, h1, h2⟩ := h (k, w) (by simp)
    exact .cons h1 h2 (CoversAll.of fun p hp => h p (List.mem_cons_of_mem _ hp))

theorem Sd.field_mem {v p : Sd H} {n : Tok} (h : v.field n = .some p) : ∃ l, v = .map l ∧ (.name n, p) ∈ l := by
  cases v with
  | map l =>
    refine ⟨l, rfl, ?_⟩
    simp only [Sd.field] at h
    split at h
    · next q hq =>
      cases h
      have := List.mem_filter.1 (show q ∈ l.filter fun p => p.1.isName n by rw [hq]; simp)
      obtain ⟨k, w⟩ := q
      cases k with
      | name m =>
        have hm : m = n := by simpa [Sd.isName] using this.2
        rw [← hm]; exact this.1
      | _ => simp [Sd.isName] at this
    · cases h
  | _ => cases h

theorem Covers.fields {v : Sd H} {f : Tok × Sd H} {fs : List (Tok × Sd H)} (h : ∀ g ∈ f :: fs, ∃ p, v.field g.1 = .some p ∧ Covers p g.2) : Covers v (.struct (f :: fs)) := by
  obtain ⟨p, h1, -⟩ := h f (by simp)
  obtain ⟨l, rfl, -⟩ := Sd.field_mem h1
  refine .map (.of fun q hq => ?_)
  obtain ⟨g, hg, rfl⟩ := List.mem_map.1 hq
  obtain ⟨p, h1, h2⟩ := h g hg
  obtain ⟨l', he, hm⟩ := Sd.field_mem h1
  cases he
  exact ⟨p, hm, h2⟩

theorem Table.foldl_mem [DecidableEq H] : ∀ (r l : List (H × Bytes)),
    (∀ p ∈ r.foldl (fun es e => es.filter (fun e' => e'.1 ≠ e.1) ++ [e]) l, p ∈ l ∨ p ∈ r) ∧
    ∀ p, p ∈ l ∨ p ∈ r → ∃ s, (p.1, s) ∈ r.foldl (fun es e => es.filter (fun e' => e'.1 ≠ e.1) ++ [e]) l
  | [], l => ⟨fun _ => .inl, fun p hp => ⟨p.2, hp.resolve_right (by simp)⟩⟩
  | e :: r, l => by
    obtain ⟨h1, h2⟩ := Table.foldl_mem r (l.filter (fun e' => e'.1 ≠ e.1) ++ [e])
    refine ⟨fun p hp => ?_, fun p hp => ?_⟩
    · rcases h1 p hp with h | h
      · rcases List.mem_append.1 h with h | h
        · exact .inl (List.mem_filter.1 h).1
        · exact .inr (List.mem_cons.2 (.inl (List.mem_singleton.1 h)))
      · exact .inr (List.mem_cons_of_mem _ h)
    · by_cases he : p.1 = e.1
      · rw [he]
        exact h2 e (.inl (by simp))
      · refine h2 p ?_
        rcases hp with hp | hp
        · exact .inl (List.mem_append_left _ (List.mem_filter.2 ⟨hp, by simpa using he⟩))
        · rcases List.mem_cons.1 hp with rfl | hp
          · exact absurd rfl he
          · exact .inr hp

theorem mapM_split {α β : Type} {f : α → Option β} {l2 : List α} {a : α} : ∀ {l1 : List α} {r : List β}, (l1 ++ a :: l2).mapM f = some r →
    ∃ r1 b r2, r = r1 ++ b :: r2 ∧ f a = some b ∧ l2.mapM f = some r2
  | [], r, h => by
    simp only [List.nil_append, List.mapM_cons, bind, Option.bind_eq_some_iff, pure, Option.some.injEq] at h
    obtain ⟨b, hb, r', hr, rfl⟩ := h
    exact ⟨[], b, r', rfl, hb, hr⟩
  | x :: l1, r, h => by
    simp only [List.cons_append, List.mapM_cons, bind, Option.bind_eq_some_iff, pure, Option.some.injEq] at h
    obtain ⟨b, hb, r', hr, rfl⟩ := h
    obtain ⟨r1, c, r2, rfl, h1, h2⟩ := mapM_split hr
    exact ⟨b :: r1, c, r2, rfl, h1, h2⟩

theorem mapM_mem {α β : Type} {f : α → Option β} : ∀ {l : List α} {r : List β}, l.mapM f = some r →
    (∀ b ∈ r, ∃ a ∈ l, f a = some b) ∧ ∀ a ∈ l, ∃ b ∈ r, f a = some b
  | [], r, h => by simp only [List.mapM_nil, pure, Option.some.injEq] at h; subst h; simp
  | a :: l, r, h => by
    simp only [List.mapM_cons, bind, Option.bind_eq_some_iff, pure, Option.some.injEq] at h
    obtain ⟨b, hb, r', hr, rfl⟩ := h
    obtain ⟨h1, h2⟩ := mapM_mem hr
    refine ⟨fun c hc => ?_, fun c hc => ?_⟩
    · rcases List.mem_cons.1 hc with rfl | hc
      · exact ⟨a, by simp, hb⟩
      · obtain ⟨x, hx, e⟩ := h1 c hc
        exact ⟨x, List.mem_cons_of_mem _ hx, e⟩
    · rcases List.mem_cons.1 hc with rfl | hc
      · exact ⟨b, by simp, hb⟩
      · obtain ⟨x, hx, e⟩ := h2 c hc
        exact ⟨x, List.mem_cons_of_mem _ hx, e⟩

section
variable [DecidableEq H] {hash : Bytes → H} {t : Table H} (ht : ∀ e ∈ t.entries, e.1 = hash e.2)
include ht

theorem loadStr_eq {v : Sd H} {s : Bytes} (h : loadStr t v = some s) : Covers v (saveStr hash s) := by
  cases v with
  | hash x =>
    simp only [loadStr, Table.find, Option.map_eq_some_iff] at h
    obtain ⟨e, h1, rfl⟩ := h
    have := ht e (List.mem_of_find?_eq_some h1)
    have h2 := List.find?_some h1
    simp only [decide_eq_true_eq] at h2
    rw [saveStr, ← this, h2]
    exact .same _
  | _ => cases h

omit [DecidableEq H] ht in
theorem loadId_eq {v : Sd H} {i : Nat} (h : loadId v = some i) : Covers v (saveId i) := by
  unfold loadId at h
  split at h
  · cases h; exact .same _
  · cases h

omit [DecidableEq H] ht in
theorem loadNum_eq {v : Sd H} {i : Nat} (h : loadNum v = some i) : v = .num i := by
  unfold loadNum at h
  split at h
  · cases h; rfl
  · cases h

omit [DecidableEq H] ht in
theorem loadBool_eq {v : Sd H} {b : Bool} (h : loadBool v = some b) : Covers v (.bool b) := by
  unfold loadBool at h
  split at h
  · cases h; exact .same _
  · cases h

omit [DecidableEq H] ht in
theorem loadName_eq {v : Sd H} {b : Tok} (h : loadName v = some b) : Covers v (.name b) := by
  unfold loadName at h
  split at h
  · cases h; exact .same _
  · cases h

theorem loadNull_covers {v : Sd H} {n : RNull} (h : loadNull t v = some n) : Covers v (saveNull hash n) := by
  unfold loadNull at h
  split at h
  · cases h; exact .same _
  · cases h; exact .same _
  · simp only [bind, Option.bind_eq_some_iff, pure, Option.some.injEq] at h
    obtain ⟨s, hs, rfl⟩ := h
    exact .map (.cons (by simp) (loadStr_eq ht hs) .nil)
  · cases h

omit [DecidableEq H] ht in
theorem loadHint_covers {v : Sd H} {n : Hint} (h : loadHint v = some n) : Covers v (saveHint n) := by
  simp only [loadHint, bind, Option.bind_eq_some_iff, pure] at h
  obtain ⟨p, h1, k, h2, h⟩ := h
  have := loadName_eq h2
  refine .fields fun g hg => ?_
  simp only [List.mem_singleton] at hg
  subst hg
  refine ⟨p, h1, ?_⟩
  split at h
  all_goals first | (cases h; exact this) | cases h

theorem loadStrKind_covers {v : Sd H} {n : StrKind} (h : loadStrKind t v = some n) : Covers v (saveStrKind hash n) := by
  simp only [loadStrKind, bind, Option.bind_eq_some_iff, pure] at h
  obtain ⟨p, h1, k, h2, h⟩ := h
  have := loadName_eq h2
  split at h
  case h_5 =>
    simp only [Option.bind_eq_some_iff, Option.some.injEq] at h
    obtain ⟨q, h3, s, h4, rfl⟩ := h
    refine .fields fun g hg => ?_
    simp only [List.mem_cons, List.not_mem_nil, or_false] at hg
    rcases hg with rfl | rfl
    · exact ⟨p, h1, this⟩
    · exact ⟨q, h3, loadStr_eq ht h4⟩
  all_goals
    first
    | (cases h
       refine .fields fun g hg => ?_
       simp only [List.mem_singleton] at hg
       subst hg
       exact ⟨p, h1, this⟩)
    | cases h

theorem loadRStr_covers {v : Sd H} {n : RStr} (h : loadRStr t v = some n) : Covers v (saveRStr hash n) := by
  simp only [loadRStr, bind, Option.bind_eq_some_iff, pure, Option.some.injEq] at h
  obtain ⟨p, h1, k, h2, q, h3, s, h4, r, h5, o, h6, rfl⟩ := h
  refine .fields fun g hg => ?_
  simp only [List.mem_cons, List.not_mem_nil, or_false] at hg
  rcases hg with rfl | rfl | rfl
  · exact ⟨p, h1, loadStrKind_covers ht h2⟩
  · exact ⟨q, h3, loadStr_eq ht h4⟩
  · exact ⟨r, h5, loadStr_eq ht h6⟩

theorem loadCollKind_covers {v : Sd H} {n : CollKind} (h : loadCollKind t v = some n) : Covers v (saveCollKind hash n) := by
  simp only [loadCollKind, bind, Option.bind_eq_some_iff, pure] at h
  obtain ⟨p, h1, k, h2, h⟩ := h
  have := loadName_eq h2
  split at h
  · cases h
    refine .fields fun g hg => ?_
    simp only [List.mem_singleton] at hg
    subst hg
    exact ⟨p, h1, this⟩
  · simp only [Option.bind_eq_some_iff, Option.some.injEq] at h
    obtain ⟨q, h3, b, h4, r, h5, s, h6, rfl⟩ := h
    refine .fields fun g hg => ?_
    simp only [List.mem_cons, List.not_mem_nil, or_false] at hg
    rcases hg with rfl | rfl | rfl
    · exact ⟨p, h1, this⟩
    · exact ⟨q, h3, loadBool_eq h4⟩
    · exact ⟨r, h5, loadStr_eq ht h6⟩
  · cases h

omit [DecidableEq H] ht in
theorem loadIds_eq {v : Sd H} {l : List Nat} (h : loadIds v = some l) : v = .seq (l.map saveId) := by
  unfold loadIds at h
  split at h
  · next w =>
    congr 1
    induction w generalizing l with
    | nil => simp only [List.mapM_nil, pure, Option.some.injEq] at h; subst h; rfl
    | cons a w ih =>
      simp only [List.mapM_cons, bind, Option.bind_eq_some_iff, pure, Option.some.injEq] at h
      obtain ⟨b, hb, r, hr, rfl⟩ := h
      rw [ih hr, List.map_cons]
      unfold loadId at hb
      split at hb
      · cases hb; rfl
      · cases hb
  · cases h

theorem loadColl_covers {v : Sd H} {n : Coll} (h : loadColl t v = some n) : Covers v (saveColl hash n) := by
  simp only [loadColl, bind, Option.bind_eq_some_iff, pure, Option.some.injEq] at h
  obtain ⟨p, h1, k, h2, q, h3, s, h4, r, h5, o, h6, rfl⟩ := h
  refine .fields fun g hg => ?_
  simp only [List.mem_cons, List.not_mem_nil, or_false] at hg
  rcases hg with rfl | rfl | rfl
  · exact ⟨p, h1, by rw [loadNum_eq h2]; exact .same _⟩
  · exact ⟨q, h3, loadCollKind_covers ht h4⟩
  · exact ⟨r, h5, by rw [loadIds_eq h6]; exact .same _⟩

omit [DecidableEq H] ht in
theorem Covers.pair {v p q : Sd H} {m n : Tok} {a b : Sd H} (h1 : v.field m = .some p) (h2 : Covers p a) (h3 : v.field n = .some q) (h4 : Covers q b) :
    Covers v (.struct [(m, a), (n, b)]) := by
  refine .fields fun g hg => ?_
  simp only [List.mem_cons, List.not_mem_nil, or_false] at hg
  rcases hg with rfl | rfl
  · exact ⟨p, h1, h2⟩
  · exact ⟨q, h3, h4⟩

omit [DecidableEq H] ht in
theorem Covers.single {v p : Sd H} {m : Tok} {a : Sd H} (h1 : v.field m = .some p) (h2 : Covers p a) : Covers v (.struct [(m, a)]) := by
  refine .fields fun g hg => ?_
  simp only [List.mem_singleton] at hg
  subst hg
  exact ⟨p, h1, h2⟩

theorem loadRaw_covers {v : Sd H} {n : Raw} (h : loadRaw t v = some n) : Covers v (saveRaw hash n) := by
  simp only [loadRaw, bind, Option.bind_eq_some_iff, pure] at h
  obtain ⟨p, h0, q, h1, k, h2, h⟩ := h
  have hk := loadName_eq h2
  split at h
  all_goals try simp only [Option.bind_eq_some_iff, Option.some.injEq] at h
  · obtain ⟨n, h3, rfl⟩ := h
    exact .pair h1 hk h0 (loadNull_covers ht h3)
  · obtain ⟨a, h3, b, h4, c, h5, s, h6, rfl⟩ := h
    exact .pair h1 hk h0 (.pair h3 (loadBool_eq h4) h5 (loadStr_eq ht h6))
  · obtain ⟨a, h3, b, h4, c, h5, s, h6, rfl⟩ := h
    exact .pair h1 hk h0 (.pair h3 (loadStr_eq ht h4) h5 (loadHint_covers h6))
  · obtain ⟨n, h3, rfl⟩ := h
    exact .pair h1 hk h0 (loadRStr_covers ht h3)
  · obtain ⟨n, h3, rfl⟩ := h
    exact .pair h1 hk h0 (loadColl_covers ht h3)
  · obtain ⟨a, h3, b, h4, c, h5, s, h6, rfl⟩ := h
    exact .pair h1 hk h0 (.pair h3 (loadRStr_covers ht h4) h5 (loadId_eq h6))
  · obtain ⟨n, h3, rfl⟩ := h
    exact .pair h1 hk h0 (loadColl_covers ht h3)
  · obtain ⟨c, h5, s, h6, rfl⟩ := h
    exact .pair h1 hk h0 (.single h5 (loadId_eq h6))
  · cases h

omit [DecidableEq H] ht in
theorem loadParent_covers {v : Sd H} {n : Option Nat} (h : loadParent v = some n) : Covers v (saveParent n) := by
  unfold loadParent at h
  split at h
  · cases h; exact .same _
  · simp only [bind, Option.bind_eq_some_iff, pure, Option.some.injEq] at h
    obtain ⟨i, hi, rfl⟩ := h
    exact .some (loadId_eq hi)
  · cases h

theorem loadEntry_covers {v : Sd H} {e : Entry} (h : loadEntry t v = some e) : Covers v (saveEntry hash e) := by
  simp only [loadEntry, bind, Option.bind_eq_some_iff, pure, Option.some.injEq] at h
  obtain ⟨l, h1, p, h2, r, h3, q, h4, s, h5, o, h6, i, h7, rfl⟩ := h
  exact .pair h2 (loadRaw_covers ht h3) h1 (.pair h4 (loadStr_eq ht h5) h6 (loadParent_covers h7))

theorem loadSlot_covers {p : Sd H × Sd H} {r : Nat × Entry} (h : loadSlot t p = some r) : p.1 = .num r.1 ∧ Covers p.2 (saveEntry hash r.2) := by
  simp only [loadSlot, bind, Option.bind_eq_some_iff, pure, Option.some.injEq] at h
  obtain ⟨i, h1, e, h2, rfl⟩ := h
  exact ⟨loadNum_eq h1, loadEntry_covers ht h2⟩

end

theorem loadString_eq {p : Sd H × Sd H} {r : H × Bytes} (h : loadString p = some r) : p = (.hash r.1, .bytes r.2) := by
  unfold loadString at h
  split at h
  · cases h; rfl
  · cases h

theorem Sd.entries_eq {v : Sd H} {l : List (Sd H × Sd H)} (h : v.entries = .some l) : v = .map l := by
  unfold Sd.entries at h
  split at h
  · cases h; rfl
  · cases h

end Verif
