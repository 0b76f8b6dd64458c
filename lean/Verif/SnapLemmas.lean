import Verif.Snapshot
import Verif.Rename
/-
What is restored from a snapshot.
-/
namespace Verif
namespace Slab
variable {α : Type}

/-- The vacant slots from `next` to `f`. -/
inductive Reach (slots : List (Slot α)) (f : Nat) : Nat → List Nat → Prop
  | last {nx} : slots[f]? = some (.vacant nx) → Reach slots f f [f]
  | step {i nx l} : slots[i]? = some (.vacant nx) → i ∉ l → Reach slots f nx l → Reach slots f i (i :: l)

theorem Reach.mem {slots : List (Slot α)} {f next : Nat} {l : List Nat} (h : Reach slots f next l) : f ∈ l := by
  induction h with
  | last _ => simp
  | step _ _ _ ih => simp [ih]

theorem Reach.vac {slots : List (Slot α)} {f next : Nat} {l : List Nat} (h : Reach slots f next l) : ∃ nx, slots[f]? = some (.vacant nx) := by
  induction h with
  | last h => exact ⟨_, h⟩
  | step _ _ _ ih => exact ih

theorem Reach.lt {slots : List (Slot α)} {f next : Nat} {l : List Nat} (h : Reach slots f next l) : ∀ i ∈ l, i < slots.length := by
  induction h with
  | last h => intro i hi; simp only [List.mem_singleton] at hi; subst hi; exact (List.getElem?_eq_some_iff.1 h).1
  | step h _ _ ih =>
    intro i hi
    rcases List.mem_cons.1 hi with rfl | hi
    · exact (List.getElem?_eq_some_iff.1 h).1
    · exact ih i hi

theorem Reach.append {slots : List (Slot α)} {f next : Nat} {l : List Nat} (xs : List (Slot α)) (h : Reach slots f next l) : Reach (slots ++ xs) f next l := by
  induction h with
  | last h => exact .last (by rw [List.getElem?_append_left (List.getElem?_eq_some_iff.1 h).1]; exact h)
  | step h hn _ ih => exact .step (by rw [List.getElem?_append_left (List.getElem?_eq_some_iff.1 h).1]; exact h) hn ih

theorem Reach.close {slots : List (Slot α)} {f next : Nat} {l : List Nat} (h : Reach slots f next l) :
    l.Nodup ∧ Chain (slots.set f (.vacant slots.length)) next l := by
  induction h with
  | last h => exact ⟨by simp, rfl, slots.length, by simp [(List.getElem?_eq_some_iff.1 h).1], by simp [Chain]⟩
  | step h hn hr ih =>
    refine ⟨List.nodup_cons.2 ⟨hn, ih.1⟩, rfl, _, ?_, ih.2⟩
    rw [List.getElem?_set_ne]
    · exact h
    · rintro rfl; exact hn hr.mem

/-- `first` and the free list fit the slots. -/
def Linked (s : Slab α) : Option Nat → Prop
  | none => ∀ (i nx : Nat), s.slots[i]? ≠ some (Slot.vacant nx)
  | some f => ∃ l, Reach s.slots f s.next l

theorem Linked.push {s : Slab α} {first : Option Nat} (h : Linked s first) :
    Linked ⟨s.slots ++ [.vacant s.next], s.slots.length⟩ (first.or (some s.slots.length)) := by
  cases first with
  | none => exact ⟨_, .last (nx := s.next) (by simp)⟩
  | some f =>
    obtain ⟨l, hl⟩ := h
    exact ⟨_, .step (nx := s.next) (by simp) (fun hm => Nat.lt_irrefl _ (hl.lt s.slots.length hm)) (hl.append _)⟩

theorem Linked.holes : ∀ {n : Nat} {s : Slab α} {f : Nat}, Linked s (some f) → Linked (Slab.holes n s) (some f)
  | 0, _, _, h => h
  | n + 1, _, _, h => Linked.holes (n := n) h.push

theorem Linked.holes' {n : Nat} {s : Slab α} {first : Option Nat} (h : Linked s first) (hn : 0 < n) :
    Linked (Slab.holes n s) (first.or (some s.slots.length)) := by
  obtain ⟨n, rfl⟩ : ∃ m, n = m + 1 := ⟨n - 1, by omega⟩
  have := h.push
  rw [Slab.holes]
  cases first with
  | none => exact this.holes
  | some f => exact this.holes

theorem holes_slots : ∀ (n : Nat) (s : Slab α), ∃ xs, (Slab.holes n s).slots = s.slots ++ xs ∧ xs.length = n ∧ ∀ (i : Nat) (a : α), xs[i]? ≠ some (Slot.occupied a)
  | 0, s => ⟨[], by simp [Slab.holes], rfl, by simp⟩
  | n + 1, s => by
    obtain ⟨xs, h1, h2, h3⟩ := holes_slots n (⟨s.slots ++ [.vacant s.next], s.slots.length⟩ : Slab α)
    refine ⟨.vacant s.next :: xs, by rw [Slab.holes, h1]; simp, by simp [h2], fun i a => ?_⟩
    cases i with
    | zero => simp
    | succ i => simpa using h3 i a

def Slot.isOcc : Slot α → Bool
  | .occupied _ => true
  | .vacant _ => false

/-- The builder after the entries `l`. -/
structure Built (b : Builder α) (l : List (Nat × α)) : Prop where
  get : ∀ i a, b.slab.get i = some a ↔ (i, a) ∈ l
  len : b.len = b.slab.slots.countP Slot.isOcc
  linked : b.broken = false → Linked b.slab b.first

theorem countP_set {l : List (Slot α)} {i nx : Nat} {a : α} (h : l[i]? = some (.vacant nx)) :
    (l.set i (.occupied a)).countP Slot.isOcc = l.countP Slot.isOcc + 1 := by
  induction l generalizing i with
  | nil => simp at h
  | cons x l ih =>
    cases i with
    | zero =>
      simp only [List.getElem?_cons_zero, Option.some.injEq] at h
      subst h
      simp [List.countP_cons, Slot.isOcc]
    | succ i =>
      simp only [List.getElem?_cons_succ] at h
      simp only [List.set_cons_succ, List.countP_cons, ih h]
      omega

theorem Built.pair {b : Builder α} {l : List (Nat × α)} (h : Built b l) {k : Nat} {a : α} (hk : ∀ a', (k, a') ∉ l) : Built (b.pair (k, a)) (l ++ [(k, a)]) := by
  have hno : b.slab.get k = none := by
    cases hg : b.slab.get k with
    | none => rfl
    | some a' => exact absurd ((h.get k a').1 hg) (hk a')
  unfold Builder.pair
  split
  · next nx hs =>
    have hlt := (List.getElem?_eq_some_iff.1 hs).1
    refine ⟨fun i a' => ?_, by simp only [countP_set hs, h.len], fun hb => by cases hb⟩
    rw [Slab.get_eq]
    by_cases hi : i = k
    · subst hi
      simp only [List.getElem?_set, hlt, if_true, List.mem_append, List.mem_singleton, Prod.mk.injEq, true_and]
      constructor
      · intro he; right; cases he; rfl
      · rintro (he | he)
        · exact absurd he (hk a')
        · rw [he]
    · rw [List.getElem?_set_ne (fun h => hi h.symm), ← Slab.get_eq, h.get]
      simp [hi]
  · next a' hs => rw [Slab.get_eq.2 hs] at hno; cases hno
  · next hs =>
    have hge : b.slab.slots.length ≤ k := by simpa using hs
    obtain ⟨xs, h1, h2, h3⟩ := holes_slots (k - b.slab.slots.length) b.slab
    have hc : xs.countP Slot.isOcc = 0 := by
      rw [List.countP_eq_zero]
      intro x hx
      obtain ⟨i, hi, rfl⟩ := List.getElem_of_mem hx
      cases hx' : xs[i] with
      | vacant _ => simp [Slot.isOcc]
      | occupied a => exact absurd (by rw [List.getElem?_eq_getElem hi, hx']) (h3 i a)
    refine ⟨fun i a' => ?_, by simp only [h1, List.countP_append, h.len, hc]; simp [Slot.isOcc], fun hb => ?_⟩
    · rw [Slab.get_eq]
      simp only [h1]
      by_cases hi : i < b.slab.slots.length
      · rw [List.append_assoc, List.getElem?_append_left hi, ← Slab.get_eq, h.get]
        simp [show i ≠ k by omega]
      · have hn : (i, a') ∉ l := fun hm => by
          have := Slab.get_lt ((h.get i a').2 hm)
          omega
        by_cases hik : i < k
        · rw [List.getElem?_append_left (by simp [h2]; omega), List.getElem?_append_right (by omega)]
          simp [hn, show i ≠ k by omega, h3]
        · by_cases hie : i = k
          · subst hie
            rw [List.getElem?_append_right (by simp [h2]; omega)]
            simp [h2, hn, show b.slab.slots.length + (i - b.slab.slots.length) = i by omega, eq_comm]
          · have : (b.slab.slots ++ xs ++ [Slot.occupied a])[i]? = none := by
              simp [h2]; omega
            rw [this]; simp [hn, hie]
    · have hl := h.linked hb
      have hp : ∀ {s : Slab α} {fst : Option Nat}, Linked s fst → Linked { s with slots := s.slots ++ [.occupied a] } fst := by
        intro s fst hl
        cases fst with
        | some f => obtain ⟨l, hl⟩ := hl; exact ⟨l, hl.append _⟩
        | none =>
          intro i nx he
          by_cases hi : i < s.slots.length
          · rw [List.getElem?_append_left hi] at he; exact hl i nx he
          · rw [List.getElem?_append_right (by omega)] at he
            cases hj : i - s.slots.length with
            | zero => rw [hj] at he; cases he
            | succ j => rw [hj] at he; cases he
      refine hp ?_
      by_cases hlt : b.slab.slots.length < k
      · rw [if_pos hlt]
        exact hl.holes' (by omega)
      · rw [if_neg hlt, show k - b.slab.slots.length = 0 by omega]
        exact hl

theorem Built.run : ∀ {r l : List (Nat × α)} {b : Builder α}, Built b l → ((l ++ r).map (·.1)).Nodup → Built (r.foldl Builder.pair b) (l ++ r)
  | [], l, _, h, _ => by simpa using h
  | (k, a) :: r, l, b, h, hn => by
    have := Built.run (r := r) (h.pair (k := k) (a := a) fun a' hm => by
      rw [List.map_append, List.nodup_append] at hn
      exact hn.2.2 k (List.mem_map.2 ⟨_, hm, rfl⟩) k (by simp) rfl) (by simpa using hn)
    simpa using this

theorem relink_length : ∀ (l : List (Slot α)) (i n : Nat), (Slab.relink l i n).1.length = l.length
  | [], _, _ => rfl
  | .occupied _ :: l, i, n => by simp [Slab.relink, relink_length l]
  | .vacant _ :: l, i, n => by simp [Slab.relink, relink_length l]

theorem relink_get : ∀ (l : List (Slot α)) (i n k : Nat) (a : α), (Slab.relink l i n).1[k]? = some (.occupied a) ↔ l[k]? = some (.occupied a)
  | [], _, _, _, _ => Iff.rfl
  | .occupied _ :: l, i, n, k, a => by cases k <;> simp [Slab.relink, relink_get l]
  | .vacant _ :: l, i, n, k, a => by cases k <;> simp [Slab.relink, relink_get l]

theorem relink_chain : ∀ (l pre : List (Slot α)) (n : Nat), n = pre.length + l.length →
    ∃ c : List Nat, c.Nodup ∧ (∀ j ∈ c, pre.length ≤ j) ∧ Chain (pre ++ (Slab.relink l pre.length n).1) (Slab.relink l pre.length n).2 c
  | [], pre, n, h => ⟨[], by simp, by simp, by simp [Slab.relink, Chain, h]⟩
  | .occupied a :: l, pre, n, h => by
    obtain ⟨c, h1, h2, h3⟩ := relink_chain l (pre ++ [.occupied a]) n (by simp [h]; omega)
    simp only [List.length_append, List.length_singleton, List.append_assoc, List.singleton_append] at h2 h3
    exact ⟨c, h1, fun j hj => by have := h2 j hj; omega, h3⟩
  | .vacant x :: l, pre, n, h => by
    obtain ⟨c, h1, h2, h3⟩ := relink_chain l (pre ++ [.vacant (Slab.relink l (pre.length + 1) n).2]) n (by simp [h]; omega)
    simp only [List.length_append, List.length_singleton, List.append_assoc, List.singleton_append] at h2 h3
    refine ⟨pre.length :: c, List.nodup_cons.2 ⟨fun hm => by have := h2 _ hm; omega, h1⟩, fun j hj => ?_, rfl, _, ?_, h3⟩
    · rcases List.mem_cons.1 hj with rfl | hj
      · omega
      · have := h2 j hj; omega
    · simp [Slab.relink]

theorem Built.build {b : Builder α} {l : List (Nat × α)} (h : Built b l) : ∃ s, b.build = some s ∧ s.OK ∧ ∀ i a, s.get i = some a ↔ (i, a) ∈ l := by
  unfold Builder.build
  simp only
  split
  · next hlen =>
    refine ⟨_, rfl, ⟨[], by simp, rfl⟩, fun i a => ?_⟩
    rw [Slab.get_eq, ← Slab.get_eq (s := b.slab)]
    exact h.get i a
  · next hlen =>
    split
    · next hb =>
      obtain ⟨c, h1, _, h3⟩ := relink_chain b.slab.slots [] b.slab.slots.length (by simp)
      refine ⟨_, rfl, ⟨c, h1, h3⟩, fun i a => ?_⟩
      rw [Slab.get_eq]
      simp only [relink_get]
      rw [← Slab.get_eq, h.get]
    · next hb =>
      have hl := h.linked (by simpa using hb)
      split
      · next f hf =>
        rw [hf] at hl
        obtain ⟨c, hc⟩ := hl
        obtain ⟨nx, hnx⟩ := hc.vac
        split
        · refine ⟨_, rfl, ⟨c, by simpa using hc.close⟩, fun i a => ?_⟩
          rw [Slab.get_eq, ← h.get, Slab.get_eq]
          by_cases hi : i = f
          · subst hi
            rw [hnx]; simp [(List.getElem?_eq_some_iff.1 hnx).1]
          · simp only
            rw [List.getElem?_set_ne (fun h => hi h.symm)]
        · next hno => exact absurd hnx (hno nx)
      · next hf =>
        rw [hf] at hl
        refine absurd ?_ hlen
        rw [h.len, List.countP_eq_length]
        intro x hx
        obtain ⟨i, hi, rfl⟩ := List.getElem_of_mem hx
        cases hx' : b.slab.slots[i] with
        | vacant nx => exact absurd (by rw [List.getElem?_eq_getElem hi, hx']) (hl i nx)
        | occupied a => rfl

theorem ofPairs_ok {l : List (Nat × α)} (hn : (l.map (·.1)).Nodup) : ∃ s, Slab.ofPairs l = some s ∧ s.OK ∧ ∀ i a, s.get i = some a ↔ (i, a) ∈ l := by
  have h0 : Built (⟨Slab.empty, 0, false, none⟩ : Builder α) [] := ⟨by simp [Slab.get, Slab.empty], rfl, fun _ i nx => by simp [Slab.empty]⟩
  have := (h0.run (r := l) (by simpa using hn)).build
  simpa [Slab.ofPairs] using this

theorem mem_pairs : ∀ (l : List (Slot α)) (n i : Nat) (a : α), (i, a) ∈ Slab.pairs l n ↔ n ≤ i ∧ l[i - n]? = some (.occupied a)
  | [], _, _, _ => by simp [Slab.pairs]
  | .occupied x :: l, n, i, a => by
    simp only [Slab.pairs, List.mem_cons, Prod.mk.injEq, mem_pairs l]
    rcases Nat.lt_trichotomy i n with h | rfl | h
    · constructor
      · rintro (⟨h1, _⟩ | ⟨h1, _⟩) <;> omega
      · rintro ⟨h1, _⟩; omega
    · simp [eq_comm]; intro h; omega
    · have : i - n = (i - (n + 1)) + 1 := by omega
      rw [this, List.getElem?_cons_succ]
      constructor
      · rintro (⟨h1, _⟩ | ⟨h1, h2⟩)
        · omega
        · exact ⟨by omega, h2⟩
      · rintro ⟨_, h2⟩; exact .inr ⟨by omega, h2⟩
  | .vacant x :: l, n, i, a => by
    simp only [Slab.pairs, mem_pairs l]
    rcases Nat.lt_trichotomy i n with h | rfl | h
    · constructor <;> rintro ⟨h1, _⟩ <;> omega
    · simp; intro h; omega
    · have : i - n = (i - (n + 1)) + 1 := by omega
      rw [this, List.getElem?_cons_succ]
      constructor <;> rintro ⟨h1, h2⟩ <;> exact ⟨by omega, h2⟩

theorem nodup_pairs : ∀ (l : List (Slot α)) (n : Nat), ((Slab.pairs l n).map (·.1)).Nodup
  | [], _ => by simp [Slab.pairs]
  | .occupied x :: l, n => by
    simp only [Slab.pairs, List.map_cons, List.nodup_cons]
    refine ⟨fun hm => ?_, nodup_pairs l (n + 1)⟩
    obtain ⟨⟨i, a⟩, h1, h2⟩ := List.mem_map.1 hm
    have := ((mem_pairs l (n + 1) i a).1 h1).1
    simp only at h2
    omega
  | .vacant x :: l, n => nodup_pairs l (n + 1)

end Slab

section
variable {H : Type} [DecidableEq H] {hash : Bytes → H} {t : Table H}

theorem loadStr_save {s : Bytes} (h : t.find (hash s) = some s) : loadStr t (saveStr hash s) = some s := h

omit [DecidableEq H] in
theorem loadIds_save (l : List Nat) : loadIds (.seq (l.map saveId) : Sd H) = some l := by
  simp only [loadIds]
  induction l with
  | nil => rfl
  | cons a l ih =>
    rw [List.map_cons, List.mapM_cons, ih]
    rfl

omit [DecidableEq H] in
theorem loadHint_save (h : Hint) : loadHint (saveHint h : Sd H) = some h := by cases h <;> rfl

theorem loadStrKind_save {k : StrKind} (h : ∀ p, k = .multiline p → t.find (hash p) = some p) : loadStrKind t (saveStrKind hash k) = some k := by
  cases k with
  | multiline p =>
    have := loadStr_save (h p rfl)
    simp [loadStrKind, saveStrKind, Sd.field, Sd.struct, Sd.isName, loadName, this]
  | _ => rfl

theorem loadRStr_save {s : RStr} (h : ∀ x ∈ s.strings, t.find (hash x) = some x) : loadRStr t (saveRStr hash s) = some s := by
  have h1 := loadStr_save (h s.id (by simp [RStr.strings]))
  have h2 := loadStr_save (h s.original (by simp [RStr.strings]))
  have h3 := loadStrKind_save (k := s.kind) (hash := hash) (t := t) (fun p hp => h p (by simp [RStr.strings, hp]))
  simp [loadRStr, saveRStr, Sd.field, Sd.struct, Sd.isName, h1, h2, h3]

theorem loadColl_save {c : Coll} (h : ∀ x ∈ c.strings, t.find (hash x) = some x) : loadColl t (saveColl hash c) = some c := by
  have h1 : loadCollKind t (saveCollKind hash c.kind) = some c.kind := by
    cases hk : c.kind with
    | block => rfl
    | inline b s =>
      have := loadStr_save (h s (by simp [Coll.strings, hk]))
      simp [loadCollKind, saveCollKind, Sd.field, Sd.struct, Sd.isName, loadName, loadBool, this]
  simp [loadColl, saveColl, Sd.field, Sd.struct, Sd.isName, h1, loadIds_save, loadNum]

theorem loadRaw_save {x : Raw} (h : ∀ s ∈ x.strings, t.find (hash s) = some s) : loadRaw t (saveRaw hash x) = some x := by
  cases x with
  | null n =>
    cases n with
    | keyword s =>
      have := loadStr_save (h s (by simp [Raw.strings]))
      simp [loadRaw, saveRaw, Sd.field, Sd.struct, Sd.isName, loadName, loadNull, saveNull, this]
    | tilde => rfl
    | empty => rfl
  | bool v s =>
    have := loadStr_save (h s (by simp [Raw.strings]))
    simp [loadRaw, saveRaw, Sd.field, Sd.struct, Sd.isName, loadName, loadBool, this]
  | number s hh =>
    have := loadStr_save (h s (by simp [Raw.strings]))
    simp [loadRaw, saveRaw, Sd.field, Sd.struct, Sd.isName, loadName, loadHint_save, this]
  | string s =>
    have := loadRStr_save (s := s) (hash := hash) (t := t) (fun x hx => h x (by simpa [Raw.strings] using hx))
    simp [loadRaw, saveRaw, Sd.field, Sd.struct, Sd.isName, loadName, this]
  | mapping c =>
    have := loadColl_save (c := c) (hash := hash) (t := t) (fun x hx => h x (by simpa [Raw.strings] using hx))
    simp [loadRaw, saveRaw, Sd.field, Sd.struct, Sd.isName, loadName, this]
  | mappingItem k v =>
    have := loadRStr_save (s := k) (hash := hash) (t := t) (fun x hx => h x (by simpa [Raw.strings] using hx))
    simp [loadRaw, saveRaw, Sd.field, Sd.struct, Sd.isName, loadName, this, loadId, saveId]
  | sequence c =>
    have := loadColl_save (c := c) (hash := hash) (t := t) (fun x hx => h x (by simpa [Raw.strings] using hx))
    simp [loadRaw, saveRaw, Sd.field, Sd.struct, Sd.isName, loadName, this]
  | sequenceItem v => rfl

theorem loadEntry_save {e : Entry} (h : ∀ s ∈ e.strings, t.find (hash s) = some s) : loadEntry t (saveEntry hash e) = some e := by
  have h1 := loadRaw_save (x := e.raw) (hash := hash) (t := t) (fun x hx => h x (by simp [Entry.strings, hx]))
  have h2 := loadStr_save (h e.pre (by simp [Entry.strings]))
  have h3 : loadParent (saveParent e.parent : Sd H) = some e.parent := by cases e.parent <;> rfl
  simp [loadEntry, saveEntry, Sd.field, Sd.struct, Sd.isName, h1, h2, h3]

theorem loadSlots_save : ∀ {l : List (Nat × Entry)}, (∀ p ∈ l, ∀ s ∈ p.2.strings, t.find (hash s) = some s) →
    (l.map fun p => ((.num p.1 : Sd H), saveEntry hash p.2)).mapM (loadSlot t) = some l
  | [], _ => rfl
  | (i, e) :: l, h => by
    rw [List.map_cons, List.mapM_cons, loadSlots_save fun p hp => h p (by simp [hp])]
    simp [loadSlot, loadNum, loadEntry_save (h (i, e) (by simp))]

omit [DecidableEq H] in
theorem loadStrings_save : ∀ l : List (H × Bytes), (l.map fun p => ((.hash p.1 : Sd H), (.bytes p.2 : Sd H))).mapM loadString = some l
  | [] => rfl
  | (h, s) :: l => by
    rw [List.map_cons, List.mapM_cons, loadStrings_save l]
    rfl

theorem Table.foldl_entries : ∀ (l es : List (H × Bytes)), ((es ++ l).map (·.1)).Nodup →
    l.foldl (fun es e => es.filter (fun e' => decide (e'.1 ≠ e.1)) ++ [e]) es = es ++ l
  | [], es, _ => by simp
  | e :: l, es, h => by
    have hf : es.filter (fun e' => decide (e'.1 ≠ e.1)) = es := by
      rw [List.filter_eq_self]
      intro a ha
      rw [List.map_append, List.nodup_append] at h
      simpa using h.2.2 a.1 (List.mem_map.2 ⟨_, ha, rfl⟩) e.1 (by simp)
    rw [List.foldl_cons, hf, Table.foldl_entries l (es ++ [e]) (by simpa using h)]
    simp

theorem Table.ofEntries_eq {l : List (H × Bytes)} (h : (l.map (·.1)).Nodup) : Table.ofEntries l = ⟨l⟩ := by
  rw [Table.ofEntries, Table.foldl_entries l [] (by simpa using h)]; rfl

theorem Table.find_iff : ∀ {l : List (H × Bytes)}, (l.map (·.1)).Nodup → ∀ (h : H) (s : Bytes), (Table.mk l).find h = some s ↔ (h, s) ∈ l
  | [], _, _, _ => by simp [Table.find]
  | (h', s') :: l, hn, h, s => by
    simp only [List.map_cons, List.nodup_cons] at hn
    have := Table.find_iff hn.2 h s
    simp only [Table.find, List.find?_cons] at this ⊢
    by_cases hh : h' = h
    · subst hh
      simp only [decide_true, Option.map_some, Option.some.injEq, List.mem_cons, Prod.mk.injEq, true_and]
      constructor
      · intro h; exact .inl h.symm
      · rintro (h | h)
        · exact h.symm
        · exact absurd (List.mem_map.2 ⟨_, h, rfl⟩) hn.1
    · simp only [hh, decide_false, List.mem_cons, Prod.mk.injEq, show ¬ h = h' from fun e => hh e.symm, false_and, false_or]
      exact this

theorem Table.find_perm {l l' : List (H × Bytes)} (hp : l.Perm l') (hn : (l'.map (·.1)).Nodup) (h : H) : (Table.mk l).find h = (Table.mk l').find h := by
  have hn' : (l.map (·.1)).Nodup := (hp.map _).nodup_iff.2 hn
  cases hf : (Table.mk l').find h with
  | some s => rw [Table.find_iff hn] at hf; rw [Table.find_iff hn']; exact hp.mem_iff.2 hf
  | none =>
    cases hf' : (Table.mk l).find h with
    | none => rfl
    | some s =>
      rw [Table.find_iff hn'] at hf'
      rw [(Table.find_iff hn h s).2 (hp.mem_iff.1 hf')] at hf
      cases hf

theorem loadDoc_save {doc : Document} {sd : Sd H} (hf : t.Fits hash doc) (hs : Saves hash t doc sd) :
    ∃ t' s, loadDoc sd = some (t', ⟨doc.suffix, doc.root, ⟨s⟩⟩) ∧ t'.entries.Perm t.entries ∧ (∀ h, t'.find h = t.find h) ∧ s.OK ∧
      ∀ i, s.get i = doc.data.slab.get i := by
  obtain ⟨strs, ents, h1, h2, rfl⟩ := hs
  have hn : (strs.map (·.1)).Nodup := (h1.map _).nodup_iff.2 hf.keys
  have hfind : ∀ h, (Table.mk strs).find h = t.find h := fun h => Table.find_perm h1 hf.keys h
  have hm : ∀ i e, (i, e) ∈ ents ↔ doc.data.slab.get i = some e := by
    intro i e
    rw [h2.mem_iff, Slab.mem_pairs, Slab.get_eq]
    simp
  have hl : (ents.map fun p => ((.num p.1 : Sd H), saveEntry hash p.2)).mapM (loadSlot ⟨strs⟩) = some ents :=
    loadSlots_save fun p hp s hs => by
      rw [hfind]; exact hf.find s (.inr ⟨p.1, p.2, (hm _ _).1 hp, hs⟩)
  have hsuf : loadStr ⟨strs⟩ (saveStr hash doc.suffix) = some doc.suffix := loadStr_save (by rw [hfind]; exact hf.find _ (.inl rfl))
  obtain ⟨s, g1, g2, g3⟩ := Slab.ofPairs_ok (l := ents) ((h2.map _).nodup_iff.2 (Slab.nodup_pairs _ _))
  refine ⟨⟨strs⟩, s, ?_, h1, hfind, g2, fun i => ?_⟩
  · have e1 : (saveDoc hash doc strs ents).field .data = some (.struct [(.strings, .map (strs.map fun p => (.hash p.1, .bytes p.2))),
        (.slab, .map (ents.map fun p => (.num p.1, saveEntry hash p.2)))]) := rfl
    have e2 : (saveDoc hash doc strs ents).field .suffix = some (saveStr hash doc.suffix) := rfl
    have e3 : (saveDoc hash doc strs ents).field .root = some (saveId doc.root) := rfl
    have e4 : ∀ a b : Sd H, (Sd.struct [(.strings, a), (.slab, b)]).field .strings = some a := fun _ _ => rfl
    have e5 : ∀ a b : Sd H, (Sd.struct [(.strings, a), (.slab, b)]).field .slab = some b := fun _ _ => rfl
    have e6 : ∀ i, loadId (saveId i : Sd H) = some i := fun _ => rfl
    simp only [loadDoc, e1, e2, e3, e4, e5, e6, Sd.entries, bind, Option.bind, pure, loadStrings_save, Table.ofEntries_eq hn, hl, g1, hsuf]
  · cases hg : doc.data.slab.get i with
    | some e => exact (g3 i e).2 ((hm i e).2 hg)
    | none =>
      cases hg' : s.get i with
      | none => rfl
      | some e => rw [(hm i e).1 ((g3 i e).1 hg')] at hg; cases hg

/-- Same entries, same tree. -/
theorem Holds.sameSlab {doc doc' : Document} {u : Tree Nat} (h : Holds doc u) (hr : doc'.root = doc.root) (hs : doc'.data.slab.OK)
    (hg : ∀ i, doc'.data.slab.get i = doc.data.slab.get i) : Holds doc' u :=
  ⟨by rw [hr]; exact h.root, fun i e hm => by rw [hg]; exact h.rep i e hm, h.nodup, fun i e he => h.full i e (by rw [← hg]; exact he), hs⟩

end

/-! Paths. -/

def Tree.childAt (u : Tree Nat) (n : Nat) : Option (Tree Nat) :=
  match u with
  | .leaf _ _ _ => none
  | .node _ _ _ _ _ items => items.pairs[n]?.map (·.2)

def Tree.walk : Tree Nat → List Nat → Option (Tree Nat)
  | u, [] => some u
  | u, n :: p => (u.childAt n).bind fun v => v.walk p

theorem childAt_of {d : Data} {par : Option Nat} {u : Tree Nat} (h : Rep d par u) (n : Nat) : Verif.childAt d u.id n = .ok ((u.childAt n).map Tree.id) := by
  have h1 := asSequence_of h
  have h2 := asMapping_of h
  cases u with
  | leaf i p s => simp only [Verif.childAt, h1, h2, bind, Except.bind, pure, Except.pure, Tree.childAt, Option.map_none]
  | node i p m ind k items =>
    cases m with
    | false =>
      have h3 := seqValues_node h
      simp only [Verif.childAt, h1, bind, Except.bind, pure, Except.pure, Tree.childAt, h3, List.getElem?_map, Option.map_map]; rfl
    | true =>
      have h3 := mapEntries_node h
      simp only [Verif.childAt, h1, h2, bind, Except.bind, pure, Except.pure, Tree.childAt, h3, List.getElem?_map, Option.map_map]; rfl

theorem Holds.childAt {doc : Document} {t u v : Tree Nat} {n : Nat} (h : Holds doc t) (hf : t.find u.id = some u) (hc : u.childAt n = some v) : t.find v.id = some v := by
  cases u with
  | leaf i p s => cases hc
  | node i p m ind k items =>
    simp only [Tree.childAt, Option.map_eq_some_iff] at hc
    obtain ⟨⟨key, v'⟩, hp, rfl⟩ := hc
    obtain ⟨q, ha⟩ := h.at hf
    exact Tree.find_trans h.nodup hf (Tree.find_pair ha.nodup hp)

theorem Holds.walk {doc : Document} {t : Tree Nat} (h : Holds doc t) : ∀ {p : List Nat} {u : Tree Nat}, t.find u.id = some u →
    Verif.walk doc.data u.id p = .ok ((u.walk p).map Tree.id) ∧ ∀ v, u.walk p = some v → t.find v.id = some v
  | [], u, hf => ⟨rfl, fun v hv => by cases hv; exact hf⟩
  | n :: p, u, hf => by
    obtain ⟨q, ha⟩ := h.at hf
    simp only [Verif.walk, childAt_of ha.rep, bind, Except.bind, Tree.walk]
    cases hc : u.childAt n with
    | none => exact ⟨rfl, fun v hv => by cases hv⟩
    | some v =>
      simp only [Option.map_some, Option.bind_some]
      exact h.walk (h.childAt hf hc)

theorem Tree.childAt_map {r : Nat → Nat} (u : Tree Nat) (n : Nat) : (u.map r).childAt n = (u.childAt n).map (Tree.map r) := by
  cases u with
  | leaf i p s => rfl
  | node i p m ind k items => simp [Tree.map, Tree.childAt, Items.map_pairs]; rfl

theorem Tree.walk_map {r : Nat → Nat} : ∀ (p : List Nat) (u : Tree Nat), (u.map r).walk p = (u.walk p).map (Tree.map r)
  | [], u => rfl
  | n :: p, u => by
    simp only [Tree.walk, Tree.childAt_map]
    cases u.childAt n with
    | none => rfl
    | some v => simpa using Tree.walk_map p v

theorem Alike.play : ∀ {s : List (List Nat × Op)} {doc doc' : Document}, Alike doc doc' → ∃ d d', doc.play s = .ok d ∧ doc'.play s = .ok d' ∧ Alike d d'
  | [], doc, doc', h => ⟨doc, doc', rfl, rfl, h⟩
  | (p, op) :: s, doc, doc', h => by
    obtain ⟨hs, t, r, h1, h2⟩ := h
    have w1 : Verif.walk doc.data doc.root p = .ok ((t.walk p).map Tree.id) := by rw [h1.root]; exact (h1.walk t.find_self).1
    have w2 : Verif.walk doc'.data doc'.root p = .ok (((t.walk p).map (Tree.map r)).map Tree.id) := by
      rw [h2.root, ← Tree.walk_map]; exact (h2.walk (t.map r).find_self).1
    cases hw : t.walk p with
    | none =>
      obtain ⟨d, d', g1, g2, g3⟩ := Alike.play (s := s) ⟨hs, t, r, h1, h2⟩
      refine ⟨d, d', ?_, ?_, g3⟩
      · simp only [Document.play, w1, hw, bind, Except.bind]; exact g1
      · simp only [Document.play, w2, hw, bind, Except.bind]; exact g2
    | some v =>
      obtain ⟨e, e', g1, g2, g3⟩ := Alike.edit hs h1 h2 ((h1.walk t.find_self).2 v hw) op
      obtain ⟨d, d', g4, g5, g6⟩ := Alike.play (s := s) g3
      refine ⟨d, d', ?_, ?_, g6⟩
      · simp only [Document.play, w1, hw, bind, Except.bind, Option.map_some, g1]; exact g4
      · simp only [Document.play, w2, hw, bind, Except.bind, Option.map_some, Tree.map_id, g2]; exact g5

/-- The accessors look at nothing but the entries. -/
structure Data.Same (d d' : Data) : Prop where
  get : d.slab.get = d'.slab.get

namespace Data.Same
variable {d d' : Data} (h : d.Same d')
include h
theorem entry : d.entry = d'.entry := by funext i; simp only [Data.entry, h.get]
theorem raw : d.raw = d'.raw := by funext i; simp only [Data.raw, h.entry]
theorem sequence : d.sequence = d'.sequence := by funext i; simp only [Data.sequence, h.get]
theorem mapping : d.mapping = d'.mapping := by funext i; simp only [Data.mapping, h.get]
theorem sequenceItem : d.sequenceItem = d'.sequenceItem := by funext i; simp only [Data.sequenceItem, h.get]
theorem mappingItem : d.mappingItem = d'.mappingItem := by funext i; simp only [Data.mappingItem, h.get]
theorem asInt (t : IntTy) : Verif.asInt t d = Verif.asInt t d' := by funext i; simp only [Verif.asInt, h.raw]
theorem asFloat : Verif.asFloat d = Verif.asFloat d' := by funext i; simp only [Verif.asFloat, h.raw]

theorem deserialize : ∀ (f x : Nat) (m : Method), Verif.deserialize f d x m = Verif.deserialize f d' x m
  | 0, _, _ => by simp only [Verif.deserialize]
  | f + 1, x, m => by
    cases m <;> simp only [Verif.deserialize, asBool, h.asInt, h.asFloat, asStr, asBstr, asSequence, asMapping, seqIter, mapIter, h.raw, h.sequence, h.mapping,
      fun x m => Data.Same.deserialize f x m]

theorem serNumber : Verif.serNumber d = Verif.serNumber d' := by
  funext x hh
  cases hh <;> simp only [Verif.serNumber, h.asInt, h.asFloat]

theorem serSeqItems (rec : Nat → Except SErr (List Ev)) : ∀ l, Verif.serSeqItems rec d l = Verif.serSeqItems rec d' l
  | [] => rfl
  | i :: l => by simp only [Verif.serSeqItems, h.sequenceItem, Data.Same.serSeqItems rec l]

theorem serMapItems (rec : Nat → Except SErr (List Ev)) : ∀ l, Verif.serMapItems rec d l = Verif.serMapItems rec d' l
  | [] => rfl
  | i :: l => by simp only [Verif.serMapItems, mapItemOf, h.mappingItem, Data.Same.serMapItems rec l]

theorem serializeF : ∀ (f : Nat), Verif.serializeF f d = Verif.serializeF f d'
  | 0 => by funext x; simp only [Verif.serializeF]
  | f + 1 => by
    funext x
    simp only [Verif.serializeF, h.raw, h.serNumber, mapLen, mapIter, seqLen', seqIter, h.mapping, h.sequence, h.serSeqItems, h.serMapItems, Data.Same.serializeF f]
end Data.Same

theorem serSeqItems_mono {rec rec' : Nat → Except SErr (List Ev)} {d : Data} (h : ∀ x e, rec x = .ok e → rec' x = .ok e) :
    ∀ {l : List Nat} {e : List Ev}, serSeqItems rec d l = .ok e → serSeqItems rec' d l = .ok e
  | [], _, he => he
  | i :: l, e, he => by
    simp only [serSeqItems, bind, Except.bind] at he ⊢
    cases hi : lift (d.sequenceItem i) with
    | error s => rw [hi] at he; cases he
    | ok v =>
      rw [hi] at he
      simp only at he ⊢
      cases hr : rec v with
      | error s => rw [hr] at he; cases he
      | ok e1 =>
        rw [hr] at he
        rw [h v e1 hr]
        simp only at he ⊢
        cases hl : serSeqItems rec d l with
        | error s => rw [hl] at he; cases he
        | ok e2 => rw [hl] at he; rw [serSeqItems_mono h hl]; exact he

theorem serMapItems_mono {rec rec' : Nat → Except SErr (List Ev)} {d : Data} (h : ∀ x e, rec x = .ok e → rec' x = .ok e) :
    ∀ {l : List Nat} {e : List Ev}, serMapItems rec d l = .ok e → serMapItems rec' d l = .ok e
  | [], _, he => he
  | i :: l, e, he => by
    simp only [serMapItems, bind, Except.bind] at he ⊢
    cases hi : lift (mapItemOf d i) with
    | error s => rw [hi] at he; cases he
    | ok v =>
      rw [hi] at he
      simp only at he ⊢
      cases hr : rec v.2 with
      | error s => rw [hr] at he; cases he
      | ok e1 =>
        rw [hr] at he
        rw [h v.2 e1 hr]
        simp only at he ⊢
        cases hl : serMapItems rec d l with
        | error s => rw [hl] at he; cases he
        | ok e2 => rw [hl] at he; rw [serMapItems_mono h hl]; exact he

theorem serializeF_mono {d : Data} : ∀ {f g x : Nat} {e : List Ev}, f ≤ g → serializeF f d x = .ok e → serializeF g d x = .ok e
  | 0, _, _, _, _, h => by cases h
  | f + 1, 0, _, _, hg, _ => by omega
  | f + 1, g + 1, x, e, hg, h => by
    have hm := fun x e => serializeF_mono (d := d) (f := f) (g := g) (x := x) (e := e) (by omega)
    simp only [serializeF, bind, Except.bind] at h ⊢
    cases hr : lift (d.raw x) with
    | error s => rw [hr] at h; cases h
    | ok r =>
      rw [hr] at h
      cases r with
      | mapping c =>
        simp only at h ⊢
        cases h1 : lift (mapLen d x) with
        | error s => rw [h1] at h; cases h
        | ok n =>
          cases h2 : lift (mapIter d x) with
          | error s => rw [h1, h2] at h; cases h
          | ok it =>
            rw [h1, h2] at h
            simp only at h ⊢
            cases h3 : serMapItems (serializeF f d) d it.rest with
            | error s => rw [h3] at h; cases h
            | ok e' => rw [h3] at h; rw [serMapItems_mono hm h3]; exact h
      | sequence c =>
        simp only at h ⊢
        cases h1 : lift (seqLen' d x) with
        | error s => rw [h1] at h; cases h
        | ok n =>
          cases h2 : lift (seqIter d x) with
          | error s => rw [h1, h2] at h; cases h
          | ok it =>
            rw [h1, h2] at h
            simp only at h ⊢
            cases h3 : serSeqItems (serializeF f d) d it.rest with
            | error s => rw [h3] at h; cases h
            | ok e' => rw [h3] at h; rw [serSeqItems_mono hm h3]; exact h
      | _ => exact h

end Verif
