import Verif.Slab
/-
The slab keeps its free list sound, and behaves like a finite map.
-/
namespace Verif
namespace Slab
variable {α : Type}

/-- `l` is the free list starting at `next`. -/
def Chain (slots : List (Slot α)) : Nat → List Nat → Prop
  | next, [] => next = slots.length
  | next, i :: l => next = i ∧ ∃ nx, slots[i]? = some (.vacant nx) ∧ Chain slots nx l

/-- The free list is finite, without repetition, and goes through vacant slots only. -/
def OK (s : Slab α) : Prop := ∃ l : List Nat, l.Nodup ∧ Chain s.slots s.next l

theorem Chain.set {slots : List (Slot α)} {k : Nat} {v : Slot α} :
    ∀ {l : List Nat} {next : Nat}, k ∉ l → Chain slots next l → Chain (slots.set k v) next l
  | [], _, _, h => by simpa [Chain] using h
  | i :: l, _, hk, ⟨h1, nx, h2, h3⟩ => by
    simp only [List.mem_cons, not_or] at hk
    refine ⟨h1, nx, ?_, Chain.set hk.2 h3⟩
    rw [List.getElem?_set_ne (fun h => hk.1 h)]; exact h2

theorem Chain.vacant {slots : List (Slot α)} :
    ∀ {l : List Nat} {next i : Nat}, Chain slots next l → i ∈ l → ∃ nx, slots[i]? = some (.vacant nx)
  | _ :: _, _, _, ⟨_, nx, h2, h3⟩, hi => by
    rcases List.mem_cons.1 hi with rfl | hi
    · exact ⟨nx, h2⟩
    · exact Chain.vacant h3 hi

theorem get_lt {s : Slab α} {k : Nat} {a : α} (h : s.get k = some a) : k < s.slots.length := by
  unfold get at h
  split at h
  · next heq => exact (List.getElem?_eq_some_iff.1 heq).1
  · cases h

theorem get_eq {s : Slab α} {k : Nat} {a : α} : s.get k = some a ↔ s.slots[k]? = some (.occupied a) := by
  unfold get
  split
  · next heq => simp [heq]
  · next heq => 
    constructor
    · intro h; cases h
    · intro h; exact absurd h (heq a)

theorem get_set {s : Slab α} {k : Nat} {a b : α} (h : s.get k = some a) (i : Nat) :
    (s.set k b).get i = if i = k then some b else s.get i := by
  have hlt := get_lt h
  simp only [set, get]
  by_cases hi : i = k
  · subst hi; simp [hlt]
  · simp [hi, List.getElem?_set_ne (fun h => hi h.symm)]

theorem OK.set {s : Slab α} {k : Nat} {a b : α} (hs : s.OK) (h : s.get k = some a) : (s.set k b).OK := by
  obtain ⟨l, hl, hc⟩ := hs
  refine ⟨l, hl, Chain.set (fun hk => ?_) hc⟩
  obtain ⟨nx, hv⟩ := hc.vacant hk
  rw [get_eq.1 h] at hv; cases hv

theorem tryRemove_ok {s : Slab α} {k : Nat} {a : α} (hs : s.OK) (h : s.get k = some a) :
    ∃ s', s.tryRemove k = some (a, s') ∧ s'.OK ∧ s'.slots.length = s.slots.length ∧
      ∀ i, s'.get i = if i = k then none else s.get i := by
  have hlt := get_lt h
  have hk := get_eq.1 h
  refine ⟨⟨s.slots.set k (.vacant s.next), k⟩, ?_, ?_, by simp, ?_⟩
  · simp [tryRemove, hk]
  · obtain ⟨l, hl, hc⟩ := hs
    have hkl : k ∉ l := fun hm => by
      obtain ⟨nx, hv⟩ := hc.vacant hm
      rw [hk] at hv; cases hv
    refine ⟨k :: l, List.nodup_cons.2 ⟨hkl, hl⟩, rfl, s.next, ?_, hc.set hkl⟩
    simp [hlt]
  · intro i
    simp only [get]
    by_cases hi : i = k
    · subst hi; simp [hlt]
    · simp [hi, List.getElem?_set_ne (fun h => hi h.symm)]

theorem insert_ok {s : Slab α} (hs : s.OK) (a : α) :
    ∃ k s', s.insert a = .ok (k, s') ∧ s'.OK ∧ s.get k = none ∧ s.slots.length ≤ s'.slots.length ∧
      ∀ i, s'.get i = if i = k then some a else s.get i := by
  obtain ⟨l, hl, hc⟩ := hs
  cases l with
  | nil =>
    simp only [Chain] at hc
    refine ⟨s.next, ⟨s.slots ++ [.occupied a], s.next + 1⟩, by simp [insert, hc], ⟨[], by simp, by simp [Chain, hc]⟩, ?_, by simp, ?_⟩
    · simp [get, hc]
    · intro i
      simp only [get, hc]
      by_cases hi : i = s.slots.length
      · subst hi; simp
      · simp only [hi, if_false]
        by_cases hlt : i < s.slots.length
        · simp [List.getElem?_append_left hlt]
        · have h1 : s.slots[i]? = none := by simp; omega
          have h2 : (s.slots ++ [Slot.occupied a])[i]? = none := by simp; omega
          simp [h1, h2]
  | cons j l =>
    obtain ⟨hn, nx, hv, hc⟩ := hc
    subst hn
    have hlt : s.next < s.slots.length := (List.getElem?_eq_some_iff.1 hv).1
    have hnd := List.nodup_cons.1 hl
    refine ⟨s.next, ⟨s.slots.set s.next (.occupied a), nx⟩, ?_, ⟨l, hnd.2, hc.set hnd.1⟩, ?_, by simp, ?_⟩
    · simp [insert, Nat.ne_of_lt hlt, hv]
    · simp [get, hv]
    · intro i
      simp only [get]
      by_cases hi : i = s.next
      · subst hi; simp [hlt]
      · simp [hi, List.getElem?_set_ne (fun h => hi h.symm)]

theorem empty_ok : (empty : Slab α).OK := ⟨[], by simp, rfl⟩

end Slab
end Verif
