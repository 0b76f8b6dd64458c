import Verif.SerdeLemmas
import Verif.Wanted
/-
Deserialization ends, for all types.
-/
namespace Verif

theorem deserialize_done {d : Data} {u : Tree Nat} {par : Option Nat} (h : Rep d par u) (hu : u.all (ScalarOk true)) (m : Method) :
    ∃ r, (∀ st, r ≠ .error (.other st)) ∧ ∀ f, deserialize (f + 3) d u.id m = r := by
  have hany : ∃ r : Except SErr Visit, (∀ st, r ≠ .error (.other st)) ∧ ∀ f, deserialize (f + 2) d u.id .any = r := by
    by_cases hw : ∃ i p s hh, u = .leaf i p (.number s hh) ∧ (hh = .u128 ∨ hh = .i128)
    · refine ⟨.error .unsupported, (fun st h => by cases h), fun f => ?_⟩
      obtain ⟨i, p, s, hh, rfl, hw⟩ := hw
      have hr := raw_of h.head
      exact deserialize_number hr _ (by rw [deserialize_method hr, if_pos hw])
    · refine ⟨.ok u.visit, (fun st h => by cases h), fun f => ?_⟩
      rcases deserialize_tree h (fun i p s hh he => .inl (by subst he; exact Ev.shows_ne (NumOk.shows hu))) f with h | ⟨i, p, s, hh, h1, h2, _⟩
      · exact h
      · exact absurd ⟨_, _, _, _, h1, h2⟩ hw
  obtain ⟨r, h1, h2⟩ := hany
  obtain ⟨r', h3, h4⟩ := deserialize_ends h h2 m
  refine ⟨r', ?_, h4⟩
  rcases h3 with rfl | rfl | ⟨v, rfl⟩
  · exact h1
  · exact fun st h => by cases h
  · exact fun st h => by cases h

/-- What a visitor is given belongs to the value. -/
theorem deserialize_own {d : Data} {x : Nat} : ∀ {f : Nat} {m : Method} {v : Visit}, deserialize f d x m = .ok v →
    (∀ y, v = .some y → y = x ∧ m = .option) ∧ (∀ it, v = .seq it → seqIter d x = .ok it) ∧ (∀ it, v = .map it → mapIter d x = .ok it)
  | 0, m, v, h => by simp [deserialize] at h
  | f + 1, m, v, h => by
    have any : ∀ {v}, deserialize f d x .any = .ok v →
        (∀ y, v = .some y → y = x ∧ m = .option) ∧ (∀ it, v = .seq it → seqIter d x = .ok it) ∧ (∀ it, v = .map it → mapIter d x = .ok it) := by
      intro v h
      obtain ⟨h1, h2, h3⟩ := deserialize_own h
      exact ⟨fun y hy => (by cases (h1 y hy).2), h2, h3⟩
    have leaf : ∀ {w : Visit}, (Except.ok w : Except SErr Visit) = .ok v → (∀ y, w ≠ .some y) → (∀ y, w ≠ .seq y) → (∀ y, w ≠ .map y) →
        (∀ y, v = .some y → y = x ∧ m = .option) ∧ (∀ it, v = .seq it → seqIter d x = .ok it) ∧ (∀ it, v = .map it → mapIter d x = .ok it) := by
      intro w h h1 h2 h3
      cases h
      exact ⟨fun y hy => absurd hy (h1 y), fun y hy => absurd hy (h2 y), fun y hy => absurd hy (h3 y)⟩
    have seq : ∀ {o : Option Nat}, asSequence d x = .ok o → ∀ y, o = some y → y = x := by
      intro o ho y hy
      subst hy
      unfold asSequence at ho
      cases hr : d.raw x with
      | error e => rw [hr] at ho; cases ho
      | ok r => rw [hr] at ho; cases r <;> first | (cases ho; rfl) | cases ho
    have map : ∀ {o : Option Nat}, asMapping d x = .ok o → ∀ y, o = some y → y = x := by
      intro o ho y hy
      subst hy
      unfold asMapping at ho
      cases hr : d.raw x with
      | error e => rw [hr] at ho; cases ho
      | ok r => rw [hr] at ho; cases r <;> first | (cases ho; rfl) | cases ho
    have iterS : ∀ {w : Except Stop Iter}, w = seqIter d x → (lift w >>= fun it => (pure (Visit.seq it) : Except SErr Visit)) = .ok v →
        (∀ y, v = .some y → y = x ∧ m = .option) ∧ (∀ it, v = .seq it → seqIter d x = .ok it) ∧ (∀ it, v = .map it → mapIter d x = .ok it) := by
      intro w hw h
      cases w with
      | error e => cases h
      | ok it =>
        cases h
        exact ⟨fun y hy => (by cases hy), fun y hy => (by cases hy; exact hw.symm), fun y hy => (by cases hy)⟩
    have iterM : ∀ {w : Except Stop Iter}, w = mapIter d x → (lift w >>= fun it => (pure (Visit.map it) : Except SErr Visit)) = .ok v →
        (∀ y, v = .some y → y = x ∧ m = .option) ∧ (∀ it, v = .seq it → seqIter d x = .ok it) ∧ (∀ it, v = .map it → mapIter d x = .ok it) := by
      intro w hw h
      cases w with
      | error e => cases h
      | ok it =>
        cases h
        exact ⟨fun y hy => (by cases hy), fun y hy => (by cases hy), fun y hy => (by cases hy; exact hw.symm)⟩
    cases m
    case any =>
      rw [deserialize] at h
      cases hr : d.raw x with
      | error e => rw [hr] at h; cases h
      | ok r =>
        rw [hr] at h
        cases r with
        | null k => exact leaf h (fun y h => by cases h) (fun y h => by cases h) (fun y h => by cases h)
        | bool b k => exact leaf h (fun y h => by cases h) (fun y h => by cases h) (fun y h => by cases h)
        | number k hh =>
          obtain ⟨h1, h2, h3⟩ := deserialize_own (m := hh.method) h
          exact ⟨fun y hy => (by have := (h1 y hy).2; cases hh <;> cases this), h2, h3⟩
        | string k =>
          refine leaf h ?_ ?_ ?_ <;> (intro y; split <;> exact fun h => by cases h)
        | mapping k => exact iterM rfl h
        | sequence k => exact iterS rfl h
        | _ => cases h
    case option =>
      rw [deserialize] at h
      cases hr : d.raw x with
      | error e => rw [hr] at h; cases h
      | ok r =>
        rw [hr] at h
        cases r with
        | null k => exact leaf h (fun y h => by cases h) (fun y h => by cases h) (fun y h => by cases h)
        | _ =>
          cases h
          exact ⟨fun y hy => (by cases hy; exact ⟨rfl, rfl⟩), fun y hy => (by cases hy), fun y hy => (by cases hy)⟩
    case int t =>
      rw [deserialize] at h
      split at h
      · cases h
      · cases ho : asInt t d x with
        | error e => rw [ho] at h; cases h
        | ok o =>
          rw [ho] at h
          cases o with
          | none => exact any h
          | some w => exact leaf h (fun y h => by cases h) (fun y h => by cases h) (fun y h => by cases h)
    case seq =>
      rw [deserialize] at h
      cases ho : asSequence d x with
      | error e => rw [ho] at h; cases h
      | ok o =>
        rw [ho] at h
        cases o with
        | none => exact any h
        | some w => exact iterS (by rw [seq ho w rfl]) h
    case tuple =>
      rw [deserialize] at h
      cases ho : asSequence d x with
      | error e => rw [ho] at h; cases h
      | ok o =>
        rw [ho] at h
        cases o with
        | none => exact any h
        | some w => exact iterS (by rw [seq ho w rfl]) h
    case map =>
      rw [deserialize] at h
      cases ho : asMapping d x with
      | error e => rw [ho] at h; cases h
      | ok o =>
        rw [ho] at h
        cases o with
        | none => exact any h
        | some w => exact iterM (by rw [map ho w rfl]) h
    case bool =>
      rw [deserialize] at h
      cases ho : asBool d x with
      | error e => rw [ho] at h; cases h
      | ok o =>
        rw [ho] at h
        cases o with
        | none => exact any h
        | some w => exact leaf h (fun y h => by cases h) (fun y h => by cases h) (fun y h => by cases h)
    case f32 =>
      rw [deserialize] at h
      cases ho : asFloat d x with
      | error e => rw [ho] at h; cases h
      | ok o =>
        rw [ho] at h
        cases o with
        | none => exact any h
        | some w => exact leaf h (fun y h => by cases h) (fun y h => by cases h) (fun y h => by cases h)
    case f64 =>
      rw [deserialize] at h
      cases ho : asFloat d x with
      | error e => rw [ho] at h; cases h
      | ok o =>
        rw [ho] at h
        cases o with
        | none => exact any h
        | some w => exact leaf h (fun y h => by cases h) (fun y h => by cases h) (fun y h => by cases h)
    case char | str | string =>
      all_goals
        rw [deserialize] at h
        cases ho : asStr d x with
        | error e => rw [ho] at h; cases h
        | ok o =>
          rw [ho] at h
          cases o with
          | none => exact any h
          | some w => exact leaf h (fun y h => by cases h) (fun y h => by cases h) (fun y h => by cases h)
    case bytes | byteBuf =>
      all_goals
        rw [deserialize] at h
        cases ho : asBstr d x with
        | error e => rw [ho] at h; cases h
        | ok o =>
          rw [ho] at h
          cases o with
          | none => exact any h
          | some w => exact leaf h (fun y h => by cases h) (fun y h => by cases h) (fun y h => by cases h)
    all_goals
      rw [deserialize] at h
      exact any h

theorem Ends.ok {α : Type} {F : Nat → Except SErr α} {r : α} (N : Nat) (h : ∀ f, N ≤ f → F f = .ok r) : Ends F := ⟨N, _, (fun st h => by cases h), h⟩

theorem Ends.congr {α : Type} {F G : Nat → Except SErr α} (h : Ends G) (M : Nat) (he : ∀ f, M ≤ f → F f = G f) : Ends F := by
  obtain ⟨N, r, h1, h2⟩ := h
  exact ⟨max N M, r, h1, fun f hf => by rw [he f (by omega), h2 f (by omega)]⟩

theorem Ends.bind {α β : Type} {F : Nat → Except SErr α} {G : α → Nat → Except SErr β} (h : Ends F) (hg : ∀ a, Ends (G a)) : Ends (fun f => F f >>= fun a => G a f) := by
  obtain ⟨N, r, h1, h2⟩ := h
  cases r with
  | error e =>
    exact ⟨N, .error e, (fun st h => h1 st (by cases h; rfl)), fun f hf => by simp only [h2 f hf]; rfl⟩
  | ok a =>
    exact (hg a).congr N fun f hf => by simp only [h2 f hf]; rfl

theorem Ends.map {α β : Type} {F : Nat → Except SErr α} {g : α → β} (h : Ends F) : Ends (fun f => do return g (← F f)) :=
  h.bind (G := fun a _ => .ok (g a)) fun a => Ends.ok 0 fun _ _ => rfl

theorem Ends.step {α : Type} {F G : Nat → Except SErr α} (h : Ends G) (he : ∀ f, F (f + 1) = G f) : Ends F := by
  obtain ⟨N, r, h1, h2⟩ := h
  refine ⟨N + 1, r, h1, fun f hf => ?_⟩
  obtain ⟨f, rfl⟩ : ∃ g, f = g + 1 := ⟨f - 1, by omega⟩
  rw [he, h2 f (by omega)]

/-- A value, if its elements and entries end. -/
theorem Wanted.run_of {σ : Type} {T : Wanted σ} {rank : σ → Nat} (hT : ∀ s, T.ask s = .option → rank (T.inner s) < rank s) {d : Data} {u : Tree Nat} {par : Option Nat} (h : Rep d par u)
    (hu : u.all (ScalarOk true)) (hS : ∀ it, seqIter d u.id = .ok it → ∀ s, Ends fun f => T.runSeq d f s 0 it)
    (hM : ∀ it, mapIter d u.id = .ok it → ∀ s, Ends fun f => T.runMap d f s 0 ⟨it, none⟩) : ∀ (n : Nat) (s : σ), rank s < n → Ends fun f => T.run d f s u.id := by
  intro n
  induction n with
  | zero => intro s hs; omega
  | succ n ih =>
    intro s hs
    obtain ⟨r, h1, h2⟩ := deserialize_done h hu (T.ask s)
    have hv : ∀ f, 3 ≤ f → deserialize f d u.id (T.ask s) = r := fun f hf => by rw [← h2 (f - 3), Nat.sub_add_cancel hf]
    have key : ∀ {G : Nat → Except SErr (List Visit)}, Ends G → (∀ f, 3 ≤ f → T.run d (f + 1) s u.id = G f) → Ends fun f => T.run d f s u.id := by
      intro G hG he
      refine Ends.step (G := fun f => T.run d (f + 1) s u.id) ?_ (fun f => rfl)
      exact hG.congr 3 he
    cases r with
    | error e => exact key (G := fun _ => .error e) ⟨0, .error e, (fun st h => h1 st (by cases h; rfl)), fun _ _ => rfl⟩ fun f hf => by rw [Wanted.run, hv f hf]; rfl
    | ok v =>
      obtain ⟨o1, o2, o3⟩ := deserialize_own (h2 0)
      cases v with
      | some y =>
        obtain ⟨rfl, ho⟩ := o1 y rfl
        exact key (Ends.map (g := (Visit.some u.id :: ·)) (ih (T.inner s) (by have := hT s ho; omega))) fun f hf => by rw [Wanted.run, hv f hf]; rfl
      | seq it => exact key (Ends.map (g := (Visit.seq it :: ·)) (hS it (o2 it rfl) s)) fun f hf => by rw [Wanted.run, hv f hf]; rfl
      | map it => exact key (Ends.map (g := (Visit.map it :: ·)) (hM it (o3 it rfl) s)) fun f hf => by rw [Wanted.run, hv f hf]; rfl
      | _ => exact key (Ends.ok 0 fun f _ => rfl) fun f hf => by rw [Wanted.run, hv f hf]; rfl

mutual
theorem Wanted.run_tree {σ : Type} {T : Wanted σ} {rank : σ → Nat} (hT : ∀ s, T.ask s = .option → rank (T.inner s) < rank s) {d : Data} : ∀ {t : Tree Nat} {par : Option Nat}, Rep d par t →
    t.all (ScalarOk true) → ∀ s, Ends fun f => T.run d f s t.id
  | .leaf i p c, par, h, ha, s => by
    refine Wanted.run_of hT h ha ?_ ?_ _ s (Nat.lt_succ_self _)
    · intro it hi
      have hr := h.head
      cases c <;> (rw [seqIter, Data.sequence, hr] at hi; cases hi)
    · intro it hi
      have hr := h.head
      cases c <;> (rw [mapIter, Data.mapping, hr] at hi; cases hi)
  | .node i p m ind k items, par, h, ha, s => by
    have hn := h.node.2
    refine Wanted.run_of hT h ha ?_ ?_ _ s (Nat.lt_succ_self _)
    · intro it hi s
      have hr := h.head
      rw [seqIter, Data.sequence, hr] at hi
      cases m with
      | true => cases hi
      | false => cases hi; exact Wanted.runSeq_items hT hn ha s 0
    · intro it hi s
      have hr := h.head
      rw [mapIter, Data.mapping, hr] at hi
      cases m with
      | true => cases hi; exact Wanted.runMap_items hT hn ha s 0 none
      | false => cases hi
theorem Wanted.runSeq_items {σ : Type} {T : Wanted σ} {rank : σ → Nat} (hT : ∀ s, T.ask s = .option → rank (T.inner s) < rank s) {d : Data} : ∀ {is : Items Nat} {c : Nat}, RepItems d c false is →
    is.all (ScalarOk true) → ∀ s n, Ends fun f => T.runSeq d f s n ⟨is.ids⟩
  | .nil, _, _, _, s, n => by
    refine Ends.ok (r := []) 1 fun f hf => ?_
    obtain ⟨f, rfl⟩ : ∃ g, f = g + 1 := ⟨f - 1, by omega⟩
    rw [Wanted.runSeq]
    cases T.elem s n <;> rfl
  | .cons i p key v rest, c, h, ha, s, n => by
    obtain ⟨h1, h2, h3⟩ := h.cons
    cases he : T.elem s n with
    | none => exact Ends.step (G := fun _ => .ok []) (Ends.ok 0 fun _ _ => rfl) fun f => by rw [Wanted.runSeq, he]; rfl
    | some s' =>
      exact Ends.step ((Wanted.run_tree hT h2 ha.1 s').bind fun a => Ends.map (g := (a ++ ·)) (Wanted.runSeq_items hT h3 ha.2 s (n + 1))) fun f => by
        rw [Wanted.runSeq, he]
        simp only [Items.ids, seqAccessNext, Iter.next, sequenceItem_of h1, lift, bind, Except.bind, pure, Except.pure]
theorem Wanted.runMap_items {σ : Type} {T : Wanted σ} {rank : σ → Nat} (hT : ∀ s, T.ask s = .option → rank (T.inner s) < rank s) {d : Data} : ∀ {is : Items Nat} {c : Nat}, RepItems d c true is →
    is.all (ScalarOk true) → ∀ s n val, Ends fun f => T.runMap d f s n ⟨⟨is.ids⟩, val⟩
  | .nil, _, _, _, s, n, val => by
    refine Ends.ok (r := []) 1 fun f hf => ?_
    obtain ⟨f, rfl⟩ : ∃ g, f = g + 1 := ⟨f - 1, by omega⟩
    rw [Wanted.runMap]
    split <;> rfl
  | .cons i p key v rest, c, h, ha, s, n, val => by
    obtain ⟨h1, h2, h3⟩ := h.cons
    by_cases hm : T.more s n = true
    · cases he : T.value s n key.id with
      | none =>
        exact Ends.step (Ends.map (g := (Visit.bytes key.id :: ·)) (Wanted.runMap_items hT h3 ha.2 s (n + 1) (some v.id))) fun f => by
          rw [Wanted.runMap, if_pos hm]
          simp only [Items.ids, MapAccess.nextKey, Iter.next, mapItemOf, mappingItem_of h1, lift, bind, Except.bind, pure, Except.pure, he]
      | some s' =>
        exact Ends.step ((Wanted.run_tree hT h2 ha.1 s').bind fun a => Ends.map (g := fun b => Visit.bytes key.id :: a ++ b) (Wanted.runMap_items hT h3 ha.2 s (n + 1) none)) fun f => by
          rw [Wanted.runMap, if_pos hm]
          simp only [Items.ids, MapAccess.nextKey, MapAccess.nextValue, Iter.next, mapItemOf, mappingItem_of h1, lift, bind, Except.bind, pure, Except.pure, he]
    · exact Ends.step (G := fun _ => .ok []) (Ends.ok 0 fun _ _ => rfl) fun f => by rw [Wanted.runMap, if_neg hm]; rfl
end

end Verif
