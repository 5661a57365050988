import Verif.Model.EarlyReads
import Verif.Proof.StoreBuffer2
import Verif.Proof.SlotAccess
/-
Early reads of elements of a vector or a deque obtain what a read in time obtains: the thread holds the lock of the slot since
its last atomic operation, so nobody else writes to the slot.
-/
namespace Stdgpu.StoreBuffer
open Stdgpu.Conc Stdgpu.SlotConc Stdgpu.Spec
variable {C K F α : Type}

theorem skind_read {t : SlotConc.Thread K F α} (h : skind t = .read) :
    ∃ op rest p, t.todo = op :: rest ∧ t.pc = .slot p .take := by
  obtain ⟨todo, pc, done⟩ := t
  rcases todo with _ | ⟨op, rest⟩
  · simp [skind] at h
  · cases pc with
    | front f => cases op <;> simp [skind] at h
    | slot p s =>
      cases s with
      | take => exact ⟨op, rest, p, rfl, rfl⟩
      | _ => cases op <;> simp [skind] at h


/-- Only plain writes change the elements. -/
theorem slot_data (fr : Front C K F) (m : Mem C α) {t : SlotConc.Thread K F α} (h : skind t ≠ .write) :
    (SlotConc.step fr m t).1.slots.data = m.slots.data := by
  obtain ⟨todo, pc, done⟩ := t
  rcases todo with _ | ⟨op, rest⟩
  · rfl
  cases pc with
  | front f => simp only [SlotConc.step]; split <;> rfl
  | slot p s =>
    have e : (SlotConc.step fr m ⟨op :: rest, .slot p s, done⟩).1.slots = (slotStep m.slots op p s).1 := by
      simp only [SlotConc.step]; split <;> rfl
    rw [e]
    cases s <;> cases op <;> simp [skind] at h <;> simp only [slotStep]
    all_goals first
      | (split
         · rfl
         · split <;> rfl)
      | (cases m.slots.data p <;> rfl)

/-- A plain write changes one element. -/
theorem slot_data_other (fr : Front C K F) (m : Mem C α) {t : SlotConc.Thread K F α} {q : Nat} {s : SPC α}
    (h : t.pc = .slot q s) {p : Nat} (hp : p ≠ q) : (SlotConc.step fr m t).1.slots.data p = m.slots.data p := by
  by_cases hk : skind t = .write
  · rcases skind_write hk with ⟨k, x, rest, p', h1, h2⟩ | ⟨op, rest, p', v, h1, h2⟩
    · rw [h2] at h; cases h
      unfold SlotConc.step; rw [h1, h2]; simp [slotStep, upd, hp]
    · rw [h2] at h; cases h
      unfold SlotConc.step; rw [h1, h2]; simp [slotStep, upd, hp]
  · rw [slot_data fr m hk]

/-- Before a plain read comes an atomic operation. -/
theorem before_read (fr : Front C K F) (m : Mem C α) {t : SlotConc.Thread K F α} (h : skind (SlotConc.step fr m t).2 = .read)
    (ha : skind t ≠ .atomic) : skind t = .read ∧ (SlotConc.step fr m t).2.pc = t.pc := by
  have hr : skind t = .read := by
    cases hk : skind t with
    | atomic => exact absurd hk ha
    | read => rfl
    | write => rw [slot_next fr m hk] at h; cases h
  refine ⟨hr, ?_⟩
  obtain ⟨op, rest, p, h1, h2⟩ := skind_read hr
  obtain ⟨todo, pc, done⟩ := t
  dsimp only at h1 h2
  subst h1 h2
  simp only [SlotConc.step, slotStep] at h ⊢
  cases hd : m.slots.data p with
  | none => rfl
  | some v => rw [hd] at h; simp [skind] at h

/-- What a plain read obtains depends on the element only. -/
theorem read_congr (fr : Front C K F) (m m' : Mem C α) {t : SlotConc.Thread K F α} {p : Nat} (h : skind t = .read)
    (hp : t.pc = .slot p .take) (hd : m.slots.data p = m'.slots.data p) : (SlotConc.step fr m t).2 = (SlotConc.step fr m' t).2 := by
  obtain ⟨op, rest, q, h1, h2⟩ := skind_read h
  rw [hp] at h2; cases h2
  unfold SlotConc.step
  rw [h1, hp]
  simp only [slotStep, hd]
  cases m'.slots.data p <;> rfl

theorem exclusive {fr : Front C K F} {cap : Nat} {c₀ : Multiset α} {programs : List (List (Op K α))} {tick : Nat → Int}
    {s : Sys (Mem C α) (SlotConc.Thread K F α)} (h : SInv fr cap c₀ programs tick s) {i j : Nat} {ti tj : SlotConc.Thread K F α}
    (hij : i ≠ j) (hi : s.threads[i]? = some ti) (hj : s.threads[j]? = some tj) {p q : Nat} {a b : SPC α}
    (h1 : ti.pc = .slot p a) (h2 : tj.pc = .slot q b) (ha : a.inCS = true) (hb : b.inCS = true) : p ≠ q := by
  rintro rfl
  have hp := ((h.shape ti (List.mem_of_getElem? hi)).1 _ _ h1).1
  have := add_le_sum_map (holdsN p) s.threads i j ti tj hij hi hj
  rw [h.locks p hp] at this
  have e1 : holdsN p ti = 1 := by simp [holdsN, h1, ha]
  have e2 : holdsN p tj = 1 := by simp [holdsN, h2, hb]
  have : (s.shared.slots.locks p).toNat ≤ 1 := Bool.toNat_le _
  omega

theorem chain_short (fr : Front C K F) (m : Mem C α) {buf : List (SlotConc.Thread K F α)} {t : SlotConc.Thread K F α}
    (h : Chain (SlotConc.step (α := α) fr) skind buf t) : buf = [] ∨ ∃ a, buf = [a] ∧ skind a = .write ∧ skind t ≠ .read := by
  match buf, h with
  | [], _ => exact .inl rfl
  | [a], h => exact .inr ⟨a, rfl, h.1, h.2.2⟩
  | a :: b :: l, h =>
    exfalso
    have h1 := slot_next fr m h.1
    rw [h.2.1 m] at h1
    have h2 : skind b = .write := by
      cases l with
      | nil => exact h.2.2.1
      | cons c l => exact h.2.2.1
    rw [h1] at h2; cases h2

/-- Nobody has written to the element that a thread is about to read, since the last fence of the thread. -/
def Fresh (s : ESys (Mem C α) (SlotConc.Thread K F α)) : Prop :=
  ∀ (i : Nat) (w : WThread (SlotConc.Thread K F α)) (m : Mem C α) (p : Nat), s.sys.threads[i]? = some w → m ∈ s.past i →
    skind w.cur = .read → w.cur.pc = .slot p .take → m.slots.data p = s.sys.shared.slots.data p

theorem getElem?_set_split {β : Type} {l : List β} {i j : Nat} {a x : β} (h : (l.set i a)[j]? = some x) :
    (j = i ∧ x = a) ∨ (j ≠ i ∧ l[j]? = some x) := by
  rw [List.getElem?_set] at h
  split at h
  · rename_i e
    split at h
    · exact .inl ⟨e.symm, (Option.some.inj h).symm⟩
    · cases h
  · rename_i e; exact .inr ⟨fun e' => e e'.symm, h⟩

section
variable {fr : Front C K F} {programs : List (List (Op K α))} {cap : Nat} {c₀ : Multiset α} {tick : Nat → Int}
  {inOrder : SlotConc.Thread K F α → SlotConc.Thread K F α → Bool} {S : Sys (Mem C α) (SlotConc.Thread K F α)}
  {s : ESys (Mem C α) (SlotConc.Thread K F α)}

/-- If the memory changes only where thread `i` does not read, `Fresh` stays true of thread `i`. -/
theorem fresh_base (hS : SInv fr cap c₀ programs tick S) (hsim : Sim (SlotConc.step fr) skind (fun _ => True) inOrder s.sys S)
    (h : Fresh s) (e : Ev) : Fresh (estep (SlotConc.step fr) skind true true inOrder s (.base e)) := by
  intro i w m p hw hm hk hp
  obtain ⟨sys, past⟩ := s
  obtain ⟨mem, ws⟩ := sys
  simp only [estep, Bool.true_and] at hw hm ⊢
  dsimp only at hsim
  cases e with
  | exec j =>
    cases hj : ws[j]? with
    | none =>
      simp only [wstep, hj] at hw hm ⊢
      split at hm
      · simp only [List.mem_singleton] at hm; rw [hm]
      · rcases List.mem_append.1 hm with hm | hm
        · exact h i w m p hw hm hk hp
        · simp only [List.mem_singleton] at hm; rw [hm]
    | some wj =>
      simp only [wstep, hj] at hw hm ⊢
      rcases getElem?_set_split hw with ⟨rfl, hw'⟩ | ⟨hij, hw'⟩
      · -- the thread itself
        by_cases hat : skind wj.cur = .atomic
        · by_cases hb : wj.buf.isEmpty = true
          · have hc : completesAtomic skind true ⟨mem, ws⟩ (.exec i) i = true := by simp [completesAtomic, hj, hat, hb]
            rw [hc] at hm
            simp only [if_true, List.mem_singleton] at hm
            rw [hm]
          · have e : execThread (SlotConc.step fr) skind true mem wj = (mem, wj) := by simp [execThread, hat, hb]
            rw [e] at hw'
            rw [hw'] at hk
            simp only at hk
            rw [hat] at hk; cases hk
        · have hc : completesAtomic skind true ⟨mem, ws⟩ (.exec i) i = false := by simp [completesAtomic, hj, hat]
          rw [hc] at hm
          rw [if_neg (by decide)] at hm
          have hsame : (execThread (SlotConc.step fr) skind true mem wj).1.slots.data = mem.slots.data := by
            simp only [execThread]
            split
            · rfl
            · rename_i hk'; exact absurd hk' hat
            · rename_i hk'
              split
              · exact slot_data fr mem (by rw [hk']; decide)
              · rfl
          rcases List.mem_append.1 hm with hm | hm
          · have hold : skind wj.cur = .read ∧ w.cur.pc = wj.cur.pc := by
              rw [hw'] at hk ⊢
              cases hkk : skind wj.cur with
              | atomic => exact absurd hkk hat
              | write =>
                simp only [execThread, hkk] at hk
                rw [slot_next fr mem hkk] at hk; cases hk
              | read =>
                simp only [execThread, hkk] at hk ⊢
                exact ⟨trivial, (before_read fr _ hk hat).2⟩
            have := h i wj m p hj hm hold.1 (by rw [← hold.2]; exact hp)
            rw [this]
            exact (congrFun hsame p).symm
          · simp only [List.mem_singleton] at hm; rw [hm]
      · -- another thread
        have hc : completesAtomic skind true ⟨mem, ws⟩ (.exec j) i = false := by simp [completesAtomic, hij]
        rw [hc] at hm
        rw [if_neg (by decide)] at hm
        have hsame : (execThread (SlotConc.step fr) skind true mem wj).1.slots.data = mem.slots.data := by
          simp only [execThread]
          split
          · rfl
          · rename_i hk'
            split
            · rfl
            · exact slot_data fr mem (by rw [hk']; decide)
          · rename_i hk'
            split
            · exact slot_data fr mem (by rw [hk']; decide)
            · rfl
        rcases List.mem_append.1 hm with hm | hm
        · rw [h i w m p hw' hm hk hp]
          exact (congrFun hsame p).symm
        · simp only [List.mem_singleton] at hm; rw [hm]
  | flush j k =>
    simp only [completesAtomic, Bool.false_eq_true, if_false] at hm
    rcases List.mem_append.1 hm with hm | hm
    swap
    · simp only [List.mem_singleton] at hm; rw [hm]
    cases hj : ws[j]? with
    | none =>
      simp only [wstep, hj] at hw ⊢
      exact h i w m p hw hm hk hp
    | some wj =>
      simp only [wstep, hj] at hw ⊢
      have hmemj : wj ∈ ws := List.mem_of_getElem? hj
      rcases chain_short fr mem (hsim.chain wj hmemj) with hb | ⟨a, hb, hkw, hnr⟩
      · have e : flushThread (SlotConc.step fr) inOrder mem wj k = (mem, wj) := by simp [flushThread, hb]
        rw [e] at hw ⊢
        simp only at hw ⊢
        have : ws.set j wj = ws := by
          apply List.ext_getElem?
          intro n
          rw [List.getElem?_set]
          split
          · rename_i e; subst e; rw [if_pos (List.getElem?_eq_some_iff.1 hj).1, hj]
          · rfl
        rw [this] at hw
        exact h i w m p hw hm hk hp
      · rcases getElem?_set_split hw with ⟨rfl, hw'⟩ | ⟨hij, hw'⟩
        · exfalso
          apply hnr
          have : w.cur = wj.cur := by
            rw [hw']; unfold flushThread
            split
            · rfl
            · split <;> rfl
          rw [← this]; exact hk
        · rw [h i w m p hw' hm hk hp]
          unfold flushThread
          rw [hb]
          split
          · rfl
          · rename_i t ht
            split
            · rfl
            · have hta : t = a := by
                have := List.mem_of_getElem? ht
                simpa using this
              subst hta
              have hSi : S.threads[i]? = some w.cur := by
                rw [hsim.threads, List.getElem?_map, hw']
                simp only [Option.map_some, Option.some.injEq]
                rcases chain_short fr mem (hsim.chain w (List.mem_of_getElem? hw')) with hb' | ⟨_, _, _, hnr'⟩
                · obtain ⟨c, b⟩ := w
                  dsimp only at hb'; subst hb'; rfl
                · exact absurd hk hnr'
              have hSj : S.threads[j]? = some t := by
                rw [hsim.threads, List.getElem?_map, hj]
                simp only [Option.map_some, Option.some.injEq]
                obtain ⟨c, b⟩ := wj
                dsimp only at hb; subst hb; rfl
              rcases skind_write hkw with ⟨_, _, _, q, _, h2⟩ | ⟨_, _, q, v, _, h2⟩
              · exact (slot_data_other fr mem h2 (exclusive hS hij hSi hSj hp h2 rfl rfl)).symm
              · exact (slot_data_other fr mem h2 (exclusive hS hij hSi hSj hp h2 rfl rfl)).symm

/-- An early read obtains what a read in time obtains. -/
theorem early_eq (hsim : Sim (SlotConc.step fr) skind (fun _ => True) inOrder s.sys S) (h : Fresh s) (i k : Nat) :
    estep (SlotConc.step fr) skind true true inOrder s (.early i k) = s ∨
    estep (SlotConc.step fr) skind true true inOrder s (.early i k) =
      estep (SlotConc.step fr) skind true true inOrder s (.base (.exec i)) := by
  obtain ⟨sys, past⟩ := s
  obtain ⟨mem, ws⟩ := sys
  dsimp only at hsim
  cases hw : ws[i]? with
  | none => left; simp only [estep, hw]
  | some w =>
    cases hm : (past i)[k]? with
    | none => left; simp only [estep, hw, hm]
    | some m =>
      by_cases hk : skind w.cur = .read
      · right
        obtain ⟨op, rest, p, h1, h2⟩ := skind_read hk
        have hd := h i w m p hw (List.mem_of_getElem? hm) hk h2
        dsimp only at hd
        have hb : w.buf = [] := by
          rcases chain_short fr mem (hsim.chain w (List.mem_of_getElem? hw)) with hb | ⟨_, _, _, hn⟩
          · exact hb
          · exact absurd hk hn
        have hc : ∀ j, completesAtomic skind true ⟨mem, ws⟩ (.exec i) j = false := by
          intro j
          by_cases e : j = i
          · subst e; simp [completesAtomic, hw, hk]
          · simp [completesAtomic, e]
        simp only [estep, hw, hm, hk, if_true, wstep, hc, Bool.and_false, Bool.false_eq_true, if_false]
        congr 2
        · simp only [execThread, hk]
          rw [hb]
          simp only [view, List.foldl_nil]
          rw [read_congr fr m mem hk h2 hd]
      · left; simp only [estep, hw, hm, hk, if_false]

end

/-- An execution with early reads is one without. -/
theorem early_run {fr : Front C K F} {programs : List (List (Op K α))} {m : Mem C α}
    (inOrder : SlotConc.Thread K F α → SlotConc.Thread K F α → Bool)
    (hS : ∀ sched, ∃ cap c₀ tick, SInv fr cap c₀ programs tick (run (SlotConc.step fr) (SlotConc.init fr m programs) sched))
    (evs : List EEv) : ∃ evs', (erun (SlotConc.step fr) skind true true inOrder (SlotConc.init fr m programs) evs).sys =
      wrun (SlotConc.step fr) skind true inOrder (SlotConc.init fr m programs) evs' := by
  have key : ∀ (evs : List EEv) (evs' : List Ev) (s : ESys (Mem C α) (SlotConc.Thread K F α)), Fresh s →
      s.sys = wrun (SlotConc.step fr) skind true inOrder (SlotConc.init fr m programs) evs' →
      ∃ evs', (evs.foldl (estep (SlotConc.step fr) skind true true inOrder) s).sys =
        wrun (SlotConc.step fr) skind true inOrder (SlotConc.init fr m programs) evs' := by
    intro evs
    induction evs with
    | nil => exact fun evs' s _ h => ⟨evs', h⟩
    | cons e evs ih =>
      intro evs' s hf hs
      obtain ⟨sched, hsim⟩ := sim_run (slot_laws fr) (slot_ordered fr inOrder) (SlotConc.init fr m programs)
        (fun _ _ => trivial) evs'
      rw [← hs] at hsim
      obtain ⟨cap, c₀, tick, hinv⟩ := hS sched
      have base : ∀ b : Ev, ∃ evs', (evs.foldl (estep (SlotConc.step fr) skind true true inOrder)
          (estep (SlotConc.step fr) skind true true inOrder s (.base b))).sys =
          wrun (SlotConc.step fr) skind true inOrder (SlotConc.init fr m programs) evs' := by
        intro b
        refine ih (evs' ++ [b]) _ (fresh_base hinv hsim hf b) ?_
        simp only [estep, wrun, List.foldl_append, List.foldl_cons, List.foldl_nil]
        rw [hs]; rfl
      rw [List.foldl_cons]
      cases e with
      | base b => exact base b
      | early i k =>
        rcases early_eq hsim hf i k with e | e
        · rw [e]; exact ih evs' s hf hs
        · rw [e]; exact base _
  refine key evs [] _ ?_ rfl
  intro i w m' p hw hm hk hp
  simp only [List.mem_singleton] at hm
  rw [hm]; rfl

end Stdgpu.StoreBuffer
