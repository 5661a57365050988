import Verif.Model.UnorderedAccess
import Verif.Proof.SlotAccess
import Verif.Proof.UConcIns9
import Verif.Proof.UConcEra6
/-! Plain accesses of the unordered containers. -/
namespace Stdgpu.UnorderedConc
open Stdgpu.Conc
open Stdgpu.Unordered
open Stdgpu.SlotConc (slotAccess)
variable {K V : Type}

theorem walk_access {w : Walk} {l : Loc} {b : Bool} (h : w.access = some (l, b)) : b = false := by
  cases w <;> simp [Walk.access] at h <;> exact h.2

theorem hop_access {w : Hop} {l : Loc} {b : Bool} (h : w.access = some (l, b)) : b = false := by
  cases w <;> simp [Hop.access] at h <;> exact h.2

theorem exAccess_eq {ex : Ex} {l : Loc} {b : Bool} (h : exAccess ex = some (l, b)) :
    ∃ p, l = .exc p ∧ slotAccess ex = some (p, b) := by
  unfold exAccess at h
  simp only [Option.map_eq_some_iff, Prod.mk.injEq] at h
  obtain ⟨⟨p, b'⟩, h1, h2, h3⟩ := h
  exact ⟨p, h2.symm, by rw [h1, ← h3]⟩

section
variable {P : Params K V} {I : Start P} {chain : Nat → List Nat} {xp : List (List (SlotConc.Op Unit Nat))}
  {s : Sys (Shared V) (Thread K V)}

/-- A thread that reads a value sees the occupied bit set; one that reads an offset is at an entry of a chain. -/
def ReadOK (t : Tab V) (chain : Nat → List Nat) : Loc → Prop
  | .val p => t.occ p = true
  | .off p => ∃ b, b < t.bc ∧ p ∈ b :: chain b
  | .exc _ => False

theorem walkOK_access {Q : Nat → Prop} {t : Tab V} {b : Nat} (hb : b < t.bc) {w : Walk} (h : WalkOK Q t.occ b (chain b) w)
    {l : Loc} {u : Bool} (ha : w.access = some (l, u)) : ReadOK t chain l := by
  cases w with
  | occ w => simp [Walk.access] at ha
  | val w =>
    simp only [Walk.access, Option.some.injEq, Prod.mk.injEq] at ha
    rw [← ha.1]
    exact h.2
  | off1 w =>
    simp only [Walk.access, Option.some.injEq, Prod.mk.injEq] at ha
    rw [← ha.1]
    obtain ⟨l1, l2, e, -⟩ := h
    exact ⟨b, hb, by rw [e]; simp⟩
  | off2 w =>
    simp only [Walk.access, Option.some.injEq, Prod.mk.injEq] at ha
    rw [← ha.1]
    obtain ⟨l1, l2, e, -⟩ := h
    exact ⟨b, hb, by rw [e]; simp⟩

theorem hopOK_access {t : Tab V} {b : Nat} (hb : b < t.bc) {w : Hop} (h : HopOK b (chain b) w)
    {l : Loc} {u : Bool} (ha : w.access = some (l, u)) : ReadOK t chain l := by
  cases w with
  | off1 w =>
    simp only [Hop.access, Option.some.injEq, Prod.mk.injEq] at ha
    rw [← ha.1]
    exact ⟨b, hb, h⟩
  | off2 w =>
    simp only [Hop.access, Option.some.injEq, Prod.mk.injEq] at ha
    rw [← ha.1]
    exact ⟨b, hb, h⟩

/-- All accesses of a thread in an execution without erases. -/
theorem Inv.access (h : Inv I chain xp s) {th : Thread K V} (ht : th ∈ s.threads) {l : Loc} {u : Bool}
    (ha : uaccess P I.t₀ th = some (l, u)) :
    (u = false ∧ walking th = true ∧ ReadOK s.shared.tab chain l) ∨
    (∃ v, th.cur = .ins v .consB ∧ l = .val (bkt P I.t₀.bc (P.keyOf v)) ∧ u = true) ∨
    (∃ v e n, th.cur = .ins v (.cons e n) ∧ l = .val n ∧ u = true) ∨
    (∃ v e n, th.cur = .ins v (.off e n) ∧ l = .off n ∧ u = true) ∨
    (∃ v e n, th.cur = .ins v (.link e n) ∧ l = .off e ∧ u = true) ∨
    (∃ p, l = .exc p ∧ slotAccess th.ex = some (p, u)) := by
  have hk := h.knows th ht
  obtain ⟨todo, cur, ex, done⟩ := th
  cases cur with
  | idle => simp [uaccess] at ha
  | era k pc => exact hk.elim
  | fnd k w =>
    have hb := bkt_lt P s.shared.tab.bc k h.g.bc_pos h.g.bc_lt
    exact .inl ⟨walk_access ha, rfl, walkOK_access hb hk.2 ha⟩
  | ins v pc =>
    have hb := bkt_lt P s.shared.tab.bc (P.keyOf v) h.g.bc_pos h.g.bc_lt
    simp only [uaccess, bucket_eq] at ha
    cases pc with
    | c1 w => exact .inl ⟨walk_access ha, rfl, walkOK_access hb hk.2 ha⟩
    | c2 w => exact .inl ⟨walk_access ha, rfl, walkOK_access hb hk.2 ha⟩
    | c3 e e' w => exact .inl ⟨walk_access ha, rfl, walkOK_access hb hk.2.2.2.2 ha⟩
    | e1 w => exact .inl ⟨hop_access ha, rfl, hopOK_access hb hk.2.2 ha⟩
    | e2 e w => exact .inl ⟨hop_access ha, rfl, hopOK_access hb hk.2.2.2 ha⟩
    | consB =>
      simp only [IPC.access, Option.some.injEq, Prod.mk.injEq] at ha
      exact .inr (.inl ⟨v, rfl, ha.1.symm, ha.2.symm⟩)
    | cons e n =>
      simp only [IPC.access, Option.some.injEq, Prod.mk.injEq] at ha
      exact .inr (.inr (.inl ⟨v, e, n, rfl, ha.1.symm, ha.2.symm⟩))
    | off e n =>
      simp only [IPC.access, Option.some.injEq, Prod.mk.injEq] at ha
      exact .inr (.inr (.inr (.inl ⟨v, e, n, rfl, ha.1.symm, ha.2.symm⟩)))
    | link e n =>
      simp only [IPC.access, Option.some.injEq, Prod.mk.injEq] at ha
      exact .inr (.inr (.inr (.inr (.inl ⟨v, e, n, rfl, ha.1.symm, ha.2.symm⟩))))
    | pop e => exact .inr (.inr (.inr (.inr (.inr (exAccess_eq ha)))))
    | full => simp [IPC.access] at ha
    | exc => simp [IPC.access] at ha
    | occ1 => simp [IPC.access] at ha
    | lockB => simp [IPC.access] at ha
    | occ2 => simp [IPC.access] at ha
    | cntB => simp [IPC.access] at ha
    | setB => simp [IPC.access] at ha
    | lockE e => simp [IPC.access] at ha
    | cnt e n => simp [IPC.access] at ha
    | set e n => simp [IPC.access] at ha
    | unlock p r => simp [IPC.access] at ha

/-- Two threads do not hold the same lock. -/
theorem Inv.lock_excl (h : Inv I chain xp s) {i j : Nat} {ti tj : Thread K V} (hij : i ≠ j)
    (hi : s.threads[i]? = some ti) (hj : s.threads[j]? = some tj) {p : Nat} (hp : p < I.t₀.total)
    (h1 : ti.cur.held P I.t₀.bc = some p) (h2 : tj.cur.held P I.t₀.bc = some p) : False := by
  have := add_le_sum_map (holdN P I.t₀.bc p) s.threads i j ti tj hij hi hj
  rw [h.locks p hp] at this
  simp only [holdN, h1, h2, if_true] at this
  have : (s.shared.tab.locks p).toNat ≤ 1 := Bool.toNat_le _
  omega

/-- The only conflicts: one thread links a new entry behind the last entry of a chain, another one walks along it. -/
theorem Inv.conflict (h : Inv I chain xp s) {i j : Nat} {ti tj : Thread K V} (hij : i ≠ j)
    (hi : s.threads[i]? = some ti) (hj : s.threads[j]? = some tj) {l : Loc} {u : Bool}
    (h1 : uaccess P I.t₀ ti = some (l, true)) (h2 : uaccess P I.t₀ tj = some (l, u)) :
    ∃ v e n, ti.cur = .ins v (.link e n) ∧ l = .off e ∧ u = false ∧ walking tj = true := by
  have mi := List.mem_of_getElem? hi
  have mj := List.mem_of_getElem? hj
  have ki := h.knows ti mi
  have kj := h.knows tj mj
  have hbc := h.bc
  have htot := h.total
  have hble := h.g.bc_le
  have hbl : ∀ v : V, bkt P I.t₀.bc (P.keyOf v) < I.t₀.bc := fun v => by
    rw [← hbc]; exact bkt_lt P s.shared.tab.bc (P.keyOf v) h.g.bc_pos h.g.bc_lt
  rcases h.access mi h1 with ⟨hc, -⟩ | ⟨v, ci, rfl, -⟩ | ⟨v, e, n, ci, rfl, -⟩ | ⟨v, e, n, ci, rfl, -⟩ | ⟨v, e, n, ci, rfl, -⟩ |
    ⟨p, rfl, si⟩
  · exact absurd hc (by decide)
  · rw [ci] at ki
    simp only [Knows, IKnows] at ki
    rw [hbc] at ki
    rcases h.access mj h2 with ⟨-, -, r⟩ | ⟨v', cj, e', -⟩ | ⟨v', e, n, cj, e', -⟩ | ⟨v', e, n, cj, e', -⟩ | ⟨v', e, n, cj, e', -⟩ |
      ⟨p, e', -⟩
    · rw [show s.shared.tab.occ _ = true from r] at ki; simp at ki
    · exact (h.lock_excl hij hi hj (p := bkt P I.t₀.bc (P.keyOf v)) (by have := hbl v; omega) (by rw [ci]; rfl)
        (by rw [cj]; simp only [Loc.val.injEq] at e'; rw [e']; rfl)).elim
    · rw [cj] at kj
      simp only [Loc.val.injEq] at e'
      have := kj.2.2.1
      have := hbl v
      omega
    · simp at e'
    · simp at e'
    · simp at e'
  · rw [ci] at ki
    rcases h.access mj h2 with ⟨-, -, r⟩ | ⟨v', cj, e', -⟩ | ⟨v', e'', n', cj, e', -⟩ | ⟨v', e'', n', cj, e', -⟩ |
      ⟨v', e'', n', cj, e', -⟩ | ⟨p, e', -⟩
    · have := ki.2.2.2.2.2
      rw [show s.shared.tab.occ _ = true from r] at this; simp at this
    · simp only [Loc.val.injEq] at e'
      have := ki.2.2.1
      have := hbl v'
      omega
    · simp only [Loc.val.injEq] at e'
      exact (h.resvD i j ti tj hij hi hj n (by rw [ci]; rfl) (by rw [cj, e']; rfl)).elim
    · simp at e'
    · simp at e'
    · simp at e'
  · rw [ci] at ki
    have hn := ki.2.2.1
    have hno := h.resvC ti mi n (by rw [ci]; rfl)
    rcases h.access mj h2 with ⟨-, -, b, hb, r⟩ | ⟨v', cj, e', -⟩ | ⟨v', e'', n', cj, e', -⟩ | ⟨v', e'', n', cj, e', -⟩ |
      ⟨v', e'', n', cj, e', -⟩ | ⟨p, e', -⟩
    · rcases List.mem_cons.1 r with r | r
      · omega
      · exact (hno b (by rw [← hbc]; exact hb) r).elim
    · simp at e'
    · simp at e'
    · simp only [Loc.off.injEq] at e'
      exact (h.resvD i j ti tj hij hi hj n (by rw [ci]; rfl) (by rw [cj, e']; rfl)).elim
    · simp only [Loc.off.injEq] at e'
      subst e'
      rw [cj] at kj
      have hl := kj.2.1.2.1
      have hm := lastOf_mem (bkt P s.shared.tab.bc (P.keyOf v')) (chain (bkt P s.shared.tab.bc (P.keyOf v')))
      rw [hl] at hm
      have := hbl v'
      rw [hbc] at hm
      rcases List.mem_cons.1 hm with r | r
      · omega
      · exact (hno _ (hbl v') r).elim
    · simp at e'
  · rw [ci] at ki
    have hl := ki.2.1.2.1
    have hm := lastOf_mem (bkt P s.shared.tab.bc (P.keyOf v)) (chain (bkt P s.shared.tab.bc (P.keyOf v)))
    rw [hl] at hm
    have hb := bkt_lt P s.shared.tab.bc (P.keyOf v) h.g.bc_pos h.g.bc_lt
    have het := h.g.lt hb hm
    rcases h.access mj h2 with ⟨rfl, w, -⟩ | ⟨v', cj, e', -⟩ | ⟨v', e'', n', cj, e', -⟩ | ⟨v', e'', n', cj, e', -⟩ |
      ⟨v', e'', n', cj, e', -⟩ | ⟨p, e', -⟩
    · exact ⟨v, e, n, ci, rfl, rfl, w⟩
    · simp at e'
    · simp at e'
    · simp only [Loc.off.injEq] at e'
      subst e'
      rw [cj] at kj
      have hno := h.resvC tj mj e (by rw [cj]; rfl)
      have := kj.2.2.1
      have := hbl v
      rw [hbc] at hm
      rcases List.mem_cons.1 hm with r | r
      · omega
      · exact (hno _ (hbl v) r).elim
    · simp only [Loc.off.injEq] at e'
      subst e'
      exact (h.lock_excl hij hi hj (p := e) (by omega) (by rw [ci]; rfl) (by rw [cj]; rfl)).elim
    · simp at e'
  · rcases h.access mj h2 with ⟨rfl, w, r⟩ | ⟨v', cj, e', -⟩ | ⟨v', e'', n', cj, e', -⟩ | ⟨v', e'', n', cj, e', -⟩ |
      ⟨v', e'', n', cj, e', -⟩ | ⟨p', e', sj⟩
    · exact r.elim
    · simp at e'
    · simp at e'
    · simp at e'
    · simp at e'
    · simp only [Loc.exc.injEq] at e'
      subst e'
      exact (SlotConc.no_common_access h.excess.v hij (by simp [exSys, hi]) (by simp [exSys, hj]) si sj).elim

end

namespace Er
section
variable {P : Params K V} {E : Start P} {path : Nat → List Nat} {xp : List (List (SlotConc.Op Unit Nat))}
  {s : Sys (Shared V) (Thread K V)}

/-- In an execution without insertions an access that is not part of a walk is protected by the lock of the entry. -/
theorem Inv.access (h : Inv E path xp s) {th : Thread K V} (ht : th ∈ s.threads) {l : Loc} {u : Bool}
    (ha : uaccess P E.t₀ th = some (l, u)) :
    (u = false ∧ walking th = true ∧ ∀ p, l ≠ .exc p) ∨
    (∃ p, (l = .val p ∨ l = .off p) ∧ p ∈ held th.cur) ∨
    (∃ p, l = .exc p ∧ slotAccess th.ex = some (p, u)) := by
  have hk := h.knows th ht
  obtain ⟨todo, cur, ex, done⟩ := th
  have hw : ∀ {w : Walk}, w.access = some (l, u) → u = false ∧ ∀ p, l ≠ .exc p := by
    intro w hw
    refine ⟨walk_access hw, ?_⟩
    cases w <;> simp only [Walk.access, Option.some.injEq, Prod.mk.injEq, reduceCtorEq] at hw <;> rw [← hw.1] <;> simp
  have hh : ∀ {w : Hop}, w.access = some (l, u) → u = false ∧ ∀ p, l ≠ .exc p := by
    intro w hw
    refine ⟨hop_access hw, ?_⟩
    cases w <;> simp only [Hop.access, Option.some.injEq, Prod.mk.injEq] at hw <;> rw [← hw.1] <;> simp
  cases cur with
  | idle => simp [uaccess] at ha
  | ins v pc => exact hk.elim
  | fnd k w => exact .inl ⟨(hw ha).1, rfl, (hw ha).2⟩
  | era k pc =>
    simp only [uaccess] at ha
    cases pc with
    | f1 w => exact .inl ⟨(hw ha).1, rfl, (hw ha).2⟩
    | f2 p w => exact .inl ⟨(hw ha).1, rfl, (hw ha).2⟩
    | f3 p q w => exact .inl ⟨(hw ha).1, rfl, (hw ha).2⟩
    | p1 p w => exact .inl ⟨(hh ha).1, rfl, (hh ha).2⟩
    | p2 p q x w => exact .inl ⟨(hh ha).1, rfl, (hh ha).2⟩
    | push p q => exact .inr (.inr (exAccess_eq ha))
    | _ =>
      first
      | (simp [EPC.access] at ha; done)
      | (simp only [EPC.access, Option.some.injEq, Prod.mk.injEq] at ha
         obtain ⟨rfl, rfl⟩ := ha
         first
         | exact .inr (.inl ⟨_, .inl rfl, by simp [held, eheld]⟩)
         | exact .inr (.inl ⟨_, .inr rfl, by simp [held, eheld]⟩))

/-- The only conflicts: a lookup (of a find or an erase) reads what another thread is about to write. -/
theorem Inv.conflict (h : Inv E path xp s) {i j : Nat} {ti tj : Thread K V} (hij : i ≠ j)
    (hi : s.threads[i]? = some ti) (hj : s.threads[j]? = some tj) {l : Loc} {u : Bool}
    (h1 : uaccess P E.t₀ ti = some (l, true)) (h2 : uaccess P E.t₀ tj = some (l, u)) :
    u = false ∧ walking tj = true ∧ (∀ p, l ≠ .exc p) ∧ ∃ p, (l = .val p ∨ l = .off p) ∧ p ∈ held ti.cur := by
  rcases h.access (List.mem_of_getElem? hi) h1 with ⟨hc, -⟩ | ⟨p, hp, hl⟩ | ⟨p, hp, hs⟩
  · exact absurd hc (by decide)
  · rcases h.access (List.mem_of_getElem? hj) h2 with ⟨hc, hw, he⟩ | ⟨q, hq, hm⟩ | ⟨q, hq, -⟩
    · exact ⟨hc, hw, he, p, hp, hl⟩
    · exfalso
      have hpq : p = q := by
        rcases hp with rfl | rfl <;> rcases hq with hq | hq <;> simp at hq <;> exact hq
      exact h.excl hij hi hj hl (hpq ▸ hm)
    · rcases hp with rfl | rfl <;> simp at hq
  · rcases h.access (List.mem_of_getElem? hj) h2 with ⟨-, -, he⟩ | ⟨q, hq, -⟩ | ⟨q, hq, hs'⟩
    · exact (he p hp).elim
    · subst hp; rcases hq with hq | hq <;> simp at hq
    · rw [hp, Loc.exc.injEq] at hq
      subst hq
      exact (SlotConc.no_common_access h.excess.v hij (by simp [exSys, hi]) (by simp [exSys, hj]) hs hs').elim

end
end Er

end Stdgpu.UnorderedConc
