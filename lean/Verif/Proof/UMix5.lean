import Verif.Proof.UMix4
/-! Concurrent insertions, erasures and lookups when different keys have different buckets: every step of an insertion
preserves the invariant. -/
namespace Stdgpu.UnorderedConc.Mx
open Stdgpu.Conc
open Stdgpu.SlotConc (upd inM outM pushedOf poppedOf)
open Stdgpu.Unordered
open Stdgpu.Vector (FPC vfront countBits VInv)
open Stdgpu.Spec
variable {K V : Type} {P : Params K V} {E : Start P}
variable {xp : List (List (SlotConc.Op Unit Nat))} {s : Sys (Shared V) (Thread K V)}

/-- The invariant after a step of thread `i`. -/
def StepOK (E : Start P) (s : Sys (Shared V) (Thread K V)) (i : Nat) (t : Thread K V) : Prop :=
  ∃ xp', Inv E xp' ⟨(step P s.shared t).1, s.threads.set i (step P s.shared t).2⟩

/-- A step that changes entries. -/
theorem Inv.mut (h : Inv E xp s) (i : Nat) (t : Thread K V) (ht : s.threads[i]? = some t) (m' : Shared V) (t' : Thread K V)
    (hg : G E m'.tab) (hub : m'.ub = false)
    (hm : Mod E (held P E.t₀.bc t.cur) (own t.cur) s.shared.tab m'.tab)
    (hk : Knows E m'.tab t'.ex t'.cur) (htodo : t'.todo = t.todo) (hex : t'.ex = t.ex)
    (hxs : m'.tab.excess = s.shared.tab.excess) (hlk : m'.tab.locks = s.shared.tab.locks)
    (hheld : held P E.t₀.bc t'.cur = held P E.t₀.bc t.cur)
    (hw : ∀ n, Exc E n → (own t'.cur).count n + lnkN E m'.tab n = (own t.cur).count n + lnkN E s.shared.tab n)
    (hcnt : m'.tab.count + (countBits E.t₀.total s.shared.tab.occ : Int) + uncnt t.cur =
      s.shared.tab.count + (countBits E.t₀.total m'.tab.occ : Int) + uncnt t'.cur) :
    Inv E xp ⟨m', s.threads.set i t'⟩ := by
  have hc : ∀ n, cntN E n m'.tab = cntN E n s.shared.tab := by intro n; unfold cntN; rw [hxs]
  refine h.rebuild i t ht m' t' xp hg hub hm hk (by rw [htodo]; exact fun _ h => h) ?_ ?_ ?_ ?_ (h.exSame ht hex hxs) hcnt
  · intro p _; simp only [heldN, hheld, hlk]
  · intro b hb hh hl
    rw [hlk, (h.locked ht hh).1] at hl; simp at hl
  · intro n hn
    have := hw n hn
    rw [hc]; simp only [wN, hex]; omega
  · intro n; left; rw [hc, hex]

/-- The free list after a step of a call. -/
theorem Inv.exNext (h : Inv E xp s) {i : Nat} {t : Thread K V} (ht : s.threads[i]? = some t) :
    VInv (E.t₀.total - E.t₀.bc) (E.free₀ : Multiset Nat) xp
      ⟨(exStep s.shared t.ex).1.tab.excess, (s.threads.map (·.ex)).set i (exStep s.shared t.ex).2⟩ ∧
    SlotConc.TShape (E.t₀.total - E.t₀.bc) FPC.check t.ex ∧
    SlotConc.TShape (E.t₀.total - E.t₀.bc) FPC.check (exStep s.shared t.ex).2 ∧
    ∀ n, cntN E n (exStep s.shared t.ex).1.tab + (outM (exStep s.shared t.ex).2).count n + (inM t.ex).count n =
      cntN E n s.shared.tab + (outM t.ex).count n + (inM (exStep s.shared t.ex).2).count n := by
  have hxi : (exSys s).threads[i]? = some t.ex := by simp [exSys, ht]
  have hcap : Vector.cap s.shared.tab.excess = E.t₀.total - E.t₀.bc := h.ex.hcap
  have h1 := Vector.vinv_step (exSys s) i t.ex h.ex hxi
  have h2 : VInv (E.t₀.total - E.t₀.bc) (E.free₀ : Multiset Nat) xp
      ⟨(exStep s.shared t.ex).1.tab.excess, (s.threads.map (·.ex)).set i (exStep s.shared t.ex).2⟩ := by
    simp only [exStep, hcap]; exact h1
  have hlt : i < (s.threads.map (·.ex)).length := by simp [(List.getElem?_eq_some_iff.1 ht).1]
  refine ⟨h2, h.ex.shape t.ex (List.mem_of_getElem? hxi), ?_, ?_⟩
  · exact h2.shape _ (List.mem_of_getElem? (i := i) (List.getElem?_set_self hlt))
  · intro n
    exact cons_step h.ex h2 hxi rfl n

/-- A step of a call of the free list. -/
theorem Inv.exGo (h : Inv E xp s) (i : Nat) (t : Thread K V) (ht : s.threads[i]? = some t) (t' : Thread K V)
    (hex : t'.ex = (exStep s.shared t.ex).2) (hk : Knows E s.shared.tab t'.ex t'.cur) (htodo : t'.todo = t.todo)
    (hheld : held P E.t₀.bc t'.cur = held P E.t₀.bc t.cur)
    (hw : ∀ n, (own t'.cur).count n + exW n t'.ex + cntN E n (exStep s.shared t.ex).1.tab =
      (own t.cur).count n + exW n t.ex + cntN E n s.shared.tab)
    (hd : ∀ n, exW n t'.ex + cntN E n (exStep s.shared t.ex).1.tab ≤ exW n t.ex + cntN E n s.shared.tab)
    (hcnt : uncnt t'.cur = uncnt t.cur) :
    Inv E xp ⟨(exStep s.shared t.ex).1, s.threads.set i t'⟩ := by
  have hS : Same s.shared.tab (exStep s.shared t.ex).1.tab := ⟨rfl, rfl, rfl, rfl, rfl, rfl⟩
  refine h.rebuild i t ht _ t' xp (hS.g h.g) h.ub (hS.mod _ _) (hS.knows hk) (by rw [htodo]; exact fun _ h => h) ?_ ?_ ?_ ?_ ?_ ?_
  · intro p _; simp only [heldN, hheld]; rfl
  · intro b hb hh hl
    have hl' : s.shared.tab.locks b = false := hl
    rw [(h.locked ht hh).1] at hl'; simp at hl'
  · intro n _
    rw [hS.lnkEq]
    have := hw n
    simp only [wN]; omega
  · intro n; exact .inl (hd n)
  · rw [hex]; exact (h.exNext ht).1
  · rw [hcnt]; rfl

/-- Start of a call of the free list. -/
theorem Inv.exCall (h : Inv E xp s) (i : Nat) (t : Thread K V) (ht : s.threads[i]? = some t) (hx : t.ex.todo = [])
    (op : SlotConc.Op Unit Nat) :
    VInv (E.t₀.total - E.t₀.bc) (E.free₀ : Multiset Nat) (xp.set i (t.ex.done.map (·.1) ++ [op]))
      ⟨s.shared.tab.excess, (s.threads.map (·.ex)).set i { t.ex with todo := [op] }⟩ := by
  have hxi : (exSys s).threads[i]? = some t.ex := by simp [exSys, ht]
  exact Vector.sinv_call h.ex i t.ex hxi hx op

section
variable {i : Nat} {t : Thread K V} {v : V} {pc : IPC}

theorem Inv.insGo (h : Inv E xp s) {m' : Shared V} {pc' : IPC} {ex' : Ex}
    (hcur : t.cur = .ins v pc)
    (hs : insStep s.shared v (bkt P E.t₀.bc (P.keyOf v)) (fun w => P.keyEq (P.keyOf w) (P.keyOf v)) t.ex pc = (m', ex', .go pc')) :
    step P s.shared t = (m', { t with cur := .ins v pc', ex := ex' }) :=
  step_ins_go hcur (by rw [h.g.bc]; exact hs)

/-- A step that only reads. -/
theorem Inv.insLocal (h : Inv E xp s) (ht : s.threads[i]? = some t) (hcur : t.cur = .ins v pc) (m' : Shared V) (pc' : IPC)
    (hs : insStep s.shared v (bkt P E.t₀.bc (P.keyOf v)) (fun w => P.keyEq (P.keyOf w) (P.keyOf v)) t.ex pc = (m', t.ex, .go pc'))
    (hS : m'.tab = s.shared.tab) (hub : m'.ub = s.shared.ub) (hu : E.used (P.keyOf v))
    (hk : IKnows E s.shared.tab v (bkt P E.t₀.bc (P.keyOf v)) t.ex pc')
    (hheld : iheld (bkt P E.t₀.bc (P.keyOf v)) pc' = iheld (bkt P E.t₀.bc (P.keyOf v)) pc)
    (how : own (.ins v pc' : Cur K V) = own (.ins v pc : Cur K V))
    (hcnt : uncnt (.ins v pc' : Cur K V) = uncnt (.ins v pc : Cur K V)) : StepOK E s i t := by
  refine ⟨xp, ?_⟩
  rw [h.insGo hcur hs]
  exact h.local i t ht m' _ hS hub rfl ⟨hu, hk⟩ (fun _ h => h) (by rw [hcur]; exact hheld) (by rw [hcur]; exact how)
    (by rw [hcur]; exact hcnt)

theorem Inv.insFail (h : Inv E xp s) (ht : s.threads[i]? = some t) (hcur : t.cur = .ins v pc) (m' : Shared V)
    (hs : insStep s.shared v (bkt P E.t₀.bc (P.keyOf v)) (fun w => P.keyEq (P.keyOf w) (P.keyOf v)) t.ex pc = (m', t.ex, .ret none))
    (hS : m'.tab = s.shared.tab) (hub : m'.ub = s.shared.ub) (hx : t.ex.todo = [])
    (hheld : iheld (bkt P E.t₀.bc (P.keyOf v)) pc = [])
    (how : own (.ins v pc : Cur K V) = []) (hcnt : uncnt (.ins v pc : Cur K V) = 0) : StepOK E s i t := by
  refine ⟨xp, ?_⟩
  rw [step_ins_none hcur (by rw [h.g.bc]; exact hs)]
  exact h.local i t ht m' _ hS hub rfl hx (fun _ h => h) (by rw [hcur]; exact hheld.symm) (by rw [hcur]; exact how.symm)
    (by rw [hcur]; exact hcnt.symm)

/-- Taking a lock. -/
theorem lockSum {p : Nat} {t t' : Thread K V} (hl : s.shared.tab.locks p = false)
    (hh : held P E.t₀.bc t'.cur = p :: held P E.t₀.bc t.cur ∨ held P E.t₀.bc t'.cur = held P E.t₀.bc t.cur ++ [p]) (q : Nat) :
    heldN E q t' + (s.shared.tab.locks q).toNat = heldN E q t + ((setLock s.shared p true).tab.locks q).toNat := by
  have e : heldN E q t' = heldN E q t + [p].count q := by
    unfold heldN
    rcases hh with h | h <;> rw [h]
    · rw [List.count_cons, List.count_singleton]
    · rw [List.count_append]
  rw [e]
  simp only [setLock, upd]
  by_cases hq : q = p
  · subst hq; simp [hl]
  · simp [hq, Ne.symm hq]

/-- Releasing a lock. -/
theorem unlockSum {p : Nat} {t t' : Thread K V} (hl : s.shared.tab.locks p = true)
    (hh : held P E.t₀.bc t.cur = p :: held P E.t₀.bc t'.cur) (q : Nat) :
    heldN E q t' + (s.shared.tab.locks q).toNat = heldN E q t + ((setLock s.shared p false).tab.locks q).toNat := by
  have e : heldN E q t = heldN E q t' + [p].count q := by
    unfold heldN
    rw [hh, List.count_cons, List.count_singleton]
  rw [e]
  simp only [setLock, upd]
  by_cases hq : q = p
  · subst hq; simp [hl]
  · simp [hq, Ne.symm hq]

theorem Same.lock (m : Shared V) (p : Nat) (x : Bool) : Same m.tab (setLock m p x).tab := ⟨rfl, rfl, rfl, rfl, rfl, rfl⟩

theorem Inv.takeLock (h : Inv E xp s) (ht : s.threads[i]? = some t) {p : Nat} (hl : s.shared.tab.locks p = false)
    (t' : Thread K V) (hex : t'.ex = t.ex) (hk : Knows E s.shared.tab t'.ex t'.cur) (htodo : t'.todo = t.todo)
    (hh : held P E.t₀.bc t'.cur = p :: held P E.t₀.bc t.cur ∨ held P E.t₀.bc t'.cur = held P E.t₀.bc t.cur ++ [p])
    (how : own t'.cur = own t.cur) (hcnt : uncnt t'.cur = uncnt t.cur) :
    Inv E xp ⟨setLock s.shared p true, s.threads.set i t'⟩ := by
  refine h.quiet i t ht _ t' (Same.lock _ _ _) h.ub rfl hex hk (by rw [htodo]; exact fun _ h => h) ?_ ?_ how ?_
  · intro q _; exact lockSum hl hh q
  · intro b hb hm hf
    exfalso
    have := (h.locked ht hm).1
    simp only [setLock, upd] at hf
    split at hf <;> simp_all
  · rw [hcnt]; rfl

theorem Inv.freeLock (h : Inv E xp s) (ht : s.threads[i]? = some t) {p : Nat}
    (t' : Thread K V) (hex : t'.ex = t.ex) (hk : Knows E s.shared.tab t'.ex t'.cur) (htodo : t'.todo = t.todo)
    (hh : held P E.t₀.bc t.cur = p :: held P E.t₀.bc t'.cur)
    (hlv : p < E.t₀.bc → s.shared.tab.live p = s.shared.tab.occ p)
    (how : own t'.cur = own t.cur) (hcnt : uncnt t'.cur = uncnt t.cur) :
    Inv E xp ⟨setLock s.shared p false, s.threads.set i t'⟩ := by
  have hl := (h.locked ht (p := p) (by rw [hh]; simp)).1
  refine h.quiet i t ht _ t' (Same.lock _ _ _) h.ub rfl hex hk (by rw [htodo]; exact fun _ h => h) ?_ ?_ how ?_
  · intro q _; exact unlockSum hl hh q
  · intro b hb hm hf
    by_cases hbp : b = p
    · subst hbp; exact hlv hb
    · exfalso
      have := (h.locked ht hm).1
      simp only [setLock, upd, if_neg hbp] at hf
      rw [this] at hf; simp at hf
  · rw [hcnt]; rfl

theorem held_ins (hcur : t.cur = .ins v pc) : held P E.t₀.bc t.cur = iheld (bkt P E.t₀.bc (P.keyOf v)) pc := by
  rw [hcur]; rfl

/-- A step of `pop_back`. -/
theorem Inv.insPop (h : Inv E xp s) (ht : s.threads[i]? = some t) {e : Nat} (hcur : t.cur = .ins v (.pop e)) : StepOK E s i t := by
  have hk := h.knows t (List.mem_of_getElem? ht)
  rw [hcur] at hk
  obtain ⟨hu, hpop, he, hl, ho, hz⟩ := hk
  obtain ⟨hv, hsh, hsh', hbal⟩ := h.exNext ht
  have hcase := Vector.step_pop_cases (Vector.cap s.shared.tab.excess) s.shared.tab.excess t.ex hpop
  replace hcase : ((exStep s.shared t.ex).2.todo = [.pop ()] ∧ (exStep s.shared t.ex).2.done = t.ex.done) ∨
    ∃ r, (exStep s.shared t.ex).2.todo = [] ∧ (exStep s.shared t.ex).2.done = t.ex.done ++ [(.pop (), r)] := hcase
  refine ⟨xp, ?_⟩
  rcases hcase with ⟨h1, h2⟩ | ⟨r, h1, h2⟩
  · rw [h.insGo hcur (m' := (exStep s.shared t.ex).1) (ex' := (exStep s.shared t.ex).2) (pc' := .pop e)
      (by simp [insStep, h1])]
    have key : ∀ n, exW n (exStep s.shared t.ex).2 + cntN E n (exStep s.shared t.ex).1.tab = exW n t.ex + cntN E n s.shared.tab := by
      intro n
      have b := hbal n
      have e1 := outM_pop n hpop
      have e2 := outM_pop n h1
      have e3 := inM_pop n hpop
      have e4 := inM_pop n h1
      rw [h2] at e2 e4
      simp only [exW, h2]; omega
    refine h.exGo i t ht _ rfl ⟨hu, h1, he, hl, ho, hz⟩ rfl (by rw [hcur]) ?_ (fun n => (key n).le) (by rw [hcur])
    intro n
    have := key n
    rw [hcur]; dsimp only; omega
  · -- the call returns
    have key : ∀ n, exW n (exStep s.shared t.ex).2 + cntN E n (exStep s.shared t.ex).1.tab +
        (poppedOf [((.pop () : SlotConc.Op Unit Nat), r)]).count n = exW n t.ex + cntN E n s.shared.tab := by
      intro n
      have b := hbal n
      have e1 := outM_pop n hpop
      have e3 := inM_pop n hpop
      obtain ⟨e2, e4, e5⟩ := flow_nil n hsh' h1
      rw [h2, SlotConc.poppedOf_append, Multiset.count_add] at e2
      rw [h2, SlotConc.pushedOf_append, Multiset.count_add] at e4
      have e6 : leakN n [((.pop () : SlotConc.Op Unit Nat), r)] = 0 := by cases r <;> rfl
      have e7 : pushedOf [((.pop () : SlotConc.Op Unit Nat), r)] = 0 := by cases r <;> rfl
      rw [e7, Multiset.count_zero] at e4
      simp only [exW, h2, leakN_append, e6]; omega
    have fail : (∀ n, r ≠ .popped n) → insStep s.shared v (bkt P E.t₀.bc (P.keyOf v)) (fun w => P.keyEq (P.keyOf w) (P.keyOf v)) t.ex (.pop e) =
        ((exStep s.shared t.ex).1, (exStep s.shared t.ex).2, .go (.unlock e none)) →
        Inv E xp ⟨(step P s.shared t).1, s.threads.set i (step P s.shared t).2⟩ := by
      intro hr hs
      rw [h.insGo hcur hs]
      have key' : ∀ n, exW n (exStep s.shared t.ex).2 + cntN E n (exStep s.shared t.ex).1.tab = exW n t.ex + cntN E n s.shared.tab := by
        intro n
        have := key n
        have e0 : poppedOf [((.pop () : SlotConc.Op Unit Nat), r)] = 0 := by
          cases r with
          | popped n => exact absurd rfl (hr n)
          | _ => rfl
        rw [e0] at this; simpa using this
      refine h.exGo i t ht _ rfl ⟨hu, h1, .inl he, fun _ => hl.trans ho.symm⟩ rfl (by rw [hcur]; rfl) ?_ (fun n => (key' n).le) (by rw [hcur]; rfl)
      intro n
      have := key' n
      rw [hcur]; dsimp only [own]; omega
    cases r with
    | popped n =>
      have hn : Exc E n ∧ s.shared.tab.live n = false ∧ s.shared.tab.occ n = false := by
        refine h.dead n ?_
        have := key n
        have e0 : (poppedOf [((.pop () : SlotConc.Op Unit Nat), SlotConc.Res.popped n)]).count n = 1 := by simp [poppedOf]
        have := le_sum_map (fun t : Thread K V => exW n t.ex) s.threads t (List.mem_of_getElem? ht)
        omega
      rw [h.insGo hcur (m' := (exStep s.shared t.ex).1) (ex' := (exStep s.shared t.ex).2) (pc' := .cons e n)
        (by simp [insStep, h1, h2])]
      refine h.exGo i t ht _ rfl ⟨hu, h1, he, hl, ho, hz, hn⟩ rfl (by rw [hcur]; rfl) ?_ ?_ (by rw [hcur]; rfl)
      · intro m
        have := key m
        have e0 : (poppedOf [((.pop () : SlotConc.Op Unit Nat), SlotConc.Res.popped n)]).count m = [n].count m := by
          simp only [poppedOf, Multiset.add_zero, count1]
        rw [hcur]; dsimp only [own]; rw [List.count_nil]; omega
      · intro m
        have := key m
        dsimp only; omega
    | popFailed => exact fail (by simp) (by simp [insStep, h1, h2])
    | pushed => exact fail (by simp) (by simp [insStep, h1, h2])
    | pushFailed => exact fail (by simp) (by simp [insStep, h1, h2])

end
end Stdgpu.UnorderedConc.Mx
