import Verif.Proof.UConcIns3
/-! Concurrent inserts and lookups: every step preserves the invariant. -/
namespace Stdgpu.SlotConc
variable {K α F C : Type}

theorem pushedOf_zero (l : List (Op K α × Res α)) (h : ∀ e ∈ l, e.1.isPush = false) : pushedOf l = 0 := by
  induction l with
  | nil => rfl
  | cons e l ih =>
    obtain ⟨op, r⟩ := e
    have h1 := h (op, r) (by simp)
    have h2 := ih (fun e he => h e (by simp [he]))
    cases op with
    | push k x => simp [Op.isPush] at h1
    | pop k => cases r <;> simpa [pushedOf] using h2

theorem inM_zero (t : Thread K F α) (h : ∀ op ∈ t.done.map (·.1) ++ t.todo, op.isPush = false) : inM t = 0 := by
  unfold inM
  rw [pushedOf_zero _ (fun e he => h e.1 (List.mem_append_left _ (List.mem_map_of_mem he)))]
  split
  · rename_i k x rest p s h1 _
    have := h (.push k x) (by rw [h1]; simp)
    simp [Op.isPush] at this
  · simp

end Stdgpu.SlotConc

namespace Stdgpu.Vector
open Stdgpu.SlotConc Stdgpu.Conc
variable {α : Type}

/-- The values removed so far are different elements of the initial list. -/
theorem popInv_out {cap : Nat} {l : List α} {programs : List (List (Op Unit α))} {s : VSys α} (h : PopInv cap l programs s)
    (hp : ∀ p ∈ programs, ∀ op ∈ p, op.isPush = false) : (s.threads.map outM).sum ≤ (l : Multiset α) := by
  have hin : (s.threads.map inM).sum = 0 := by
    have : s.threads.map inM = s.threads.map (fun _ => (0 : Multiset α)) := by
      apply List.map_congr_left
      intro t ht
      refine inM_zero t ?_
      obtain ⟨p, h1, h2⟩ := prog_mem h.v t ht
      intro op hop
      exact hp p h1 op (by rw [h2]; exact hop)
    rw [this]; simp
  have := h.v.cons
  rw [hin, add_zero] at this
  rw [this]
  exact Multiset.le_add_left _ _

theorem step_ctr_le (cap : Nat) (m : Mem Int α) (t : VThread α) (h : ∀ op ∈ t.todo, op.isPush = false) :
    (step (vfront cap) m t).1.ctr ≤ m.ctr := by
  unfold step
  split
  · exact le_refl _
  · rename_i op rest ho
    have h1 := h op (by rw [ho]; simp)
    split
    · rename_i f _
      have : ((vfront cap).step m.ctr op.isPush op.kind f).1 ≤ m.ctr := by
        simp only [vfront, h1]
        cases f <;> simp <;> split <;> simp
      dsimp only
      split <;> exact this
    · dsimp only
      split <;> exact le_refl _

/-- A step of a call of `pop_back`. -/
theorem step_pop_cases (cap : Nat) (m : Mem Int α) (t : VThread α) (h : t.todo = [.pop ()]) :
    ((step (vfront cap) m t).2.todo = [.pop ()] ∧ (step (vfront cap) m t).2.done = t.done) ∨
    ∃ r, (step (vfront cap) m t).2.todo = [] ∧ (step (vfront cap) m t).2.done = t.done ++ [(.pop (), r)] := by
  unfold step
  rw [h]
  dsimp only
  split
  · split
    · left; exact ⟨rfl, rfl⟩
    · right; exact ⟨_, rfl, rfl⟩
    · left; exact ⟨rfl, rfl⟩
  · split
    · left; exact ⟨rfl, rfl⟩
    · right; exact ⟨_, rfl, rfl⟩

end Stdgpu.Vector

namespace Stdgpu.UnorderedConc
open Stdgpu.Conc
open Stdgpu.SlotConc (upd)
open Stdgpu.Unordered
open Stdgpu.Vector (FPC vfront countBits PopInv)
open Stdgpu.Spec (KeyLaws)
variable {K V : Type}

section
variable {P : Params K V} {chain : Nat → List Nat}
variable {I : Start P} {xp : List (List (SlotConc.Op Unit Nat))} {s : Sys (Shared V) (Thread K V)}

theorem step_ins_go {m m' : Shared V} {t : Thread K V} {v : V} {pc pc' : IPC} {ex' : Ex} (hcur : t.cur = .ins v pc)
    (h : insStep m v (bkt P m.tab.bc (P.keyOf v)) (eqOf P v) t.ex pc = (m', ex', .go pc')) :
    step P m t = (m', { t with cur := .ins v pc', ex := ex' }) := by
  have h' : insStep m v (bucket P m.tab (P.keyOf v)) (fun w => P.keyEq (P.keyOf w) (P.keyOf v)) t.ex pc = (m', ex', .go pc') := h
  simp only [step, hcur, h']

theorem step_ins_none {m m' : Shared V} {t : Thread K V} {v : V} {pc : IPC} {ex' : Ex} (hcur : t.cur = .ins v pc)
    (h : insStep m v (bkt P m.tab.bc (P.keyOf v)) (eqOf P v) t.ex pc = (m', ex', .ret none)) :
    step P m t = (m', { t with cur := .idle, ex := ex', done := t.done ++ [(.insert v, .notInserted)] }) := by
  have h' : insStep m v (bucket P m.tab (P.keyOf v)) (fun w => P.keyEq (P.keyOf w) (P.keyOf v)) t.ex pc =
    (m', ex', .ret none) := h
  simp only [step, hcur, h']

theorem step_ins_some {m m' : Shared V} {t : Thread K V} {v : V} {pc : IPC} {ex' : Ex} {n : Nat} (hcur : t.cur = .ins v pc)
    (h : insStep m v (bkt P m.tab.bc (P.keyOf v)) (eqOf P v) t.ex pc = (m', ex', .ret (some n))) :
    step P m t = (m', { t with cur := .idle, ex := ex', done := t.done ++ [(.insert v, .inserted n)] }) := by
  have h' : insStep m v (bucket P m.tab (P.keyOf v)) (fun w => P.keyEq (P.keyOf w) (P.keyOf v)) t.ex pc =
    (m', ex', .ret (some n)) := h
  simp only [step, hcur, h']

/-- The invariant after a step of thread `i`. -/
def StepOK (I : Start P) (chain : Nat → List Nat) (s : Sys (Shared V) (Thread K V)) (i : Nat) (t : Thread K V) : Prop :=
  ∃ chain' xp', Inv I chain' xp' ⟨(step P s.shared t).1, s.threads.set i (step P s.shared t).2⟩ ∧
    Rely none none s.shared.tab chain (step P s.shared t).1.tab chain'

/-- A local step of `insert` that goes on. -/
theorem Inv.insLocal (h : Inv I chain xp s) {i : Nat} {t : Thread K V} (ht : s.threads[i]? = some t) {v : V} {pc : IPC}
    (pc' : IPC) (hcur : t.cur = .ins v pc)
    (hs : insStep s.shared v (bkt P s.shared.tab.bc (P.keyOf v)) (eqOf P v) t.ex pc = (s.shared, t.ex, .go pc'))
    (hk : IKnows P s.shared.tab chain v (bkt P s.shared.tab.bc (P.keyOf v)) t.ex pc')
    (hheld : pc'.held (bkt P s.shared.tab.bc (P.keyOf v)) = pc.held (bkt P s.shared.tab.bc (P.keyOf v))) (hresv : pc'.resv = pc.resv) (hconstr : ∀ b, pc'.constr b = pc.constr b)
    (hlk : pc'.linking = pc.linking) (hcnt : pc'.counted = pc.counted) (hsto : pc'.stored = pc.stored) :
    StepOK I chain s i t := by
  refine ⟨chain, xp, ?_⟩
  rw [step_ins_go hcur hs]
  refine h.local i t ht _ hk rfl ?_ ?_ ?_ ?_ ?_ ?_ ?_ (fun e he => Or.inl he)
  · simp [hcur, Cur.ops]
  · rw [h.bc] at hheld
    simp [hcur, Cur.held, hheld]
  · simp [hcur, Cur.resv, hresv]
  · simp [hcur, Cur.constr, hconstr]
  · simp [hcur, Cur.linking, hlk]
  · simp [hcur, Cur.counted, hcnt]
  · simp [succM, hcur, Cur.stored, hsto]

/-- A step that returns without insertion. -/
theorem Inv.insFail (h : Inv I chain xp s) {i : Nat} {t : Thread K V} (ht : s.threads[i]? = some t) {v : V} {pc : IPC}
    (hcur : t.cur = .ins v pc) (hex : t.ex.todo = [])
    (hs : insStep s.shared v (bkt P s.shared.tab.bc (P.keyOf v)) (eqOf P v) t.ex pc = (s.shared, t.ex, .ret none))
    (hheld : ∀ b, pc.held b = none) (hresv : pc.resv = none) (hconstr : ∀ b, pc.constr b = none)
    (hlk : pc.linking = none) (hcnt : pc.counted = 0) (hsto : pc.stored = false)
    (hres : ResOK P s.shared.tab chain (.insert v, .notInserted)) :
    StepOK I chain s i t := by
  refine ⟨chain, xp, ?_⟩
  rw [step_ins_none hcur hs]
  refine h.local i t ht _ hex rfl ?_ ?_ ?_ ?_ ?_ ?_ ?_ ?_
  · simp [hcur, Cur.ops]
  · simp [hcur, Cur.held, hheld]
  · simp [hcur, Cur.resv, hresv]
  · simp [hcur, Cur.constr, hconstr]
  · simp [hcur, Cur.linking, hlk]
  · simp [hcur, Cur.counted, hcnt]
  · simp [succM, hcur, Cur.stored, hsto, List.filterMap_append, List.filterMap_cons, succVal]
  · intro e he
    simp only [List.mem_append, List.mem_singleton] at he
    rcases he with he | rfl
    · exact Or.inl he
    · exact Or.inr hres

/-- Taking a lock. -/
theorem Inv.insLock (h : Inv I chain xp s) {i : Nat} {t : Thread K V} (ht : s.threads[i]? = some t) {v : V} {pc : IPC}
    (pc' : IPC) (p : Nat) (hcur : t.cur = .ins v pc) (hp : s.shared.tab.locks p = false)
    (hs : insStep s.shared v (bkt P s.shared.tab.bc (P.keyOf v)) (eqOf P v) t.ex pc =
      (setLock s.shared p true, t.ex, .go pc'))
    (hk : IKnows P s.shared.tab chain v (bkt P s.shared.tab.bc (P.keyOf v)) t.ex pc')
    (hheld : pc.held (bkt P s.shared.tab.bc (P.keyOf v)) = none)
    (hheld' : pc'.held (bkt P s.shared.tab.bc (P.keyOf v)) = some p) (hresv : pc'.resv = pc.resv)
    (hconstr : ∀ b, pc'.constr b = pc.constr b)
    (hlk : pc'.linking = pc.linking) (hcnt : pc'.counted = pc.counted) (hsto : pc'.stored = pc.stored) :
    StepOK I chain s i t := by
  refine ⟨chain, xp, ?_⟩
  rw [step_ins_go hcur hs]
  rw [h.bc] at hheld hheld'
  refine h.same i t ht _ _ xp ⟨rfl, rfl, rfl, rfl, rfl, rfl⟩ h.ub h.stale hk ?_ ?_ ?_ ?_ ?_ (fun _ hn => hn) (fun _ hn => Or.inl hn) ?_ h.xpops
    (h.exSame ht rfl) id ?_ (le_refl _) ?_ (fun e he => Or.inl he)
  · simp [hcur, Cur.ops]
  · intro q _
    simp only [holdN, hcur, Cur.held, hheld, hheld', setLock, upd]
    by_cases hq : q = p
    · subst hq; simp [hp]
    · rw [if_neg hq]; simp [Ne.symm hq]
  · simp [hcur, Cur.constr, hconstr]
  · simp [hcur, Cur.linking, hlk]
  · intro n hn
    left; rw [hcur]; simpa [Cur.resv, hresv] using hn
  · intro n hn
    rw [hcur] at hn; simpa [Cur.resv, hresv] using hn
  · simp [hcur, Cur.counted, hcnt, setLock]
  · simp [succM, hcur, Cur.stored, hsto]

/-- Counting. -/
theorem Inv.insCount (h : Inv I chain xp s) {i : Nat} {t : Thread K V} (ht : s.threads[i]? = some t) {v : V} {pc : IPC}
    (pc' : IPC) (hcur : t.cur = .ins v pc)
    (hs : insStep s.shared v (bkt P s.shared.tab.bc (P.keyOf v)) (eqOf P v) t.ex pc =
      (addCount s.shared 1, t.ex, .go pc'))
    (hk : IKnows P s.shared.tab chain v (bkt P s.shared.tab.bc (P.keyOf v)) t.ex pc')
    (hheld : ∀ b, pc'.held b = pc.held b) (hresv : pc'.resv = pc.resv) (hconstr : ∀ b, pc'.constr b = pc.constr b)
    (hlk : pc'.linking = pc.linking) (hcnt : pc'.counted = 1) (hcnt' : pc.counted = 0) (hsto : pc'.stored = pc.stored) :
    StepOK I chain s i t := by
  refine ⟨chain, xp, ?_⟩
  rw [step_ins_go hcur hs]
  refine h.same i t ht _ _ xp ⟨rfl, rfl, rfl, rfl, rfl, rfl⟩ h.ub h.stale hk ?_ ?_ ?_ ?_ ?_ (fun _ hn => hn) (fun _ hn => Or.inl hn) ?_ h.xpops
    (h.exSame ht rfl) id ?_ ?_ ?_ (fun e he => Or.inl he)
  · simp [hcur, Cur.ops]
  · intro q _
    simp [holdN, hcur, Cur.held, hheld, addCount]
  · simp [hcur, Cur.constr, hconstr]
  · simp [hcur, Cur.linking, hlk]
  · intro n hn
    left; rw [hcur]; simpa [Cur.resv, hresv] using hn
  · intro n hn
    rw [hcur] at hn; simpa [Cur.resv, hresv] using hn
  · simp [hcur, Cur.counted, hcnt, hcnt', addCount]
  · simp [addCount]
  · simp [succM, hcur, Cur.stored, hsto]

/-- The lock held by a thread is taken. -/
theorem Inv.locked (h : Inv I chain xp s) {i : Nat} {t : Thread K V} (ht : s.threads[i]? = some t) {p : Nat}
    (hp : t.cur.held P s.shared.tab.bc = some p) : p < I.t₀.total ∧ s.shared.tab.locks p = true := by
  have hmem := List.mem_of_getElem? ht
  have h0 := held_lt h.g (h.knows t hmem) hp
  rw [h.total] at h0
  refine ⟨h0, ?_⟩
  have h1 := le_sum_map (holdN P I.t₀.bc p) s.threads t hmem
  rw [h.locks p h0] at h1
  rw [h.bc] at hp
  simp only [holdN, hp, if_true] at h1
  cases hx : s.shared.tab.locks p with
  | true => rfl
  | false => rw [hx] at h1; simp at h1

theorem Inv.insUnlock (h : Inv I chain xp s) {i : Nat} {t : Thread K V} (ht : s.threads[i]? = some t) {v : V} {p : Nat}
    {r : Option Nat} (hcur : t.cur = .ins v (.unlock p r)) : StepOK I chain s i t := by
  have hmem := List.mem_of_getElem? ht
  have hk := h.knows t hmem
  rw [hcur] at hk
  obtain ⟨hex, -, hr⟩ := hk
  have hlk := (h.locked ht (p := p) (by rw [hcur]; rfl)).2
  have hlocks : ∀ (t' : Thread K V), t'.cur.held P I.t₀.bc = none → ∀ q, q < I.t₀.total →
      ((setLock s.shared p false).tab.locks q).toNat + holdN P I.t₀.bc q t =
      (s.shared.tab.locks q).toNat + holdN P I.t₀.bc q t' := by
    intro t' ht' q _
    have h1 : t.cur.held P I.t₀.bc = some p := by rw [hcur]; rfl
    simp only [holdN, h1, ht', setLock, upd]
    by_cases hq : q = p
    · subst hq; simp [hlk]
    · rw [if_neg hq]; simp [Ne.symm hq]
  refine ⟨chain, xp, ?_⟩
  cases r with
  | none =>
    rw [step_ins_go hcur (pc' := .full) (m' := setLock s.shared p false) (ex' := t.ex) rfl]
    refine h.same i t ht _ _ xp ⟨rfl, rfl, rfl, rfl, rfl, rfl⟩ h.ub h.stale hex ?_ (hlocks _ ?_) ?_ ?_ ?_ (fun _ hn => hn) (fun _ hn => Or.inl hn) ?_ h.xpops
      (h.exSame ht rfl) id ?_ (le_refl _) ?_ (fun e he => Or.inl he)
    · simp [hcur, Cur.ops]
    · simp [Cur.held, IPC.held]
    · simp [hcur, Cur.constr, IPC.constr]
    · simp [hcur, Cur.linking, IPC.linking]
    · intro n hn; simp [Cur.resv, IPC.resv] at hn
    · intro n hn; simp [hcur, Cur.resv, IPC.resv] at hn
    · simp [hcur, Cur.counted, IPC.counted, setLock]
    · simp [succM, hcur, Cur.stored, IPC.stored]
  | some n =>
    rw [step_ins_some hcur (n := n) (m' := setLock s.shared p false) (ex' := t.ex) rfl]
    refine h.same i t ht _ _ xp ⟨rfl, rfl, rfl, rfl, rfl, rfl⟩ h.ub h.stale hex ?_ (hlocks _ ?_) ?_ ?_ ?_ (fun _ hn => hn) (fun _ hn => Or.inl hn) ?_ h.xpops
      (h.exSame ht rfl) id ?_ (le_refl _) ?_ ?_
    · simp [hcur, Cur.ops]
    · simp [Cur.held]
    · simp [hcur, Cur.constr, IPC.constr]
    · simp [hcur, Cur.linking, IPC.linking]
    · intro n hn; simp [Cur.resv] at hn
    · intro n hn; simp [hcur, Cur.resv, IPC.resv] at hn
    · simp [hcur, Cur.counted, IPC.counted, setLock]
    · simp [succM, hcur, Cur.stored, IPC.stored, succVal]
      rfl
    · intro e he
      simp only [List.mem_append, List.mem_singleton] at he
      rcases he with he | rfl
      · exact Or.inl he
      · exact Or.inr (hr n rfl)

theorem constr_own {c : Cur K V} {bc p : Nat} (h : c.constr P bc = some p) : c.held P bc = some p ∨ c.resv = some p := by
  cases c with
  | ins v pc =>
    simp only [Cur.constr, Cur.held, Cur.resv] at *
    cases pc <;> simp_all [IPC.constr, IPC.held, IPC.resv]
  | _ => simp [Cur.constr] at h

theorem linking_resv {c : Cur K V} {p : Nat} (h : c.linking = some p) : c.resv = some p := by
  cases c with
  | ins v pc =>
    simp only [Cur.linking, Cur.resv] at *
    cases pc <;> simp_all [IPC.linking, IPC.resv]
  | _ => simp [Cur.linking] at h

/-- Nobody else has anything in a bucket whose lock is held. -/
theorem Inv.bucket_dead (h : Inv I chain xp s) {i : Nat} {t : Thread K V} (ht : s.threads[i]? = some t) {b : Nat}
    (hb : b < s.shared.tab.bc) (hh : t.cur.held P s.shared.tab.bc = some b) (hc : t.cur.constr P s.shared.tab.bc = none)
    (ho : s.shared.tab.occ b = false) : s.shared.tab.live b = false := by
  cases hl : s.shared.tab.live b with
  | false => rfl
  | true =>
    exfalso
    have hle := h.g.bc_le
    rcases h.live b (by rw [← h.total]; omega) hl with h1 | ⟨u, hu, h1⟩
    · rw [ho] at h1; simp at h1
    · obtain ⟨j, hj⟩ := List.mem_iff_getElem?.1 hu
      by_cases hji : j = i
      · subst hji; rw [ht] at hj; injection hj with hj; subst hj
        rw [h.bc] at hc
        rw [hc] at h1; simp at h1
      · rcases constr_own h1 with h2 | h2
        · rw [h.bc] at hh
          exact h.excl (Ne.symm hji) ht hj hh h2
        · have := (resv_rng (h.knows u hu) h2).1
          omega

/-- An entry that has not been taken from the free list is unused. -/
theorem Inv.unused (h : Inv I chain xp s) {n : Nat} (hn : n ∈ I.free₀)
    (hp : ∀ t ∈ s.threads, n ∉ SlotConc.poppedOf t.ex.done) :
    I.t₀.bc ≤ n ∧ n < I.t₀.total ∧ s.shared.tab.live n = false ∧ s.shared.tab.occ n = false ∧
      (∀ u ∈ s.threads, u.cur.resv ≠ some n) ∧ ∀ b, b < I.t₀.bc → n ∉ chain b := by
  have hr := I.rep.free_rng n hn
  have h1 : ∀ u ∈ s.threads, u.cur.resv ≠ some n := by
    intro u hu hc
    obtain ⟨t, ht, h2⟩ := h.pops n hn (Or.inr ⟨u, hu, hc⟩)
    exact hp t ht h2
  have h2 : ∀ b, b < I.t₀.bc → n ∉ chain b := by
    intro b hb hc
    obtain ⟨t, ht, h2⟩ := h.pops n hn (Or.inl ⟨b, hb, hc⟩)
    exact hp t ht h2
  have h3 : s.shared.tab.occ n = false := by
    cases ho : s.shared.tab.occ n with
    | false => rfl
    | true =>
      exfalso
      rcases h.used n hr.1 hr.2 ho with ⟨b, hb, h3⟩ | ⟨u, hu, h3⟩
      · exact h2 b hb h3
      · exact h1 u hu (linking_resv h3)
  refine ⟨hr.1, hr.2, ?_, h3, h1, h2⟩
  cases hl : s.shared.tab.live n with
  | false => rfl
  | true =>
    exfalso
    rcases h.live n hr.2 hl with h4 | ⟨u, hu, h4⟩
    · rw [h3] at h4; simp at h4
    · rcases constr_own h4 with h5 | h5
      · -- a lock holder that constructs in a bucket
        cases hc : u.cur with
        | ins v pc =>
          rw [hc] at h4
          have hb := bkt_lt P I.t₀.bc (P.keyOf v) I.rep.bc_pos I.rep.bc_lt
          cases pc <;> simp only [Cur.constr, IPC.constr, Option.some.injEq, reduceCtorEq] at h4
          · omega
          · omega
          all_goals
            subst h4
            exact h1 u hu (by rw [hc]; rfl)
        | idle => rw [hc] at h4; simp [Cur.constr] at h4
        | era k pc => rw [hc] at h4; simp [Cur.constr] at h4
        | fnd k W => rw [hc] at h4; simp [Cur.constr] at h4
      · exact h1 u hu h5

/-- Start of a call on the free list. -/
theorem Inv.insCall (h : Inv I chain xp s) {i : Nat} {t : Thread K V} (ht : s.threads[i]? = some t) {v : V} {pc : IPC}
    {e : Nat} (hcur : t.cur = .ins v pc) (hex : t.ex.todo = [])
    (hs : insStep s.shared v (bkt P s.shared.tab.bc (P.keyOf v)) (eqOf P v) t.ex pc =
      (s.shared, { t.ex with todo := [.pop ()] }, .go (.pop e)))
    (hk : IKnows P s.shared.tab chain v (bkt P s.shared.tab.bc (P.keyOf v)) { t.ex with todo := [.pop ()] } (.pop e))
    (hheld : ∀ b, pc.held b = some e) (hresv : pc.resv = none) (hconstr : ∀ b, pc.constr b = none)
    (hlk : pc.linking = none) (hcnt : pc.counted = 0) (hsto : pc.stored = false) :
    StepOK I chain s i t := by
  have hmem := List.mem_of_getElem? ht
  have hxi : (exSys s).threads[i]? = some t.ex := by simp [exSys, ht]
  have hpi := Vector.popInv_call h.excess i t.ex hxi hex (.pop ())
  refine ⟨chain, xp.set i (t.ex.done.map (·.1) ++ [.pop ()]), ?_⟩
  rw [step_ins_go hcur hs]
  refine h.same i t ht _ _ _ ⟨rfl, rfl, rfl, rfl, rfl, rfl⟩ h.ub h.stale hk ?_ ?_ ?_ ?_ ?_ (fun _ hn => hn) (fun _ hn => Or.inl hn) ?_ ?_
    hpi id ?_ (le_refl _) ?_ (fun e he => Or.inl he)
  · simp [hcur, Cur.ops]
  · intro q _
    simp only [holdN, hcur, Cur.held, hheld]; rfl
  · simp only [hcur, Cur.constr, hconstr]; rfl
  · simp only [hcur, Cur.linking, hlk]; rfl
  · intro n hn; simp [Cur.resv, IPC.resv] at hn
  · intro n hn; simp [hcur, Cur.resv, hresv] at hn
  · intro p hp op hop
    obtain ⟨p', hp', e'⟩ := SlotConc.prog_mem h.excess.v t.ex (List.mem_of_getElem? hxi)
    rcases mem_set_cases _ _ _ _ hp with rfl | ⟨j, -, hj⟩
    · rcases List.mem_append.1 hop with hop | hop
      · exact h.xpops p' hp' op (by rw [e']; exact List.mem_append_left _ hop)
      · simp at hop; rw [hop]; rfl
    · exact h.xpops p (List.mem_of_getElem? hj) op hop
  · simp only [hcur, Cur.counted, hcnt]; rfl
  · simp only [succM, hcur, Cur.stored, hsto]; rfl

/-- A step of the call on the free list. -/
theorem Inv.insPop (h : Inv I chain xp s) {i : Nat} {t : Thread K V} (ht : s.threads[i]? = some t) {v : V}
    {e : Nat} (hcur : t.cur = .ins v (.pop e)) : StepOK I chain s i t := by
  have hmem := List.mem_of_getElem? ht
  have hk := h.knows t hmem
  rw [hcur] at hk
  obtain ⟨hpop, hver⟩ := hk
  have hxi : (exSys s).threads[i]? = some t.ex := by simp [exSys, ht]
  have hfree : I.free₀.length ≤ I.t₀.total - I.t₀.bc := by
    rw [← I.rep.excessCap]; exact I.rep.excess.len
  have hpi := Vector.popInv_step h.xpops hfree (exSys s) i t.ex h.excess hxi
  have hcap : Vector.cap s.shared.tab.excess = I.t₀.total - I.t₀.bc := h.excess.v.hcap
  have hpi' : PopInv (I.t₀.total - I.t₀.bc) I.free₀ xp
      ⟨(exStep s.shared t.ex).1.tab.excess, (s.threads.map (·.ex)).set i (exStep s.shared t.ex).2⟩ := by
    simp only [exStep, hcap]; exact hpi
  have hctr : (exStep s.shared t.ex).1.tab.excess.ctr ≤ s.shared.tab.excess.ctr :=
    Vector.step_ctr_le _ _ _ (by rw [hpop]; simp [SlotConc.Op.isPush])
  have hS : Same s.shared.tab (exStep s.shared t.ex).1.tab := ⟨rfl, rfl, rfl, rfl, rfl, rfl⟩
  have fin : ∀ pc', insStep s.shared v (bkt P s.shared.tab.bc (P.keyOf v)) (eqOf P v) t.ex (.pop e) =
        ((exStep s.shared t.ex).1, (exStep s.shared t.ex).2, .go pc') →
      IKnows P s.shared.tab chain v (bkt P s.shared.tab.bc (P.keyOf v)) (exStep s.shared t.ex).2 pc' →
      (∀ b, pc'.held b = some e) → (∀ b, pc'.constr b = none) → pc'.linking = none → pc'.counted = 0 → pc'.stored = false →
      (∀ n, pc'.resv = some n → n ∈ SlotConc.poppedOf (exStep s.shared t.ex).2.done ∧
        (∀ u ∈ s.threads, u.cur.resv ≠ some n) ∧ ∀ b, b < I.t₀.bc → n ∉ chain b) →
      (∀ n ∈ SlotConc.poppedOf t.ex.done, n ∈ SlotConc.poppedOf (exStep s.shared t.ex).2.done) →
      (∀ n ∈ SlotConc.poppedOf (exStep s.shared t.ex).2.done, n ∈ SlotConc.poppedOf t.ex.done ∨ pc'.resv = some n) →
      StepOK I chain s i t := by
    intro pc' hs hk' h1 h2 h3 h4 h5 h6 h7 h8
    refine ⟨chain, xp, ?_⟩
    rw [step_ins_go hcur hs]
    refine h.same i t ht _ _ xp hS h.ub h.stale hk' ?_ ?_ ?_ ?_ ?_ h7 h8 ?_ h.xpops
      hpi' (fun hc => le_trans hctr hc) ?_ (le_refl _) ?_ (fun e he => Or.inl he)
    · simp [hcur, Cur.ops]
    · intro q _
      simp only [holdN, hcur, Cur.held, h1]; rfl
    · simp only [hcur, Cur.constr, h2]; rfl
    · simp only [hcur, Cur.linking, h3]; rfl
    · intro n hn; exact Or.inr (h6 n hn)
    · intro n hn; simp [hcur, Cur.resv, IPC.resv] at hn
    · simp only [hcur, Cur.counted, h4]; rfl
    · simp only [succM, hcur, Cur.stored, h5]; rfl
  have hver' := hver
  rcases Vector.step_pop_cases (Vector.cap s.shared.tab.excess) s.shared.tab.excess t.ex hpop with ⟨h1, h2⟩ | ⟨r, h1, h2⟩
  · have h1' : (exStep s.shared t.ex).2.todo = [.pop ()] := h1
    have h2' : (exStep s.shared t.ex).2.done = t.ex.done := h2
    refine fin (.pop e) ?_ ⟨h1', hver⟩ (fun _ => rfl) (fun _ => rfl) rfl rfl rfl (by simp [IPC.resv]) (by rw [h2']; simp)
      (by rw [h2']; intro n hn; exact Or.inl hn)
    simp only [insStep, h1']
    simp
  · have h1' : (exStep s.shared t.ex).2.todo = [] := h1
    have h2' : (exStep s.shared t.ex).2.done = t.ex.done ++ [(.pop (), r)] := h2
    have hmono : ∀ n ∈ SlotConc.poppedOf t.ex.done, n ∈ SlotConc.poppedOf (exStep s.shared t.ex).2.done := by
      intro n hn
      rw [h2', SlotConc.poppedOf_append]
      exact Multiset.mem_add.2 (Or.inl hn)
    have hback : insStep s.shared v (bkt P s.shared.tab.bc (P.keyOf v)) (eqOf P v) t.ex (.pop e) =
        ((exStep s.shared t.ex).1, (exStep s.shared t.ex).2, .go (.unlock e none)) →
        ∀ n ∈ SlotConc.poppedOf (exStep s.shared t.ex).2.done,
          n ∈ SlotConc.poppedOf t.ex.done ∨ (IPC.unlock e none).resv = some n := by
      intro hs n hn
      rw [h2', SlotConc.poppedOf_append] at hn
      rcases Multiset.mem_add.1 hn with hn | hn
      · exact Or.inl hn
      · exfalso
        cases r with
        | popped n' =>
          simp only [insStep, h1', h2'] at hs
          simp at hs
        | _ => simp [SlotConc.poppedOf] at hn
    have fail : insStep s.shared v (bkt P s.shared.tab.bc (P.keyOf v)) (eqOf P v) t.ex (.pop e) =
        ((exStep s.shared t.ex).1, (exStep s.shared t.ex).2, .go (.unlock e none)) → StepOK I chain s i t := by
      intro hs
      refine fin _ hs ⟨h1', ?_, by simp⟩ (fun _ => rfl) (fun _ => rfl) rfl rfl rfl (by simp [IPC.resv]) hmono (hback hs)
      rw [← hver.2.1]
      exact h.g.lt (bkt_lt P _ _ h.g.bc_pos h.g.bc_lt) (lastOf_mem _ _)
    cases r with
    | popped n =>
      -- the entry is new
      have hout := Vector.popInv_out hpi' h.xpops
      have hcnt : ∀ l : List Ex, Multiset.count n (l.map SlotConc.outM).sum = (l.map (fun x => Multiset.count n (SlotConc.outM x))).sum := by
        intro l
        induction l with
        | nil => simp
        | cons a l ih => simp [Multiset.count_add, ih]
      have hle : (((s.threads.map (·.ex)).set i (exStep s.shared t.ex).2).map
          (fun x : Ex => Multiset.count n (SlotConc.outM x))).sum ≤ Multiset.count n (I.free₀ : Multiset Nat) := by
        have := Multiset.count_le_of_le n hout
        rw [hcnt] at this
        exact this
      have hone : Multiset.count n (I.free₀ : Multiset Nat) ≤ 1 := by
        rw [Multiset.coe_count]; exact List.nodup_iff_count_le_one.1 I.rep.free_nodup n
      have hset := sum_map_set (fun x : Ex => Multiset.count n (SlotConc.outM x)) (s.threads.map (·.ex)) i t.ex
        (exStep s.shared t.ex).2 (by simp [ht])
      have hnew : Multiset.count n (SlotConc.outM (exStep s.shared t.ex).2) ≥
          Multiset.count n (SlotConc.poppedOf t.ex.done) + 1 := by
        unfold SlotConc.outM
        rw [h2', SlotConc.poppedOf_append, Multiset.count_add, Multiset.count_add]
        simp [SlotConc.poppedOf]
      have hlt : i < (s.threads.map (·.ex)).length := by
        simp [(List.getElem?_eq_some_iff.1 ht).1]
      have hget : ((s.threads.map (·.ex)).set i (exStep s.shared t.ex).2)[i]? = some (exStep s.shared t.ex).2 :=
        List.getElem?_set_self hlt
      have hself := le_sum_map (fun x : Ex => Multiset.count n (SlotConc.outM x))
        ((s.threads.map (·.ex)).set i (exStep s.shared t.ex).2) _ (List.mem_of_getElem? hget)
      have hin : n ∈ I.free₀ := by
        rw [← Multiset.mem_coe, ← Multiset.one_le_count_iff_mem]
        omega
      have hnp : ∀ u ∈ s.threads, n ∉ SlotConc.poppedOf u.ex.done := by
        intro u hu hc
        have hc' : 1 ≤ Multiset.count n (SlotConc.poppedOf u.ex.done) := Multiset.one_le_count_iff_mem.2 hc
        obtain ⟨j, hj⟩ := List.mem_iff_getElem?.1 hu
        by_cases hji : j = i
        · subst hji; rw [ht] at hj; injection hj with hj; subst hj
          omega
        · have hj' : ((s.threads.map (·.ex)).set i (exStep s.shared t.ex).2)[j]? = some u.ex := by
            rw [List.getElem?_set_ne (Ne.symm hji)]; simp [hj]
          have h3 := add_le_sum_map (fun x : Ex => Multiset.count n (SlotConc.outM x)) _ i j _ _ (Ne.symm hji) hget hj'
          have h4 : Multiset.count n (SlotConc.outM u.ex) ≥ Multiset.count n (SlotConc.poppedOf u.ex.done) := by
            unfold SlotConc.outM
            rw [Multiset.count_add]; omega
          omega
      obtain ⟨u1, u2, u3, u4, u5, u6⟩ := h.unused hin hnp
      refine fin (.cons e n) ?_ ⟨h1', hver, by rw [h.bc]; exact u1, by rw [h.total]; exact u2, u3, u4⟩ (fun _ => rfl)
        (fun _ => rfl) rfl rfl rfl ?_ hmono ?_
      · simp only [insStep, h1', h2']
        simp
      · intro n' hn'
        simp only [IPC.resv, Option.some.injEq] at hn'
        subst hn'
        refine ⟨?_, u5, u6⟩
        rw [h2', SlotConc.poppedOf_append]
        simp [SlotConc.poppedOf]
      · intro n' hn'
        rw [h2', SlotConc.poppedOf_append] at hn'
        rcases Multiset.mem_add.1 hn' with hn' | hn'
        · exact Or.inl hn'
        · right
          simp [SlotConc.poppedOf] at hn'
          rw [hn']; rfl
    | popFailed => apply fail; simp only [insStep, h1', h2']; simp
    | pushed => apply fail; simp only [insStep, h1', h2']; simp
    | pushFailed => apply fail; simp only [insStep, h1', h2']; simp
end

end Stdgpu.UnorderedConc
