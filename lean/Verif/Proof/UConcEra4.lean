import Verif.Proof.UConcEra3
/-! Concurrent erases and lookups: every step preserves the invariant. -/
namespace Stdgpu.UnorderedConc.Er
open Stdgpu.Conc
open Stdgpu.SlotConc (upd)
open Stdgpu.Unordered
open Stdgpu.Vector (FPC vfront countBits PushInv remOps)
open Stdgpu.Spec
variable {K V : Type}

section
variable {P : Params K V} {E : Start P} {path path' : Nat → List Nat}
  {xp xp' : List (List (SlotConc.Op Unit Nat))} {s : Sys (Shared V) (Thread K V)}

theorem step_era_go {m m' : Shared V} {t : Thread K V} {k : K} {pc pc' : EPC} {ex' : Ex} (hcur : t.cur = .era k pc)
    (h : eraStep m (bkt P m.tab.bc k) (fun w => P.keyEq (P.keyOf w) k) t.ex pc = (m', ex', .go pc')) :
    step P m t = (m', { t with cur := .era k pc', ex := ex' }) := by
  have h' : eraStep m (bucket P m.tab k) (fun w => P.keyEq (P.keyOf w) k) t.ex pc = (m', ex', .go pc') := h
  simp only [step, hcur, h']

theorem step_era_ret {m m' : Shared V} {t : Thread K V} {k : K} {pc : EPC} {ex' : Ex} {ok : Bool}
    (hcur : t.cur = .era k pc)
    (h : eraStep m (bkt P m.tab.bc k) (fun w => P.keyEq (P.keyOf w) k) t.ex pc = (m', ex', .ret ok)) :
    step P m t = (m', { t with cur := .idle, ex := ex',
                               done := t.done ++ [(.erase k, if ok then .erased else .notErased)] }) := by
  have h' : eraStep m (bucket P m.tab k) (fun w => P.keyEq (P.keyOf w) k) t.ex pc = (m', ex', .ret ok) := h
  simp only [step, hcur, h']

/-- The invariant after a step of thread `i`. -/
def StepOK (E : Start P) (path : Nat → List Nat) (s : Sys (Shared V) (Thread K V)) (i : Nat) (t : Thread K V) : Prop :=
  ∃ path' xp', Inv E path' xp' ⟨(step P s.shared t).1, s.threads.set i (step P s.shared t).2⟩ ∧
    Rely E [] s.shared.tab path (step P s.shared t).1.tab path'

/-- What the invariant records about a program point, except locks, counter and result. -/
def prof (c : Cur K V) : Option Nat × Option Nat × Option Nat × Nat := (dying c, unocc c, unlinked c, pre c)

/-- A step that changes locks and counter only. -/
theorem Inv.local (h : Inv E path xp s) {i : Nat} {t : Thread K V} (ht : s.threads[i]? = some t)
    (m' : Shared V) (t' : Thread K V) (hs : Same s.shared.tab m'.tab) (hub : m'.ub = false)
    (hx : m'.tab.excess = s.shared.tab.excess) (hex : t'.ex = t.ex)
    (hk : Knows E s.shared.tab path t'.ex t'.cur)
    (hprog : t'.done.map (·.1) ++ t'.cur.ops ++ t'.todo = t.done.map (·.1) ++ t.cur.ops ++ t.todo)
    (hlocks : ∀ p, p < E.t₀.total → (m'.tab.locks p).toNat + heldN p t = (s.shared.tab.locks p).toNat + heldN p t')
    (hprof : prof t'.cur = prof t.cur)
    (hcnt : m'.tab.count + uncnt t.cur = s.shared.tab.count + uncnt t'.cur)
    (hera : t'.done.filterMap erasedKey ++ erasing t'.cur = t.done.filterMap erasedKey ++ erasing t.cur)
    (hres : ∀ e ∈ t'.done, e ∈ t.done ∨ ResOK E s.shared.tab path e)
    (hstep : step P s.shared t = (m', t')) : StepOK E path s i t := by
  simp only [prof, Prod.mk.injEq] at hprof
  obtain ⟨p1, p2, p3, p4⟩ := hprof
  refine ⟨path, xp, ?_⟩
  rw [hstep]
  refine h.same i t ht m' t' xp hs hub hk hprog hlocks p1 p2 ?_ h.xpush ?_ ?_ hcnt ?_ hres
  · intro p; simp only [unlN, p3, hex]
  · rw [hex]; exact h.exSame ht hx
  · simp only [remN, p4, hex, hx]; exact le_refl _
  · simp only [eraL, hera]

/-- A step of `erase` that goes on and changes at most the flag for reads of destroyed values. -/
theorem Inv.eraLocal (h : Inv E path xp s) {i : Nat} {t : Thread K V} (ht : s.threads[i]? = some t) {k : K} {pc : EPC}
    (pc' : EPC) (st : Bool) (hcur : t.cur = .era k pc)
    (hs : eraStep s.shared (bkt P E.t₀.bc k) (fun w => P.keyEq (P.keyOf w) k) t.ex pc =
      ({ s.shared with stale := st }, t.ex, .go pc'))
    (hk : EK E s.shared.tab path k t.ex pc') (hheld : eheld pc' = eheld pc)
    (hprof : prof (.era k pc' : Cur K V) = prof (.era k pc : Cur K V))
    (hcnt : uncnt (.era k pc' : Cur K V) = uncnt (.era k pc : Cur K V))
    (hera : erasing (.era k pc' : Cur K V) = erasing (.era k pc : Cur K V)) : StepOK E path s i t := by
  refine h.local ht { s.shared with stale := st } { t with cur := .era k pc' } ⟨rfl, rfl, rfl, rfl, rfl, rfl⟩ h.ub rfl rfl hk ?_ ?_ ?_
    ?_ ?_ (fun e he => Or.inl he) (step_era_go hcur (by rw [h.g.bc]; exact hs))
  · simp [hcur, Cur.ops]
  · intro p _; simp only [heldN, hcur, held, hheld]
  · rw [hcur]; exact hprof
  · rw [hcur, hcnt]
  · rw [hcur, hera]

/-- Taking a lock. -/
theorem Inv.eraLock (h : Inv E path xp s) {i : Nat} {t : Thread K V} (ht : s.threads[i]? = some t) {k : K} {pc : EPC}
    (pc' : EPC) (q : Nat) (hcur : t.cur = .era k pc) (hq : s.shared.tab.locks q = false)
    (hs : eraStep s.shared (bkt P E.t₀.bc k) (fun w => P.keyEq (P.keyOf w) k) t.ex pc =
      (setLock s.shared q true, t.ex, .go pc'))
    (hk : EK E s.shared.tab path k t.ex pc') (hheld : eheld pc' = eheld pc ++ [q])
    (hprof : prof (.era k pc' : Cur K V) = prof (.era k pc : Cur K V))
    (hcnt : uncnt (.era k pc' : Cur K V) = uncnt (.era k pc : Cur K V))
    (hera : erasing (.era k pc' : Cur K V) = erasing (.era k pc : Cur K V)) : StepOK E path s i t := by
  refine h.local ht (setLock s.shared q true) { t with cur := .era k pc' } ⟨rfl, rfl, rfl, rfl, rfl, rfl⟩ h.ub rfl rfl hk ?_ ?_ ?_
    ?_ ?_ (fun e he => Or.inl he) (step_era_go hcur (by rw [h.g.bc]; exact hs))
  · simp [hcur, Cur.ops]
  · intro p _
    simp only [heldN, hcur, held, hheld, List.count_append, List.count_singleton, setLock, upd]
    by_cases hp : p = q
    · subst hp; simp [hq]; omega
    · simp [hp, Ne.symm hp]
  · rw [hcur]; exact hprof
  · rw [hcur, hcnt]; rfl
  · rw [hcur, hera]

/-- The lock held by a thread is taken. -/
theorem Inv.locked (h : Inv E path xp s) {i : Nat} {t : Thread K V} (ht : s.threads[i]? = some t) {p : Nat}
    (hp : p ∈ held t.cur) : p < E.t₀.total ∧ s.shared.tab.locks p = true := by
  have hmem := List.mem_of_getElem? ht
  have h0 := held_lt (h.knows t hmem) hp
  refine ⟨h0, ?_⟩
  have h1 := le_sum_map (heldN p) s.threads t hmem
  rw [h.locks p h0] at h1
  have h2 : 0 < heldN p t := List.count_pos_iff.2 hp
  cases hx : s.shared.tab.locks p with
  | true => rfl
  | false => rw [hx] at h1; simp at h1; omega

/-- Releasing a lock. -/
theorem Inv.eraUnlock (h : Inv E path xp s) {i : Nat} {t : Thread K V} (ht : s.threads[i]? = some t) {k : K} {pc : EPC}
    (pc' : EPC) (q : Nat) (hcur : t.cur = .era k pc)
    (hs : eraStep s.shared (bkt P E.t₀.bc k) (fun w => P.keyEq (P.keyOf w) k) t.ex pc =
      (setLock s.shared q false, t.ex, .go pc'))
    (hk : EK E s.shared.tab path k t.ex pc') (hheld : eheld pc = q :: eheld pc')
    (hprof : prof (.era k pc' : Cur K V) = prof (.era k pc : Cur K V))
    (hcnt : uncnt (.era k pc' : Cur K V) = uncnt (.era k pc : Cur K V))
    (hera : erasing (.era k pc' : Cur K V) = erasing (.era k pc : Cur K V)) : StepOK E path s i t := by
  have hlk := (h.locked ht (p := q) (by rw [hcur]; simp [held, hheld])).2
  refine h.local ht (setLock s.shared q false) { t with cur := .era k pc' } ⟨rfl, rfl, rfl, rfl, rfl, rfl⟩ h.ub rfl rfl hk ?_ ?_ ?_
    ?_ ?_ (fun e he => Or.inl he) (step_era_go hcur (by rw [h.g.bc]; exact hs))
  · simp [hcur, Cur.ops]
  · intro p hp0
    simp only [heldN, hcur, held, hheld, List.count_cons, setLock, upd]
    by_cases hp : p = q
    · subst hp; simp [hlk]; omega
    · simp [hp, Ne.symm hp]
  · rw [hcur]; exact hprof
  · rw [hcur, hcnt]; rfl
  · rw [hcur, hera]

/-- Releasing the last lock and returning. -/
theorem Inv.eraUnlockRet (h : Inv E path xp s) {i : Nat} {t : Thread K V} (ht : s.threads[i]? = some t) {k : K} {pc : EPC}
    (q : Nat) (hcur : t.cur = .era k pc)
    (hs : eraStep s.shared (bkt P E.t₀.bc k) (fun w => P.keyEq (P.keyOf w) k) t.ex pc =
      (setLock s.shared q false, t.ex, .ret true))
    (hex : t.ex.todo = []) (hheld : eheld pc = [q])
    (hprof : prof (.era k pc : Cur K V) = (none, none, none, 0))
    (hcnt : uncnt (.era k pc : Cur K V) = 0) (hera : erasing (.era k pc : Cur K V) = [k])
    (hres : ∃ p, Home E k p ∧ s.shared.tab.occ p = false) : StepOK E path s i t := by
  have hlk := (h.locked ht (p := q) (by rw [hcur]; simp [held, hheld])).2
  refine h.local ht (setLock s.shared q false) { t with cur := .idle, done := t.done ++ [(.erase k, .erased)] }
    ⟨rfl, rfl, rfl, rfl, rfl, rfl⟩ h.ub rfl rfl hex ?_ ?_ ?_
    ?_ ?_ ?_ (step_era_ret hcur (by rw [h.g.bc]; exact hs))
  · simp [hcur, Cur.ops]
  · intro p hp0
    simp only [heldN, hcur, held, hheld, List.count_singleton, setLock, upd]
    by_cases hp : p = q
    · subst hp; simp [hlk]
    · simp [hp, Ne.symm hp]
  · rw [hcur, hprof]; rfl
  · rw [hcur, hcnt]; rfl
  · rw [hcur, hera, List.filterMap_append]
    show _ ++ [k] ++ [] = _
    simp
  · intro e he
    simp only [List.mem_append, List.mem_singleton] at he
    rcases he with he | rfl
    · exact .inl he
    · exact .inr hres

/-- Counting. -/
theorem Inv.eraCount (h : Inv E path xp s) {i : Nat} {t : Thread K V} (ht : s.threads[i]? = some t) {k : K} {pc : EPC}
    (pc' : EPC) (hcur : t.cur = .era k pc)
    (hs : eraStep s.shared (bkt P E.t₀.bc k) (fun w => P.keyEq (P.keyOf w) k) t.ex pc =
      (addCount s.shared (-1), t.ex, .go pc'))
    (hk : EK E s.shared.tab path k t.ex pc') (hheld : eheld pc' = eheld pc)
    (hprof : prof (.era k pc' : Cur K V) = prof (.era k pc : Cur K V))
    (hcnt : uncnt (.era k pc : Cur K V) = 1) (hcnt' : uncnt (.era k pc' : Cur K V) = 0)
    (hera : erasing (.era k pc' : Cur K V) = erasing (.era k pc : Cur K V)) : StepOK E path s i t := by
  refine h.local ht (addCount s.shared (-1)) { t with cur := .era k pc' } ⟨rfl, rfl, rfl, rfl, rfl, rfl⟩ h.ub rfl rfl hk ?_ ?_ ?_
    ?_ ?_ (fun e he => Or.inl he) (step_era_go hcur (by rw [h.g.bc]; exact hs))
  · simp [hcur, Cur.ops]
  · intro p _; simp only [heldN, hcur, held, hheld]; rfl
  · rw [hcur]; exact hprof
  · rw [hcur, hcnt, hcnt']; simp [addCount]
  · rw [hcur, hera]

/-- A step of the call on the free list. -/
theorem Inv.eraPush (h : Inv E path xp s) {i : Nat} {t : Thread K V} (ht : s.threads[i]? = some t) {k : K}
    {p q : Nat} (hcur : t.cur = .era k (.push p q)) : StepOK E path s i t := by
  have hmem := List.mem_of_getElem? ht
  have hk := h.knows t hmem
  rw [hcur] at hk
  obtain ⟨htodo, hE, hnp, ho⟩ := hk
  have hxi : (exSys s).threads[i]? = some t.ex := by simp [exSys, ht]
  have hpi := Vector.pushInv_step h.xpush (exSys s) i t.ex h.excess hxi
  have hcap : Vector.cap s.shared.tab.excess = E.t₀.total - E.t₀.bc := h.excess.v.hcap
  have hpi' : PushInv (E.t₀.total - E.t₀.bc) E.free₀ xp
      ⟨(exStep s.shared t.ex).1.tab.excess, (s.threads.map (·.ex)).set i (exStep s.shared t.ex).2⟩ := by
    simp only [exStep, hcap]; exact hpi
  have h0 : 0 ≤ s.shared.tab.excess.ctr := by
    have := h.excess.ge
    have e : (exSys s).shared.ctr = s.shared.tab.excess.ctr := rfl
    omega
  have hrem : s.shared.tab.excess.ctr + remOps true t.ex ≤ ((E.t₀.total - E.t₀.bc : Nat) : Int) := by
    have h1 := h.room
    have h2 := le_sum_map remN s.threads t hmem
    have h3 : remOps true t.ex ≤ remN t := by unfold remN; omega
    omega
  have hcase := Vector.step_push_cases (E.t₀.total - E.t₀.bc) s.shared.tab.excess t.ex p htodo h0 hrem
    (h.excess.v.shape t.ex (List.mem_of_getElem? hxi))
  rw [← hcap] at hcase
  replace hcase : (exStep s.shared t.ex).1.tab.excess.ctr + remOps true (exStep s.shared t.ex).2 =
      s.shared.tab.excess.ctr + remOps true t.ex ∧
    (((exStep s.shared t.ex).2.todo = [.push () p] ∧ (exStep s.shared t.ex).2.done = t.ex.done) ∨
    ((exStep s.shared t.ex).2.todo = [] ∧
      (exStep s.shared t.ex).2.done = t.ex.done ++ [(.push () p, .pushed)])) := hcase
  obtain ⟨hctr, hcase⟩ := hcase
  have hS : Same s.shared.tab (exStep s.shared t.ex).1.tab := ⟨rfl, rfl, rfl, rfl, rfl, rfl⟩
  refine ⟨path, xp, ?_⟩
  rcases hcase with ⟨h1, h2⟩ | ⟨h1, h2⟩
  · rw [step_era_go hcur (m' := (exStep s.shared t.ex).1) (ex' := (exStep s.shared t.ex).2) (pc' := .push p q)
      (by simp [eraStep, h1])]
    refine h.same i t ht _ _ xp hS h.ub ⟨h1, hE, hnp, ho⟩ ?_ ?_ ?_ ?_ ?_ h.xpush hpi' ?_ ?_ ?_ (fun e he => .inl he)
    · simp [hcur, Cur.ops]
    · intro x _; simp only [heldN, hcur]; rfl
    · rw [hcur]
    · rw [hcur]
    · intro x; simp only [unlN, hcur, h2]
    · simp only [remN, hcur]
      have : pre (.era k (.push p q) : Cur K V) = 0 := rfl
      rw [this]; omega
    · rw [hcur]; rfl
    · simp only [eraL, hcur]
  · rw [step_era_go hcur (m' := (exStep s.shared t.ex).1) (ex' := (exStep s.shared t.ex).2) (pc' := .unlock1 p q true)
      (by simp [eraStep, h1])]
    refine h.same i t ht _ _ xp hS h.ub ⟨h1, hE, fun _ => ho⟩ ?_ ?_ ?_ ?_ ?_ h.xpush hpi' ?_ ?_ ?_ (fun e he => .inl he)
    · simp [hcur, Cur.ops]
    · intro x _; simp only [heldN, hcur]; rfl
    · rw [hcur]; rfl
    · rw [hcur]; rfl
    · intro x
      have e1 : unlinked (.era k (.unlock1 p q true) : Cur K V) = none := rfl
      have e2 : unlinked (.era k (.push p q) : Cur K V) = some p := rfl
      simp only [unlN, hcur, h2, e1, e2, SlotConc.pushedOf_append, SlotConc.pushedOf, Multiset.count_add, Multiset.count_zero,
        Multiset.count_singleton]
      by_cases hx : x = p
      · subst hx; simp; omega
      · simp [hx, Ne.symm hx]
    · simp only [remN, hcur]
      have e1 : pre (.era k (.push p q) : Cur K V) = 0 := rfl
      have e2 : pre (.era k (.unlock1 p q true) : Cur K V) = 0 := rfl
      rw [e1, e2]; omega
    · rw [hcur]; rfl
    · simp only [eraL, hcur]; rfl

theorem prof_eq {c c' : Cur K V} (h : prof c = prof c') : dying c = dying c' ∧ unocc c = unocc c' ∧
    unlinked c = unlinked c' ∧ pre c = pre c' := by
  simpa only [prof, Prod.mk.injEq] using h

/-- Every step of `erase`. -/
theorem Inv.stepEra (h : Inv E path xp s) {i : Nat} {t : Thread K V} (ht : s.threads[i]? = some t)
    {k : K} {pc : EPC} (hcur : t.cur = .era k pc) : StepOK E path s i t := by
  have hmem := List.mem_of_getElem? ht
  have hk := h.knows t hmem
  rw [hcur] at hk
  replace hk : EK E s.shared.tab path k t.ex pc := hk
  have hb := E.bkt_lt k
  have g := h.g
  cases pc with
  | f1 W =>
    obtain ⟨hex, hW⟩ := hk
    rcases findStep_era g k W hW with ⟨W', st, e, hW', -, -⟩ | ⟨p, st, e, hH, -⟩ | ⟨e, hG⟩
    · exact h.eraLocal ht (.f1 W') st hcur (by simp only [eraStep, e]) ⟨hex, hW'⟩ rfl rfl rfl rfl
    · by_cases hp : p = bkt P E.t₀.bc k
      · exact h.eraLocal ht (.lockB p) st hcur (by simp only [eraStep, e, if_pos hp]) ⟨hex, hp, hH⟩ rfl rfl rfl rfl
      · exact h.eraLocal ht (.p1 p (.off1 (bkt P E.t₀.bc k))) st hcur (by simp only [eraStep, e, if_neg hp])
          ⟨hex, hp, hH, ⟨by simp [Hop.pos], by simpa [Hop.pos] using Ne.symm hp⟩⟩ rfl rfl rfl rfl
    · refine h.local ht s.shared { t with cur := .idle, done := t.done ++ [(.erase k, .notErased)] }
        ⟨rfl, rfl, rfl, rfl, rfl, rfl⟩ h.ub rfl rfl hex ?_ ?_ ?_ ?_ ?_ ?_
        (step_era_ret hcur (ok := false) (by rw [g.bc]; simp only [eraStep, e]))
      · simp [hcur, Cur.ops]
      · intro x _; simp only [heldN, hcur]; rfl
      · rw [hcur]; rfl
      · rw [hcur]; rfl
      · rw [hcur, List.filterMap_append]
        show _ ++ [] ++ [] = _ ++ []
        simp
      · intro r hr
        simp only [List.mem_append, List.mem_singleton] at hr
        rcases hr with hr | rfl
        · exact .inl hr
        · exact .inr hG
  | lockB p =>
    obtain ⟨hex, hp, hH⟩ := hk
    cases hlk : s.shared.tab.locks p with
    | true =>
      exact h.eraLocal ht (.f1 (.occ (bkt P E.t₀.bc k))) s.shared.stale hcur (by simp only [eraStep, hlk, if_true])
        ⟨hex, WalkK.start k⟩ rfl rfl rfl rfl
    | false =>
      exact h.eraLock ht (.f2 p (.occ (bkt P E.t₀.bc k))) p hcur hlk (by simp [eraStep, hlk])
        ⟨hex, hp, hH, WalkK.start k, by simp⟩ rfl rfl rfl rfl
  | f2 p W =>
    obtain ⟨hex, hp, hH, hW, hO⟩ := hk
    rcases findStep_era g k W hW with ⟨W', st, e, hW', -, hv⟩ | ⟨p', st, e, hH', hWp⟩ | ⟨e, hG⟩
    · exact h.eraLocal ht (.f2 p W') st hcur (by simp only [eraStep, e]) ⟨hex, hp, hH, hW', hv p⟩ rfl rfl rfl rfl
    · by_cases hpp : some p = some p'
      · have : p = p' := by simpa using hpp
        subst this
        exact h.eraLocal ht (.resetB p) st hcur (by simp only [eraStep, e, if_true]) ⟨hex, hp, hH, hO hWp⟩ rfl rfl rfl rfl
      · exact h.eraLocal ht (.unlockB p false) st hcur (by simp only [eraStep, e, if_neg hpp])
          ⟨hex, hp, hH, by simp⟩ rfl rfl rfl rfl
    · exact h.eraLocal ht (.unlockB p false) s.shared.stale hcur (by simp [eraStep, e]) ⟨hex, hp, hH, by simp⟩
        rfl rfl rfl rfl
  | resetB p =>
    obtain ⟨hex, hp, hH, ho⟩ := hk
    have hnp : ∀ b, b < E.t₀.bc → p ∉ path b := by
      intro b hb' hm
      have := (E.rep.rng b hb' p (g.sub b hb' b (by simp) p hm)).1
      omega
    refine ⟨path, xp, ?_⟩
    rw [step_era_go hcur (m' := setOcc s.shared p false) (ex' := t.ex) (pc' := .cntB p) rfl]
    refine h.resetOcc i t ht k p _ (.cntB p) hcur hH ho hnp (by simp [eheld]) rfl ⟨hex, hp, hH, ?_, ?_⟩ ?_ rfl ?_ ?_ ?_ ?_ rfl ?_ rfl
    · simp [setOcc, upd]
    · exact g.live p hH.lt ho
    all_goals (rw [hcur])
    · rfl
    · exact .inl rfl
    · rfl
    · rfl
    · rfl
    · rfl
  | cntB p =>
    obtain ⟨hex, hp, hH, ho, hv⟩ := hk
    exact h.eraCount ht (.desB p) hcur rfl ⟨hex, hp, hH, ho, hv⟩ rfl rfl rfl rfl rfl
  | desB p =>
    obtain ⟨hex, hp, hH, ho, hv⟩ := hk
    refine ⟨path, xp, ?_⟩
    rw [step_era_go hcur (m' := destroyAt s.shared p) (ex' := t.ex) (pc' := .unlockB p true) rfl]
    refine h.destroy i t ht k p _ (.unlockB p true) hcur ho hv (by simp [eheld]) rfl t.ex xp ⟨hex, hp, hH, fun _ => ho⟩
      ?_ ?_ rfl ?_ ?_ rfl ?_ rfl ?_ h.xpush (h.exSame ht rfl)
    all_goals (rw [hcur])
    all_goals rfl
  | unlockB p ok =>
    obtain ⟨hex, hp, hH, ho⟩ := hk
    cases ok with
    | false =>
      exact h.eraUnlock ht (.f1 (.occ (bkt P E.t₀.bc k))) p hcur rfl ⟨hex, WalkK.start k⟩ rfl rfl rfl rfl
    | true => exact h.eraUnlockRet ht p hcur rfl hex rfl rfl rfl rfl ⟨p, hH, ho rfl⟩
  | p1 p W =>
    obtain ⟨hex, hp, hH, hW⟩ := hk
    rcases prevStep_era g hb W hW with ⟨W', e, hW', -⟩ | ⟨e, -⟩
    · exact h.eraLocal ht (.p1 p W') s.shared.stale hcur (by simp only [eraStep, e]) ⟨hex, hp, hH, hW'⟩ rfl rfl rfl rfl
    · exact h.eraLocal ht (.lock1 p W.pos) s.shared.stale hcur (by simp only [eraStep, e]) ⟨hex, hp, hH, hW.1⟩ rfl rfl rfl rfl
  | lock1 p q =>
    obtain ⟨hex, hp, hH, hq⟩ := hk
    cases hlk : s.shared.tab.locks p with
    | true =>
      exact h.eraLocal ht (.f1 (.occ (bkt P E.t₀.bc k))) s.shared.stale hcur (by simp only [eraStep, hlk, if_true])
        ⟨hex, WalkK.start k⟩ rfl rfl rfl rfl
    | false =>
      exact h.eraLock ht (.lock2 p q) p hcur hlk (by simp [eraStep, hlk]) ⟨hex, hp, hH, hq⟩ rfl rfl rfl rfl
  | lock2 p q =>
    obtain ⟨hex, hp, hH, hq⟩ := hk
    have hlp := (h.locked ht (p := p) (by rw [hcur]; simp [held, eheld])).2
    cases hlk : s.shared.tab.locks q with
    | true =>
      exact h.eraLocal ht (.undo1 p) s.shared.stale hcur (by simp only [eraStep, hlk, if_true]) ⟨hex, hH⟩ rfl rfl rfl rfl
    | false =>
      have hpq : p ≠ q := by rintro rfl; rw [hlp] at hlk; simp at hlk
      refine h.eraLock ht (.f3 p q (.occ (bkt P E.t₀.bc k))) q hcur hlk (by simp [eraStep, hlk])
        ⟨hex, ⟨hp, hH, hq, hpq⟩, WalkK.start k, ?_⟩ rfl rfl rfl rfl
      by_cases hm : p ∈ path (bkt P E.t₀.bc k)
      · exact .inl hm
      · right
        simp [Walk.pos, hp, hm]
  | undo1 p =>
    obtain ⟨hex, hH⟩ := hk
    exact h.eraUnlock ht (.f1 (.occ (bkt P E.t₀.bc k))) p hcur rfl ⟨hex, WalkK.start k⟩ rfl rfl rfl rfl
  | f3 p q W =>
    obtain ⟨hex, hE, hW, hm⟩ := hk
    have hop : HopK E (bkt P E.t₀.bc k) p (.off1 (bkt P E.t₀.bc k)) :=
      ⟨by simp [Hop.pos], by simpa [Hop.pos] using Ne.symm hE.1⟩
    have hqq : q ∈ bkt P E.t₀.bc k :: path (bkt P E.t₀.bc k) ∨
        q ∉ (Hop.off1 (bkt P E.t₀.bc k)).pos :: path (Hop.off1 (bkt P E.t₀.bc k)).pos := Classical.em _
    rcases findStep_era g k W hW with ⟨W', st, e, hW', hmv, -⟩ | ⟨p', st, e, hH', hWp⟩ | ⟨e, hG⟩
    · refine h.eraLocal ht (.f3 p q W') st hcur (by simp only [eraStep, e]) ⟨hex, hE, hW', ?_⟩ rfl rfl rfl rfl
      rcases hm with hm | hm
      · exact .inl hm
      · right
        rcases hmv with hmv | hmv
        · rw [hmv]; exact hm
        · intro hc
          exact hm (by rw [hmv]; exact List.mem_cons_of_mem _ hc)
    · refine h.eraLocal ht (.p2 p q (some p') (.off1 (bkt P E.t₀.bc k))) st hcur (by simp only [eraStep, e])
        ⟨hex, hE, hop, ?_, hqq⟩ rfl rfl rfl rfl
      intro hpp
      have : p' = p := by simpa using hpp
      subst this
      subst hWp
      rcases hm with hm | hm
      · exact ⟨hm, hm⟩
      · exact absurd (by simp [Walk.pos]) hm
    · exact h.eraLocal ht (.p2 p q none (.off1 (bkt P E.t₀.bc k))) s.shared.stale hcur (by simp only [eraStep, e])
        ⟨hex, hE, hop, by simp, hqq⟩ rfl rfl rfl rfl
  | p2 p q it W =>
    obtain ⟨hex, hE, hW, hit, hqq⟩ := hk
    rcases prevStep_era g hb W hW with ⟨W', e, hW', hmv⟩ | ⟨e, hend⟩
    · refine h.eraLocal ht (.p2 p q it W') s.shared.stale hcur (by simp only [eraStep, e]) ⟨hex, hE, hW', ?_, ?_⟩
        rfl rfl rfl rfl
      · intro hi
        obtain ⟨a1, a2⟩ := hit hi
        refine ⟨a1, ?_⟩
        rcases hmv with hmv | hmv
        · rw [hmv]; exact a2
        · rw [hmv] at a2
          rcases List.mem_cons.1 a2 with a2 | a2
          · exact absurd a2.symm hW'.2
          · exact a2
      · rcases hqq with hqq | hqq
        · exact .inl hqq
        · right
          rcases hmv with hmv | hmv
          · rw [hmv]; exact hqq
          · intro hc
            exact hqq (by rw [hmv]; exact List.mem_cons_of_mem _ hc)
    · by_cases hc : some p = it ∧ q = W.pos
      · refine h.eraLocal ht (.rd1 p q) s.shared.stale hcur (by simp only [eraStep, e, if_pos hc]) ⟨hex, hE, ?_, ?_⟩
          rfl rfl rfl rfl
        · rcases hqq with hqq | hqq
          · exact hqq
          · exact absurd (by rw [hc.2]; simp) hqq
        · rw [hc.2]
          rcases hend with hend | hend
          · have := (hit hc.1.symm).2
            rw [hend] at this
            simp at this
          · exact hend
      · exact h.eraLocal ht (.unlock1 p q false) s.shared.stale hcur (by simp only [eraStep, e, if_neg hc])
          ⟨hex, hE, by simp⟩ rfl rfl rfl rfl
  | rd1 p q =>
    obtain ⟨hex, hE, hP⟩ := hk
    by_cases ho : s.shared.tab.off p = 0
    · exact h.eraLocal ht (.zero p q) s.shared.stale hcur (by simp [eraStep, ho]) ⟨hex, hE, hP, ho⟩ rfl rfl rfl rfl
    · exact h.eraLocal ht (.rd2 p q) s.shared.stale hcur (by simp [eraStep, ho]) ⟨hex, hE, hP, ho⟩ rfl rfl rfl rfl
  | rd2 p q =>
    obtain ⟨hex, hE, hP, ho⟩ := hk
    exact h.eraLocal ht (.rd3 p q (s.shared.tab.off p)) s.shared.stale hcur rfl ⟨hex, hE, hP, ho, rfl⟩ rfl rfl rfl rfl
  | rd3 p q o =>
    obtain ⟨hex, hE, hP, ho, he⟩ := hk
    exact h.eraLocal ht (.wr p q (s.shared.tab.off q + o)) s.shared.stale hcur rfl
      ⟨hex, hE, hP, ho, by rw [he]⟩ rfl rfl rfl rfl
  | wr p q o =>
    obtain ⟨hex, hE, hP, ho, he⟩ := hk
    refine ⟨unpath E path (bkt P E.t₀.bc k) p q, xp, ?_⟩
    rw [step_era_go hcur (m' := setOff s.shared q o) (ex' := t.ex) (pc' := .reset p q) rfl]
    refine h.unlink i t ht k p q _ hcur hex hE hP o (by rw [if_neg ho]; exact he) rfl ?_ ?_ ?_ ?_ ?_ ?_
    all_goals (rw [hcur])
    all_goals rfl
  | zero p q =>
    obtain ⟨hex, hE, hP, ho⟩ := hk
    refine ⟨unpath E path (bkt P E.t₀.bc k) p q, xp, ?_⟩
    rw [step_era_go hcur (m' := setOff s.shared q 0) (ex' := t.ex) (pc' := .reset p q) rfl]
    refine h.unlink i t ht k p q _ hcur hex hE hP 0 (by rw [if_pos ho]) rfl ?_ ?_ ?_ ?_ ?_ ?_
    all_goals (rw [hcur])
    all_goals rfl
  | reset p q =>
    obtain ⟨hex, hE, hn, ho⟩ := hk
    have hH := hE.2.1
    have hpc : p ∈ E.chain₀ (bkt P E.t₀.bc k) := by
      obtain ⟨v, h1, -⟩ := hH
      exact (List.mem_cons.1 h1).resolve_left hE.1
    have hnp : ∀ b, b < E.t₀.bc → p ∉ path b := by
      intro b hb' hm
      have hm' := g.sub b hb' b (by simp) p hm
      have := E.bucket_unique hb' hb (List.mem_cons_of_mem _ hm') (List.mem_cons_of_mem _ hpc)
      subst this
      exact hn hm
    refine ⟨path, xp, ?_⟩
    rw [step_era_go hcur (m' := setOcc s.shared p false) (ex' := t.ex) (pc' := .cnt p q) rfl]
    refine h.resetOcc i t ht k p _ (.cnt p q) hcur hH ho hnp (by simp [eheld]) rfl ⟨hex, hE, hn, ?_, ?_⟩ ?_ rfl ?_ ?_ ?_ ?_ rfl ?_ rfl
    · simp [setOcc, upd]
    · exact g.live p hH.lt ho
    all_goals (rw [hcur])
    · rfl
    · exact .inr rfl
    · rfl
    · rfl
    · rfl
    · rfl
  | cnt p q =>
    obtain ⟨hex, hE, hn, ho, hv⟩ := hk
    exact h.eraCount ht (.des p q) hcur rfl ⟨hex, hE, hn, ho, hv⟩ rfl rfl rfl rfl rfl
  | des p q =>
    obtain ⟨hex, hE, hn, ho, hv⟩ := hk
    have hxi : (exSys s).threads[i]? = some t.ex := by simp [exSys, ht]
    have hpi := Vector.pushInv_call h.excess i t.ex hxi hex (.push () p)
    have hpc := (h.excess.v.shape t.ex (List.mem_of_getElem? hxi)).2.1 hex
    refine ⟨path, xp.set i (t.ex.done.map (·.1) ++ [.push () p]), ?_⟩
    rw [step_era_go hcur (m' := destroyAt s.shared p) (ex' := { t.ex with todo := [.push () p] }) (pc' := .push p q) rfl]
    refine h.destroy i t ht k p _ (.push p q) hcur ho hv (by simp [eheld]) rfl { t.ex with todo := [.push () p] } _
      ⟨rfl, hE, hn, ho⟩ ?_ ?_ rfl ?_ ?_ rfl ?_ rfl ?_ ?_ hpi
    · rw [hcur]; rfl
    · rw [hcur]; rfl
    · rw [hcur]; rfl
    · rw [hcur]; rfl
    · rw [hcur]; rfl
    · rw [hcur]
      have e1 : pre (.era k (.push p q) : Cur K V) = 0 := rfl
      have e2 : pre (.era k (.des p q) : Cur K V) = 1 := rfl
      rw [e1, e2]
      simp [remOps, hpc, hex, SlotConc.Op.isPush]
    · intro x hx op hop
      obtain ⟨p', hp', e'⟩ := SlotConc.prog_mem h.excess.v t.ex (List.mem_of_getElem? hxi)
      rcases mem_set_cases _ _ _ _ hx with rfl | ⟨j, -, hj⟩
      · rcases List.mem_append.1 hop with hop | hop
        · exact h.xpush p' hp' op (by rw [e']; exact List.mem_append_left _ hop)
        · simp at hop; rw [hop]; rfl
      · exact h.xpush x (List.mem_of_getElem? hj) op hop
  | push p q => exact h.eraPush ht hcur
  | unlock1 p q ok =>
    obtain ⟨hex, hE, ho⟩ := hk
    refine h.eraUnlock ht (.unlock2 q ok) p hcur rfl ⟨hex, hE.2.2.1, fun e => ⟨p, hE.2.1, ho e⟩⟩ rfl ?_ ?_ ?_ <;>
      cases ok <;> rfl
  | unlock2 q ok =>
    obtain ⟨hex, hq, ho⟩ := hk
    cases ok with
    | false =>
      exact h.eraUnlock ht (.f1 (.occ (bkt P E.t₀.bc k))) q hcur rfl ⟨hex, WalkK.start k⟩ rfl rfl rfl rfl
    | true => exact h.eraUnlockRet ht q hcur rfl hex rfl rfl rfl rfl (ho rfl)

/-- Every step. -/
theorem Inv.stepOK0 (h : Inv E path xp s) {i : Nat} {t : Thread K V} (ht : s.threads[i]? = some t) :
    StepOK E path s i t := by
  have hmem := List.mem_of_getElem? ht
  cases hcur : t.cur with
  | idle =>
    have hk := h.knows t hmem
    rw [hcur] at hk
    cases htodo : t.todo with
    | nil =>
      have e : step P s.shared t = (s.shared, t) := by simp only [step, hcur, htodo]
      refine ⟨path, xp, ?_⟩
      rw [e]
      simp only [set_self _ _ _ ht]
      exact ⟨h, Rely.ofSame ⟨rfl, rfl, rfl, rfl, rfl, rfl⟩ _⟩
    | cons op rest =>
      have e : step P s.shared t = (s.shared, { t with todo := rest, cur := begin P s.shared.tab op }) := by
        simp only [step, hcur, htodo]
      have hni : isInsert op = false := by
        have := h.prog i t ht
        obtain ⟨hlt, -⟩ := List.getElem?_eq_some_iff.1 this
        exact E.noInsert _ (List.mem_of_getElem? this) op (by rw [htodo]; simp)
      have hbk : ∀ k, bucket P s.shared.tab k = bkt P E.t₀.bc k := by intro k; rw [bucket_eq, h.g.bc]
      refine h.local ht s.shared { t with todo := rest, cur := begin P s.shared.tab op } ⟨rfl, rfl, rfl, rfl, rfl, rfl⟩ h.ub
        rfl rfl ?_ ?_ ?_ ?_ ?_ ?_ (fun e he => Or.inl he) e
      · cases op with
        | insert v => simp [isInsert] at hni
        | erase k =>
          refine ⟨hk, ?_⟩
          rw [hbk]; exact WalkK.start k
        | find k =>
          refine ⟨hk, ?_⟩
          rw [hbk]; exact WalkK.start k
      · rw [hcur, htodo]; cases op <;> simp [begin, Cur.ops]
      · intro x _
        simp only [heldN, hcur]
        cases op <;> rfl
      · rw [hcur]; cases op <;> rfl
      · rw [hcur]; cases op <;> rfl
      · rw [hcur]; cases op <;> rfl
  | ins v pc =>
    have hk := h.knows t hmem
    rw [hcur] at hk
    exact hk.elim
  | era k pc => exact h.stepEra ht hcur
  | fnd k W =>
    have hk := h.knows t hmem
    rw [hcur] at hk
    obtain ⟨hex, hW⟩ := hk
    rcases findStep_era h.g k W hW with ⟨W', st, e, hW', -, -⟩ | ⟨p, st, e, hH, -⟩ | ⟨e, hG⟩
    · refine h.local ht { s.shared with stale := st } { t with cur := .fnd k W' } ⟨rfl, rfl, rfl, rfl, rfl, rfl⟩ h.ub rfl rfl ⟨hex, hW'⟩ ?_ ?_ ?_ ?_ ?_ (fun e he => Or.inl he) (by simp only [step, hcur, e])
      · simp [hcur, Cur.ops]
      · intro x _; simp only [heldN, hcur]; rfl
      · rw [hcur]; rfl
      · rw [hcur]; rfl
      · rw [hcur]; rfl
    · refine h.local ht { s.shared with stale := st } { t with cur := .idle, done := t.done ++ [(.find k, .found p)] }
        ⟨rfl, rfl, rfl, rfl, rfl, rfl⟩ h.ub rfl rfl hex ?_ ?_ ?_ ?_ ?_ ?_ (by simp only [step, hcur, e])
      · simp [hcur, Cur.ops]
      · intro x _; simp only [heldN, hcur]; rfl
      · rw [hcur]; rfl
      · rw [hcur]; rfl
      · rw [hcur, List.filterMap_append]
        show _ ++ [] ++ [] = _ ++ []
        simp
      · intro r hr
        simp only [List.mem_append, List.mem_singleton] at hr
        rcases hr with hr | rfl
        · exact .inl hr
        · exact .inr hH
    · refine h.local ht s.shared { t with cur := .idle, done := t.done ++ [(.find k, .notFound)] }
        ⟨rfl, rfl, rfl, rfl, rfl, rfl⟩ h.ub rfl rfl hex ?_ ?_ ?_ ?_ ?_ ?_ (by simp only [step, hcur, e])
      · simp [hcur, Cur.ops]
      · intro x _; simp only [heldN, hcur]; rfl
      · rw [hcur]; rfl
      · rw [hcur]; rfl
      · rw [hcur, List.filterMap_append]
        show _ ++ [] ++ [] = _ ++ []
        simp
      · intro r hr
        simp only [List.mem_append, List.mem_singleton] at hr
        rcases hr with hr | rfl
        · exact .inl hr
        · exact .inr hG

theorem Inv.stepOK (h : Inv E path xp s) (_ : KeyLaws P) {i : Nat} {t : Thread K V} (ht : s.threads[i]? = some t) :
    StepOK E path s i t := h.stepOK0 ht

end
end Stdgpu.UnorderedConc.Er
