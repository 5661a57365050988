import Verif.Spec.LiveSize
import Verif.Proof.SlotVals
import Verif.Proof.UConc
import Verif.Proof.Counter
/-! Accounts of the size counters at every moment of an execution. -/
namespace Stdgpu.LiveSize
open Stdgpu.Conc Stdgpu.Spec

section Slots
open Stdgpu.SlotConc
variable {C K F α : Type}

/-- `+1` for pushes and `-1` for pops. -/
def sgn (b : Bool) : Int := if b then 1 else -1

def bit (b : Bool) : Int := if b then 1 else 0

theorem bit_nonneg (b : Bool) : 0 ≤ bit b := by unfold bit; split <;> omega

theorem bit_le (b : Bool) : bit b ≤ 1 := by unfold bit; split <;> omega

/-- A front end with a size counter `g`, which a call changes once; `past` are the program points after this. -/
structure Once (fr : Front C K F) (g : C → Int) (past : F → Bool) : Prop where
  start : past fr.start = false
  cont : ∀ c b k f c' f', fr.step c b k f = (c', .cont f') → g c' = g c + sgn b * (bit (past f') - bit (past f))
  go : ∀ c b k f c' p, fr.step c b k f = (c', .go p) → g c' = g c + sgn b * (1 - bit (past f))
  fail : ∀ c b k f c', fr.step c b k f = (c', .fail) → past f = false ∧ (g c' = g c ∨ g c' = g c + sgn b)

def pcPast (past : F → Bool) : PC F α → Bool
  | .front f => past f
  | .slot _ _ => true

def cur (past : F → Bool) (t : Thread K F α) : Int :=
  match t.todo with
  | [] => 0
  | op :: _ => sgn op.isPush * bit (pcPast past t.pc)

def failedB (b : Bool) : Op K α × Res α → Bool
  | (_, .pushFailed) => b
  | (_, .popFailed) => !b
  | _ => false

/-- Successful pushes minus successful pops of a thread, with the change of the current call. -/
def acc (past : F → Bool) (t : Thread K F α) : Int :=
  ((t.done.filterMap pushVal).length : Int) - (t.done.filterMap popVal).length + cur past t

def fails (b : Bool) (t : Thread K F α) : Int := t.done.countP (failedB b)

structure LInv (g : C → Int) (past : F → Bool) (c₀ : Int) (s : Sys (Mem C α) (Thread K F α)) : Prop where
  fit : ∀ t ∈ s.threads, ∀ p sp op rest, t.pc = .slot p sp → t.todo = op :: rest → sp.fits op
  lo : c₀ + (s.threads.map (acc past)).sum ≤ g s.shared.ctr + (s.threads.map (fails false)).sum
  hi : g s.shared.ctr ≤ c₀ + (s.threads.map (acc past)).sum + (s.threads.map (fails true)).sum

theorem fits_step (m : Slots α) (op : Op K α) (p : Nat) (sp sp' : SPC α) (h : sp.fits op)
    (e : (slotStep m op p sp).2 = .inl sp') : sp'.fits op := by
  cases sp with
  | tryLock => simp only [slotStep] at e; split at e <;> (try split at e) <;> simp at e <;> subst e <;> trivial
  | check =>
    cases op with
    | push k x =>
      simp only [slotStep] at e
      split at e <;> simp at e <;> subst e
      · rfl
      · trivial
    | pop k =>
      simp only [slotStep] at e
      split at e <;> simp at e <;> subst e
      · rfl
      · trivial
  | construct =>
    cases op with
    | push k x => simp [slotStep] at e; subst e; rfl
    | pop k => simp [SPC.fits, Op.isPush] at h
  | setOcc => simp [slotStep] at e; subst e; exact h
  | resetOcc => simp [slotStep] at e; subst e; exact h
  | take =>
    simp only [slotStep] at e
    split at e <;> simp at e <;> subst e <;> exact h
  | destroy v => simp [slotStep] at e; subst e; exact h
  | unlockRetry => simp [slotStep] at e; subst e; trivial
  | unlockDone r => simp [slotStep] at e

/-- The account of a step. -/
theorem acc_step {fr : Front C K F} {g : C → Int} {past : F → Bool} (ho : Once fr g past) (m : Mem C α) (t : Thread K F α)
    (hfit : ∀ p sp op rest, t.pc = .slot p sp → t.todo = op :: rest → sp.fits op) :
    (∀ p sp op rest, (step fr m t).2.pc = .slot p sp → (step fr m t).2.todo = op :: rest → sp.fits op) ∧
    acc past (step fr m t).2 - acc past t ≤
      g (step fr m t).1.ctr - g m.ctr + (fails false (step fr m t).2 - fails false t) ∧
    g (step fr m t).1.ctr - g m.ctr ≤
      acc past (step fr m t).2 - acc past t + (fails true (step fr m t).2 - fails true t) := by
  obtain ⟨todo, pc, done⟩ := t
  cases todo with
  | nil => exact ⟨hfit, by simp [step], by simp [step]⟩
  | cons op rest =>
    have hc0 : ∀ (l : List (Op K α)) d, cur past (⟨l, .front fr.start, d⟩ : Thread K F α) = 0 := by
      intro l d
      cases l <;> simp [cur, pcPast, ho.start, bit]
    cases pc with
    | front f =>
      rcases hr : fr.step m.ctr op.isPush op.kind f with ⟨c', out⟩
      cases out with
      | cont f' =>
        have hg := ho.cont _ _ _ _ _ _ hr
        have e : step fr m ⟨op :: rest, .front f, done⟩ = ({ m with ctr := c' }, ⟨op :: rest, .front f', done⟩) := by
          simp [step, hr]
        rw [e]
        refine ⟨fun p sp o r h => (nomatch h), ?_, ?_⟩ <;>
          simp only [acc, fails, cur, pcPast, hg, mul_sub] <;> omega
      | fail =>
        obtain ⟨h1, h2⟩ := ho.fail _ _ _ _ _ hr
        have e : step fr m ⟨op :: rest, .front f, done⟩ =
            ({ m with ctr := c' }, ⟨rest, .front fr.start, done ++ [(op, failRes op)]⟩) := by simp [step, hr]
        rw [e]
        have hc1 : cur past (⟨op :: rest, .front f, done⟩ : Thread K F α) = 0 := by simp [cur, pcPast, h1, bit]
        refine ⟨fun p sp o r h => (nomatch h), ?_, ?_⟩ <;>
          · simp only [acc, fails, hc0, hc1, List.filterMap_append, List.countP_append, List.length_append]
            cases op <;>
              simp [failRes, failedB, pushVal, popVal, sgn, Op.isPush, List.filterMap_cons] at h2 ⊢ <;> omega
      | go p =>
        have hg := ho.go _ _ _ _ _ _ hr
        have e : step fr m ⟨op :: rest, .front f, done⟩ = ({ m with ctr := c' }, ⟨op :: rest, .slot p .tryLock, done⟩) := by
          simp [step, hr]
        rw [e]
        refine ⟨?_, ?_, ?_⟩
        · intro p' sp o r h1 _
          cases h1; trivial
        all_goals
          simp only [acc, fails, cur, pcPast, hg, mul_sub, show bit true = 1 from rfl, mul_one]; omega
    | slot p sp =>
      rcases hr : slotStep m.slots op p sp with ⟨sl, out⟩
      cases out with
      | inl sp' =>
        have e : step fr m ⟨op :: rest, .slot p sp, done⟩ = ({ m with slots := sl }, ⟨op :: rest, .slot p sp', done⟩) := by
          simp [step, hr]
        rw [e]
        refine ⟨?_, ?_, ?_⟩
        · intro p' sp'' o r h1 h2
          cases h1; cases h2
          exact fits_step _ _ _ _ _ (hfit p sp op rest rfl rfl) (by rw [hr])
        all_goals simp [acc, fails, cur, pcPast]
      | inr r =>
        have e : step fr m ⟨op :: rest, .slot p sp, done⟩ =
            ({ m with slots := sl }, ⟨rest, .front fr.start, done ++ [(op, r)]⟩) := by simp [step, hr]
        rw [e]
        have h1 := SLin.slot_ret _ _ _ _ _ (show (slotStep m.slots op p sp).2 = .inr r by rw [hr])
        subst h1
        have h2 := hfit p _ op rest rfl rfl
        refine ⟨fun p sp o r h => (nomatch h), ?_, ?_⟩ <;>
          · simp only [acc, fails, hc0, List.filterMap_append, List.countP_append, List.length_append]
            cases op <;> cases r <;>
              simp [failedB, pushVal, popVal, cur, pcPast, bit, sgn, Op.isPush, SPC.fits, List.filterMap_cons] at h2 ⊢ <;> omega

theorem linv_step {fr : Front C K F} {g : C → Int} {past : F → Bool} (ho : Once fr g past) {c₀ : Int}
    (s : Sys (Mem C α) (Thread K F α)) (i : Nat) (t : Thread K F α) (h : LInv g past c₀ s) (ht : s.threads[i]? = some t) :
    LInv g past c₀ ⟨(step fr s.shared t).1, s.threads.set i (step fr s.shared t).2⟩ := by
  obtain ⟨a1, a2, a3⟩ := acc_step ho s.shared t (h.fit t (List.mem_of_getElem? ht))
  have s1 := sum_map_set (acc past) s.threads i t (step fr s.shared t).2 ht
  have s2 := sum_map_set (fails true) s.threads i t (step fr s.shared t).2 ht
  have s3 := sum_map_set (fails false) s.threads i t (step fr s.shared t).2 ht
  have hl := h.lo
  have hh := h.hi
  refine ⟨?_, by simp only; omega, by simp only; omega⟩
  intro u hu
  rcases mem_set_cases _ _ _ _ hu with rfl | ⟨j, -, hj⟩
  · exact a1
  · exact h.fit u (List.mem_of_getElem? hj)

theorem linv_run {fr : Front C K F} {g : C → Int} {past : F → Bool} (ho : Once fr g past) (m : Mem C α)
    (progs : List (List (Op K α))) (sched : List Nat) :
    LInv g past (g m.ctr) (run (step fr) (init fr m progs) sched) := by
  refine run_inv (f := step fr) (LInv g past (g m.ctr)) (fun s i t => linv_step ho s i t) _ ?_ sched
  refine ⟨?_, ?_, ?_⟩
  · intro t ht p sp op rest h
    obtain ⟨q, -, rfl⟩ := List.mem_map.1 ht
    cases h
  all_goals
    have : ∀ f : Thread K F α → Int, (∀ q, f ⟨q, .front fr.start, []⟩ = 0) → ((init fr m progs).threads.map f).sum = 0 := by
      intro f hf
      simp [init, List.map_map, Function.comp_def, hf]
    have e1 := this (acc past) (by intro q; cases q <;> simp [acc, cur, pcPast, ho.start, bit])
    have e2 := this (fails true) (by intro q; simp [fails])
    have e3 := this (fails false) (by intro q; simp [fails])
    have e4 : (init fr m progs).shared.ctr = m.ctr := rfl
    rw [e4]
    omega

theorem step_todo (fr : Front C K F) (m : Mem C α) (t : Thread K F α) : ∀ op ∈ (step fr m t).2.todo, op ∈ t.todo := by
  intro op h
  unfold step at h
  split at h
  · exact h
  · next o rest ht =>
    rw [ht]
    split at h
    · simp only at h
      split at h
      · simp only [ht] at h; exact h
      · exact List.mem_cons_of_mem _ h
      · simp only [ht] at h; exact h
    · simp only at h
      split at h
      · simp only [ht] at h; exact h
      · exact List.mem_cons_of_mem _ h

theorem mono_step {fr : Front C K F} {g : C → Int} {cap : Nat} {rmw : F → Bool} (hc : Counter32.Counted fr g cap rmw) (b : Bool)
    (m : Mem C α) (t : Thread K F α) (h : ∀ op ∈ t.todo, op.isPush = b) :
    if b then g m.ctr ≤ g (step fr m t).1.ctr else g (step fr m t).1.ctr ≤ g m.ctr := by
  have key : g (step fr m t).1.ctr = g m.ctr ∨ g (step fr m t).1.ctr = g m.ctr + (if b then 1 else -1) := by
    unfold step
    split
    · exact .inl rfl
    · next o rest ht =>
      have hb := h o (by rw [ht]; exact List.mem_cons_self)
      split
      · next f hf =>
        have : g (fr.step m.ctr o.isPush o.kind f).1 = g m.ctr ∨ g (fr.step m.ctr o.isPush o.kind f).1 = g m.ctr + (if b then 1 else -1) := by
          cases hr : rmw f with
          | false => exact .inl (hc.other _ _ _ _ hr)
          | true => right; rw [hc.change _ _ _ _ hr, hb]
        simp only
        split <;> exact this
      · simp only
        split <;> exact .inl rfl
  cases b <;> simp at key ⊢ <;> omega

/-- While there are only pushes (pops), the counter only grows (shrinks). -/
theorem mono_run {fr : Front C K F} {g : C → Int} {cap : Nat} {rmw : F → Bool} (hc : Counter32.Counted fr g cap rmw) (b : Bool)
    (s : Sys (Mem C α) (Thread K F α)) (h : ∀ t ∈ s.threads, ∀ op ∈ t.todo, op.isPush = b) (sched : List Nat) :
    (∀ t ∈ (run (step fr) s sched).threads, ∀ op ∈ t.todo, op.isPush = b) ∧
    if b then g s.shared.ctr ≤ g (run (step fr) s sched).shared.ctr else g (run (step fr) s sched).shared.ctr ≤ g s.shared.ctr := by
  refine run_inv (f := step fr) (fun s' => (∀ t ∈ s'.threads, ∀ op ∈ t.todo, op.isPush = b) ∧
    if b then g s.shared.ctr ≤ g s'.shared.ctr else g s'.shared.ctr ≤ g s.shared.ctr) ?_ s ⟨h, by cases b <;> simp⟩ sched
  intro s' i t ⟨h1, h2⟩ ht
  have ht' := List.mem_of_getElem? ht
  have h3 := mono_step hc b s'.shared t (h1 t ht')
  refine ⟨?_, by cases b <;> simp at h2 h3 ⊢ <;> omega⟩
  intro u hu
  rcases mem_set_cases _ _ _ _ hu with rfl | ⟨j, -, hj⟩
  · exact fun op ho => h1 t ht' op (step_todo _ _ _ _ ho)
  · exact h1 u (List.mem_of_getElem? hj)

theorem once_vfront (cap : Nat) : Once (Vector.vfront cap) id (fun _ => false) where
  start := rfl
  cont := by
    intro c b k f c' f' h
    cases f <;> cases b <;> simp only [Vector.vfront] at h <;> (try simp only [if_true, if_false, Bool.false_eq_true] at h) <;>
      split at h <;> cases h <;> simp [bit]
  go := by
    intro c b k f c' p h
    cases f <;> cases b <;> simp only [Vector.vfront] at h <;> (try simp only [if_true, if_false, Bool.false_eq_true] at h) <;>
      split at h <;> cases h <;> simp [bit, sgn] <;> omega
  fail := by
    intro c b k f c' h
    cases f <;> cases b <;> simp only [Vector.vfront] at h <;> (try simp only [if_true, if_false, Bool.false_eq_true] at h) <;>
      split at h <;> cases h <;> simp [sgn] <;> omega

theorem position_size (cap : Nat) (c : Deque.Ctr) (b : Bool) (k : Deque.Side) : (Deque.position cap c b k).2.size = c.size := by
  cases k <;> simp only [Deque.position] <;> split <;> rfl

theorem once_dfront (cap : Nat) : Once (Deque.dfront cap) (·.size) (fun f => decide (f = .pos)) where
  start := rfl
  cont := by
    intro c b k f c' f' h
    cases f <;> cases b <;> simp only [Deque.dfront] at h <;> (try simp only [if_true, if_false, Bool.false_eq_true] at h) <;>
      (try split at h) <;> cases h <;> simp [bit, sgn] <;> omega
  go := by
    intro c b k f c' p h
    cases f with
    | pos => simp only [Deque.dfront] at h; cases h; simp [bit, position_size]
    | _ =>
      cases b <;> simp only [Deque.dfront] at h <;> (try simp only [if_true, if_false, Bool.false_eq_true] at h) <;>
      split at h <;> cases h
  fail := by
    intro c b k f c' h
    cases f with
    | pos => simp only [Deque.dfront] at h; cases h
    | _ =>
      cases b <;> simp only [Deque.dfront] at h <;> (try simp only [if_true, if_false, Bool.false_eq_true] at h) <;>
      split at h <;> cases h <;> simp [sgn] <;> omega

end Slots

section Unordered
open Stdgpu.UnorderedConc Stdgpu.Unordered
variable {K V : Type}

theorem find_count (m : Shared V) (eq : V → Bool) (w : Walk) : (findStep m eq w).1.tab.count = m.tab.count := by
  cases w <;> simp only [findStep] <;> split <;> rfl

theorem end_count (m : Shared V) (w : Hop) : (endStep m w).1.tab.count = m.tab.count := by
  cases w <;> simp only [endStep] <;> split <;> rfl

theorem prev_count (m : Shared V) (e : Nat) (w : Hop) : (prevStep m e w).1.tab.count = m.tab.count := by
  cases w <;> simp only [prevStep] <;> split <;> rfl

/-- 1 at the program points of `insert` after the update of the counter. -/
def insC : IPC → Int
  | .setB | .set _ _ | .link _ _ | .unlock _ (some _) => 1
  | _ => 0

def insN : Next IPC (Option Nat) → Int
  | .go pc => insC pc
  | .ret (some _) => 1
  | .ret none => 0

def eraC : EPC → Int
  | .desB _ | .unlockB _ true | .des _ _ | .push _ _ | .unlock1 _ _ true | .unlock2 _ true => 1
  | _ => 0

def eraN : Next EPC Bool → Int
  | .go pc => eraC pc
  | .ret true => 1
  | .ret false => 0

theorem ins_count (m : Shared V) (v : V) (b : Nat) (eq : V → Bool) (ex : Ex) (pc : IPC) :
    (insStep m v b eq ex pc).1.tab.count = m.tab.count + insN (insStep m v b eq ex pc).2.2 - insC pc := by
  cases pc with
  | c1 w | c2 w =>
    have := find_count m eq w
    simp only [insStep]
    split <;> next h => rw [h] at this; simp only at this; simp [insN, insC, this]
  | e1 w | e2 e w =>
    have := end_count m w
    simp only [insStep]
    split <;> next h => rw [h] at this; simp only at this; simp [insN, insC, this]
  | c3 e e' w =>
    have := find_count m eq w
    simp only [insStep]
    split
    · next h => rw [h] at this; simp only at this; simp [insN, insC, this]
    · next h => rw [h] at this; simp only at this; simp [insN, insC, this]
    · next h => rw [h] at this; simp only at this; split <;> simp [insN, insC, this]
  | pop e =>
    simp only [insStep]
    split
    · split <;> simp [insN, insC, exStep]
    · simp [insN, insC, exStep]
  | unlock p r => cases r <;> simp [insStep, insN, insC, setLock]
  | full | exc | occ1 | lockB | occ2 | lockE e => simp only [insStep]; split <;> simp [insN, insC, setLock]
  | _ => simp [insStep, insN, insC, constructAt, addCount, setOcc, setOff]

theorem era_count (m : Shared V) (b : Nat) (eq : V → Bool) (ex : Ex) (pc : EPC) :
    (eraStep m b eq ex pc).1.tab.count = m.tab.count - eraN (eraStep m b eq ex pc).2.2 + eraC pc := by
  cases pc with
  | f1 w =>
    have := find_count m eq w
    simp only [eraStep]
    split
    · next h => rw [h] at this; simp only at this; simp [eraN, eraC, this]
    · next h => rw [h] at this; simp only at this; simp [eraN, eraC, this]
    · next h => rw [h] at this; simp only at this; split <;> simp [eraN, eraC, this]
  | f2 p w =>
    have := find_count m eq w
    simp only [eraStep]
    split
    · next h => rw [h] at this; simp only at this; simp [eraN, eraC, this]
    · next h => rw [h] at this; simp only at this; split <;> simp [eraN, eraC, this]
  | f3 p q w =>
    have := find_count m eq w
    simp only [eraStep]
    split <;> next h => rw [h] at this; simp only at this; simp [eraN, eraC, this]
  | p1 p w =>
    have := prev_count m p w
    simp only [eraStep]
    split <;> next h => rw [h] at this; simp only at this; simp [eraN, eraC, this]
  | p2 p q it w =>
    have := prev_count m p w
    simp only [eraStep]
    split
    · next h => rw [h] at this; simp only at this; simp [eraN, eraC, this]
    · next h => rw [h] at this; simp only at this; split <;> simp [eraN, eraC, this]
  | push p q => simp only [eraStep]; split <;> simp [eraN, eraC, exStep]
  | unlockB p ok => cases ok <;> simp [eraStep, eraN, eraC, setLock]
  | unlock1 p q ok => cases ok <;> simp [eraStep, eraN, eraC, setLock]
  | unlock2 q ok => cases ok <;> simp [eraStep, eraN, eraC, setLock]
  | lockB p => simp only [eraStep]; split <;> simp [eraN, eraC, setLock]
  | lock1 p q => simp only [eraStep]; split <;> simp [eraN, eraC, setLock]
  | lock2 p q => simp only [eraStep]; split <;> simp [eraN, eraC, setLock]
  | rd1 p q => simp only [eraStep]; split <;> simp [eraN, eraC]
  | cntB p => simp [eraStep, eraN, eraC, addCount]; omega
  | cnt p q => simp [eraStep, eraN, eraC, addCount]; omega
  | _ => simp [eraStep, eraN, eraC, destroyAt, setOcc, setOff, setLock]

def curI : Cur K V → Int
  | .ins _ pc => insC pc
  | _ => 0

def curE : Cur K V → Int
  | .era _ pc => eraC pc
  | _ => 0

/-- Insertions and erasures of a thread that have changed the counter. -/
def accI (t : Thread K V) : Int := ((t.done.filterMap insertedVal).length : Int) + curI t.cur

def accE (t : Thread K V) : Int := ((t.done.filterMap erasedKey).length : Int) + curE t.cur

theorem u_step (P : Params K V) (m : Shared V) (t : Thread K V) :
    (step P m t).1.tab.count = m.tab.count + (accI (step P m t).2 - accI t) - (accE (step P m t).2 - accE t) := by
  obtain ⟨todo, cur, ex, done⟩ := t
  cases cur with
  | idle =>
    cases todo with
    | nil => simp [step]
    | cons op rest => cases op <;> simp [step, begin, accI, accE, curI, curE, insC, eraC]
  | ins v pc =>
    have h := ins_count m v (bucket P m.tab (P.keyOf v)) (fun w => P.keyEq (P.keyOf w) (P.keyOf v)) ex pc
    simp only [step]
    split <;> next hr =>
      rw [hr] at h
      simp [accI, accE, curI, curE, insN, insertedVal, erasedKey, List.filterMap_append, List.filterMap_cons] at h ⊢
      omega
  | era k pc =>
    have h := era_count m (bucket P m.tab k) (fun w => P.keyEq (P.keyOf w) k) ex pc
    simp only [step]
    split
    · next hr =>
      rw [hr] at h
      simp [accI, accE, curI, curE, eraN] at h ⊢
      omega
    · next ok hr =>
      rw [hr] at h
      cases ok <;> simp [accI, accE, curI, curE, eraN, insertedVal, erasedKey, List.filterMap_append, List.filterMap_cons] at h ⊢ <;>
        omega
  | fnd k w =>
    have h := find_count m (fun w => P.keyEq (P.keyOf w) k) w
    simp only [step]
    split <;> next hr =>
      rw [hr] at h
      simp [accI, accE, curI, curE, insertedVal, erasedKey, List.filterMap_append, List.filterMap_cons] at h ⊢
      omega

/-- The account of the counter at every moment. -/
theorem u_run (P : Params K V) (t : Tab V) (progs : List (List (Op K V))) (sched : List Nat) :
    (uexec P t progs sched).shared.tab.count = t.count + ((uexec P t progs sched).threads.map accI).sum -
      ((uexec P t progs sched).threads.map accE).sum := by
  refine run_inv (f := step P) (fun s => s.shared.tab.count = t.count + (s.threads.map accI).sum - (s.threads.map accE).sum)
    ?_ _ ?_ sched
  · intro s i u h hu
    have h1 := u_step P s.shared u
    have s1 := sum_map_set accI s.threads i u (step P s.shared u).2 hu
    have s2 := sum_map_set accE s.threads i u (step P s.shared u).2 hu
    simp only
    omega
  · simp [init, List.map_map, Function.comp_def, accI, accE, curI, curE]

theorem insN_nonneg (nx : Next IPC (Option Nat)) : 0 ≤ insN nx := by
  cases nx with
  | go pc => simp only [insN]; unfold insC; split <;> omega
  | ret r => cases r <;> simp [insN]

theorem eraN_nonneg (nx : Next EPC Bool) : 0 ≤ eraN nx := by
  cases nx with
  | go pc => simp only [eraN]; unfold eraC; split <;> omega
  | ret r => cases r <;> simp [eraN]

theorem ins_mono (m : Shared V) (v : V) (b : Nat) (eq : V → Bool) (ex : Ex) (pc : IPC) :
    m.tab.count ≤ (insStep m v b eq ex pc).1.tab.count := by
  have h := ins_count m v b eq ex pc
  have hn := insN_nonneg (insStep m v b eq ex pc).2.2
  cases pc with
  | setB | set e n | link e n => simp [insStep, setOcc, setOff]
  | unlock p r => simp [insStep, setLock]
  | _ =>
    simp only [insC] at h
    omega

theorem era_mono (m : Shared V) (b : Nat) (eq : V → Bool) (ex : Ex) (pc : EPC) :
    (eraStep m b eq ex pc).1.tab.count ≤ m.tab.count := by
  have h := era_count m b eq ex pc
  have hn := eraN_nonneg (eraStep m b eq ex pc).2.2
  cases pc with
  | desB p | des p q => simp [eraStep, destroyAt]
  | unlockB p ok | unlock1 p q ok | unlock2 q ok => simp [eraStep, setLock]
  | push p q => simp [eraStep, exStep]
  | _ =>
    simp only [eraC] at h
    omega

/-- The thread makes no insertion (`b = false`) or no erasure (`b = true`) any more. -/
def Only (b : Bool) (t : Thread K V) : Prop :=
  (∀ op ∈ t.todo, match op with | .insert _ => b = true | .erase _ => b = false | .find _ => True) ∧
  match t.cur with | .ins _ _ => b = true | .era _ _ => b = false | _ => True

theorem only_step (P : Params K V) (b : Bool) (m : Shared V) (t : Thread K V) (h : Only b t) :
    Only b (step P m t).2 ∧
    if b then m.tab.count ≤ (step P m t).1.tab.count else (step P m t).1.tab.count ≤ m.tab.count := by
  obtain ⟨todo, cur, ex, done⟩ := t
  obtain ⟨h1, h2⟩ := h
  cases cur with
  | idle =>
    cases todo with
    | nil => exact ⟨⟨h1, h2⟩, by cases b <;> simp [step]⟩
    | cons op rest =>
      have h3 := h1 op List.mem_cons_self
      refine ⟨⟨fun o ho => h1 o (List.mem_cons_of_mem _ ho), ?_⟩, by cases b <;> simp [step]⟩
      cases op <;> simpa [step, begin] using h3
  | ins v pc =>
    have h := ins_mono m v (bucket P m.tab (P.keyOf v)) (fun w => P.keyEq (P.keyOf w) (P.keyOf v)) ex pc
    simp only at h2
    subst h2
    simp only [step]
    split <;> next hr => rw [hr] at h; exact ⟨⟨h1, by trivial⟩, h⟩
  | era k pc =>
    have h := era_mono m (bucket P m.tab k) (fun w => P.keyEq (P.keyOf w) k) ex pc
    simp only at h2
    subst h2
    simp only [step]
    split <;> next hr => rw [hr] at h; exact ⟨⟨h1, by trivial⟩, by simpa using h⟩
  | fnd k w =>
    have h := find_count m (fun w => P.keyEq (P.keyOf w) k) w
    simp only [step]
    split <;> next hr => rw [hr] at h; exact ⟨⟨h1, by trivial⟩, by simp only at h ⊢; cases b <;> simp [h]⟩

theorem only_run (P : Params K V) (b : Bool) (s : Sys (Shared V) (Thread K V)) (h : ∀ t ∈ s.threads, Only b t) (sched : List Nat) :
    (∀ t ∈ (run (step P) s sched).threads, Only b t) ∧
    if b then s.shared.tab.count ≤ (run (step P) s sched).shared.tab.count
    else (run (step P) s sched).shared.tab.count ≤ s.shared.tab.count := by
  refine run_inv (f := step P) (fun s' => (∀ t ∈ s'.threads, Only b t) ∧
    if b then s.shared.tab.count ≤ s'.shared.tab.count else s'.shared.tab.count ≤ s.shared.tab.count) ?_ s
    ⟨h, by cases b <;> simp⟩ sched
  intro s' i t ⟨h1, h2⟩ ht
  obtain ⟨h4, h3⟩ := only_step P b s'.shared t (h1 t (List.mem_of_getElem? ht))
  refine ⟨?_, by cases b <;> simp at h2 h3 ⊢ <;> omega⟩
  intro u hu
  rcases mem_set_cases _ _ _ _ hu with rfl | ⟨j, -, hj⟩
  · exact h4
  · exact h1 u (List.mem_of_getElem? hj)

end Unordered
end Stdgpu.LiveSize
