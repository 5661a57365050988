import Verif.Model.SlotConc
import Verif.Proof.Conc
import Mathlib.Algebra.Order.Group.Multiset
/-! Invariant of the locked-slot protocol, for every front end. -/
namespace Stdgpu.SlotConc
open Stdgpu.Conc

variable {C K F α : Type}

def optM : Option α → Multiset α
  | none => 0
  | some v => {v}

/-- All live objects in `[0,cap)`. -/
def contents (cap : Nat) (d : Nat → Option α) : Multiset α := ((List.range cap).map (fun p => optM (d p))).sum

theorem sum_range_congr {M : Type} [AddCommMonoid M] (cap : Nat) (f g : Nat → M) (h : ∀ p, p < cap → f p = g p) :
    ((List.range cap).map f).sum = ((List.range cap).map g).sum := by
  congr 1
  apply List.map_congr_left
  intro p hp
  exact h p (List.mem_range.1 hp)

theorem sum_range_upd {M : Type} [AddCommMonoid M] (cap : Nat) (f g : Nat → M) (p : Nat) (hp : p < cap)
    (h : ∀ q, q ≠ p → f q = g q) :
    ((List.range cap).map f).sum + g p = ((List.range cap).map g).sum + f p := by
  induction cap with
  | zero => omega
  | succ n ih =>
    rw [List.range_succ, List.map_append, List.map_append, List.sum_append, List.sum_append]
    simp only [List.map_cons, List.map_nil, List.sum_cons, List.sum_nil, add_zero]
    by_cases hpn : p = n
    · subst hpn
      have : ((List.range p).map f).sum = ((List.range p).map g).sum :=
        sum_range_congr _ _ _ (fun q hq => h q (by omega))
      rw [this, add_assoc, add_comm (f p), add_assoc]
    · have h1 := ih (by omega)
      have h2 := h n (fun e => hpn e.symm)
      rw [h2, add_assoc, add_comm (g n), ← add_assoc, h1, add_assoc, add_comm (f p), ← add_assoc]

theorem contents_upd (cap : Nat) (d : Nat → Option α) (p : Nat) (hp : p < cap) (v : Option α) :
    contents cap (upd d p v) + optM (d p) = contents cap d + optM v := by
  have := sum_range_upd cap (fun q => optM (upd d p v q)) (fun q => optM (d q)) p hp
    (by intro q hq; simp [upd, hq])
  simpa [contents, upd] using this

/-- The thread holds the lock of its slot. -/
def SPC.inCS : SPC α → Bool
  | .tryLock => false
  | _ => true

/-- The occupied bit has not been switched yet. -/
def SPC.pend : SPC α → Bool
  | .tryLock | .check | .construct | .setOcc | .resetOcc | .unlockRetry => true
  | _ => false

/-- The slot holds a live object although the occupied bit is clear. -/
def SPC.extra : SPC α → Bool
  | .setOcc | .take | .destroy _ => true
  | _ => false

def SPC.afterConstruct : SPC α → Bool
  | .setOcc | .unlockDone _ => true
  | _ => false

def holdsN (p : Nat) (t : Thread K F α) : Nat :=
  match t.pc with
  | .front _ => 0
  | .slot q s => if q = p ∧ s.inCS = true then 1 else 0

def pendN (b : Bool) (p : Nat) (t : Thread K F α) : Nat :=
  match t.todo, t.pc with
  | op :: _, .slot q s => if q = p ∧ s.pend = true ∧ op.isPush = b then 1 else 0
  | _, _ => 0

def extraN (p : Nat) (t : Thread K F α) : Nat :=
  match t.pc with
  | .front _ => 0
  | .slot q s => if q = p ∧ s.extra = true then 1 else 0

/-- Values of successful pushes. -/
def pushedOf : List (Op K α × Res α) → Multiset α
  | [] => 0
  | (.push _ x, .pushed) :: l => {x} + pushedOf l
  | _ :: l => pushedOf l

/-- Values returned by successful pops. -/
def poppedOf : List (Op K α × Res α) → Multiset α
  | [] => 0
  | (_, .popped v) :: l => {v} + poppedOf l
  | _ :: l => poppedOf l

theorem pushedOf_append (a b : List (Op K α × Res α)) : pushedOf (a ++ b) = pushedOf a + pushedOf b := by
  induction a with
  | nil => simp [pushedOf]
  | cons x a ih =>
    obtain ⟨op, r⟩ := x
    cases op <;> cases r <;> simp [pushedOf, ih, add_assoc]

theorem poppedOf_append (a b : List (Op K α × Res α)) : poppedOf (a ++ b) = poppedOf a + poppedOf b := by
  induction a with
  | nil => simp [poppedOf]
  | cons x a ih =>
    obtain ⟨op, r⟩ := x
    cases r <;> simp [poppedOf, ih, add_assoc]

def inM (t : Thread K F α) : Multiset α :=
  pushedOf t.done + match t.todo, t.pc with
    | .push _ x :: _, .slot _ s => if s.afterConstruct then {x} else 0
    | _, _ => 0

def outM (t : Thread K F α) : Multiset α :=
  poppedOf t.done + match t.pc with
    | .slot _ (.unlockDone (.popped v)) => {v}
    | _ => 0

/-- Program points that belong to an operation. -/
def SPC.fits : SPC α → Op K α → Prop
  | .tryLock, _ | .check, _ | .unlockRetry, _ => True
  | .construct, op | .setOcc, op | .unlockDone .pushed, op => op.isPush = true
  | .resetOcc, op | .take, op | .destroy _, op | .unlockDone (.popped _), op => op.isPush = false
  | .unlockDone _, _ => False

def resFits : Op K α × Res α → Prop
  | (.push _ _, .pushed) | (.push _ _, .pushFailed) | (.pop _, .popped _) | (.pop _, .popFailed) => True
  | _ => False

/-- What a lock holder knows about its slot. -/
def Knows (m : Slots α) (t : Thread K F α) : Prop :=
  match t.pc with
  | .slot p .construct | .slot p .setOcc | .slot p .take => m.occ p = false
  | .slot p (.destroy v) => m.occ p = false ∧ m.data p = some v
  | .slot p .resetOcc => m.occ p = true
  | _ => True

def TShape (cap : Nat) (start : F) (t : Thread K F α) : Prop :=
  (∀ p s, t.pc = .slot p s → p < cap ∧ ∃ op rest, t.todo = op :: rest ∧ s.fits op) ∧
  (t.todo = [] → t.pc = .front start) ∧
  (∀ e ∈ t.done, resFits e)

structure SInv (fr : Front C K F) (cap : Nat) (c₀ : Multiset α) (programs : List (List (Op K α)))
    (tick : Nat → Int) (s : Sys (Mem C α) (Thread K F α)) : Prop where
  hcap : s.shared.slots.cap = cap
  err : s.shared.slots.err = false
  prog : ∀ (i : Nat) (t : Thread K F α), s.threads[i]? = some t → programs[i]? = some (t.done.map (·.1) ++ t.todo)
  len : s.threads.length = programs.length
  shape : ∀ t ∈ s.threads, TShape cap fr.start t
  knows : ∀ t ∈ s.threads, Knows s.shared.slots t
  locks : ∀ p, p < cap → (s.threads.map (holdsN p)).sum = (s.shared.slots.locks p).toNat
  ticks : ∀ p, p < cap → ((s.shared.slots.occ p).toNat : Int) + ((s.threads.map (pendN true p)).sum : Int) -
    ((s.threads.map (pendN false p)).sum : Int) = tick p
  live : ∀ p, p < cap → (s.shared.slots.data p).isSome.toNat =
    (s.shared.slots.occ p).toNat + (s.threads.map (extraN p)).sum
  cons : c₀ + (s.threads.map inM).sum = contents cap s.shared.slots.data + (s.threads.map outM).sum

theorem extra_le_holds (p : Nat) (t : Thread K F α) : extraN p t ≤ holdsN p t := by
  unfold extraN holdsN
  split
  · simp
  · rename_i q s _
    cases s <;> simp [SPC.extra, SPC.inCS]

theorem knows_front (m m' : Slots α) (t : Thread K F α)
    (h : ∀ p, 0 < holdsN p t → m'.occ p = m.occ p ∧ m'.data p = m.data p) (hk : Knows m t) : Knows m' t := by
  obtain ⟨todo, pc, done⟩ := t
  cases pc with
  | front f => trivial
  | slot p s =>
    cases s <;> simp only [Knows] at * <;> try trivial
    all_goals (have := h p (by simp [holdsN, SPC.inCS]); rw [this.1])
    · exact hk
    · exact hk
    · exact hk
    · exact hk
    · rw [this.2]; exact hk

/-- Rebuilding the invariant after a change of one thread. -/
theorem rebuild {fr : Front C K F} {cap : Nat} {c₀ : Multiset α} {programs : List (List (Op K α))}
    {tick tick' : Nat → Int} {s : Sys (Mem C α) (Thread K F α)} (h : SInv fr cap c₀ programs tick s)
    (i : Nat) (t t' : Thread K F α) (ht : s.threads[i]? = some t) (m' : Mem C α)
    (h1 : m'.slots.cap = cap) (h2 : m'.slots.err = false)
    (h3 : t'.done.map (·.1) ++ t'.todo = t.done.map (·.1) ++ t.todo)
    (h4 : TShape cap fr.start t') (h5 : Knows m'.slots t')
    (h6 : ∀ q, q < cap → (m'.slots.occ q = s.shared.slots.occ q ∧ m'.slots.data q = s.shared.slots.data q) ∨
      0 < holdsN q t)
    (h7 : ∀ q, q < cap → holdsN q t' + (s.shared.slots.locks q).toNat = holdsN q t + (m'.slots.locks q).toNat)
    (h8 : ∀ q, q < cap → ((m'.slots.occ q).toNat : Int) + pendN true q t' - pendN false q t' - tick' q =
      (s.shared.slots.occ q).toNat + pendN true q t - pendN false q t - tick q)
    (h9 : ∀ q, q < cap → (m'.slots.data q).isSome.toNat + extraN q t + (s.shared.slots.occ q).toNat =
      (s.shared.slots.data q).isSome.toNat + extraN q t' + (m'.slots.occ q).toNat)
    (h10 : contents cap m'.slots.data + outM t' + inM t = contents cap s.shared.slots.data + outM t + inM t') :
    SInv fr cap c₀ programs tick' ⟨m', s.threads.set i t'⟩ := by
  have hmem := List.mem_of_getElem? ht
  refine ⟨h1, h2, ?_, by simpa using h.len, ?_, ?_, ?_, ?_, ?_, ?_⟩
  · intro j x hx
    rcases getElem?_set_cases _ _ _ _ _ hx with ⟨rfl, rfl⟩ | ⟨hj, hx⟩
    · rw [h3]; exact h.prog _ _ ht
    · exact h.prog _ _ hx
  · intro x hx
    rcases mem_set_cases _ _ _ _ hx with rfl | ⟨j, hj, hx⟩
    · exact h4
    · exact h.shape x (List.mem_of_getElem? hx)
  · intro x hx
    rcases mem_set_cases _ _ _ _ hx with rfl | ⟨j, hj, hx⟩
    · exact h5
    · have hxm := List.mem_of_getElem? hx
      refine knows_front s.shared.slots _ x ?_ (h.knows x hxm)
      intro p hp
      have hpc : p < cap := by
        have := (h.shape x hxm).1
        unfold holdsN at hp
        split at hp
        · omega
        · rename_i q sp e
          split at hp
          · rename_i hq; obtain ⟨rfl, -⟩ := hq; exact (this q sp e).1
          · omega
      rcases h6 p hpc with h6 | h6
      · exact h6
      · exfalso
        have a := add_le_sum_map (holdsN p) s.threads i j t x (fun e => hj e.symm) ht hx
        have b := h.locks p hpc
        have c := Bool.toNat_le (s.shared.slots.locks p)
        omega
  · intro p hp
    have a := sum_map_set (holdsN p) s.threads i t t' ht
    have b := h.locks p hp
    have c := h7 p hp
    simp only at *
    omega
  · intro p hp
    have a := sum_map_set (pendN true p) s.threads i t t' ht
    have a' := sum_map_set (pendN false p) s.threads i t t' ht
    have b := h.ticks p hp
    have c := h8 p hp
    simp only at *
    omega
  · intro p hp
    have a := sum_map_set (extraN p) s.threads i t t' ht
    have b := h.live p hp
    have c := h9 p hp
    simp only at *
    omega
  · have a := sum_map_set inM s.threads i t t' ht
    have b := sum_map_set outM s.threads i t t' ht
    have c := h.cons
    simp only at *
    generalize ((s.threads.set i t').map inM).sum = I' at *
    generalize ((s.threads.set i t').map outM).sum = O' at *
    generalize (s.threads.map inM).sum = I at *
    generalize (s.threads.map outM).sum = O at *
    generalize contents cap m'.slots.data = D' at *
    generalize contents cap s.shared.slots.data = D at *
    generalize inM t = it at *
    generalize inM t' = it' at *
    generalize outM t = ot at *
    generalize outM t' = ot' at *
    -- c₀ + I = D + O, I' + it = I + it', O' + ot = O + ot', D' + ot' + it = D + ot + it'
    have e : (c₀ + I') + (it + ot) = (D' + O') + (it + ot) := by
      calc (c₀ + I') + (it + ot) = c₀ + (I' + it) + ot := by simp only [add_assoc]
        _ = (c₀ + I) + it' + ot := by rw [a]; simp only [add_assoc]
        _ = (D + O) + it' + ot := by rw [c]
        _ = (D + ot + it') + O := by ac_rfl
        _ = (D' + ot' + it) + O := by rw [h10]
        _ = D' + (O + ot') + it := by ac_rfl
        _ = D' + (O' + ot) + it := by rw [b]
        _ = (D' + O') + (it + ot) := by ac_rfl
    exact add_right_cancel e


/-- Sum of extras when one thread is known to hold the lock. -/
theorem extra_sum_of_holder {fr : Front C K F} {cap : Nat} {c₀ : Multiset α} {programs : List (List (Op K α))}
    {tick : Nat → Int} {s : Sys (Mem C α) (Thread K F α)} (h : SInv fr cap c₀ programs tick s)
    (t : Thread K F α) (ht : t ∈ s.threads) (p : Nat) (hp : p < cap) (hh : holdsN p t = 1) :
    (s.threads.map (extraN p)).sum = extraN p t := by
  have hge := le_sum_map (extraN p) s.threads t ht
  have hsplit : (s.threads.map (extraN p)).sum + (s.threads.map (fun t => holdsN p t - extraN p t)).sum =
      (s.threads.map (holdsN p)).sum := by
    generalize s.threads = l
    induction l with
    | nil => rfl
    | cons a l ih =>
      simp only [List.map_cons, List.sum_cons]
      have := extra_le_holds p a
      omega
  have hg := le_sum_map (fun t => holdsN p t - extraN p t) s.threads t ht
  have b := h.locks p hp
  have c := Bool.toNat_le (s.shared.slots.locks p)
  have d := extra_le_holds p t
  omega

theorem slot_step {fr : Front C K F} {cap : Nat} {c₀ : Multiset α} {programs : List (List (Op K α))}
    {tick : Nat → Int} {s : Sys (Mem C α) (Thread K F α)} (h : SInv fr cap c₀ programs tick s)
    (i : Nat) (t : Thread K F α) (ht : s.threads[i]? = some t) (p : Nat) (sp : SPC α) (hpc : t.pc = .slot p sp) :
    SInv fr cap c₀ programs tick ⟨(step fr s.shared t).1, s.threads.set i (step fr s.shared t).2⟩ := by
  have hmem := List.mem_of_getElem? ht
  obtain ⟨hp, op, rest, htodo, hfit⟩ := (h.shape t hmem).1 p sp hpc
  have hdone := (h.shape t hmem).2.2
  have hknow := h.knows t hmem
  have hlive := h.live p hp
  have hextra := fun hh => extra_sum_of_holder h t hmem p hp hh
  have hcapm := h.hcap
  have herr := h.err
  obtain ⟨todo, pc, done⟩ := t
  simp only at hpc htodo
  subst hpc; subst htodo
  -- the shape of the thread when it stays in the loop
  have shapeStay : ∀ s' : SPC α, s'.fits op → TShape (K := K) cap fr.start ⟨op :: rest, .slot p s', done⟩ := by
    intro s' hf
    refine ⟨?_, by simp, hdone⟩
    intro p' s'' e
    simp only [PC.slot.injEq] at e
    obtain ⟨rfl, rfl⟩ := e
    exact ⟨hp, op, rest, rfl, hf⟩
  have hlk : ∀ s' : SPC α, s'.inCS = true →
      (⟨op :: rest, .slot p s', done⟩ : Thread K F α) ∈ s.threads → s.shared.slots.locks p = true := by
    intro s' hs' hm
    have a := le_sum_map (holdsN p) s.threads _ hm
    have b := h.locks p hp
    have : holdsN p (⟨op :: rest, .slot p s', done⟩ : Thread K F α) = 1 := by simp [holdsN, hs']
    rw [this] at a
    cases hl : s.shared.slots.locks p
    · rw [hl] at b; simp at b; omega
    · rfl
  cases sp with
  | tryLock =>
    simp only [step, slotStep]
    rw [if_neg (by omega)]
    cases hl : s.shared.slots.locks p
    rotate_left
    · simp only [if_true]
      rw [set_self _ _ _ ht]; exact h
    · simp only [Bool.false_eq_true, if_false]
      refine rebuild h i _ _ ht _ hcapm herr rfl (shapeStay _ trivial) trivial ?_ ?_ ?_ ?_ ?_
      · intro q hq; exact Or.inl ⟨rfl, rfl⟩
      · intro q hq
        by_cases hqp : q = p
        · subst hqp; simp [holdsN, SPC.inCS, upd, hl]
        · have : ¬ p = q := fun e => hqp e.symm
          simp [holdsN, upd, hqp, this]
      · intro q hq; simp [pendN, SPC.pend]
      · intro q hq; simp [extraN, SPC.extra]
      · cases op <;> simp [inM, outM, SPC.afterConstruct]
  | check =>
    cases op with
    | push k x =>
      simp only [step, slotStep]
      cases ho : s.shared.slots.occ p
      · simp only [Bool.not_false, if_true]
        refine rebuild h i _ _ ht _ hcapm herr rfl (shapeStay _ rfl) ho ?_ ?_ ?_ ?_ ?_
        · intro q hq; exact Or.inl ⟨rfl, rfl⟩
        · intro q hq; simp [holdsN, SPC.inCS]
        · intro q hq; simp [pendN, SPC.pend]
        · intro q hq; simp [extraN, SPC.extra]
        · simp [inM, outM, SPC.afterConstruct]
      · simp only [Bool.not_true, Bool.false_eq_true, if_false]
        refine rebuild h i _ _ ht _ hcapm herr rfl (shapeStay _ trivial) trivial ?_ ?_ ?_ ?_ ?_
        · intro q hq; exact Or.inl ⟨rfl, rfl⟩
        · intro q hq; simp [holdsN, SPC.inCS]
        · intro q hq; simp [pendN, SPC.pend]
        · intro q hq; simp [extraN, SPC.extra]
        · simp [inM, outM, SPC.afterConstruct]
    | pop k =>
      simp only [step, slotStep]
      cases ho : s.shared.slots.occ p
      · simp only [Bool.false_eq_true, if_false]
        refine rebuild h i _ _ ht _ hcapm herr rfl (shapeStay _ trivial) trivial ?_ ?_ ?_ ?_ ?_
        · intro q hq; exact Or.inl ⟨rfl, rfl⟩
        · intro q hq; simp [holdsN, SPC.inCS]
        · intro q hq; simp [pendN, SPC.pend]
        · intro q hq; simp [extraN, SPC.extra]
        · simp [inM, outM]
      · simp only [if_true]
        refine rebuild h i _ _ ht _ hcapm herr rfl (shapeStay _ rfl) ho ?_ ?_ ?_ ?_ ?_
        · intro q hq; exact Or.inl ⟨rfl, rfl⟩
        · intro q hq; simp [holdsN, SPC.inCS]
        · intro q hq; simp [pendN, SPC.pend]
        · intro q hq; simp [extraN, SPC.extra]
        · simp [inM, outM]
  | construct =>
    cases op with
    | pop k => simp [SPC.fits, Op.isPush] at hfit
    | push k x =>
      have ho : s.shared.slots.occ p = false := hknow
      have hd : s.shared.slots.data p = none := by
        have := hextra (by simp [holdsN, SPC.inCS])
        rw [this, ho] at hlive
        simp [extraN, SPC.extra] at hlive
        exact hlive
      simp only [step, slotStep]
      refine rebuild h i _ _ ht _ hcapm (by simp [herr, hd]) rfl (shapeStay _ rfl) ho ?_ ?_ ?_ ?_ ?_
      · intro q hq
        by_cases hqp : q = p
        · right; simp [holdsN, hqp, SPC.inCS]
        · left; simp [upd, hqp]
      · intro q hq; simp [holdsN, SPC.inCS]
      · intro q hq; simp [pendN, SPC.pend]
      · intro q hq
        by_cases hqp : q = p
        · subst hqp; simp [extraN, SPC.extra, upd, hd]
        · have : ¬ p = q := fun e => hqp e.symm
          simp [extraN, upd, hqp, this]
      · have := contents_upd cap s.shared.slots.data p hp (some x)
        rw [hd] at this
        simp only [optM, add_zero] at this
        simp only [this, outM, inM, SPC.afterConstruct]
        simp; ac_rfl
  | setOcc =>
    cases op with
    | pop k => simp [SPC.fits, Op.isPush] at hfit
    | push k x =>
      have ho : s.shared.slots.occ p = false := hknow
      simp only [step, slotStep]
      refine rebuild h i _ _ ht _ hcapm herr rfl (shapeStay _ rfl) trivial ?_ ?_ ?_ ?_ ?_
      · intro q hq
        by_cases hqp : q = p
        · right; simp [holdsN, hqp, SPC.inCS]
        · left; simp [upd, hqp]
      · intro q hq; simp [holdsN, SPC.inCS]
      · intro q hq
        by_cases hqp : q = p
        · subst hqp; simp [pendN, SPC.pend, upd, ho, Op.isPush]
        · have : ¬ p = q := fun e => hqp e.symm
          simp [pendN, upd, hqp, this]
      · intro q hq
        by_cases hqp : q = p
        · subst hqp; simp [extraN, SPC.extra, upd, ho]
        · have : ¬ p = q := fun e => hqp e.symm
          simp [extraN, upd, hqp, this]
      · simp [outM, inM, SPC.afterConstruct]
  | resetOcc =>
    cases op with
    | push k x => simp [SPC.fits, Op.isPush] at hfit
    | pop k =>
      have ho : s.shared.slots.occ p = true := hknow
      simp only [step, slotStep]
      refine rebuild h i _ _ ht _ hcapm herr rfl (shapeStay _ rfl) (by simp [Knows, upd]) ?_ ?_ ?_ ?_ ?_
      · intro q hq
        by_cases hqp : q = p
        · right; simp [holdsN, hqp, SPC.inCS]
        · left; simp [upd, hqp]
      · intro q hq; simp [holdsN, SPC.inCS]
      · intro q hq
        by_cases hqp : q = p
        · subst hqp; simp [pendN, SPC.pend, upd, ho, Op.isPush]
        · have : ¬ p = q := fun e => hqp e.symm
          simp [pendN, upd, hqp, this]
      · intro q hq
        by_cases hqp : q = p
        · subst hqp; simp [extraN, SPC.extra, upd, ho]
        · have : ¬ p = q := fun e => hqp e.symm
          simp [extraN, upd, hqp, this]
      · simp [outM, inM]
  | take =>
    cases op with
    | push k x => simp [SPC.fits, Op.isPush] at hfit
    | pop k =>
      have ho : s.shared.slots.occ p = false := hknow
      have hd : ∃ v, s.shared.slots.data p = some v := by
        have := hextra (by simp [holdsN, SPC.inCS])
        rw [this, ho] at hlive
        simp [extraN, SPC.extra] at hlive
        cases hdd : s.shared.slots.data p with
        | none => rw [hdd] at hlive; simp at hlive
        | some v => exact ⟨v, rfl⟩
      obtain ⟨v, hd⟩ := hd
      simp only [step, slotStep, hd]
      refine rebuild h i _ _ ht _ hcapm herr rfl (shapeStay _ rfl) ⟨ho, hd⟩ ?_ ?_ ?_ ?_ ?_
      · intro q hq; exact Or.inl ⟨rfl, rfl⟩
      · intro q hq; simp [holdsN, SPC.inCS]
      · intro q hq; simp [pendN, SPC.pend]
      · intro q hq; simp [extraN, SPC.extra]
      · simp [outM, inM]
  | destroy v =>
    cases op with
    | push k x => simp [SPC.fits, Op.isPush] at hfit
    | pop k =>
      obtain ⟨ho, hd⟩ := hknow

      simp only [step, slotStep]
      refine rebuild h i _ _ ht _ hcapm (by simp [herr, hd]) rfl (shapeStay _ rfl) trivial ?_ ?_ ?_ ?_ ?_
      · intro q hq
        by_cases hqp : q = p
        · right; simp [holdsN, hqp, SPC.inCS]
        · left; simp [upd, hqp]
      · intro q hq; simp [holdsN, SPC.inCS]
      · intro q hq; simp [pendN, SPC.pend]
      · intro q hq
        by_cases hqp : q = p
        · subst hqp; simp [extraN, SPC.extra, upd, hd]
        · have : ¬ p = q := fun e => hqp e.symm
          simp [extraN, upd, hqp, this]
      · have := contents_upd cap s.shared.slots.data p hp none
        rw [hd] at this
        simp only [optM, add_zero] at this
        simp only [← this, outM, inM]
        ac_rfl
  | unlockRetry =>
    have hl := hlk _ rfl hmem
    simp only [step, slotStep]
    refine rebuild h i _ _ ht _ hcapm herr rfl (shapeStay _ trivial) trivial ?_ ?_ ?_ ?_ ?_
    · intro q hq; exact Or.inl ⟨rfl, rfl⟩
    · intro q hq
      by_cases hqp : q = p
      · subst hqp; simp [holdsN, SPC.inCS, upd, hl]
      · have : ¬ p = q := fun e => hqp e.symm
        simp [holdsN, upd, hqp, this]
    · intro q hq; simp [pendN, SPC.pend]
    · intro q hq; simp [extraN, SPC.extra]
    · cases op <;> simp [inM, outM, SPC.afterConstruct]
  | unlockDone r =>
    have hl := hlk _ rfl hmem
    simp only [step, slotStep]
    refine rebuild h i _ _ ht _ hcapm herr (by simp) ?_ trivial ?_ ?_ ?_ ?_ ?_
    · refine ⟨by simp, by simp, ?_⟩
      intro e he
      simp only [List.mem_append, List.mem_singleton] at he
      rcases he with he | rfl
      · exact hdone e he
      · cases r <;> cases op <;> simp [SPC.fits, Op.isPush] at hfit <;> trivial
    · intro q hq; exact Or.inl ⟨rfl, rfl⟩
    · intro q hq
      by_cases hqp : q = p
      · subst hqp; simp [holdsN, SPC.inCS, upd, hl]
      · have : ¬ p = q := fun e => hqp e.symm
        simp [holdsN, upd, hqp, this]
    · intro q hq; cases rest <;> simp [pendN, SPC.pend]
    · intro q hq; simp [extraN, SPC.extra]
    · cases r <;> cases op <;> simp [SPC.fits, Op.isPush] at hfit <;> cases rest <;>
        simp [inM, outM, SPC.afterConstruct, pushedOf_append, poppedOf_append, pushedOf, poppedOf]

theorem front_step {fr : Front C K F} {cap : Nat} {c₀ : Multiset α} {programs : List (List (Op K α))}
    {tick tick' : Nat → Int} {s : Sys (Mem C α) (Thread K F α)} (h : SInv fr cap c₀ programs tick s)
    (i : Nat) (t : Thread K F α) (ht : s.threads[i]? = some t) (f : F) (hpc : t.pc = .front f)
    (op : Op K α) (rest : List (Op K α)) (htodo : t.todo = op :: rest)
    (hout : match (fr.step s.shared.ctr op.isPush op.kind f).2 with
      | .go p => p < cap ∧ ∀ q, q < cap → tick' q = tick q + (if q = p then (if op.isPush then 1 else -1) else 0)
      | _ => ∀ q, q < cap → tick' q = tick q) :
    SInv fr cap c₀ programs tick' ⟨(step fr s.shared t).1, s.threads.set i (step fr s.shared t).2⟩ := by
  have hmem := List.mem_of_getElem? ht
  have hdone := (h.shape t hmem).2.2
  obtain ⟨todo, pc, done⟩ := t
  simp only at hpc htodo
  subst hpc; subst htodo
  simp only [step]
  split
  · rename_i f' e
    rw [e] at hout
    refine rebuild h i _ _ ht _ h.hcap h.err rfl ⟨by simp, by simp, hdone⟩ trivial ?_ ?_ ?_ ?_ ?_
    · intro q hq; exact Or.inl ⟨rfl, rfl⟩
    · intro q hq; simp [holdsN]
    · intro q hq; simp [pendN, hout q hq]
    · intro q hq; simp [extraN]
    · cases op <;> simp [inM, outM]
  · rename_i e
    rw [e] at hout
    refine rebuild h i _ _ ht _ h.hcap h.err (by simp) ?_ trivial ?_ ?_ ?_ ?_ ?_
    · refine ⟨by simp, by simp, ?_⟩
      intro e he
      simp only [List.mem_append, List.mem_singleton] at he
      rcases he with he | rfl
      · exact hdone e he
      · cases op <;> trivial
    · intro q hq; exact Or.inl ⟨rfl, rfl⟩
    · intro q hq; simp [holdsN]
    · intro q hq; cases rest <;> simp [pendN, hout q hq]
    · intro q hq; simp [extraN]
    · cases op <;> cases rest <;>
        simp [inM, outM, failRes, pushedOf_append, poppedOf_append, pushedOf, poppedOf]
  · rename_i p e
    rw [e] at hout
    refine rebuild h i _ _ ht _ h.hcap h.err rfl ?_ trivial ?_ ?_ ?_ ?_ ?_
    · refine ⟨?_, by simp, hdone⟩
      intro p' s'' e
      simp only [PC.slot.injEq] at e
      obtain ⟨rfl, rfl⟩ := e
      exact ⟨hout.1, op, rest, rfl, trivial⟩
    · intro q hq; exact Or.inl ⟨rfl, rfl⟩
    · intro q hq; simp [holdsN, SPC.inCS]
    · intro q hq
      have := hout.2 q hq
      by_cases hqp : q = p
      · subst hqp
        cases hpush : op.isPush <;> simp [pendN, SPC.pend, hpush, this] <;> omega
      · have hn : ¬ p = q := fun e => hqp e.symm
        simp [pendN, this, hqp, hn]
    · intro q hq; simp [extraN, SPC.extra]
    · cases op <;> simp [inM, outM, SPC.afterConstruct]

theorem done_step {fr : Front C K F} {s : Sys (Mem C α) (Thread K F α)}
    (i : Nat) (t : Thread K F α) (ht : s.threads[i]? = some t) (htodo : t.todo = []) :
    (⟨(step fr s.shared t).1, s.threads.set i (step fr s.shared t).2⟩ : Sys (Mem C α) (Thread K F α)) = s := by
  have : step fr s.shared t = (s.shared, t) := by simp [step, htodo]
  rw [this, set_self _ _ _ ht]

theorem sinv_init {fr : Front C K F} {cap : Nat} {tick : Nat → Int} (m : Mem C α)
    (programs : List (List (Op K α))) (hcap : m.slots.cap = cap) (herr : m.slots.err = false)
    (hl : ∀ p, p < cap → m.slots.locks p = false)
    (hd : ∀ p, p < cap → (m.slots.data p).isSome = m.slots.occ p)
    (ht : ∀ p, p < cap → tick p = (m.slots.occ p).toNat) :
    SInv fr cap (contents cap m.slots.data) programs tick (init fr m programs) := by
  have hth : ∀ t ∈ (init fr m programs).threads, ∃ p ∈ programs, t = ⟨p, .front fr.start, []⟩ := by
    intro t ht
    simp [init] at ht
    obtain ⟨p, hp, rfl⟩ := ht
    exact ⟨p, hp, rfl⟩
  have zero : ∀ g : Thread K F α → Nat, (∀ p, g ⟨p, .front fr.start, []⟩ = 0) →
      ((init fr m programs).threads.map g).sum = 0 := by
    intro g hg
    rw [sum_map_eq_zero]
    intro t ht; obtain ⟨p, hp, rfl⟩ := hth t ht; exact hg p
  have zeroM : ∀ g : Thread K F α → Multiset α, (∀ p, g ⟨p, .front fr.start, []⟩ = 0) →
      ((init fr m programs).threads.map g).sum = 0 := by
    intro g hg
    simp only [init, List.map_map, Function.comp_def, hg]
    induction programs with
    | nil => rfl
    | cons a l ih => simp
  refine ⟨hcap, herr, ?_, by simp [init], ?_, ?_, ?_, ?_, ?_, ?_⟩
  · intro i t h
    simp [init] at h
    obtain ⟨p, hp, rfl⟩ := h
    simpa using hp
  · intro t ht; obtain ⟨p, hp, rfl⟩ := hth t ht; exact ⟨by simp, by simp, by simp⟩
  · intro t ht; obtain ⟨p, hp, rfl⟩ := hth t ht; trivial
  · intro p hp; rw [zero _ (fun _ => rfl)]; simp [init, hl p hp]
  · intro p hp
    rw [zero (pendN true p) (fun q => by cases q <;> rfl), zero (pendN false p) (fun q => by cases q <;> rfl), ht p hp]
    simp [init]
  · intro p hp; rw [zero _ (fun _ => rfl)]; simp [init, hd p hp]
  · rw [zeroM inM (fun q => by cases q <;> simp [inM, pushedOf]), zeroM outM (fun q => by simp [outM, poppedOf])]
    simp [init]


/-! ### Progress -/

def csN (t : Thread K F α) : Nat :=
  match t.pc with
  | .front _ | .slot _ .tryLock => 0
  | .slot _ .check => 6
  | .slot _ .construct | .slot _ .take => 3
  | .slot _ .setOcc | .slot _ (.destroy _) => 2
  | .slot _ .resetOcc => 4
  | .slot _ .unlockRetry | .slot _ (.unlockDone _) => 1

def pcWork (φ : F → Nat) : PC F α → Nat
  | .front f => φ f + 3
  | .slot _ .tryLock | .slot _ .check | .slot _ .unlockRetry => 2
  | .slot _ _ => 1

def work (φ : F → Nat) (start : F) (t : Thread K F α) : Nat :=
  match t.todo with
  | [] => 0
  | _ :: rest => rest.length * (φ start + 3) + pcWork φ t.pc

theorem work_next (φ : F → Nat) (start : F) (rest : List (Op K α)) (d : List (Op K α × Res α)) :
    work φ start ⟨rest, .front start, d⟩ = rest.length * (φ start + 3) := by
  cases rest with
  | nil => simp [work]
  | cons a l => simp [work, pcWork, Nat.add_mul]

theorem pcWork_pos (φ : F → Nat) (pc : PC F α) : 0 < pcWork φ pc := by
  cases pc with
  | front f => simp [pcWork]
  | slot p s => cases s <;> simp [pcWork]

def totalWork (φ : F → Nat) (start : F) (s : Sys (Mem C α) (Thread K F α)) : Nat :=
  (s.threads.map (work φ start)).sum

def totalCS (s : Sys (Mem C α) (Thread K F α)) : Nat := (s.threads.map csN).sum

/-- A step of a thread inside the critical section. -/
theorem cs_step (fr : Front C K F) (φ : F → Nat) {cap : Nat} {c₀ : Multiset α} {programs : List (List (Op K α))}
    {tick : Nat → Int} {s : Sys (Mem C α) (Thread K F α)} (h : SInv fr cap c₀ programs tick s)
    (t : Thread K F α) (ht : t ∈ s.threads) (p : Nat) (sp : SPC α) (hpc : t.pc = .slot p sp)
    (hcs : sp.inCS = true) :
    work φ fr.start (step fr s.shared t).2 < work φ fr.start t ∨
    (work φ fr.start (step fr s.shared t).2 ≤ work φ fr.start t ∧ csN (step fr s.shared t).2 < csN t) := by
  obtain ⟨hp, op, rest, htodo, hfit⟩ := (h.shape t ht).1 p sp hpc
  have hknow := h.knows t ht
  have hlive := h.live p hp
  have hextra := fun hh => extra_sum_of_holder h t ht p hp hh
  obtain ⟨todo, pc, done⟩ := t
  simp only at hpc htodo
  subst hpc; subst htodo
  cases sp with
  | tryLock => simp [SPC.inCS] at hcs
  | check =>
    cases op with
    | push k x => cases ho : s.shared.slots.occ p <;> simp [step, slotStep, ho, work, pcWork, csN]
    | pop k => cases ho : s.shared.slots.occ p <;> simp [step, slotStep, ho, work, pcWork, csN]
  | construct =>
    cases op with
    | pop k => simp [SPC.fits, Op.isPush] at hfit
    | push k x => simp [step, slotStep, work, pcWork, csN]
  | setOcc | resetOcc | destroy v => simp [step, slotStep, work, pcWork, csN]
  | unlockRetry => simp [step, slotStep, work, pcWork, csN]
  | take =>
    cases op with
    | push k x => simp [SPC.fits, Op.isPush] at hfit
    | pop k =>
      have ho : s.shared.slots.occ p = false := hknow
      have := hextra (by simp [holdsN, SPC.inCS])
      rw [this, ho] at hlive
      simp [extraN, SPC.extra] at hlive
      cases hd : s.shared.slots.data p with
      | none => rw [hd] at hlive; simp at hlive
      | some v => simp [step, slotStep, hd, work, pcWork, csN]
  | unlockDone r =>
    left
    have : (step fr s.shared ⟨op :: rest, .slot p (.unlockDone r), done⟩).2 =
        ⟨rest, .front fr.start, done ++ [(op, r)]⟩ := by simp [step, slotStep]
    rw [this, work_next]
    simp [work, pcWork]

theorem totalWork_set (φ : F → Nat) (start : F) (s : Sys (Mem C α) (Thread K F α)) (i : Nat) (t t' : Thread K F α)
    (ht : s.threads[i]? = some t) (m' : Mem C α) :
    totalWork φ start ⟨m', s.threads.set i t'⟩ + work φ start t = totalWork φ start s + work φ start t' :=
  sum_map_set _ _ _ _ _ ht

theorem totalCS_set (s : Sys (Mem C α) (Thread K F α)) (i : Nat) (t t' : Thread K F α)
    (ht : s.threads[i]? = some t) (m' : Mem C α) :
    totalCS ⟨m', s.threads.set i t'⟩ + csN t = totalCS s + csN t' :=
  sum_map_set _ _ _ _ _ ht

theorem stepAt_eq {σ τ : Type} (f : σ → τ → σ × τ) (s : Sys σ τ) (i : Nat) (t : τ) (ht : s.threads[i]? = some t) :
    stepAt f s i = ⟨(f s.shared t).1, s.threads.set i (f s.shared t).2⟩ := by
  simp [stepAt, ht]

/-- In a state where nobody is in a critical section, a thread waiting for the wanted occupied bit locks the slot and
passes the check. -/
theorem enter (fr : Front C K F) (φ : F → Nat) {cap : Nat} {c₀ : Multiset α} {programs : List (List (Op K α))}
    {tick : Nat → Int} {s : Sys (Mem C α) (Thread K F α)} (h : SInv fr cap c₀ programs tick s)
    (i : Nat) (t : Thread K F α) (ht : s.threads[i]? = some t) (p : Nat) (hpc : t.pc = .slot p .tryLock)
    (hfree : s.shared.slots.locks p = false) (op : Op K α) (rest : List (Op K α)) (htodo : t.todo = op :: rest)
    (hocc : s.shared.slots.occ p = !op.isPush) :
    totalWork φ fr.start (run (step fr) s [i, i]) < totalWork φ fr.start s := by
  have hmem := List.mem_of_getElem? ht
  obtain ⟨hp, -⟩ := (h.shape t hmem).1 p _ hpc
  have hlt := (List.getElem?_eq_some_iff.1 ht).1
  obtain ⟨todo, pc, done⟩ := t
  simp only at hpc htodo
  subst hpc; subst htodo
  rw [run_cons, run_cons, run_nil, stepAt_eq _ _ _ _ ht]
  have e1 : step fr s.shared ⟨op :: rest, .slot p .tryLock, done⟩ =
      ({ s.shared with slots := { s.shared.slots with locks := upd s.shared.slots.locks p true } },
        ⟨op :: rest, .slot p .check, done⟩) := by
    have hc : ¬ s.shared.slots.cap ≤ p := by rw [h.hcap]; omega
    simp [step, slotStep, hc, hfree]
  rw [e1]
  simp only
  have ht2 : (s.threads.set i (⟨op :: rest, .slot p .check, done⟩ : Thread K F α))[i]? =
      some ⟨op :: rest, .slot p .check, done⟩ := by simp [hlt]
  have w1 := totalWork_set φ fr.start s i _ (⟨op :: rest, .slot p .check, done⟩ : Thread K F α) ht
    { s.shared with slots := { s.shared.slots with locks := upd s.shared.slots.locks p true } }
  have we : work φ fr.start (⟨op :: rest, .slot p .check, done⟩ : Thread K F α) =
    work φ fr.start (⟨op :: rest, .slot p .tryLock, done⟩ : Thread K F α) := by simp [work, pcWork]
  rw [stepAt_eq _ _ _ (⟨op :: rest, .slot p .check, done⟩ : Thread K F α) (by simpa using ht2)]
  generalize hs1 : (⟨{ s.shared with slots := { s.shared.slots with locks := upd s.shared.slots.locks p true } },
    s.threads.set i (⟨op :: rest, .slot p .check, done⟩ : Thread K F α)⟩ : Sys (Mem C α) (Thread K F α)) = s1 at *
  have ht2' : s1.threads[i]? = some ⟨op :: rest, .slot p .check, done⟩ := by rw [← hs1]; simpa using ht2
  have hocc1 : s1.shared.slots.occ p = !op.isPush := by rw [← hs1]; exact hocc
  have w2 := totalWork_set φ fr.start s1 i _
    (step fr s1.shared (⟨op :: rest, .slot p .check, done⟩ : Thread K F α)).2 ht2'
    (step fr s1.shared (⟨op :: rest, .slot p .check, done⟩ : Thread K F α)).1
  have w3 : work φ fr.start (step fr s1.shared (⟨op :: rest, .slot p .check, done⟩ : Thread K F α)).2 <
      work φ fr.start (⟨op :: rest, .slot p .check, done⟩ : Thread K F α) := by
    cases op with
    | push k x => simp [Op.isPush] at hocc1; simp [step, slotStep, hocc1, work, pcWork]
    | pop k => simp [Op.isPush] at hocc1; simp [step, slotStep, hocc1, work, pcWork]
  omega

theorem exists_pend (b : Bool) (p : Nat) (l : List (Thread K F α)) (h : 0 < (l.map (pendN b p)).sum) :
    ∃ (j : Nat) (t : Thread K F α) (op : Op K α) (rest : List (Op K α)) (s : SPC α), l[j]? = some t ∧
      t.todo = op :: rest ∧ t.pc = .slot p s ∧ s.pend = true ∧ op.isPush = b := by
  obtain ⟨j, t, hj, hpos⟩ := exists_of_sum_pos _ _ h
  unfold pendN at hpos
  split at hpos
  · rename_i op rest q s e1 e2
    split at hpos
    · rename_i hc
      obtain ⟨rfl, h2, h3⟩ := hc
      exact ⟨j, t, op, rest, s, hj, e1, e2, h2, h3⟩
    · omega
  · omega

/-- One round of progress. -/
theorem progress (fr : Front C K F) (φ : F → Nat)
    (hφ : ∀ c b k f c' f', fr.step c b k f = (c', .cont f') → φ f' < φ f)
    {cap : Nat} {c₀ : Multiset α} {programs : List (List (Op K α))}
    {tick : Nat → Int} {s : Sys (Mem C α) (Thread K F α)} (h : SInv fr cap c₀ programs tick s)
    (htick : ∀ p, p < cap → 0 ≤ tick p ∧ tick p ≤ 1)
    (hun : ∃ t ∈ s.threads, t.todo ≠ []) :
    ∃ sched : List Nat, sched.length ≤ 2 ∧ (totalWork φ fr.start (run (step fr) s sched) < totalWork φ fr.start s ∨
      (totalWork φ fr.start (run (step fr) s sched) ≤ totalWork φ fr.start s ∧
        totalCS (run (step fr) s sched) < totalCS s)) := by
  -- somebody in a critical section
  by_cases hcs : ∃ (i : Nat) (t : Thread K F α) (p : Nat) (sp : SPC α), s.threads[i]? = some t ∧
      t.pc = .slot p sp ∧ sp.inCS = true
  · obtain ⟨i, t, p, sp, ht, hpc, hin⟩ := hcs
    refine ⟨[i], by simp, ?_⟩
    rw [run_cons, run_nil, stepAt_eq _ _ _ _ ht]
    have w := totalWork_set φ fr.start s i t (step fr s.shared t).2 ht (step fr s.shared t).1
    have c := totalCS_set s i t (step fr s.shared t).2 ht (step fr s.shared t).1
    rcases cs_step fr φ h t (List.mem_of_getElem? ht) p sp hpc hin with hh | ⟨h1, h2⟩
    · left; omega
    · by_cases he : work φ fr.start (step fr s.shared t).2 < work φ fr.start t
      · left; omega
      · right; omega
  -- all slots are unlocked
  have hfree : ∀ p, p < cap → s.shared.slots.locks p = false := by
    intro p hp
    have b := h.locks p hp
    cases hl : s.shared.slots.locks p
    · rfl
    · exfalso
      rw [hl] at b
      obtain ⟨i, t, ht, hpos⟩ := exists_of_sum_pos (holdsN p) s.threads (by rw [b]; simp)
      unfold holdsN at hpos
      split at hpos
      · omega
      · rename_i q sp e
        split at hpos
        · rename_i hc
          exact hcs ⟨i, t, q, sp, ht, e, hc.2⟩
        · omega
  obtain ⟨t, htm, hne⟩ := hun
  obtain ⟨i, ht⟩ := List.mem_iff_getElem?.1 htm
  have hcase : (∃ f, t.pc = .front f) ∨ ∃ p sp, t.pc = .slot p sp := by
    cases h : t.pc with
    | front f => exact Or.inl ⟨f, rfl⟩
    | slot p sp => exact Or.inr ⟨p, sp, rfl⟩
  rcases hcase with ⟨f, hpc⟩ | ⟨p, sp, hpc⟩
  · -- front end
    refine ⟨[i], by simp, Or.inl ?_⟩
    rw [run_cons, run_nil, stepAt_eq _ _ _ _ ht]
    have w := totalWork_set φ fr.start s i t (step fr s.shared t).2 ht (step fr s.shared t).1
    have : work φ fr.start (step fr s.shared t).2 < work φ fr.start t := by
      obtain ⟨todo, pc, done⟩ := t
      cases todo with
      | nil => simp at hne
      | cons op rest =>
        simp only at hpc; subst hpc
        simp only [step]
        split
        · rename_i f' e
          have := hφ s.shared.ctr op.isPush op.kind f _ f' (Prod.ext rfl e)
          simp [work, pcWork]; omega
        · simp only [work_next]; simp [work, pcWork]
        · simp [work, pcWork]
    omega
  · -- waiting at a slot
    have hsp : sp = .tryLock := by
      cases sp <;> first | rfl | exact absurd ⟨i, t, p, _, ht, hpc, rfl⟩ hcs
    subst hsp
    obtain ⟨hp, op, rest, htodo, -⟩ := (h.shape t htm).1 p _ hpc
    by_cases hocc : s.shared.slots.occ p = !op.isPush
    · exact ⟨[i, i], by simp, Or.inl (enter fr φ h i t ht p hpc (hfree p hp) op rest htodo hocc)⟩
    · -- there is a partner
      have hb := h.ticks p hp
      have ht01 := htick p hp
      have hown : pendN op.isPush p t = 1 := by simp [pendN, htodo, hpc, SPC.pend]
      have hle := le_sum_map (pendN op.isPush p) s.threads t htm
      have hpart : 0 < (s.threads.map (pendN (!op.isPush) p)).sum := by
        cases hpush : op.isPush
        · rw [hpush] at hocc hown hle
          simp at hocc
          rw [hocc] at hb
          simp at hb ⊢
          omega
        · rw [hpush] at hocc hown hle
          simp at hocc
          rw [hocc] at hb
          simp at hb ⊢
          omega
      obtain ⟨j, t2, op2, rest2, s2, hj, htodo2, hpc2, hpend, hpush2⟩ := exists_pend _ p _ hpart
      have hs2 : s2 = .tryLock := by
        cases s2 <;> first | rfl | exact absurd ⟨j, t2, p, _, hj, hpc2, rfl⟩ hcs
      subst hs2
      refine ⟨[j, j], by simp, Or.inl (enter fr φ h j t2 hj p hpc2 (hfree p hp) op2 rest2 htodo2 ?_)⟩
      rw [hpush2]
      cases hpush : op.isPush <;> rw [hpush] at hocc <;> simp at hocc ⊢ <;> exact hocc

theorem csN_le (t : Thread K F α) : csN t ≤ 6 := by
  obtain ⟨todo, pc, done⟩ := t
  cases pc with
  | front f => simp [csN]
  | slot p s => cases s <;> simp [csN]

theorem totalCS_le (s : Sys (Mem C α) (Thread K F α)) : totalCS s ≤ 6 * s.threads.length := by
  have : ∀ l : List (Thread K F α), (l.map csN).sum ≤ 6 * l.length := by
    intro l
    induction l with
    | nil => simp
    | cons t l ih => have := csN_le t; simp only [List.map_cons, List.sum_cons, List.length_cons]; omega
  exact this _

/-- Deadlock freedom: from every state satisfying an inductive invariant that bounds the tickets, some continuation
finishes every operation; its length is bounded. -/
theorem can_finish_bounded (fr : Front C K F) (φ : F → Nat)
    (hφ : ∀ c b k f c' f', fr.step c b k f = (c', .cont f') → φ f' < φ f)
    {cap : Nat} {c₀ : Multiset α} {programs : List (List (Op K α))}
    (J : Sys (Mem C α) (Thread K F α) → Prop)
    (hJstep : ∀ s i t, J s → s.threads[i]? = some t →
      J ⟨(step fr s.shared t).1, s.threads.set i (step fr s.shared t).2⟩)
    (hJ : ∀ s, J s → ∃ tick, SInv fr cap c₀ programs tick s ∧ ∀ p, p < cap → 0 ≤ tick p ∧ tick p ≤ 1)
    (s : Sys (Mem C α) (Thread K F α)) (hs : J s) :
    ∃ sched : List Nat, sched.length ≤ 2 * (totalWork φ fr.start s * (6 * s.threads.length + 1) + totalCS s) ∧
      ∀ t ∈ (run (step fr) s sched).threads, t.todo = [] := by
  have main : ∀ n m (s : Sys (Mem C α) (Thread K F α)), J s → totalWork φ fr.start s = n → totalCS s = m →
      ∃ sched : List Nat, sched.length ≤ 2 * (n * (6 * s.threads.length + 1) + m) ∧
        ∀ t ∈ (run (step fr) s sched).threads, t.todo = [] := by
    intro n
    induction n using Nat.strong_induction_on with
    | _ n ihn =>
      intro m
      induction m using Nat.strong_induction_on with
      | _ m ihm =>
        intro s hs hn hm
        by_cases hun : ∃ t ∈ s.threads, t.todo ≠ []
        · obtain ⟨tick, hinv, h01⟩ := hJ s hs
          obtain ⟨sched, hlen, hsc⟩ := progress fr φ hφ hinv h01 hun
          have hs' : J (run (step fr) s sched) := run_inv (f := step fr) J hJstep s hs sched
          have hl := length_run (step fr) s sched
          have hrec : ∃ sched2 : List Nat, sched2.length + 2 ≤ 2 * (n * (6 * s.threads.length + 1) + m) ∧
              ∀ t ∈ (run (step fr) (run (step fr) s sched) sched2).threads, t.todo = [] := by
            by_cases hlt : totalWork φ fr.start (run (step fr) s sched) < n
            · obtain ⟨sched2, h1, h2⟩ := ihn _ hlt _ _ hs' rfl rfl
              refine ⟨sched2, ?_, h2⟩
              have hc := totalCS_le (run (step fr) s sched)
              rw [hl] at h1 hc
              generalize totalWork φ fr.start (run (step fr) s sched) = n' at *
              obtain ⟨d, rfl⟩ : ∃ d, n = n' + 1 + d := ⟨n - n' - 1, by omega⟩
              have : (n' + 1 + d) * (6 * s.threads.length + 1) =
                n' * (6 * s.threads.length + 1) + (6 * s.threads.length + 1) + d * (6 * s.threads.length + 1) := by
                rw [Nat.add_mul, Nat.add_mul, Nat.one_mul]
              omega
            · obtain ⟨sched2, h1, h2⟩ := ihm (totalCS (run (step fr) s sched)) (by omega) _ hs' (by omega) rfl
              refine ⟨sched2, ?_, h2⟩
              rw [hl] at h1
              omega
          obtain ⟨sched2, h1, h2⟩ := hrec
          exact ⟨sched ++ sched2, by simp only [List.length_append]; omega, by rw [run_append]; exact h2⟩
        · refine ⟨[], by simp, ?_⟩
          intro t ht
          by_contra hc
          exact hun ⟨t, ht, hc⟩
  exact main _ _ s hs rfl rfl

theorem can_finish (fr : Front C K F) (φ : F → Nat)
    (hφ : ∀ c b k f c' f', fr.step c b k f = (c', .cont f') → φ f' < φ f)
    {cap : Nat} {c₀ : Multiset α} {programs : List (List (Op K α))}
    (J : Sys (Mem C α) (Thread K F α) → Prop)
    (hJstep : ∀ s i t, J s → s.threads[i]? = some t →
      J ⟨(step fr s.shared t).1, s.threads.set i (step fr s.shared t).2⟩)
    (hJ : ∀ s, J s → ∃ tick, SInv fr cap c₀ programs tick s ∧ ∀ p, p < cap → 0 ≤ tick p ∧ tick p ≤ 1)
    (s : Sys (Mem C α) (Thread K F α)) (hs : J s) :
    ∃ sched, ∀ t ∈ (run (step fr) s sched).threads, t.todo = [] :=
  let ⟨sched, _, h⟩ := can_finish_bounded fr φ hφ J hJstep hJ s hs
  ⟨sched, h⟩

end Stdgpu.SlotConc
