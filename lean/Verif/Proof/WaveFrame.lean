import Verif.Model.WaveUnordered
import Verif.Proof.UProg2
/-! A step of a call does not depend on what its thread does before and afterwards. -/
namespace Stdgpu.Execution
open Stdgpu.UnorderedConc
open Stdgpu.Unordered

variable {K V : Type}

/-- The record of the calls on the free list that an earlier operation has made. -/
def addH (hist : List (SlotConc.Op Unit Nat × SlotConc.Res Nat)) (ex : Ex) : Ex := ⟨ex.todo, ex.pc, hist ++ ex.done⟩

theorem exStep_hist (m : Shared V) (ex : Ex) (hist : List (SlotConc.Op Unit Nat × SlotConc.Res Nat)) :
    exStep m (addH hist ex) = ((exStep m ex).1, addH hist (exStep m ex).2) := by
  obtain ⟨todo, pc, done⟩ := ex
  unfold exStep addH
  cases todo with
  | nil => simp [SlotConc.step]
  | cons op rest =>
    cases pc with
    | front f =>
      simp only [SlotConc.step]
      split <;> simp
    | slot p s =>
      simp only [SlotConc.step]
      split <;> simp

/-- One step of a call on the free list. -/
theorem exStep_one (m : Shared V) {ex : Ex} {op : SlotConc.Op Unit Nat} (h : ex.todo = [op]) :
    (exStep m ex).2.todo = [op] ∨
    ((exStep m ex).2.todo = [] ∧ (exStep m ex).2.pc = .front .check ∧ (exStep m ex).2.done ≠ []) := by
  obtain ⟨todo, pc, done⟩ := ex
  simp only at h
  subst h
  unfold exStep
  cases pc with
  | front f =>
    simp only [SlotConc.step]
    split <;> simp [Vector.vfront]
  | slot p s =>
    simp only [SlotConc.step]
    split <;> simp [Vector.vfront]

theorem insStep_hist (m : Shared V) (v : V) (b : Nat) (eq : V → Bool) (ex : Ex) (hist : List (SlotConc.Op Unit Nat × SlotConc.Res Nat)) (pc : IPC)
    (h : ∀ e, pc = .pop e → ∃ op, ex.todo = [op]) :
    insStep m v b eq (addH hist ex) pc =
      ((insStep m v b eq ex pc).1, addH hist (insStep m v b eq ex pc).2.1, (insStep m v b eq ex pc).2.2) := by
  cases pc with
  | pop e =>
    obtain ⟨op, hop⟩ := h e rfl
    simp only [insStep, exStep_hist]
    have h1 : (addH hist (exStep m ex).2).todo = (exStep m ex).2.todo := rfl
    rw [h1]
    rcases exStep_one m hop with h2 | ⟨h2, -, h3⟩
    · rw [if_neg (by rw [h2]; simp), if_neg (by rw [h2]; simp)]
    · rw [if_pos h2, if_pos h2]
      have h4 : (addH hist (exStep m ex).2).done.getLast? = (exStep m ex).2.done.getLast? := by
        show (hist ++ _).getLast? = _
        rw [List.getLast?_append]
        cases h5 : (exStep m ex).2.done.getLast? with
        | none => rw [List.getLast?_eq_none_iff] at h5; exact absurd h5 h3
        | some x => rfl
      rw [h4]
      split <;> rfl
  | c1 w => simp only [insStep]; split <;> simp
  | c2 w => simp only [insStep]; split <;> simp
  | c3 e e' w =>
    simp only [insStep]; split <;> (try rfl)
    split <;> rfl
  | e1 w => simp only [insStep]; split <;> simp
  | e2 e w => simp only [insStep]; split <;> simp
  | lockB => simp only [insStep]; split <;> simp
  | lockE e => simp only [insStep]; split <;> simp
  | unlock p r => simp only [insStep]
  | _ => simp only [insStep]

theorem eraStep_hist (m : Shared V) (b : Nat) (eq : V → Bool) (ex : Ex) (hist : List (SlotConc.Op Unit Nat × SlotConc.Res Nat)) (pc : EPC) :
    eraStep m b eq (addH hist ex) pc =
      ((eraStep m b eq ex pc).1, addH hist (eraStep m b eq ex pc).2.1, (eraStep m b eq ex pc).2.2) := by
  cases pc with
  | push p q =>
    simp only [eraStep, exStep_hist]
    rfl
  | f1 w => simp only [eraStep]; split <;> simp
  | f2 p w => simp only [eraStep]; split <;> simp
  | f3 p q w => simp only [eraStep]; split <;> simp
  | p1 p w => simp only [eraStep]; split <;> simp
  | p2 p q it w => simp only [eraStep]; split <;> simp
  | lockB p => simp only [eraStep]; split <;> simp
  | lock1 p q => simp only [eraStep]; split <;> simp
  | lock2 p q => simp only [eraStep]; split <;> simp
  | des p q => simp only [eraStep]; rfl
  | _ => simp only [eraStep]

/-- The thread that executes `b`, has executed operations before and will execute `rest` afterwards. -/
def lift (hist : List (SlotConc.Op Unit Nat × SlotConc.Res Nat)) (rest : List (Op K V)) (log : List (Op K V × Res)) (b : Thread K V) : Thread K V :=
  ⟨b.todo ++ rest, b.cur, addH hist b.ex, log ++ b.done⟩

/-- The state of the calls on the free list. -/
def ExOk (b : Thread K V) : Prop :=
  if AtEx b.cur = true then ∃ op, b.ex.todo = [op] else b.ex.todo = [] ∧ b.ex.pc = .front .check

theorem step_lift (P : Params K V) (m : Shared V) (b : Thread K V) (hist : List (SlotConc.Op Unit Nat × SlotConc.Res Nat)) (rest : List (Op K V)) (log)
    (hex : ExOk b) (h : b.todo ≠ [] ∨ b.cur ≠ .idle) :
    step P m (lift hist rest log b) = ((step P m b).1, lift hist rest log (step P m b).2) := by
  obtain ⟨todo, cur, ex, done⟩ := b
  cases cur with
  | idle =>
    cases todo with
    | nil => simp at h
    | cons op todo => rfl
  | ins v pc =>
    have h1 : ∀ e, pc = .pop e → ∃ op, ex.todo = [op] := by
      rintro e rfl
      simpa [ExOk, AtEx] using hex
    simp only [step, lift]
    rw [insStep_hist _ _ _ _ _ _ _ h1]
    generalize insStep m v (bucket P m.tab (P.keyOf v)) (fun w => P.keyEq (P.keyOf w) (P.keyOf v)) ex pc = r
    obtain ⟨m', ex', n⟩ := r
    rcases n with pc' | r
    · simp
    · cases r <;> simp
  | era k pc =>
    simp only [step, lift]
    rw [eraStep_hist]
    generalize eraStep m (bucket P m.tab k) (fun w => P.keyEq (P.keyOf w) k) ex pc = r
    obtain ⟨m', ex', n⟩ := r
    rcases n with pc' | r <;> simp
  | fnd k w =>
    simp only [step, lift]
    generalize findStep m (fun w => P.keyEq (P.keyOf w) k) w = r
    obtain ⟨m', n⟩ := r
    rcases n with w' | r
    · simp
    · cases r <;> simp

/-- A call in progress: not started, or at some point. -/
def Busy (b : Thread K V) : Prop := b.done = [] ∧ ((∃ op, b.todo = [op]) ∧ b.cur = .idle ∨ b.todo = [] ∧ b.cur ≠ .idle)

/-- The call has returned. -/
def Over (b : Thread K V) : Prop := b.todo = [] ∧ b.cur = .idle ∧ ∃ op r, b.done = [(op, r)]

/-- The operation of a call. -/
def opOf (b : Thread K V) : Option (Op K V) :=
  match b.cur with
  | .idle => match b.todo with
    | op :: _ => some op
    | [] => b.done.head?.map (·.1)
  | .ins v _ => some (.insert v)
  | .era k _ => some (.erase k)
  | .fnd k _ => some (.find k)

def Quiet (ex : Ex) : Prop := ex.todo = [] ∧ ex.pc = .front .check

def InsOk (ex : Ex) : Next IPC (Option Nat) → Prop
  | .go (.pop _) => ∃ op, ex.todo = [op]
  | _ => Quiet ex

def EraOk (ex : Ex) : Next EPC Bool → Prop
  | .go (.push _ _) => ∃ op, ex.todo = [op]
  | _ => Quiet ex

theorem insStep_ex {m : Shared V} {v : V} {b : Nat} {eq : V → Bool} {ex : Ex} {pc : IPC} (h : InsOk ex (.go pc)) :
    InsOk (insStep m v b eq ex pc).2.1 (insStep m v b eq ex pc).2.2 := by
  cases pc with
  | pop e =>
    obtain ⟨op, hop⟩ := h
    simp only [insStep]
    rcases exStep_one m hop with h2 | ⟨h2, h3, -⟩
    · rw [if_neg (by rw [h2]; simp)]
      exact ⟨op, h2⟩
    · rw [if_pos h2]
      split <;> exact ⟨h2, h3⟩
  | c1 w => rcases hf : findStep m eq w with ⟨m', w' | _ | p⟩ <;> simp only [insStep, hf] <;> exact h
  | c2 w => rcases hf : findStep m eq w with ⟨m', w' | _ | p⟩ <;> simp only [insStep, hf] <;> exact h
  | c3 e e' w =>
    rcases hf : findStep m eq w with ⟨m', w' | _ | p⟩ <;> simp only [insStep, hf]
    · exact h
    · split
      · exact ⟨_, rfl⟩
      · exact h
    · exact h
  | e1 w => rcases hf : endStep m w with ⟨m', w' | q⟩ <;> simp only [insStep, hf] <;> exact h
  | e2 e w => rcases hf : endStep m w with ⟨m', w' | q⟩ <;> simp only [insStep, hf] <;> exact h
  | lockB => simp only [insStep]; split <;> exact h
  | lockE e => simp only [insStep]; split <;> exact h
  | full => simp only [insStep]; split <;> exact h
  | exc => simp only [insStep]; split <;> exact h
  | occ1 => simp only [insStep]; split <;> exact h
  | occ2 => simp only [insStep]; split <;> exact h
  | unlock p r => simp only [insStep]; cases r <;> exact h
  | _ => simp only [insStep]; exact h

theorem eraStep_ex {m : Shared V} {b : Nat} {eq : V → Bool} {ex : Ex} {pc : EPC} (h : EraOk ex (.go pc)) :
    EraOk (eraStep m b eq ex pc).2.1 (eraStep m b eq ex pc).2.2 := by
  cases pc with
  | push p q =>
    obtain ⟨op, hop⟩ := h
    simp only [eraStep]
    rcases exStep_one m hop with h2 | ⟨h2, h3, -⟩
    · rw [if_neg (by rw [h2]; simp)]
      exact ⟨op, h2⟩
    · rw [if_pos h2]
      exact ⟨h2, h3⟩
  | f1 w =>
    rcases hf : findStep m eq w with ⟨m', w' | _ | p⟩ <;> simp only [eraStep, hf]
    · exact h
    · exact h
    · split <;> exact h
  | f2 p w =>
    rcases hf : findStep m eq w with ⟨m', w' | r⟩ <;> simp only [eraStep, hf]
    · exact h
    · split <;> exact h
  | f3 p q w => rcases hf : findStep m eq w with ⟨m', w' | r⟩ <;> simp only [eraStep, hf] <;> exact h
  | p1 p w => rcases hf : prevStep m p w with ⟨m', w' | r⟩ <;> simp only [eraStep, hf] <;> exact h
  | p2 p q it w =>
    rcases hf : prevStep m p w with ⟨m', w' | r⟩ <;> simp only [eraStep, hf]
    · exact h
    · split <;> exact h
  | lockB p => simp only [eraStep]; split <;> exact h
  | lock1 p q => simp only [eraStep]; split <;> exact h
  | lock2 p q => simp only [eraStep]; split <;> exact h
  | unlockB p ok => simp only [eraStep]; split <;> exact h
  | unlock2 p ok => simp only [eraStep]; split <;> exact h
  | rd1 p q => simp only [eraStep]; split <;> exact h
  | des p q => exact ⟨_, rfl⟩
  | _ => simp only [eraStep]; exact h

/-- One step of a call. -/
theorem busy_step (P : Params K V) (m : Shared V) {b : Thread K V} {op : Op K V} (hex : ExOk b) (hb : Busy b)
    (ho : opOf b = some op) :
    ExOk (step P m b).2 ∧ ((Busy (step P m b).2 ∧ opOf (step P m b).2 = some op) ∨
      (∃ r, (step P m b).2.done = [(op, r)]) ∧ (step P m b).2.todo = [] ∧ (step P m b).2.cur = .idle) := by
  obtain ⟨todo, cur, ex, done⟩ := b
  obtain ⟨hd, hb⟩ := hb
  simp only at hd hb
  subst hd
  cases cur with
  | idle =>
    rcases hb with ⟨⟨o, rfl⟩, -⟩ | ⟨-, hb⟩
    · simp only [opOf, Option.some.injEq] at ho
      subst ho
      simp only [ExOk, AtEx] at hex
      simp only [step]
      cases o <;> refine ⟨by simpa [ExOk, begin, AtEx] using hex, .inl ⟨⟨rfl, .inr ⟨rfl, by simp [begin]⟩⟩, rfl⟩⟩
    · exact absurd rfl hb
  | ins v pc =>
    rcases hb with ⟨-, hb⟩ | ⟨rfl, -⟩
    · cases hb
    · simp only [opOf, Option.some.injEq] at ho
      subst ho
      have hi : InsOk ex (.go pc) := by
        unfold ExOk at hex
        cases pc <;> simpa [AtEx, InsOk, Quiet] using hex
      have := insStep_ex (m := m) (v := v) (b := bucket P m.tab (P.keyOf v))
        (eq := fun w => P.keyEq (P.keyOf w) (P.keyOf v)) hi
      simp only [step]
      generalize insStep m v (bucket P m.tab (P.keyOf v)) (fun w => P.keyEq (P.keyOf w) (P.keyOf v)) ex pc = r at this ⊢
      obtain ⟨m', ex', n⟩ := r
      rcases n with pc' | r
      · refine ⟨?_, .inl ⟨⟨rfl, .inr ⟨rfl, by simp⟩⟩, rfl⟩⟩
        unfold ExOk
        cases pc' <;> simpa [AtEx, InsOk, Quiet] using this
      · cases r with
        | none => exact ⟨by simpa [ExOk, AtEx, InsOk, Quiet] using this, .inr ⟨⟨_, rfl⟩, rfl, rfl⟩⟩
        | some p => exact ⟨by simpa [ExOk, AtEx, InsOk, Quiet] using this, .inr ⟨⟨_, rfl⟩, rfl, rfl⟩⟩
  | era k pc =>
    rcases hb with ⟨-, hb⟩ | ⟨rfl, -⟩
    · cases hb
    · simp only [opOf, Option.some.injEq] at ho
      subst ho
      have hi : EraOk ex (.go pc) := by
        unfold ExOk at hex
        cases pc <;> simpa [AtEx, EraOk, Quiet] using hex
      have := eraStep_ex (m := m) (b := bucket P m.tab k) (eq := fun w => P.keyEq (P.keyOf w) k) hi
      simp only [step]
      generalize eraStep m (bucket P m.tab k) (fun w => P.keyEq (P.keyOf w) k) ex pc = r at this ⊢
      obtain ⟨m', ex', n⟩ := r
      rcases n with pc' | r
      · refine ⟨?_, .inl ⟨⟨rfl, .inr ⟨rfl, by simp⟩⟩, rfl⟩⟩
        unfold ExOk
        cases pc' <;> simpa [AtEx, EraOk, Quiet] using this
      · exact ⟨by simpa [ExOk, AtEx, EraOk, Quiet] using this, .inr ⟨⟨_, rfl⟩, rfl, rfl⟩⟩
  | fnd k w =>
    rcases hb with ⟨-, hb⟩ | ⟨rfl, -⟩
    · cases hb
    · simp only [opOf, Option.some.injEq] at ho
      subst ho
      simp only [ExOk, AtEx] at hex
      simp only [step]
      generalize findStep m (fun w => P.keyEq (P.keyOf w) k) w = r
      obtain ⟨m', n⟩ := r
      rcases n with w' | r
      · exact ⟨by simpa [ExOk, AtEx] using hex, .inl ⟨⟨rfl, .inr ⟨rfl, by simp⟩⟩, rfl⟩⟩
      · cases r <;> exact ⟨by simpa [ExOk, AtEx] using hex, .inr ⟨⟨_, rfl⟩, rfl, rfl⟩⟩

theorem kind_busy {P : Params K V} {b : Thread K V} (hb : Busy b) : (uLane P).kind b = .crit := by
  obtain ⟨todo, cur, ex, done⟩ := b
  obtain ⟨hd, hb⟩ := hb
  simp only at hd
  subst hd
  simp only [uLane]

theorem kind_over {P : Params K V} {b : Thread K V} {op : Op K V} {r : Res} (h1 : b.done = [(op, r)]) (h2 : b.todo = [])
    (h3 : b.cur = .idle) : (uLane P).kind b = .ret r := by
  simp only [uLane, h1, h2, h3]

end Stdgpu.Execution
