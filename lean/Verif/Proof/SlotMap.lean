import Verif.Spec.SlotConc
import Verif.Proof.Conc
/-! The slot machine does not look at the values: renaming the values commutes with execution. -/
namespace Stdgpu.SlotConc
open Stdgpu.Conc Stdgpu.Spec

variable {C K F α β : Type}

def Op.map (g : α → β) : Op K α → Op K β
  | .push k x => .push k (g x)
  | .pop k => .pop k

def Res.map (g : α → β) : Res α → Res β
  | .pushed => .pushed | .pushFailed => .pushFailed | .popped v => .popped (g v) | .popFailed => .popFailed

def SPC.map (g : α → β) : SPC α → SPC β
  | .tryLock => .tryLock | .check => .check | .construct => .construct | .setOcc => .setOcc | .resetOcc => .resetOcc
  | .take => .take | .destroy v => .destroy (g v) | .unlockRetry => .unlockRetry | .unlockDone r => .unlockDone (r.map g)

def PC.map (g : α → β) : PC F α → PC F β
  | .front f => .front f
  | .slot p s => .slot p (s.map g)

def Slots.map (g : α → β) (m : Slots α) : Slots β :=
  ⟨m.cap, m.locks, m.occ, fun q => (m.data q).map g, m.err⟩

def Mem.map (g : α → β) (m : Mem C α) : Mem C β := ⟨m.slots.map g, m.ctr⟩

def Thread.map (g : α → β) (t : Thread K F α) : Thread K F β :=
  ⟨t.todo.map (Op.map g), t.pc.map g, t.done.map (fun e => (e.1.map g, e.2.map g))⟩

def mapSys (g : α → β) (s : Sys (Mem C α) (Thread K F α)) : Sys (Mem C β) (Thread K F β) :=
  ⟨s.shared.map g, s.threads.map (Thread.map g)⟩

theorem isPush_map (g : α → β) (op : Op K α) : (op.map g).isPush = op.isPush := by cases op <;> rfl
theorem kind_map (g : α → β) (op : Op K α) : (op.map g).kind = op.kind := by cases op <;> rfl
theorem failRes_map (g : α → β) (op : Op K α) : failRes (op.map g) = (failRes op).map g := by cases op <;> rfl

def mapSum (g : α → β) : SPC α ⊕ Res α → SPC β ⊕ Res β
  | .inl s => .inl (s.map g)
  | .inr r => .inr (r.map g)

theorem upd_map (g : α → β) (d : Nat → Option α) (p : Nat) (v : Option α) :
    (fun q => (upd d p v q).map g) = upd (fun q => (d q).map g) p (v.map g) := by
  funext q; unfold upd; split <;> rfl

theorem slotStep_map (g : α → β) (m : Slots α) (op : Op K α) (p : Nat) (s : SPC α) :
    slotStep (m.map g) (op.map g) p (s.map g) = ((slotStep m op p s).1.map g, mapSum g (slotStep m op p s).2) := by
  obtain ⟨cap, locks, occ, data, err⟩ := m
  cases s with
  | tryLock =>
    by_cases h1 : cap ≤ p
    · simp [slotStep, SPC.map, Slots.map, h1, mapSum]
    · cases h2 : locks p <;> simp [slotStep, SPC.map, Slots.map, h1, h2, mapSum]
  | check =>
    cases op <;> cases h : occ p <;> simp [slotStep, SPC.map, Op.map, Slots.map, mapSum, h]
  | construct =>
    cases op with
    | push k x => simp only [slotStep, SPC.map, Op.map, Slots.map, mapSum, upd_map, Option.map_some, Option.isSome_map]
    | pop k => rfl
  | setOcc => rfl
  | resetOcc => rfl
  | take =>
    cases hd : data p <;> simp only [slotStep, SPC.map, Slots.map, hd, Option.map_none, Option.map_some, mapSum]
  | destroy v =>
    simp only [slotStep, SPC.map, Slots.map, mapSum, upd_map, Option.map_none, Option.isNone_map, Res.map]
  | unlockRetry => rfl
  | unlockDone r => rfl

theorem step_map (g : α → β) (fr : Front C K F) (m : Mem C α) (t : Thread K F α) :
    step fr (m.map g) (t.map g) = ((step fr m t).1.map g, (step fr m t).2.map g) := by
  obtain ⟨todo, pc, done⟩ := t
  cases todo with
  | nil => rfl
  | cons op rest =>
    cases pc with
    | front f =>
      simp only [step, Thread.map, PC.map, List.map_cons, isPush_map, kind_map, Mem.map]
      generalize fr.step m.ctr op.isPush op.kind f = r
      obtain ⟨c, o⟩ := r
      cases o <;> simp [PC.map, failRes_map, SPC.map]
    | slot p s =>
      have h := slotStep_map g m.slots op p s
      simp only [step, Thread.map, PC.map, List.map_cons, Mem.map, h]
      generalize slotStep m.slots op p s = r
      obtain ⟨m', o⟩ := r
      cases o <;> simp [PC.map, mapSum]

theorem run_map (g : α → β) (fr : Front C K F) (sched : List Nat) : ∀ s : Sys (Mem C α) (Thread K F α),
    run (step fr) (mapSys g s) sched = mapSys g (run (step fr) s sched) := by
  induction sched with
  | nil => intro s; rfl
  | cons i l ih =>
    intro s
    have e : stepAt (step fr) (mapSys g s) i = mapSys g (stepAt (step fr) s i) := by
      unfold stepAt mapSys
      simp only [List.getElem?_map]
      cases s.threads[i]? with
      | none => rfl
      | some t => simp only [Option.map_some, step_map, List.map_set]
    simp only [run, List.foldl_cons] at *
    rw [e]; exact ih _

theorem init_map (g : α → β) (fr : Front C K F) (m : Mem C α) (programs : List (List (Op K α))) :
    mapSys g (init fr m programs) = init fr (m.map g) (programs.map (·.map (Op.map g))) := by
  simp only [mapSys, init, List.map_map]
  congr 1

theorem results_map (g : α → β) (s : Sys (Mem C α) (Thread K F α)) :
    results (mapSys g s) = (results s).map (fun e => (e.1.map g, e.2.map g)) := by
  simp only [results, mapSys, List.flatMap_map, List.map_flatMap]
  rfl

theorem finished_map (g : α → β) (s : Sys (Mem C α) (Thread K F α)) : Finished (mapSys g s) ↔ Finished s := by
  simp [Finished, mapSys, Thread.map]

end Stdgpu.SlotConc
