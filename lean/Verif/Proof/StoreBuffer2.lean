import Verif.Proof.StoreBuffer
import Verif.Model.Deque
/-
The containers satisfy the conditions of Proof/StoreBuffer.lean.
-/
namespace Stdgpu.StoreBuffer
open Stdgpu.Conc

section slots
open Stdgpu.SlotConc
variable {C K F α : Type}

theorem skind_write {t : Thread K F α} (h : skind t = .write) :
    (∃ k x rest p, t.todo = .push k x :: rest ∧ t.pc = .slot p .construct) ∨
    ∃ op rest p v, t.todo = op :: rest ∧ t.pc = .slot p (.destroy v) := by
  obtain ⟨todo, pc, done⟩ := t
  rcases todo with _ | ⟨op, rest⟩
  · simp [skind] at h
  · cases pc with
    | front f => cases op <;> simp [skind] at h
    | slot p s =>
      cases s with
      | construct =>
        cases op with
        | push k x => exact .inl ⟨k, x, rest, p, rfl, rfl⟩
        | pop k => simp [skind] at h
      | destroy v => exact .inr ⟨op, rest, p, v, rfl, rfl⟩
      | _ => cases op <;> simp [skind] at h

/-- The thread after a plain write. -/
theorem slot_write (fr : Front C K F) (m : Mem C α) {t : Thread K F α} (h : skind t = .write) :
    (∃ k x rest p, t.todo = .push k x :: rest ∧ (step fr m t).2 = { t with pc := .slot p .setOcc }) ∨
    ∃ op rest p v, t.todo = op :: rest ∧ t.pc = .slot p (.destroy v) ∧
      (step fr m t).2 = { t with pc := .slot p (.unlockDone (.popped v)) } := by
  rcases skind_write h with ⟨k, x, rest, p, h1, h2⟩ | ⟨op, rest, p, v, h1, h2⟩
  · refine .inl ⟨k, x, rest, p, h1, ?_⟩
    unfold step; rw [h1, h2]; rfl
  · refine .inr ⟨op, rest, p, v, h1, h2, ?_⟩
    unfold step; rw [h1, h2]; rfl

theorem slot_det (fr : Front C K F) (m m' : Mem C α) {t : Thread K F α} (h : skind t = .write) :
    (step fr m t).2 = (step fr m' t).2 := by
  rcases skind_write h with ⟨k, x, rest, p, h1, h2⟩ | ⟨op, rest, p, v, h1, h2⟩
  · unfold step; rw [h1, h2]; rfl
  · unfold step; rw [h1, h2]; rfl

theorem slot_next (fr : Front C K F) (m : Mem C α) {t : Thread K F α} (h : skind t = .write) :
    skind (step fr m t).2 = .atomic := by
  rcases slot_write fr m h with ⟨k, x, rest, p, h1, h2⟩ | ⟨op, rest, p, v, h1, _, h2⟩
  · rw [h2]; unfold skind; rw [h1]
  · rw [h2]; unfold skind; rw [h1]; cases op <;> rfl

theorem slot_laws (fr : Front C K F) : Laws (step (α := α) fr) skind (fun _ => True) where
  inv _ _ _ := trivial
  det _ _ _ _ h := slot_det fr _ _ h
  next _ _ _ h := by rw [slot_next fr _ h]; decide

theorem slot_ordered (fr : Front C K F) (o : Thread K F α → Thread K F α → Bool) :
    Ordered (step (α := α) fr) skind (fun _ => True) o := .inr (fun _ _ _ h => slot_next fr _ h)

theorem slot_obs (fr : Front C K F) (m : Mem C α) {t : Thread K F α} (h : skind t = .write) :
    (step fr m t).2.done = t.done ∧ (step fr m t).2.todo = t.todo := by
  rcases slot_write fr m h with ⟨k, x, rest, p, h1, h2⟩ | ⟨op, rest, p, v, h1, _, h2⟩ <;> rw [h2] <;> exact ⟨rfl, rfl⟩

theorem slot_todo {t : Thread K F α} (h : skind t = .write) : t.todo ≠ [] := by
  rcases skind_write h with ⟨k, x, rest, p, h1, h2⟩ | ⟨op, rest, p, v, h1, h2⟩ <;> rw [h1] <;> simp

end slots

section unordered
open Stdgpu.UnorderedConc Stdgpu.Unordered
variable {K V : Type}

/-- Between the calls on the free list the thread is at the start of a call. -/
def ExIdle (t : UnorderedConc.Thread K V) : Prop :=
  match t.cur with
  | .ins _ (.pop _) => t.ex.todo ≠ []
  | .era _ (.push _ _) => t.ex.todo ≠ []
  | _ => t.ex.pc = .front .check

theorem vfront_start (c : Nat) : (Vector.vfront c).start = Vector.FPC.check := rfl

/-- A call on the free list that has returned. -/
theorem exStep_done (m : Shared V) (ex : Ex) (h : ex.todo ≠ []) (h' : (exStep m ex).2.todo = []) :
    (exStep m ex).2.pc = .front .check := by
  unfold exStep at h' ⊢
  dsimp only at h' ⊢
  obtain ⟨todo, pc, done⟩ := ex
  rcases todo with _ | ⟨op, rest⟩
  · exact absurd rfl h
  · cases pc with
    | front f =>
      simp only [SlotConc.step] at h' ⊢
      split at h'
      · simp at h'
      · simp_all [vfront_start]
      · simp at h'
    | slot p s =>
      simp only [SlotConc.step] at h' ⊢
      split at h'
      · simp at h'
      · simp_all [vfront_start]

theorem exStep_nil (m : Shared V) (ex : Ex) (h : ex.todo = []) : (exStep m ex).2 = ex := by
  unfold exStep SlotConc.step; rw [h]

theorem u_inv (P : Params K V) (m : Shared V) (t : UnorderedConc.Thread K V) (h : ExIdle t) : ExIdle (UnorderedConc.step P m t).2 := by
  obtain ⟨todo, cur, ex, done⟩ := t
  cases cur with
  | idle =>
    rcases todo with _ | ⟨op, rest⟩
    · exact h
    · cases op <;> exact h
  | fnd k w =>
    have h : ex.pc = .front .check := h
    simp only [UnorderedConc.step]
    split <;> exact h
  | ins v pc =>
    cases pc with
    | pop e =>
      have h : ex.todo ≠ [] := h
      have hd := exStep_done m ex h
      simp only [UnorderedConc.step, insStep]
      split <;> rename_i heq <;> revert heq <;> split
      all_goals try split
      all_goals
        intro heq
        simp only [Prod.mk.injEq, Next.go.injEq, reduceCtorEq, and_false] at heq
      all_goals obtain ⟨_, rfl, rfl⟩ := heq
      all_goals simp_all [ExIdle]
    | _ =>
      have h : ex.pc = .front .check := h
      simp only [UnorderedConc.step, insStep]
      (repeat' split) <;> simp_all [ExIdle] <;> grind
  | era k pc =>
    cases pc with
    | push p q =>
      have h : ex.todo ≠ [] := h
      have hd := exStep_done m ex h
      simp only [UnorderedConc.step, eraStep, ExIdle]
      split <;> rename_i heq <;> split at heq <;> simp_all
    | _ =>
      have h : ex.pc = .front .check := h
      simp only [UnorderedConc.step, eraStep]
      (repeat' split) <;> simp_all [ExIdle] <;> grind

theorem ex_write (m : Shared V) {ex : Ex} (h : SlotConc.skind ex = .write) :
    (exStep m ex).2.todo = ex.todo ∧ ex.todo ≠ [] ∧ SlotConc.skind (exStep m ex).2 = .atomic ∧
      ∀ m' : Shared V, (exStep m' ex).2 = (exStep m ex).2 :=
  ⟨(slot_obs _ _ h).2, slot_todo h, slot_next _ _ h, fun _ => by
    rcases skind_write h with ⟨k, x, rest, p, h1, h2⟩ | ⟨op, rest, p, v, h1, h2⟩ <;>
      (unfold exStep SlotConc.step; rw [h1, h2]; rfl)⟩

/-- The effect of a plain write on the thread: its next program point is fixed, it does not return, and the next access is a
plain write or atomic. -/
theorem u_write (P : Params K V) (t : UnorderedConc.Thread K V) (hI : ExIdle t) (h : ukind t = .write) :
    ∃ cur ex, cur ≠ .idle ∧ ukind ⟨t.todo, cur, ex, t.done⟩ ≠ .read ∧
      ∀ m : Shared V, (UnorderedConc.step P m t).2 = ⟨t.todo, cur, ex, t.done⟩ := by
  obtain ⟨todo, cur, ex, done⟩ := t
  cases cur with
  | idle => cases h
  | fnd k w => cases w <;> cases h
  | ins v pc =>
    cases pc with
    | pop e =>
      have h : SlotConc.skind ex = .write := h
      by_cases hm : Nonempty (Shared V)
      · obtain ⟨m0⟩ := hm
        obtain ⟨h1, h2, h3, h4⟩ := ex_write m0 h
        refine ⟨.ins v (.pop e), (exStep m0 ex).2, by simp, ?_, fun m => ?_⟩
        · change SlotConc.skind (exStep m0 ex).2 ≠ .read
          rw [h3]; decide
        · have h5 : (exStep m0 ex).2.todo ≠ [] := by rw [h1]; exact h2
          simp only [UnorderedConc.step, insStep, h4 m, if_neg h5]
      · exact ⟨.ins v .cntB, ex, by simp, by simp [ukind, IPC.kind], fun m => (hm ⟨m⟩).elim⟩
    | consB => exact ⟨.ins v .cntB, ex, by simp, by simp [ukind, IPC.kind], fun m => rfl⟩
    | cons e n => exact ⟨.ins v (.off e n), ex, by simp, by simp [ukind, IPC.kind], fun m => rfl⟩
    | off e n => exact ⟨.ins v (.cnt e n), ex, by simp, by simp [ukind, IPC.kind], fun m => rfl⟩
    | link e n => exact ⟨.ins v (.unlock e (some n)), ex, by simp, by simp [ukind, IPC.kind], fun m => rfl⟩
    | c1 w => cases w <;> cases h
    | c2 w => cases w <;> cases h
    | c3 _ _ w => cases w <;> cases h
    | _ => cases h
  | era k pc =>
    cases pc with
    | push p q =>
      have h : SlotConc.skind ex = .write := h
      by_cases hm : Nonempty (Shared V)
      · obtain ⟨m0⟩ := hm
        obtain ⟨h1, h2, h3, h4⟩ := ex_write m0 h
        refine ⟨.era k (.push p q), (exStep m0 ex).2, by simp, ?_, fun m => ?_⟩
        · change SlotConc.skind (exStep m0 ex).2 ≠ .read
          rw [h3]; decide
        · have h5 : (exStep m0 ex).2.todo ≠ [] := by rw [h1]; exact h2
          simp only [UnorderedConc.step, eraStep, h4 m, if_neg h5]
      · exact ⟨.era k (.cntB 0), ex, by simp, by simp [ukind, EPC.kind], fun m => (hm ⟨m⟩).elim⟩
    | wr p q o => exact ⟨.era k (.reset p q), ex, by simp, by simp [ukind, EPC.kind], fun m => rfl⟩
    | zero p q => exact ⟨.era k (.reset p q), ex, by simp, by simp [ukind, EPC.kind], fun m => rfl⟩
    | desB p => exact ⟨.era k (.unlockB p true), ex, by simp, by simp [ukind, EPC.kind], fun m => rfl⟩
    | des p q =>
      have hI : ex.pc = .front .check := hI
      refine ⟨.era k (.push p q), { ex with todo := [.push () p] }, by simp, ?_, fun m => rfl⟩
      simp [ukind, EPC.kind, SlotConc.skind, hI]
    | f1 w => cases w <;> cases h
    | f2 _ w => cases w <;> cases h
    | f3 _ _ w => cases w <;> cases h
    | _ => cases h

theorem u_laws (P : Params K V) : Laws (UnorderedConc.step P) ukind ExIdle where
  inv m t h := u_inv P m t h
  det m m' t hI h := by
    obtain ⟨cur, ex, _, _, h3⟩ := u_write P t hI h
    rw [h3, h3]
  next m t hI h := by
    obtain ⟨cur, ex, _, h2, h3⟩ := u_write P t hI h
    rw [h3]; exact h2

end unordered
end Stdgpu.StoreBuffer
