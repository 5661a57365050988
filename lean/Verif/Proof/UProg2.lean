import Verif.Proof.UProg
import Verif.Proof.VectorConc
import Verif.Spec.UnorderedConc
/-! Progress of the operations of the unordered containers: the calls on the free list can be completed. -/
namespace Stdgpu.UnorderedConc
open Stdgpu.Conc
open Stdgpu.SlotConc (upd)
open Stdgpu.Unordered
open Stdgpu.Vector (FPC vfront countBits VInv)
open Stdgpu.Spec (UFinished)
variable {K V : Type}

/-- A thread is inside a call on the free list. -/
def AtEx : Cur K V → Bool
  | .ins _ (.pop _) | .era _ (.push _ _) => true
  | _ => false

def WellEx (s : Sys (Shared V) (Thread K V)) : Prop := ∀ t ∈ s.threads, t.ex.todo ≠ [] → AtEx t.cur = true

/-- The state after a completed call on the free list. -/
def After : Cur K V → Thread K V → Prop
  | .ins v (.pop e), t' => (∃ n, t'.cur = .ins v (.cons e n)) ∨
      (t'.cur = .ins v (.unlock e none) ∧ ∃ op res, t'.ex.done.getLast? = some (op, res) ∧ ∀ n, res ≠ .popped n)
  | .era k (.push p q), t' => t'.cur = .era k (.unlock1 p q true)
  | _, _ => False

/-- A thread before and after steps on the free list. -/
def Dr (t t' : Thread K V) : Prop :=
  t' = t ∨ (t.ex.todo ≠ [] ∧ t'.todo = t.todo ∧ t'.done = t.done ∧
    ((t'.ex.todo ≠ [] ∧ t'.cur = t.cur) ∨ (t'.ex.todo = [] ∧ After t.cur t')))

theorem Dr.trans {a b c : Thread K V} (h : Dr a b) (h' : Dr b c) : Dr a c := by
  rcases h with rfl | ⟨h1, h2, h3, h4⟩
  · exact h'
  · rcases h' with rfl | ⟨k1, k2, k3, k4⟩
    · exact .inr ⟨h1, h2, h3, h4⟩
    · refine .inr ⟨h1, k2.trans h2, k3.trans h3, ?_⟩
      rcases h4 with ⟨-, h5⟩ | ⟨h5, -⟩
      · rw [h5] at k4; exact k4
      · exact absurd h5 k1

theorem slot_done_grow {C K' F α : Type} (fr : SlotConc.Front C K' F) (m : SlotConc.Mem C α) (t : SlotConc.Thread K' F α)
    (h : t.todo ≠ []) (h' : (SlotConc.step fr m t).2.todo = []) :
    ∃ op res, (SlotConc.step fr m t).2.done.getLast? = some (op, res) := by
  obtain ⟨todo, pc, done⟩ := t
  cases todo with
  | nil => exact absurd rfl h
  | cons op rest =>
    cases pc with
    | front f =>
      simp only [SlotConc.step] at h' ⊢
      split at h'
      · simp at h'
      · rename_i e; simp only [e]; exact ⟨op, SlotConc.failRes op, by simp⟩
      · simp at h'
    | slot p sp =>
      simp only [SlotConc.step] at h' ⊢
      split at h'
      · simp at h'
      · rename_i r e; simp only [e]; exact ⟨op, r, by simp⟩

theorem slot_cap {C K' F α : Type} (fr : SlotConc.Front C K' F) (m : SlotConc.Mem C α) (t : SlotConc.Thread K' F α) :
    (SlotConc.step fr m t).1.slots.cap = m.slots.cap := by
  obtain ⟨todo, pc, done⟩ := t
  cases todo with
  | nil => rfl
  | cons op rest =>
    cases pc with
    | front f => simp only [SlotConc.step]; split <;> rfl
    | slot p sp =>
      have : (SlotConc.slotStep m.slots op p sp).1.cap = m.slots.cap := by
        cases sp <;> cases op <;> simp only [SlotConc.slotStep] <;> (repeat' split) <;> rfl
      simp only [SlotConc.step]; split <;> exact this

/-- One step on the free list. -/
theorem exStep_big {P : Params K V} {m : Shared V} {t : Thread K V} (ha : AtEx t.cur = true) (hne : t.ex.todo ≠ []) :
    (step P m t).1.tab.excess = (SlotConc.step (vfront (Vector.cap m.tab.excess)) m.tab.excess t.ex).1 ∧
    (step P m t).2.ex = (SlotConc.step (vfront (Vector.cap m.tab.excess)) m.tab.excess t.ex).2 ∧
    Dr t (step P m t).2 ∧ ((step P m t).2.ex.todo ≠ [] → AtEx (step P m t).2.cur = true) := by
  obtain ⟨todo, cur, ex, done⟩ := t
  simp only at ha hne
  generalize hr : SlotConc.step (vfront (Vector.cap m.tab.excess)) m.tab.excess ex = r
  have hg := slot_done_grow (vfront (Vector.cap m.tab.excess)) m.tab.excess ex hne
  rw [hr] at hg
  obtain ⟨rm, rt⟩ := r
  have hx : exStep m ex = ({ m with tab := { m.tab with excess := rm } }, rt) := by simp [exStep, hr]
  cases cur with
  | idle => simp [AtEx] at ha
  | fnd k w => simp [AtEx] at ha
  | ins v pc =>
    cases pc <;> simp [AtEx] at ha
    rename_i e
    by_cases h0 : rt.todo = []
    · obtain ⟨op, res, hlast⟩ := hg h0
      cases res with
      | popped n =>
        simp only [step, insStep, hx, h0, hlast, if_true]
        exact ⟨trivial, trivial, .inr ⟨hne, rfl, rfl, .inr ⟨h0, .inl ⟨n, rfl⟩⟩⟩, fun hh => absurd rfl hh⟩
      | pushed =>
        simp only [step, insStep, hx, h0, hlast, if_true]
        exact ⟨trivial, trivial, .inr ⟨hne, rfl, rfl, .inr ⟨h0, .inr ⟨rfl, op, _, hlast, by simp⟩⟩⟩, fun hh => absurd rfl hh⟩
      | pushFailed =>
        simp only [step, insStep, hx, h0, hlast, if_true]
        exact ⟨trivial, trivial, .inr ⟨hne, rfl, rfl, .inr ⟨h0, .inr ⟨rfl, op, _, hlast, by simp⟩⟩⟩, fun hh => absurd rfl hh⟩
      | popFailed =>
        simp only [step, insStep, hx, h0, hlast, if_true]
        exact ⟨trivial, trivial, .inr ⟨hne, rfl, rfl, .inr ⟨h0, .inr ⟨rfl, op, _, hlast, by simp⟩⟩⟩, fun hh => absurd rfl hh⟩
    · simp only [step, insStep, hx, h0, if_false]
      exact ⟨trivial, trivial, .inr ⟨hne, rfl, rfl, .inl ⟨h0, rfl⟩⟩, fun _ => rfl⟩
  | era k pc =>
    cases pc <;> simp [AtEx] at ha
    rename_i p q
    by_cases h0 : rt.todo = []
    · simp only [step, eraStep, hx, h0, if_true]
      exact ⟨trivial, trivial, .inr ⟨hne, rfl, rfl, .inr ⟨h0, rfl⟩⟩, fun hh => absurd rfl hh⟩
    · simp only [step, eraStep, hx, h0, if_false]
      exact ⟨trivial, trivial, .inr ⟨hne, rfl, rfl, .inl ⟨h0, rfl⟩⟩, fun _ => rfl⟩

/-- Every execution of the calls on the free list is an execution of the container. -/
theorem lift (P : Params K V) (cap : Nat) (σ : List Nat) (s : Sys (Shared V) (Thread K V)) (hw : WellEx s)
    (hc : Vector.cap s.shared.tab.excess = cap) :
    ∃ σ', exSys (run (step P) s σ') = run (SlotConc.step (vfront cap)) (exSys s) σ ∧
      ∀ (j : Nat) (t : Thread K V), s.threads[j]? = some t → ∃ t', (run (step P) s σ').threads[j]? = some t' ∧ Dr t t' := by
  induction σ generalizing s with
  | nil => exact ⟨[], rfl, fun j t ht => ⟨t, ht, .inl rfl⟩⟩
  | cons i σ ih =>
    rw [run_cons]
    cases ht : s.threads[i]? with
    | none =>
      have : stepAt (SlotConc.step (vfront cap)) (exSys s) i = exSys s := by simp [stepAt, exSys, ht]
      rw [this]
      exact ih s hw hc
    | some t =>
      have hxt : (exSys s).threads[i]? = some t.ex := by simp [exSys, ht]
      by_cases h0 : t.ex.todo = []
      · have : stepAt (SlotConc.step (vfront cap)) (exSys s) i = exSys s := by
          rw [SlotConc.stepAt_eq _ _ _ _ hxt]
          have : SlotConc.step (vfront cap) (exSys s).shared t.ex = ((exSys s).shared, t.ex) := by simp [SlotConc.step, h0]
          rw [this]
          show (⟨(exSys s).shared, (exSys s).threads.set i t.ex⟩ : Vector.VSys Nat) = exSys s
          rw [set_self _ _ _ hxt]
        rw [this]
        exact ih s hw hc
      · have hmem := List.mem_of_getElem? ht
        obtain ⟨e1, e2, e3, e4⟩ := exStep_big (P := P) (m := s.shared) (hw t hmem h0) h0
        have hlt := (List.getElem?_eq_some_iff.1 ht).1
        have es : exSys (stepAt (step P) s i) = stepAt (SlotConc.step (vfront cap)) (exSys s) i := by
          rw [SlotConc.stepAt_eq _ _ _ _ hxt, SlotConc.stepAt_eq _ _ _ _ ht]
          rw [hc] at e1 e2
          show (⟨(step P s.shared t).1.tab.excess, (s.threads.set i (step P s.shared t).2).map (·.ex)⟩ : Vector.VSys Nat) =
            ⟨(SlotConc.step (vfront cap) s.shared.tab.excess t.ex).1, (s.threads.map (·.ex)).set i
              (SlotConc.step (vfront cap) s.shared.tab.excess t.ex).2⟩
          rw [e1, List.map_set, e2]
        have hw' : WellEx (stepAt (step P) s i) := by
          rw [SlotConc.stepAt_eq _ _ _ _ ht]
          intro x hx
          rcases mem_set_cases _ _ _ _ hx with rfl | ⟨j, -, hj⟩
          · exact e4
          · exact hw x (List.mem_of_getElem? hj)
        have hc' : Vector.cap (stepAt (step P) s i).shared.tab.excess = cap := by
          rw [SlotConc.stepAt_eq _ _ _ _ ht]
          show (step P s.shared t).1.tab.excess.slots.cap = cap
          rw [e1, slot_cap]
          exact hc
        obtain ⟨σ', k1, k2⟩ := ih _ hw' hc'
        refine ⟨i :: σ', ?_, ?_⟩
        · rw [run_cons, k1, es]
        · intro j u hu
          rw [run_cons]
          by_cases hji : j = i
          · subst hji
            rw [ht] at hu
            cases hu
            obtain ⟨u', h1, h2⟩ := k2 j (step P s.shared t).2 (by
              rw [SlotConc.stepAt_eq _ _ _ _ ht]
              simp [hlt])
            exact ⟨u', h1, e3.trans h2⟩
          · exact k2 j u (by
              rw [SlotConc.stepAt_eq _ _ _ _ ht]
              show (s.threads.set i _)[j]? = some u
              rw [List.getElem?_set_ne (fun e => hji e.symm)]
              exact hu)

/-- All calls on the free list can be completed. -/
theorem drain (P : Params K V) {cap : Nat} {c₀ : Multiset Nat} {xp : List (List (SlotConc.Op Unit Nat))}
    {s : Sys (Shared V) (Thread K V)} (hw : WellEx s) (hv : VInv cap c₀ xp (exSys s)) :
    ∃ σ', (∀ t ∈ (run (step P) s σ').threads, t.ex.todo = []) ∧
      ∀ (j : Nat) (t : Thread K V), s.threads[j]? = some t → ∃ t', (run (step P) s σ').threads[j]? = some t' ∧ Dr t t' := by
  obtain ⟨σ, hσ⟩ := SlotConc.can_finish (vfront cap) (fun f => match f with | .check => 1 | .rmw => 0) (by
      intro c b k f c' f' e
      rcases Vector.vfront_cases cap c b k f with ⟨h1, e', -⟩ | ⟨h1, e', -⟩ | ⟨h1, -, -, -, e'⟩ | ⟨h1, -, -, e'⟩ |
        ⟨h1, -, -, -, e'⟩ | ⟨h1, -, -, e'⟩ <;> rw [e] at e' <;> simp at e'
      rw [h1, e'.2]; simp)
    (VInv cap c₀ xp) (fun s i t hs ht => Vector.vinv_step s i t hs ht)
    (fun s hs => ⟨_, hs, fun p _ => by unfold Vector.vtick; split <;> simp⟩) (exSys s) hv
  obtain ⟨σ', h1, h2⟩ := lift P cap σ s hw hv.hcap
  refine ⟨σ', ?_, h2⟩
  intro t ht
  rw [← h1] at hσ
  exact hσ t.ex (List.mem_map_of_mem ht)

/-! ### Counting -/

/-- Operations a thread has not finished. -/
def opsT (t : Thread K V) : Nat := t.todo.length + (match t.cur with | .idle => 0 | _ => 1)

def opsS (s : Sys (Shared V) (Thread K V)) : Nat := (s.threads.map opsT).sum

theorem opsT_cur {t t' : Thread K V} (h : t'.todo = t.todo) (h1 : t.cur ≠ .idle) (h2 : t'.cur ≠ .idle) : opsT t' = opsT t := by
  unfold opsT
  rw [h]
  cases hc : t.cur <;> cases hc' : t'.cur <;> simp_all

theorem opsT_idle {t t' : Thread K V} (h : t'.todo = t.todo) (h1 : t.cur ≠ .idle) (h2 : t'.cur = .idle) : opsT t' < opsT t := by
  unfold opsT
  rw [h, h2]
  cases hc : t.cur <;> simp_all

theorem After.not_idle {c : Cur K V} {t' : Thread K V} (h : After c t') : t'.cur ≠ .idle := by
  cases c with
  | idle => exact h.elim
  | fnd k w => exact h.elim
  | ins v pc =>
    cases pc <;> try exact h.elim
    rcases h with ⟨n, h⟩ | ⟨h, -⟩ <;> rw [h] <;> simp
  | era k pc =>
    cases pc <;> try exact h.elim
    have : t'.cur = _ := h
    rw [this]; simp

theorem After.atEx {c : Cur K V} {t' : Thread K V} (h : After c t') : AtEx c = true := by
  cases c with
  | idle => exact h.elim
  | fnd k w => exact h.elim
  | ins v pc => cases pc <;> first | exact h.elim | rfl
  | era k pc => cases pc <;> first | exact h.elim | rfl

theorem Dr.ops {t t' : Thread K V} (h : Dr t t') (hw : t.ex.todo ≠ [] → AtEx t.cur = true) : opsT t' = opsT t := by
  rcases h with rfl | ⟨h1, h2, -, h3⟩
  · rfl
  · have hc : t.cur ≠ .idle := by
      intro e
      have := hw h1
      rw [e] at this
      simp [AtEx] at this
    refine opsT_cur h2 hc ?_
    rcases h3 with ⟨-, h4⟩ | ⟨-, h4⟩
    · rw [h4]; exact hc
    · exact h4.not_idle

theorem sum_congr_idx {g g' : Thread K V → Nat} {l l' : List (Thread K V)} (hlen : l'.length = l.length)
    (h : ∀ (j : Nat) (t t' : Thread K V), l[j]? = some t → l'[j]? = some t' → g' t' ≤ g t) :
    (l'.map g').sum ≤ (l.map g).sum := by
  induction l generalizing l' with
  | nil => simp at hlen; simp [hlen]
  | cons a l ih =>
    cases l' with
    | nil => simp at hlen
    | cons b l' =>
      simp only [List.map_cons, List.sum_cons]
      have h1 := h 0 a b rfl rfl
      have h2 := ih (l' := l') (by simpa using hlen) (fun j t t' e e' => h (j + 1) t t' (by simpa using e) (by simpa using e'))
      omega

/-- If from every state of an invariant set in which something is to be done some operation can be finished, all of them
can. -/
theorem finish_all {P : Params K V} (J : Sys (Shared V) (Thread K V) → Prop)
    (hstep : ∀ s i t, J s → s.threads[i]? = some t → J ⟨(step P s.shared t).1, s.threads.set i (step P s.shared t).2⟩)
    (hwork : ∀ s, J s → ¬ UFinished s → ∃ sched, opsS (run (step P) s sched) < opsS s) (s : Sys (Shared V) (Thread K V))
    (hs : J s) : ∃ sched, UFinished (run (step P) s sched) := by
  generalize hn : opsS s = n
  induction n using Nat.strong_induction_on generalizing s with
  | _ n ih =>
    by_cases hf : UFinished s
    · exact ⟨[], hf⟩
    · obtain ⟨σ, h⟩ := hwork s hs hf
      obtain ⟨σ', h'⟩ := ih _ (by omega) _ (run_inv (f := step P) J hstep s hs σ) rfl
      exact ⟨σ ++ σ', by rw [run_append]; exact h'⟩

end Stdgpu.UnorderedConc
