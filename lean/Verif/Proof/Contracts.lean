import Verif.Model.Contracts
import Verif.Proof.UAny4
import Verif.Proof.Bitset
/-! The contract checks of unordered containers in all executions in which nothing undefined happens. -/
namespace Stdgpu.UnorderedConc.Ct
open Stdgpu.Conc
open Stdgpu.Unordered Stdgpu.Contracts
open Stdgpu.Spec
open Stdgpu.UnorderedConc.An
open Stdgpu.Vector (FPC vfront countBits)
variable {K V : Type}

/-! ### Positions -/

def hpos : Hop → Nat
  | .off1 w | .off2 w => w

theorem end_pos {m m' : Shared V} {W : Hop} {W' : Hop ⊕ Nat} (h : endStep m W = (m', W'))
    (hw : hpos W < m.tab.total) : (∀ w, W' = .inl w → hpos w < m.tab.total) ∧ (∀ e, W' = .inr e → e < m.tab.total) := by
  cases W with
  | off1 w =>
    simp only [endStep, Prod.mk.injEq] at h
    obtain ⟨-, h⟩ := h
    split at h <;> subst h <;> refine ⟨?_, ?_⟩ <;> rintro _ ⟨⟩ <;> exact hw
  | off2 w =>
    simp only [endStep] at h
    split at h
    · simp only [Prod.mk.injEq] at h
      obtain ⟨-, rfl⟩ := h
      refine ⟨?_, ?_⟩ <;> rintro _ ⟨⟩; exact hw
    · next q hq =>
      simp only [Prod.mk.injEq] at h
      obtain ⟨-, rfl⟩ := h
      simp only [hop] at hq
      split at hq
      · cases hq
        refine ⟨?_, ?_⟩ <;> rintro _ ⟨⟩; simp only [hpos]; omega
      · cases hq

theorem prev_pos {m m' : Shared V} {p : Nat} {W : Hop} {W' : Hop ⊕ Nat} (h : prevStep m p W = (m', W'))
    (hw : hpos W < m.tab.total) : (∀ w, W' = .inl w → hpos w < m.tab.total) ∧ (∀ e, W' = .inr e → e < m.tab.total) := by
  cases W with
  | off1 w =>
    simp only [prevStep, Prod.mk.injEq] at h
    obtain ⟨-, h⟩ := h
    split at h <;> subst h <;> refine ⟨?_, ?_⟩ <;> rintro _ ⟨⟩ <;> exact hw
  | off2 w =>
    simp only [prevStep] at h
    split at h
    · simp only [Prod.mk.injEq] at h
      obtain ⟨-, rfl⟩ := h
      refine ⟨?_, ?_⟩ <;> rintro _ ⟨⟩; exact hw
    · next q hq =>
      simp only [Prod.mk.injEq] at h
      obtain ⟨-, h⟩ := h
      simp only [hop] at hq
      split at hq
      · cases hq
        split at h <;> subst h <;> refine ⟨?_, ?_⟩ <;> rintro _ ⟨⟩
        · exact hw
        · simp only [hpos]; omega
      · cases hq

def PI (N : Nat) : IPC → Prop
  | .c1 w | .c2 w => wpos w < N
  | .e1 w => hpos w < N
  | .lockE e | .pop e | .cons e _ | .off e _ | .cnt e _ | .set e _ | .link e _ | .unlock e _ => e < N
  | .e2 e w => e < N ∧ hpos w < N
  | .c3 e _ w => e < N ∧ wpos w < N
  | _ => True

def PE (N : Nat) : EPC → Prop
  | .f1 w => wpos w < N
  | .lockB p | .resetB p | .cntB p | .desB p | .unlockB p _ | .undo1 p => p < N
  | .f2 p w => p < N ∧ wpos w < N
  | .p1 p w => p < N ∧ hpos w < N
  | .lock1 p q | .lock2 p q | .rd1 p q | .rd2 p q | .rd3 p q _ | .wr p q _ | .zero p q | .reset p q | .cnt p q | .des p q
  | .push p q | .unlock1 p q _ => p < N ∧ q < N
  | .f3 p q w => p < N ∧ q < N ∧ wpos w < N
  | .p2 p q _ w => p < N ∧ q < N ∧ hpos w < N
  | .unlock2 q _ => q < N

def PC (N : Nat) : Cur K V → Prop
  | .idle => True
  | .ins _ pc => PI N pc
  | .era _ pc => PE N pc
  | .fnd _ w => wpos w < N

theorem ins_pos {m : Shared V} {v : V} {b : Nat} {eq : V → Bool} {ex : Ex} {pc : IPC} (hb : b < m.tab.total)
    (h : PI m.tab.total pc) : ∀ pc', (insStep m v b eq ex pc).2.2 = .go pc' → PI m.tab.total pc' := by
  have hf : ∀ W, wpos W < m.tab.total → ∀ W', (findStep m eq W).2 = .inl W' → wpos W' < m.tab.total := by
    intro W hW W' e
    exact find_pos (m' := (findStep m eq W).1) (by rw [← e]) hW
  have he : ∀ W, hpos W < m.tab.total → (∀ w, (endStep m W).2 = .inl w → hpos w < m.tab.total) ∧
      (∀ e, (endStep m W).2 = .inr e → e < m.tab.total) := fun W hW => end_pos (m' := (endStep m W).1) rfl hW
  intro pc' hpc'
  cases pc with
  | full => simp only [insStep] at hpc'; split at hpc' <;> cases hpc'; trivial
  | exc => simp only [insStep] at hpc'; split at hpc' <;> cases hpc'; exact hb
  | c1 w =>
    have h1 := hf w h
    simp only [insStep] at hpc'
    rcases hr : findStep m eq w with ⟨m', w' | ⟨- | p⟩⟩ <;> rw [hr] at hpc' h1 <;> cases hpc'
    · exact h1 _ rfl
    · trivial
  | occ1 =>
    simp only [insStep] at hpc'
    cases hpc'
    split
    · trivial
    · exact hb
  | lockB =>
    simp only [insStep] at hpc'
    split at hpc' <;> cases hpc'
    · trivial
    · exact hb
  | c2 w =>
    have h1 := hf w h
    simp only [insStep] at hpc'
    rcases hr : findStep m eq w with ⟨m', w' | ⟨- | p⟩⟩ <;> rw [hr] at hpc' h1 <;> cases hpc'
    · exact h1 _ rfl
    · trivial
    · exact hb
  | occ2 =>
    simp only [insStep] at hpc'
    cases hpc'
    split
    · trivial
    · exact hb
  | consB => cases hpc'; trivial
  | cntB => cases hpc'; trivial
  | setB => cases hpc'; exact hb
  | e1 w =>
    have h1 := he w h
    simp only [insStep] at hpc'
    rcases hr : endStep m w with ⟨m', w' | e⟩ <;> rw [hr] at hpc' h1 <;> cases hpc'
    · exact h1.1 _ rfl
    · exact h1.2 _ rfl
  | lockE e =>
    simp only [insStep] at hpc'
    split at hpc' <;> cases hpc'
    · trivial
    · exact ⟨h, hb⟩
  | e2 e w =>
    have h1 := he w h.2
    simp only [insStep] at hpc'
    rcases hr : endStep m w with ⟨m', w' | e⟩ <;> rw [hr] at hpc' h1 <;> cases hpc'
    · exact ⟨h.1, h1.1 _ rfl⟩
    · exact ⟨h.1, hb⟩
  | c3 e e' w =>
    have h1 := hf w h.2
    simp only [insStep] at hpc'
    rcases hr : findStep m eq w with ⟨m', w' | ⟨- | p⟩⟩ <;> rw [hr] at hpc' h1 <;> dsimp only at hpc'
    · cases hpc'; exact ⟨h.1, h1 _ rfl⟩
    · split at hpc' <;> cases hpc' <;> exact h.1
    · cases hpc'; exact h.1
  | pop e =>
    simp only [insStep] at hpc'
    split at hpc'
    · split at hpc' <;> cases hpc' <;> exact h
    · cases hpc'; exact h
  | cons e n => cases hpc'; exact h
  | off e n => cases hpc'; exact h
  | cnt e n => cases hpc'; exact h
  | set e n => cases hpc'; exact h
  | link e n => cases hpc'; exact h
  | unlock p r => simp only [insStep] at hpc'; split at hpc' <;> cases hpc'; trivial

theorem era_pos {m : Shared V} {b : Nat} {eq : V → Bool} {ex : Ex} {pc : EPC} (hb : b < m.tab.total)
    (h : PE m.tab.total pc) : ∀ pc', (eraStep m b eq ex pc).2.2 = .go pc' → PE m.tab.total pc' := by
  have hf : ∀ W, wpos W < m.tab.total → (∀ W', (findStep m eq W).2 = .inl W' → wpos W' < m.tab.total) ∧
      (∀ p, (findStep m eq W).2 = .inr (some p) → p < m.tab.total) := by
    intro W hW
    refine ⟨fun W' e => find_pos (m' := (findStep m eq W).1) (by rw [← e]) hW, fun p e => ?_⟩
    obtain ⟨rfl, -⟩ := find_some (m' := (findStep m eq W).1) (m := m) (by rw [← e])
    exact hW
  have he : ∀ p W, hpos W < m.tab.total → (∀ w, (prevStep m p W).2 = .inl w → hpos w < m.tab.total) ∧
      (∀ e, (prevStep m p W).2 = .inr e → e < m.tab.total) := fun p W hW => prev_pos (m' := (prevStep m p W).1) rfl hW
  intro pc' hpc'
  cases pc with
  | f1 w =>
    have h1 := hf w h
    simp only [eraStep] at hpc'
    rcases hr : findStep m eq w with ⟨m', w' | ⟨- | p⟩⟩ <;> rw [hr] at hpc' h1 <;> cases hpc'
    · exact h1.1 _ rfl
    · split
      · exact h1.2 _ rfl
      · exact ⟨h1.2 _ rfl, hb⟩
  | lockB p =>
    simp only [eraStep] at hpc'
    split at hpc' <;> cases hpc'
    · exact hb
    · exact ⟨h, hb⟩
  | f2 p w =>
    have h1 := hf w h.2
    simp only [eraStep] at hpc'
    rcases hr : findStep m eq w with ⟨m', w' | r⟩ <;> rw [hr] at hpc' h1 <;> cases hpc'
    · exact ⟨h.1, h1.1 _ rfl⟩
    · split <;> exact h.1
  | resetB p => cases hpc'; exact h
  | cntB p => cases hpc'; exact h
  | desB p => cases hpc'; exact h
  | unlockB p ok => simp only [eraStep] at hpc'; split at hpc' <;> cases hpc'; exact hb
  | p1 p w =>
    have h1 := he p w h.2
    simp only [eraStep] at hpc'
    rcases hr : prevStep m p w with ⟨m', w' | e⟩ <;> rw [hr] at hpc' h1 <;> cases hpc'
    · exact ⟨h.1, h1.1 _ rfl⟩
    · exact ⟨h.1, h1.2 _ rfl⟩
  | lock1 p q =>
    simp only [eraStep] at hpc'
    split at hpc' <;> cases hpc'
    · exact hb
    · exact h
  | lock2 p q =>
    simp only [eraStep] at hpc'
    split at hpc' <;> cases hpc'
    · exact h.1
    · exact ⟨h.1, h.2, hb⟩
  | undo1 p => cases hpc'; exact hb
  | f3 p q w =>
    have h1 := hf w h.2.2
    simp only [eraStep] at hpc'
    rcases hr : findStep m eq w with ⟨m', w' | r⟩ <;> rw [hr] at hpc' h1 <;> cases hpc'
    · exact ⟨h.1, h.2.1, h1.1 _ rfl⟩
    · exact ⟨h.1, h.2.1, hb⟩
  | p2 p q it w =>
    have h1 := he p w h.2.2
    simp only [eraStep] at hpc'
    rcases hr : prevStep m p w with ⟨m', w' | e⟩ <;> rw [hr] at hpc' h1 <;> cases hpc'
    · exact ⟨h.1, h.2.1, h1.1 _ rfl⟩
    · split <;> exact ⟨h.1, h.2.1⟩
  | rd1 p q => cases hpc'; split <;> exact h
  | rd2 p q => cases hpc'; exact h
  | rd3 p q o => cases hpc'; exact h
  | wr p q o => cases hpc'; exact h
  | zero p q => cases hpc'; exact h
  | reset p q => cases hpc'; exact h
  | cnt p q => cases hpc'; exact h
  | des p q => cases hpc'; exact h
  | push p q => cases hpc'; split <;> exact h
  | unlock1 p q ok => cases hpc'; exact h.2
  | unlock2 q ok => simp only [eraStep] at hpc'; split at hpc' <;> cases hpc'; exact hb

theorem step_pos {P : Params K V} {m : Shared V} {t : Thread K V} (hb : ∀ k, bucket P m.tab k < m.tab.total)
    (h : PC m.tab.total t.cur) : PC m.tab.total (step P m t).2.cur := by
  obtain ⟨todo, cur, ex, done⟩ := t
  cases cur with
  | idle =>
    cases todo with
    | nil => trivial
    | cons op rest => cases op <;> first | trivial | exact hb _
  | ins v pc =>
    have h1 := ins_pos (v := v) (eq := fun w => P.keyEq (P.keyOf w) (P.keyOf v)) (ex := ex) (hb (P.keyOf v)) h
    simp only [step]
    rcases hr : insStep m v (bucket P m.tab (P.keyOf v)) (fun w => P.keyEq (P.keyOf w) (P.keyOf v)) ex pc with ⟨m', ex', pc' | ⟨- | p⟩⟩ <;>
      rw [hr] at h1
    · exact h1 _ rfl
    · trivial
    · trivial
  | era k pc =>
    have h1 := era_pos (eq := fun w => P.keyEq (P.keyOf w) k) (ex := ex) (hb k) h
    simp only [step]
    rcases hr : eraStep m (bucket P m.tab k) (fun w => P.keyEq (P.keyOf w) k) ex pc with ⟨m', ex', pc' | ok⟩ <;>
      rw [hr] at h1
    · exact h1 _ rfl
    · trivial
  | fnd k w =>
    simp only [step]
    rcases hr : findStep m (fun w => P.keyEq (P.keyOf w) k) w with ⟨m', w' | ⟨- | p⟩⟩
    · exact find_pos hr h
    · trivial
    · trivial

/-- Positions and the invariant of arbitrary executions, as long as nothing undefined has happened. -/
structure CInv (P : Params K V) (t₀ : Tab V) (s : Sys (Shared V) (Thread K V)) : Prop where
  inv : An.Inv P (fun _ => true) t₀ s
  pos : ∀ t ∈ s.threads, PC t₀.total t.cur

theorem cinv_run {P : Params K V} {t : Tab V} {chain : Nat → List Nat} {free : List Nat}
    (h : Rep P t chain free) (progs : List (List (Op K V))) (sched : List Nat) :
    (uexec P t progs sched).shared.ub = true ∨ CInv P t (uexec P t progs sched) := by
  refine run_inv (f := step P) (fun s => s.shared.ub = true ∨ CInv P t s) ?_ _ (.inr ⟨An.inv_init h progs, ?_⟩) sched
  · intro s i u hs hu
    by_cases hb : (step P s.shared u).1.ub = true
    · exact .inl hb
    · rcases hs with hs | hs
      · exact absurd (ub_mono hs) hb
      · refine .inr ⟨hs.inv.step (by simp) h.bc_pos h.bc_lt h.bc_le hu (by simpa using hb), ?_⟩
        intro x hx
        rcases mem_set_cases _ _ _ _ hx with rfl | ⟨j, -, hj⟩
        · have := step_pos (P := P) (m := s.shared) (t := u) (fun k => by
            rw [bucket_eq, hs.inv.bc, hs.inv.total]
            have := bkt_lt P t.bc k h.bc_pos h.bc_lt
            have := h.bc_le
            omega) (by rw [hs.inv.total]; exact hs.pos u (List.mem_of_getElem? hu))
          rw [hs.inv.total] at this
          exact this
        · exact hs.pos x (List.mem_of_getElem? hj)
  · intro u hu
    simp only [init, List.mem_map] at hu
    obtain ⟨p, -, rfl⟩ := hu
    trivial

theorem step_cap {P : Params K V} (m : Shared V) (t : Thread K V) :
    (step P m t).1.tab.excess.slots.cap = m.tab.excess.slots.cap := by
  have hf : ∀ (eq : V → Bool) W, (findStep m eq W).1.tab = m.tab := by
    intro eq W; cases W <;> simp only [findStep] <;> (try split) <;> rfl
  have he : ∀ W, (endStep m W).1.tab = m.tab := by
    intro W; cases W <;> simp only [endStep] <;> (try split) <;> rfl
  have hp : ∀ p W, (prevStep m p W).1.tab = m.tab := by
    intro p W; cases W <;> simp only [prevStep] <;> (try split) <;> rfl
  have hx : ∀ x : Ex, (exStep m x).1.tab.excess.slots.cap = m.tab.excess.slots.cap := by
    intro x
    obtain ⟨todo, pc, done⟩ := x
    simp only [exStep, SlotConc.step]
    cases todo with
    | nil => rfl
    | cons op rest =>
      cases pc with
      | front f =>
        dsimp only
        generalize (vfront (Vector.cap m.tab.excess)).step m.tab.excess.ctr op.isPush op.kind f = r
        rcases r with ⟨c, f' | - | p⟩ <;> rfl
      | slot p s =>
        have h1 : (SlotConc.slotStep m.tab.excess.slots op p s).1.cap = m.tab.excess.slots.cap := by
          cases s <;> simp only [SlotConc.slotStep] <;> (repeat' split) <;> rfl
        dsimp only
        generalize SlotConc.slotStep m.tab.excess.slots op p s = r at h1
        rcases r with ⟨c, s' | res⟩ <;> exact h1
  obtain ⟨todo, cur, ex, done⟩ := t
  cases cur with
  | idle => cases todo <;> rfl
  | fnd k W =>
    have h1 := hf (fun w => P.keyEq (P.keyOf w) k) W
    simp only [step]
    generalize findStep m (fun w => P.keyEq (P.keyOf w) k) W = r at h1
    rcases r with ⟨m', w' | ⟨- | p⟩⟩ <;> dsimp only at h1 ⊢ <;> rw [h1]
  | ins v pc =>
    have h1 : (insStep m v (bucket P m.tab (P.keyOf v)) (fun w => P.keyEq (P.keyOf w) (P.keyOf v)) ex pc).1.tab.excess.slots.cap
        = m.tab.excess.slots.cap := by
      have h1 := hf (fun w => P.keyEq (P.keyOf w) (P.keyOf v))
      cases pc with
      | full => rfl
      | exc => rfl
      | occ1 => rfl
      | occ2 => rfl
      | consB => rfl
      | cntB => rfl
      | setB => rfl
      | cons e n => rfl
      | off e n => rfl
      | cnt e n => rfl
      | set e n => rfl
      | link e n => rfl
      | unlock p r => rfl
      | lockB => simp only [insStep]; split <;> rfl
      | lockE e => simp only [insStep]; split <;> rfl
      | c1 W =>
        have h2 := h1 W
        simp only [insStep]
        generalize findStep m (fun w => P.keyEq (P.keyOf w) (P.keyOf v)) W = r at h2
        rcases r with ⟨m', w' | ⟨- | p⟩⟩ <;> dsimp only at h2 ⊢ <;> rw [h2]
      | c2 W =>
        have h2 := h1 W
        simp only [insStep]
        generalize findStep m (fun w => P.keyEq (P.keyOf w) (P.keyOf v)) W = r at h2
        rcases r with ⟨m', w' | ⟨- | p⟩⟩ <;> dsimp only at h2 ⊢ <;> rw [h2]
      | c3 e e' W =>
        have h2 := h1 W
        simp only [insStep]
        generalize findStep m (fun w => P.keyEq (P.keyOf w) (P.keyOf v)) W = r at h2
        rcases r with ⟨m', w' | ⟨- | p⟩⟩ <;> dsimp only at h2 ⊢ <;> (try split) <;> (try dsimp only) <;> rw [h2]
      | e1 W =>
        have h2 := he W
        simp only [insStep]
        generalize endStep m W = r at h2
        rcases r with ⟨m', w' | p⟩ <;> dsimp only at h2 ⊢ <;> rw [h2]
      | e2 e W =>
        have h2 := he W
        simp only [insStep]
        generalize endStep m W = r at h2
        rcases r with ⟨m', w' | p⟩ <;> dsimp only at h2 ⊢ <;> rw [h2]
      | pop e =>
        have h2 := hx ex
        simp only [insStep]
        (repeat' split) <;> exact h2
    simp only [step]
    generalize insStep m v (bucket P m.tab (P.keyOf v)) (fun w => P.keyEq (P.keyOf w) (P.keyOf v)) ex pc = r at h1 ⊢
    rcases r with ⟨m', ex', pc' | ⟨- | p⟩⟩ <;> exact h1
  | era k pc =>
    have h1 : (eraStep m (bucket P m.tab k) (fun w => P.keyEq (P.keyOf w) k) ex pc).1.tab.excess.slots.cap
        = m.tab.excess.slots.cap := by
      have h1 := hf (fun w => P.keyEq (P.keyOf w) k)
      cases pc with
      | f1 W =>
        have h2 := h1 W
        simp only [eraStep]
        generalize findStep m (fun w => P.keyEq (P.keyOf w) k) W = r at h2
        rcases r with ⟨m', w' | ⟨- | p⟩⟩ <;> dsimp only at h2 ⊢ <;> rw [h2]
      | f2 p W =>
        have h2 := h1 W
        simp only [eraStep]
        generalize findStep m (fun w => P.keyEq (P.keyOf w) k) W = r at h2
        rcases r with ⟨m', w' | r⟩ <;> dsimp only at h2 ⊢ <;> rw [h2]
      | f3 p q W =>
        have h2 := h1 W
        simp only [eraStep]
        generalize findStep m (fun w => P.keyEq (P.keyOf w) k) W = r at h2
        rcases r with ⟨m', w' | r⟩ <;> dsimp only at h2 ⊢ <;> rw [h2]
      | p1 p W =>
        have h2 := hp p W
        simp only [eraStep]
        generalize prevStep m p W = r at h2
        rcases r with ⟨m', w' | q'⟩ <;> dsimp only at h2 ⊢ <;> rw [h2]
      | p2 p q it W =>
        have h2 := hp p W
        simp only [eraStep]
        generalize prevStep m p W = r at h2
        rcases r with ⟨m', w' | q'⟩ <;> dsimp only at h2 ⊢ <;> rw [h2]
      | lockB p => simp only [eraStep]; split <;> rfl
      | lock1 p q => simp only [eraStep]; split <;> rfl
      | lock2 p q => simp only [eraStep]; split <;> rfl
      | push p q => exact hx ex
      | _ => rfl
    simp only [step]
    generalize eraStep m (bucket P m.tab k) (fun w => P.keyEq (P.keyOf w) k) ex pc = r at h1 ⊢
    rcases r with ⟨m', ex', pc' | ok⟩ <;> exact h1

theorem run_cap (P : Params K V) (t : Tab V) (progs : List (List (Op K V))) (sched : List Nat) :
    (uexec P t progs sched).shared.tab.excess.slots.cap = t.excess.slots.cap :=
  run_inv (f := step P) (fun s => s.shared.tab.excess.slots.cap = t.excess.slots.cap)
    (fun s i u hs _ => (step_cap s.shared u).trans hs) _ rfl sched

/-! ### The counter -/

theorem count_le {T : Type} (n : Nat) (occ : Nat → Bool) (f : T → Option Nat) (c : T → Nat) : ∀ l : List T,
    (∀ t ∈ l, c t ≤ 1) → (∀ t ∈ l, 0 < c t → ∃ p, f t = some p ∧ p < n ∧ occ p = false) →
    (∀ (i j : Nat) (a b : T) (p : Nat), i ≠ j → l[i]? = some a → l[j]? = some b → f a = some p → f b ≠ some p) →
    countBits n occ + (l.map c).sum ≤ n := by
  intro l hc hf hd
  -- the entries of the threads are distinct and not occupied
  have key : ∀ l : List T, (∀ t ∈ l, c t ≤ 1) → (∀ t ∈ l, 0 < c t → ∃ p, f t = some p ∧ p < n ∧ occ p = false) →
      (∀ (i j : Nat) (a b : T) (p : Nat), i ≠ j → l[i]? = some a → l[j]? = some b → f a = some p → f b ≠ some p) →
      ∃ ps : List Nat, ps.Nodup ∧ (∀ p ∈ ps, p < n ∧ occ p = false ∧ ∃ t ∈ l, f t = some p) ∧ (l.map c).sum = ps.length := by
    intro l
    induction l with
    | nil => exact fun _ _ _ => ⟨[], by simp, by simp, rfl⟩
    | cons a l ih =>
      intro hc hf hd
      obtain ⟨ps, h1, h2, h3⟩ := ih (fun t ht => hc t (List.mem_cons_of_mem _ ht)) (fun t ht => hf t (List.mem_cons_of_mem _ ht))
        (fun i j x y p hij hi hj => hd (i + 1) (j + 1) x y p (by omega) (by simpa using hi) (by simpa using hj))
      have ha := hc a (by simp)
      rcases Nat.eq_zero_or_pos (c a) with h0 | h0
      · refine ⟨ps, h1, fun p hp => ?_, by simp [h0, h3]⟩
        obtain ⟨q1, q2, t, q3, q4⟩ := h2 p hp
        exact ⟨q1, q2, t, List.mem_cons_of_mem _ q3, q4⟩
      · obtain ⟨p, e1, e2, e3⟩ := hf a (by simp) h0
        refine ⟨p :: ps, List.nodup_cons.2 ⟨?_, h1⟩, ?_, ?_⟩
        · intro hp
          obtain ⟨-, -, t, ht, e⟩ := h2 p hp
          obtain ⟨j, hj⟩ := List.getElem?_of_mem ht
          exact hd 0 (j + 1) a t p (by omega) (by simp) (by simpa using hj) e1 e
        · intro p' hp'
          rcases List.mem_cons.1 hp' with rfl | hp'
          · exact ⟨e2, e3, a, by simp, e1⟩
          · obtain ⟨q1, q2, t, q3, q4⟩ := h2 p' hp'
            exact ⟨q1, q2, t, List.mem_cons_of_mem _ q3, q4⟩
        · simp only [List.map_cons, List.sum_cons, List.length_cons, h3]; omega
  obtain ⟨ps, h1, h2, h3⟩ := key l hc hf hd
  have hsub : ps.length ≤ ((List.range n).filter (fun p => !occ p)).length := by
    refine (List.subperm_of_subset h1 fun p hp => ?_).length_le
    obtain ⟨q1, q2, -⟩ := h2 p hp
    simp [q1, q2]
  have hcnt := List.length_eq_countP_add_countP occ (l := List.range n)
  rw [List.length_range] at hcnt
  rw [← List.countP_eq_length_filter] at hsub
  have e2 : (List.range n).countP (fun p => !occ p) = (List.range n).countP (fun a => decide ¬occ a = true) := by
    congr 1; funext a; cases occ a <;> rfl
  unfold countBits
  omega

theorem CInv.count {P : Params K V} {t₀ : Tab V} {s : Sys (Shared V) (Thread K V)} (h : CInv P t₀ s) :
    0 ≤ s.shared.tab.count ∧ s.shared.tab.count ≤ t₀.total := by
  have h1 := h.inv.cnt
  have h2 := count_le t₀.total s.shared.tab.occ (tTok P t₀.bc) tC s.threads ?_ ?_ h.inv.own
  · omega
  · intro t _
    unfold tC
    split
    · next pc _ => cases pc <;> simp [iC]
    · next pc _ => cases pc <;> simp [eC]
    · simp
  · intro t ht h0
    have hg := h.inv.good t ht
    have htot := h.inv.total
    obtain ⟨todo, cur, ex, done⟩ := t
    cases cur with
    | idle => simp [tC] at h0
    | fnd k W => simp [tC] at h0
    | ins v pc =>
      have hg2 : IGood s.shared.tab v (bkt P t₀.bc (P.keyOf v)) pc := hg.2
      cases pc <;> simp [tC, iC] at h0
      · exact ⟨_, rfl, by rw [← htot]; exact hg2.1, hg2.2.1⟩
      · exact ⟨_, rfl, by rw [← htot]; exact hg2.1, hg2.2.1⟩
    | era k pc =>
      have hg2 : EGood P s.shared.tab k pc := hg.2
      cases pc <;> simp [tC, eC] at h0
      · exact ⟨_, rfl, by rw [← htot]; exact hg2.1, hg2.2.1⟩
      · exact ⟨_, rfl, by rw [← htot]; exact hg2.1, hg2.2.1⟩

end Stdgpu.UnorderedConc.Ct

namespace Stdgpu.Contracts
open Stdgpu.Conc Stdgpu.Unordered Stdgpu.UnorderedConc Stdgpu.Spec Stdgpu.UnorderedConc.Ct Stdgpu.UnorderedConc.An
variable {K V : Type}

/-! ### Accesses to bits -/

theorem hasSingleBit_pow (k : Nat) (hk : k < 64) : Bit.hasSingleBit (BitVec.ofNat 64 (2 ^ k)) = true := by
  have : ∀ i : Fin 64, Bit.hasSingleBit (BitVec.ofNat 64 (2 ^ i.val)) = true := by decide +kernel
  exact this ⟨k, hk⟩

/-- An access inside the bitset passes all checks. -/
theorem bitAccess_ok {w size : Nat} (hw : ∃ k, k < 64 ∧ w = 2 ^ k) (hs : size < 2 ^ 64) {n : Nat} (hn : n < size) :
    bitAccess w size n = true := by
  obtain ⟨k, hk, rfl⟩ := hw
  have e := Bitset.bitN_eq k hk n (by omega)
  have hlt : n % 2 ^ k < 2 ^ k := Nat.mod_lt _ (Nat.two_pow_pos k)
  have h2 : 2 ^ k < 2 ^ 64 := Nat.pow_lt_pow_right (by omega) hk
  have h3 : (BitVec.ofNat 64 (2 ^ k)).toNat = 2 ^ k := by
    rw [BitVec.toNat_ofNat]; exact Nat.mod_eq_of_lt h2
  unfold Bitset.bitN at e
  simp only [bitAccess, bitModChecks, hasSingleBit_pow k hk, Int.toNat_natCast, Bitset.bitN, e, h3, Bool.true_and, Bool.and_eq_true,
    decide_eq_true_eq]
  omega

theorem sizePost_true (cap : Nat) (s : Int) : sizePost cap s = true := by
  simp only [sizePost, Bool.or_eq_true, decide_eq_true_eq]; omega

/-- A thread at a slot inside the array passes all checks. -/
theorem slotChecks_ok {C K' F α : Type} {w : Nat} (hw : ∃ k, k < 64 ∧ w = 2 ^ k) {s : C → Int} {m : SlotConc.Mem C α}
    {t : SlotConc.Thread K' F α} (hs : m.slots.cap < 2 ^ 64) (h : ∀ p x, t.pc = .slot p x → p < m.slots.cap) :
    slotChecks w s m t = true := by
  unfold slotChecks
  split
  · exact sizePost_true _ _
  · next e => simpa using h _ _ e
  · next e => simpa using h _ _ e
  · next e => simpa using h _ _ e
  · next e => exact bitAccess_ok hw hs (h _ _ e)

theorem bucketPost_ok (P : Params K V) (t : Tab V) (h0 : 0 < t.bc) (h1 : t.bc < 2 ^ 63) (k : K) : bucketPost P t k = true := by
  have h2 : (FibHash.bucket P.hash t.bc k).toNat < t.bc := bucket_lt P t k h0 h1
  have h3 : 0 ≤ FibHash.bucket P.hash t.bc k := (FibHash.fib_range (P.hash k) t.bc h0 h1).1
  simp only [bucketPost, Bool.and_eq_true, decide_eq_true_eq]
  omega

theorem hop_ne {t : Tab V} {p : Nat} (h : hop t p ≠ none) : 0 ≤ (p : Int) + t.off p ∧ (p : Int) + t.off p < t.total := by
  unfold hop at h
  dsimp only at h
  split at h
  · assumption
  · exact absurd rfl h

variable {w : Nat}

theorem walkChecks_ok (hw : ∃ k, k < 64 ∧ w = 2 ^ k) {m : Shared V} {eq : V → Bool} {W : Walk} (hs : m.tab.total < 2 ^ 64)
    (hu : (findStep m eq W).1.ub = false) (h : wpos W < m.tab.total) : walkChecks w m.tab W = true := by
  cases W with
  | occ p => exact bitAccess_ok hw hs h
  | val p => simpa [walkChecks, wpos] using h
  | off1 p => simpa [walkChecks, wpos] using h
  | off2 p =>
    have : hop m.tab p ≠ none := by
      intro e
      simp [findStep, e] at hu
    obtain ⟨a, b⟩ := hop_ne this
    simp [walkChecks, a, b]

theorem hopChecks_end {m : Shared V} {W : Hop} (hu : (endStep m W).1.ub = false) (h : hpos W < m.tab.total) :
    hopChecks m.tab W = true := by
  cases W with
  | off1 p => simpa [hopChecks, hpos] using h
  | off2 p =>
    have : hop m.tab p ≠ none := by
      intro e
      simp [endStep, e] at hu
    obtain ⟨a, b⟩ := hop_ne this
    have : p < m.tab.total := h
    simp [hopChecks, a, b, this]

theorem hopChecks_prev {m : Shared V} {x : Nat} {W : Hop} (hu : (prevStep m x W).1.ub = false) (h : hpos W < m.tab.total) :
    hopChecks m.tab W = true := by
  cases W with
  | off1 p => simpa [hopChecks, hpos] using h
  | off2 p =>
    have : hop m.tab p ≠ none := by
      intro e
      simp [prevStep, e] at hu
    obtain ⟨a, b⟩ := hop_ne this
    have : p < m.tab.total := h
    simp [hopChecks, a, b, this]

theorem insChecks_ok (hw : ∃ k, k < 64 ∧ w = 2 ^ k) {P : Params K V} {m : Shared V} {v : V} {b : Nat} {eq : V → Bool} {ex : Ex}
    {pc : IPC} (hs : m.tab.total < 2 ^ 64) (hc : m.tab.excess.slots.cap < 2 ^ 64) (hb : b < m.tab.total)
    (hbk : bucketPost P m.tab (P.keyOf v) = true) (hcnt : usizePost m.tab = true)
    (hx : ExOK m.tab.total (Vector.cap m.tab.excess) ex) (hg : IGood m.tab v b pc) (hp : PI m.tab.total pc)
    (hu : (insStep m v b eq ex pc).1.ub = false) : insChecks w P m.tab v b ex pc = true := by
  cases pc with
  | full => exact hcnt
  | exc => simp only [insChecks, sizePost_true, hbk, Bool.and_self]
  | c1 W =>
    refine walkChecks_ok (eq := eq) hw hs ?_ hp
    rcases hr : findStep m eq W with ⟨m', w' | ⟨- | p⟩⟩ <;> simp only [insStep, hr] at hu <;> exact hu
  | c2 W =>
    refine walkChecks_ok (eq := eq) hw hs ?_ hp
    rcases hr : findStep m eq W with ⟨m', w' | ⟨- | p⟩⟩ <;> simp only [insStep, hr] at hu <;> exact hu
  | c3 e e' W =>
    refine walkChecks_ok (eq := eq) hw hs ?_ hp.2
    rcases hr : findStep m eq W with ⟨m', w' | ⟨- | p⟩⟩ <;> simp only [insStep, hr] at hu
    · exact hu
    · split at hu <;> exact hu
    · exact hu
  | occ1 => exact bitAccess_ok hw hs hb
  | occ2 => exact bitAccess_ok hw hs hb
  | lockB => exact bitAccess_ok hw hs hb
  | setB => exact bitAccess_ok hw hs hb
  | consB => simpa [insChecks] using hb
  | cntB => rfl
  | cnt e n => rfl
  | e1 W =>
    refine hopChecks_end ?_ hp
    rcases hr : endStep m W with ⟨m', w' | e⟩ <;> simp only [insStep, hr] at hu <;> exact hu
  | e2 e W =>
    refine hopChecks_end ?_ hp.2
    rcases hr : endStep m W with ⟨m', w' | e⟩ <;> simp only [insStep, hr] at hu <;> exact hu
  | lockE e => exact bitAccess_ok hw hs hp
  | pop e => exact slotChecks_ok hw hc fun p x h => (hx.pc p x h).1
  | cons e n =>
    have : n < m.tab.total := hg
    simpa [insChecks] using this
  | off e n =>
    have : n < m.tab.total := hg.1
    simpa [insChecks] using this
  | set e n => exact bitAccess_ok hw hs hg.1
  | link e n =>
    have : e < m.tab.total := hp
    simpa [insChecks] using this
  | unlock p r => exact bitAccess_ok hw hs hp

theorem eraChecks_ok (hw : ∃ k, k < 64 ∧ w = 2 ^ k) {m : Shared V} {b : Nat} {eq : V → Bool} {ex : Ex}
    {pc : EPC} (hs : m.tab.total < 2 ^ 64) (hc : m.tab.excess.slots.cap < 2 ^ 64)
    (hx : ExOK m.tab.total (Vector.cap m.tab.excess) ex) (hp : PE m.tab.total pc)
    (hu : (eraStep m b eq ex pc).1.ub = false) : eraChecks w m.tab ex pc = true := by
  cases pc with
  | f1 W =>
    refine walkChecks_ok (eq := eq) hw hs ?_ hp
    rcases hr : findStep m eq W with ⟨m', w' | ⟨- | p⟩⟩ <;> simp only [eraStep, hr] at hu <;> exact hu
  | f2 p W =>
    refine walkChecks_ok (eq := eq) hw hs ?_ hp.2
    rcases hr : findStep m eq W with ⟨m', w' | p⟩ <;> simp only [eraStep, hr] at hu <;> exact hu
  | f3 p q W =>
    refine walkChecks_ok (eq := eq) hw hs ?_ hp.2.2
    rcases hr : findStep m eq W with ⟨m', w' | p⟩ <;> simp only [eraStep, hr] at hu <;> exact hu
  | p1 p W =>
    refine hopChecks_prev (x := p) ?_ hp.2
    rcases hr : prevStep m p W with ⟨m', w' | q⟩ <;> simp only [eraStep, hr] at hu <;> exact hu
  | p2 p q it W =>
    refine hopChecks_prev (x := p) ?_ hp.2.2
    rcases hr : prevStep m p W with ⟨m', w' | q⟩ <;> simp only [eraStep, hr] at hu <;> exact hu
  | lockB p => exact bitAccess_ok hw hs hp
  | resetB p => exact bitAccess_ok hw hs hp
  | unlockB p ok => exact bitAccess_ok hw hs hp
  | lock1 p q => exact bitAccess_ok hw hs hp.1
  | undo1 p => exact bitAccess_ok hw hs hp
  | reset p q => exact bitAccess_ok hw hs hp.1
  | unlock1 p q ok => exact bitAccess_ok hw hs hp.1
  | lock2 p q => exact bitAccess_ok hw hs hp.2
  | unlock2 q ok => exact bitAccess_ok hw hs hp
  | cntB p => rfl
  | cnt p q => rfl
  | desB p => have : p < m.tab.total := hp; simpa [eraChecks] using this
  | des p q => simpa [eraChecks] using hp.1
  | rd1 p q => simpa [eraChecks] using hp.1
  | rd2 p q => simpa [eraChecks] using hp.1
  | rd3 p q o => simpa [eraChecks] using hp.2
  | wr p q o => simpa [eraChecks] using hp.2
  | zero p q => simpa [eraChecks] using hp.2
  | push p q => exact slotChecks_ok hw hc fun p x h => (hx.pc p x h).1

/-- The next step of a thread passes all checks unless something undefined happens in it. -/
theorem uChecks_ok (hw : ∃ k, k < 64 ∧ w = 2 ^ k) {P : Params K V} {t₀ : Tab V} {s : Sys (Shared V) (UnorderedConc.Thread K V)}
    (h : CInv P t₀ s) (h0 : 0 < t₀.bc) (h1 : t₀.bc < 2 ^ 63) (h2 : t₀.bc ≤ t₀.total) (h3 : t₀.total < 2 ^ 64)
    (h4 : s.shared.tab.excess.slots.cap < 2 ^ 64) {u : UnorderedConc.Thread K V} (hu : u ∈ s.threads)
    (hub : (step P s.shared u).1.ub = false) : uChecks w P s.shared u = true := by
  have hbc := h.inv.bc
  have htot := h.inv.total
  have hbk : ∀ k, bucketPost P s.shared.tab k = true := fun k => bucketPost_ok P _ (by omega) (by omega) k
  have hb : ∀ k, bucket P s.shared.tab k < s.shared.tab.total := by
    intro k
    have := bucket_lt P s.shared.tab k (by omega) (by omega)
    omega
  have hcnt : usizePost s.shared.tab = true := by
    have := h.count
    simp only [usizePost, Bool.and_eq_true, decide_eq_true_eq]
    omega
  have hg := h.inv.good u hu
  have hp := h.pos u hu
  rw [← htot] at hp
  obtain ⟨todo, cur, ex, done⟩ := u
  unfold uChecks
  cases cur with
  | idle =>
    dsimp only
    split
    · exact hbk _
    · exact hbk _
    · rfl
  | ins v pc =>
    have hg2 : IGood s.shared.tab v (bucket P s.shared.tab (P.keyOf v)) pc := by
      rw [bucket_eq, hbc]; exact hg.2
    refine insChecks_ok (eq := fun w => P.keyEq (P.keyOf w) (P.keyOf v)) hw (by omega) h4 (hb _) (hbk _) hcnt hg.1 hg2 hp ?_
    simp only [step] at hub
    generalize insStep s.shared v (bucket P s.shared.tab (P.keyOf v)) (fun w => P.keyEq (P.keyOf w) (P.keyOf v)) ex pc = r at hub ⊢
    rcases r with ⟨m', ex', pc' | ⟨- | p⟩⟩ <;> exact hub
  | era k pc =>
    refine eraChecks_ok (b := bucket P s.shared.tab k) (eq := fun w => P.keyEq (P.keyOf w) k) hw (by omega) h4 hg.1 hp ?_
    simp only [step] at hub
    generalize eraStep s.shared (bucket P s.shared.tab k) (fun w => P.keyEq (P.keyOf w) k) ex pc = r at hub ⊢
    rcases r with ⟨m', ex', pc' | ok⟩ <;> exact hub
  | fnd k W =>
    refine walkChecks_ok (eq := fun w => P.keyEq (P.keyOf w) k) hw (by omega) ?_ hp
    simp only [step] at hub
    generalize findStep s.shared (fun w => P.keyEq (P.keyOf w) k) W = r at hub ⊢
    rcases r with ⟨m', w' | ⟨- | p⟩⟩ <;> exact hub

end Stdgpu.Contracts
