import Verif.Proof.UConcIns8
/-! Concurrent inserts: `valid()` tells whether the free list was overdrawn. -/
namespace Stdgpu.UnorderedConc
open Stdgpu.Conc
open Stdgpu.SlotConc (upd)
open Stdgpu.Unordered
open Stdgpu.Vector (FPC vfront countBits PopInv)
open Stdgpu.Spec
variable {K V : Type}

section
variable {P : Params K V} {I : Start P} {chain : Nat → List Nat} {xp : List (List (SlotConc.Op Unit Nat))}
  {s : Sys (Shared V) (Thread K V)}

/-- Without excess entries no insertion gets past the first checks. -/
def Early : Cur K V → Prop
  | .idle | .fnd _ _ | .ins _ .full | .ins _ .exc => True
  | _ => False

theorem noExcess_run (I : Start P) (hl : KeyLaws P) (h0 : I.t₀.total = I.t₀.bc) (sched : List Nat) :
    (run (step P) (init I.t₀ I.progs) sched).shared.tab.excess.ctr = 0 := by
  have hcap0 : Vector.cap I.t₀.excess = 0 := by rw [I.rep.excessCap]; omega
  have := run_inv (f := step P) (fun s => (∃ chain xp, Inv I chain xp s) ∧ s.shared.tab.excess.ctr = 0 ∧
    ∀ t ∈ s.threads, Early t.cur) ?_ (init I.t₀ I.progs) ?_ sched
  · exact this.2.1
  · rintro s i t ⟨⟨chain, xp, h⟩, hc, he⟩ ht
    obtain ⟨c', x', h', -⟩ := h.stepOK hl ht
    refine ⟨⟨c', x', h'⟩, ?_⟩
    have hmem := List.mem_of_getElem? ht
    have hcap : Vector.cap s.shared.tab.excess = 0 := by
      have : Vector.cap s.shared.tab.excess = I.t₀.total - I.t₀.bc := h.excess.v.hcap
      omega
    have key : ∀ m' t', step P s.shared t = (m', t') → m'.tab.excess.ctr = 0 → Early t'.cur →
        (step P s.shared t).1.tab.excess.ctr = 0 ∧ ∀ u ∈ s.threads.set i (step P s.shared t).2, Early u.cur := by
      intro m' t' e h1 h2
      rw [e]
      refine ⟨h1, ?_⟩
      intro u hu
      rcases mem_set_cases _ _ _ _ hu with rfl | ⟨j, -, hj⟩
      · exact h2
      · exact he u (List.mem_of_getElem? hj)
    have het := he t hmem
    cases hcur : t.cur with
    | idle =>
      cases htd : t.todo with
      | nil => exact key s.shared t (by simp only [step, hcur, htd]) hc het
      | cons op rest =>
        refine key _ _ (by simp only [step, hcur, htd]; rfl) hc ?_
        have hop : isErase op = false := by
          refine I.noErase _ (List.mem_of_getElem? (h.prog i t ht)) op ?_
          simp [htd]
        cases op <;> simp [begin, Early, isErase] at hop ⊢
    | era k pc => rw [hcur] at het; exact het.elim
    | fnd k W =>
      have e := findStep_excess s.shared (fun w => P.keyEq (P.keyOf w) k) W
      rcases hx : findStep s.shared (fun w => P.keyEq (P.keyOf w) k) W with ⟨m', (W' | (_ | p))⟩ <;> rw [hx] at e <;>
        refine key _ _ (by simp only [step, hcur, hx]; rfl) (by rw [show m'.tab = _ from e]; exact hc) (by simp only [Early])
    | ins v pc =>
      rw [hcur] at het
      cases pc <;> simp only [Early] at het
      · rcases hx : insStep s.shared v (bkt P s.shared.tab.bc (P.keyOf v)) (eqOf P v) t.ex .full with ⟨m', ex', n⟩
        simp only [insStep, Prod.mk.injEq] at hx
        obtain ⟨rfl, rfl, hx⟩ := hx
        split at hx
        · exact key _ _ (step_ins_none hcur (m' := s.shared) (ex' := t.ex) (by simp only [insStep]; rw [if_pos (by assumption)])) hc trivial
        · exact key _ _ (step_ins_go hcur (m' := s.shared) (ex' := t.ex) (pc' := .exc) (by simp only [insStep]; rw [if_neg (by assumption)])) hc trivial
      · have hem : Vector.empty s.shared.tab.excess = true := by
          simp [Vector.empty, Vector.size, hcap, hc, Vector.clampSize]
        exact key _ _ (step_ins_none hcur (m' := s.shared) (ex' := t.ex) (by simp only [insStep, hem, if_true])) hc trivial
  · refine ⟨⟨_, _, inv_init I⟩, ?_, ?_⟩
    · show I.t₀.excess.ctr = 0
      have h1 := I.rep.excess.ctr
      have h2 := I.rep.excess.len
      rw [hcap0] at h2
      omega
    · intro t ht
      obtain ⟨p, -, rfl⟩ := init_mem ht
      trivial

theorem valid_excess {t : Tab V} {ord : Nat → List Nat} (h : valid P ord t = .ok true) (h0 : t.total ≠ 0) :
    Vector.valid t.excess = true := by
  unfold valid at h
  rw [if_neg h0] at h
  simp only [bind, Except.bind, pure, Except.pure] at h
  split at h
  · simp at h
  · split at h
    · simp at h
    · split at h
      · simp at h
      · split at h
        · simp at h
        · split at h
          · simp at h
          · split at h
            · simp at h
            · simp only [Except.ok.injEq, Bool.and_eq_true] at h
              exact h.2

theorem valid_ctr {t : Tab V} {ord : Nat → List Nat} (h : valid P ord t = .ok true) (h0 : t.total ≠ 0)
    (hc : Vector.cap t.excess ≠ 0) : 0 ≤ t.excess.ctr := by
  have := valid_excess h h0
  unfold Vector.valid at this
  rw [if_neg hc] at this
  simp only [Bool.and_eq_true, decide_eq_true_eq] at this
  exact this.1.1.1

def mkStart {t : Tab V} {chain : Nat → List Nat} {free : List Nat} (h : Rep P t chain free) (progs : List (List (Op K V)))
    (hp : NoErase progs) : Start P where
  t₀ := t
  chain₀ := chain
  free₀ := free
  progs := progs
  rep := h
  noErase := by
    intro p hp1 op hop
    cases op with
    | erase k => exact absurd hop (hp p hp1 k)
    | insert v => rfl
    | find k => rfl

theorem final_rep_valid {t : Tab V} {chain : Nat → List Nat} {free : List Nat} (h : Rep P t chain free) (hl : KeyLaws P)
    {progs : List (List (Op K V))} (hp : NoErase progs) {sched : List Nat} (hf : UFinished (uexec P t progs sched))
    {ord : Nat → List Nat} (hv : valid P ord (uexec P t progs sched).shared.tab = .ok true) :
    0 ≤ (uexec P t progs sched).shared.tab.excess.ctr := by
  let I := mkStart h progs hp
  obtain ⟨chain', xp, hI⟩ := inv_run I hl sched
  have hbc : (uexec P t progs sched).shared.tab.bc = t.bc := hI.bc
  have htot : (uexec P t progs sched).shared.tab.total = t.total := hI.total
  have h1 := h.bc_pos
  have h2 := h.bc_le
  have hcap : Vector.cap (uexec P t progs sched).shared.tab.excess = t.total - t.bc := hI.excess.v.hcap
  by_cases h0 : t.total = t.bc
  · have := noExcess_run I hl h0 sched
    exact le_of_eq this.symm
  · exact valid_ctr hv (by omega) (by omega)

end
end Stdgpu.UnorderedConc
