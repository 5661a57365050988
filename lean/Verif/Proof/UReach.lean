import Verif.Proof.UMixFin
/-! The states reached by phases. -/
namespace Stdgpu.UnorderedConc
open Stdgpu.Conc
open Stdgpu.Unordered
open Stdgpu.Spec
variable {K V : Type}
section
variable {P : Params K V}

/-- The parameters for a container and programs with separated keys. -/
def Mx.mkStart {t : Tab V} {chain : Nat → List Nat} {free : List Nat} (h : Rep P t chain free) (progs : List (List (Op K V)))
    (hs : Separated P t progs) : Mx.Start P where
  t₀ := t
  chain₀ := chain
  free₀ := free
  progs := progs
  rep := h
  used := UsedKey P t progs
  usedT := fun p v h1 h2 h3 => .inl ⟨v, mem_contents.2 ⟨p, h1, h2, h3⟩, rfl⟩
  usedI := fun p hp v hv => .inr ⟨p, hp, v, hv, rfl⟩
  sep := hs

theorem preachable_rep (hl : KeyLaws P) {bc ec : Nat} (h0 : 0 < bc) (h1 : bc < 2 ^ 63) {t : Tab V}
    (h : PReachable P bc ec t) : (∃ chain free, Rep P t chain free) ∧ t.bc = bc ∧ t.total = bc + ec := by
  classical
  induction h with
  | create => exact ⟨⟨_, _, rep_create P bc ec h0 h1⟩, rfl, rfl⟩
  | @op t t' ord o out h ho e ih =>
    obtain ⟨hr, hb, ht⟩ := ih
    obtain ⟨o', t2, m', e1, -, h2, h3, h4⟩ := exec_refines (P := P) (t := t) (m := contents t) hl ho o ⟨hr, List.Perm.refl _⟩
    rw [e] at e1
    simp only [Except.ok.injEq, Prod.mk.injEq] at e1
    obtain ⟨-, rfl⟩ := e1
    exact ⟨h2.rep, h3.trans hb, h4.trans ht⟩
  | @inserts t ord h progs sched hp hf hv ih =>
    obtain ⟨⟨chain, free, hr⟩, hb, ht⟩ := ih
    obtain ⟨chain', xp, hI⟩ := inv_run (mkStart hr progs hp) hl sched
    have hc := final_rep_valid hr hl hp hf hv
    have hR : Rep P (fixExcess (uexec P t progs sched).shared.tab) chain' _ := hI.final_rep hl hf
    have e : fixExcess (uexec P t progs sched).shared.tab = _ := fixExcess_eq hc
    rw [e] at hR
    exact ⟨⟨_, _, hR⟩, hI.bc.trans hb, hI.total.trans ht⟩
  | @erases t h progs sched hp hf ih =>
    obtain ⟨⟨chain, free, hr⟩, hb, ht⟩ := ih
    obtain ⟨path, xp, hI⟩ := Er.inv_run (Er.mkStart hr progs hp) hl sched
    replace hI : Er.Inv (Er.mkStart hr progs hp) path xp (uexec P t progs sched) := hI
    obtain ⟨free', hR⟩ := hI.final_rep hf
    exact ⟨⟨_, _, hR⟩, hI.g.bc.trans hb, hI.g.total.trans ht⟩
  | @mixed t h progs sched hs hroom hf ih =>
    obtain ⟨⟨chain, free, hr⟩, hb, ht⟩ := ih
    rw [freeList_eq hr] at hroom
    obtain ⟨xp, hI⟩ := Mx.inv_run (Mx.mkStart hr progs hs) hl sched
    replace hI : Mx.Inv (Mx.mkStart hr progs hs) xp (uexec P t progs sched) := hI
    obtain ⟨free', hR⟩ := hI.final_rep hl (Mx.room_run (Mx.mkStart hr progs hs) hl hroom sched) hf
      (Mx.off_run (Mx.mkStart hr progs hs) hl sched)
    exact ⟨⟨_, _, hR⟩, hI.g.bc.trans hb, hI.g.total.trans ht⟩

end
end Stdgpu.UnorderedConc
