import Verif.Proof.Index32
import Verif.Proof.UFindBound2
import Verif.Proof.UMixProg2
import Verif.Proof.Contracts
/-! Bounds of the integers of unordered containers when insertions and erasures of separated keys are mixed. -/
namespace Stdgpu.UnorderedConc.Mx
open Stdgpu.Conc Stdgpu.Unordered Stdgpu.UnorderedConc Stdgpu.Spec Stdgpu.Index32 Stdgpu.Counter32
open Stdgpu.Vector (vfront countBits)

variable {K V : Type} {P : Params K V} {E : Start P}

theorem ins_offx {m : Shared V} {v : V} {b : Nat} {eq : V → Bool} {ex : Ex} {pc : IPC} {c : Nat}
    (h : ∀ e n, pc = .link e n → e ≠ c) :
    (insStep m v b eq ex pc).1.tab.off c = m.tab.off c ∨ (insStep m v b eq ex pc).1.tab.off c = 0 := by
  cases pc with
  | off e n =>
    simp only [insStep, setOff, SlotConc.upd]
    split
    · exact .inr rfl
    · exact .inl rfl
  | link e n =>
    have := h e n rfl
    simp only [insStep, setOff, SlotConc.upd]
    rw [if_neg (fun h => this h.symm)]; exact .inl rfl
  | c1 W =>
    have := find_off m eq W
    simp only [insStep]
    rcases hf : findStep m eq W with ⟨m', W' | (_ | p)⟩ <;> rw [hf] at this <;> dsimp only at this ⊢ <;> rw [this] <;> exact .inl rfl
  | c2 W =>
    have := find_off m eq W
    simp only [insStep]
    rcases hf : findStep m eq W with ⟨m', W' | (_ | p)⟩ <;> rw [hf] at this <;> dsimp only at this ⊢ <;> rw [this] <;> exact .inl rfl
  | c3 e e' W =>
    have := find_off m eq W
    simp only [insStep]
    rcases hf : findStep m eq W with ⟨m', W' | (_ | p)⟩ <;> rw [hf] at this <;> dsimp only at this ⊢ <;> (try split) <;> rw [this] <;> exact .inl rfl
  | e1 W =>
    have := end_off m W
    simp only [insStep]
    rcases hf : endStep m W with ⟨m', W' | p⟩ <;> rw [hf] at this <;> dsimp only at this ⊢ <;> rw [this] <;> exact .inl rfl
  | e2 e W =>
    have := end_off m W
    simp only [insStep]
    rcases hf : endStep m W with ⟨m', W' | p⟩ <;> rw [hf] at this <;> dsimp only at this ⊢ <;> rw [this] <;> exact .inl rfl
  | pop e =>
    simp only [insStep]
    split
    · split <;> exact .inl rfl
    · exact .inl rfl
  | lockB | lockE e => simp only [insStep]; split <;> exact .inl rfl
  | unlock p r => exact .inl rfl
  | _ => exact .inl rfl

theorem era_offx {m : Shared V} {b : Nat} {eq : V → Bool} {ex : Ex} {pc : EPC} {c : Nat}
    (h : ∀ p q o, pc ≠ .wr p q o) :
    (eraStep m b eq ex pc).1.tab.off c = m.tab.off c ∨ (eraStep m b eq ex pc).1.tab.off c = 0 := by
  cases pc with
  | wr p q o => exact absurd rfl (h p q o)
  | zero p q =>
    simp only [eraStep, setOff, SlotConc.upd]
    split
    · exact .inr rfl
    · exact .inl rfl
  | f1 W =>
    have := find_off m eq W
    simp only [eraStep]
    rcases hf : findStep m eq W with ⟨m', W' | (_ | p)⟩ <;> rw [hf] at this <;> dsimp only at this ⊢ <;> rw [this] <;> exact .inl rfl
  | f2 p W =>
    have := find_off m eq W
    simp only [eraStep]
    rcases hf : findStep m eq W with ⟨m', W' | r⟩ <;> rw [hf] at this <;> dsimp only at this ⊢ <;> rw [this] <;> exact .inl rfl
  | f3 p q W =>
    have := find_off m eq W
    simp only [eraStep]
    rcases hf : findStep m eq W with ⟨m', W' | r⟩ <;> rw [hf] at this <;> dsimp only at this ⊢ <;> rw [this] <;> exact .inl rfl
  | p1 p W =>
    have := prev_off m p W
    simp only [eraStep]
    rcases hf : prevStep m p W with ⟨m', W' | r⟩ <;> rw [hf] at this <;> dsimp only at this ⊢ <;> rw [this] <;> exact .inl rfl
  | p2 p q it W =>
    have := prev_off m p W
    simp only [eraStep]
    rcases hf : prevStep m p W with ⟨m', W' | r⟩ <;> rw [hf] at this <;> dsimp only at this ⊢ <;> rw [this] <;> exact .inl rfl
  | lockB p | lock1 p q | lock2 p q => simp only [eraStep]; split <;> exact .inl rfl
  | unlockB p ok | unlock1 p q ok | unlock2 q ok => cases ok <;> exact .inl rfl
  | push p q =>
    simp only [eraStep]
    exact .inl (by rw [ex_off])
  | _ => exact .inl rfl

/-- A step keeps or clears the offset of an excess entry. -/
theorem step_offx {m : Shared V} {t : Thread K V} {c : Nat} (hc : Exc E c) (hk : Knows E m.tab t.ex t.cur) :
    (step P m t).1.tab.off c = m.tab.off c ∨ (step P m t).1.tab.off c = 0 := by
  obtain ⟨todo, cur, ex, done⟩ := t
  cases cur with
  | idle =>
    cases todo with
    | nil => exact .inl rfl
    | cons op rest => cases op <;> exact .inl rfl
  | fnd k W =>
    have := find_off m (fun w => P.keyEq (P.keyOf w) k) W
    simp only [step]
    rcases hf : findStep m (fun w => P.keyEq (P.keyOf w) k) W with ⟨m', W' | (_ | p)⟩ <;> rw [hf] at this <;>
      dsimp only at this ⊢ <;> rw [this] <;> exact .inl rfl
  | ins v pc =>
    have h := ins_offx (m := m) (v := v) (b := bucket P m.tab (P.keyOf v))
      (eq := fun w => P.keyEq (P.keyOf w) (P.keyOf v)) (ex := ex) (pc := pc) (c := c) (by
        rintro e n rfl
        have : e = bkt P E.t₀.bc (P.keyOf v) := hk.2.2.1
        rw [this]
        exact (hc.ne _).symm)
    simp only [step]
    generalize insStep m v (bucket P m.tab (P.keyOf v)) (fun w => P.keyEq (P.keyOf w) (P.keyOf v)) ex pc = r at h ⊢
    rcases r with ⟨m', ex', pc' | (_ | p)⟩ <;> exact h
  | era k pc =>
    have h := era_offx (m := m) (b := bucket P m.tab k) (eq := fun w => P.keyEq (P.keyOf w) k) (ex := ex) (pc := pc) (c := c) (by
      rintro p q o rfl; exact hk)
    simp only [step]
    generalize eraStep m (bucket P m.tab k) (fun w => P.keyEq (P.keyOf w) k) ex pc = r at h ⊢
    rcases r with ⟨m', ex', pc' | ok⟩ <;> exact h

/-- All integers stay small. -/
theorem mix_small (hl : KeyLaws P) (n : Nat) (hn : E.progs.length ≤ n + 1) (sched : List Nat) :
    Small E.t₀.total (n + 1) (uexec P E.t₀ E.progs sched).shared := by
  have key : (∃ xp, Inv E xp (uexec P E.t₀ E.progs sched)) ∧
      ExC (E.t₀.total - E.t₀.bc) n (uexec P E.t₀ E.progs sched) ∧
      ∀ c, Exc E c → 0 ≤ (c : Int) + (uexec P E.t₀ E.progs sched).shared.tab.off c ∧
        (c : Int) + (uexec P E.t₀ E.progs sched).shared.tab.off c < E.t₀.total := by
    refine run_inv (f := step P) (fun s => (∃ xp, Inv E xp s) ∧ ExC (E.t₀.total - E.t₀.bc) n s ∧
      ∀ c, Exc E c → 0 ≤ (c : Int) + s.shared.tab.off c ∧ (c : Int) + s.shared.tab.off c < E.t₀.total) ?_ _
      ⟨⟨_, inv_init E⟩, ?_, ?_⟩ sched
    · rintro s i t ⟨⟨x, h⟩, hE, ho⟩ ht
      have hmem := List.mem_of_getElem? ht
      have hk := h.knows t hmem
      refine ⟨h.step hl ht, exC_step h.ex.hcap (h.ex.shape _ (List.mem_map_of_mem hmem)) ?_ ?_ hE ht, ?_⟩
      · intro ha
        revert hk ha
        generalize t.cur = cur
        intro hk ha
        cases cur with
        | ins v pc =>
          cases pc with
          | pop e =>
            have : t.ex.todo = [.pop ()] := hk.2.1
            rw [this]; simp
          | _ => cases ha
        | era k pc =>
          cases pc with
          | push p q =>
            have : t.ex.todo = [.push () p] := hk.1
            rw [this]; simp
          | _ => cases ha
        | _ => cases ha
      · intro ha
        by_contra hne
        have := h.wellEx t hmem hne
        rw [ha] at this; cases this
      · intro c hc
        have hb := ho c hc
        have hlt := hc.2
        rcases step_offx hc hk with e | e
        · dsimp only; rw [e]; exact hb
        · dsimp only; rw [e]; omega
    · rw [ExC, init_exSys]
      have hx := E.rep.excess
      refine cinv_init (counted_vfront _) _ _ (by simpa using hn) ?_ ?_
      · have := hx.ctr; simp only [id]; omega
      · have := hx.ctr; have := hx.len; have := E.rep.excessCap; simp only [id]; omega
    · intro c hc
      exact E.rep.offs c hc.2
  obtain ⟨⟨x, h⟩, hE, ho⟩ := key
  have hcnt : 0 ≤ (uexec P E.t₀ E.progs sched).shared.tab.count ∧ (uexec P E.t₀ E.progs sched).shared.tab.count ≤ E.t₀.total := by
    rcases Ct.cinv_run E.rep E.progs sched with hc | hc
    · rw [h.ub] at hc; cases hc
    · exact hc.count
  generalize uexec P E.t₀ E.progs sched = s at h hE ho hcnt
  have hb := hE.bounds
  have hlen : s.threads.length ≤ n + 1 := by
    have := hE.len
    simpa [exSys] using this
  refine ⟨h.g.total, ⟨hcnt.1, by omega⟩, ?_, ?_⟩
  · intro p hp
    by_cases hpb : p < E.t₀.bc
    · rcases h.g.offB p hpb with e | ⟨n, hn⟩
      · rw [e]; omega
      · obtain ⟨-, h1, h2⟩ := hn
        have := h1.2
        omega
    · exact ho p ⟨by omega, hp⟩
  · simp only [id] at hb
    have : (exSys s).shared.ctr = s.shared.tab.excess.ctr := rfl
    rw [this] at hb
    omega

end Stdgpu.UnorderedConc.Mx
