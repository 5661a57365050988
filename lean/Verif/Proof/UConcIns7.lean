import Verif.Proof.UConcIns6
/-! Concurrent inserts: when the free list has an entry for every insertion, it is never exhausted. -/
namespace Stdgpu.UnorderedConc
open Stdgpu.Conc
open Stdgpu.SlotConc (upd)
open Stdgpu.Unordered
open Stdgpu.Vector (FPC vfront countBits PopInv)
open Stdgpu.Spec
variable {K V : Type}

def isIns : Op K V → Bool
  | .insert _ => true
  | _ => false

def isNotIns : Op K V × Res → Bool
  | (.insert _, .notInserted) => true
  | _ => false

def exPot (ex : Ex) : Nat :=
  match ex.pc with
  | .front _ => 1
  | .slot _ _ => 0

def IPC.pot (ex : Ex) : IPC → Nat
  | .pop _ => exPot ex
  | .cons _ _ | .off _ _ | .cnt _ _ | .set _ _ | .link _ _ | .unlock _ (some _) => 0
  | _ => 1

def Cur.pot (ex : Ex) : Cur K V → Nat
  | .ins _ pc => pc.pot ex
  | _ => 0

/-- Entries of the free list that are set aside for a thread: one for every insertion that has not taken one (also the
ones that have failed). -/
def pot (t : Thread K V) : Nat := t.todo.countP isIns + t.done.countP isNotIns + t.cur.pot t.ex

theorem findStep_excess (m : Shared V) (eq : V → Bool) (W : Walk) :
    (findStep m eq W).1.tab = m.tab := by
  cases W <;> simp only [findStep] <;> split <;> rfl

theorem endStep_excess (m : Shared V) (W : Hop) : (endStep m W).1.tab = m.tab := by
  cases W <;> simp only [endStep] <;> (try split) <;> rfl

section
variable {P : Params K V} {I : Start P} {chain : Nat → List Nat} {xp : List (List (SlotConc.Op Unit Nat))}
  {s : Sys (Shared V) (Thread K V)}

def nextPot (ex : Ex) : Next IPC (Option Nat) → Nat
  | .go pc' => pc'.pot ex
  | .ret none => 1
  | .ret (some _) => 0

/-- Outcome of a step of `insert`, for the accounting. -/
def PotOK (m : Shared V) (pc : IPC) (ex : Ex) (r : Shared V × Ex × Next IPC (Option Nat)) : Prop :=
  (m.tab.excess.ctr - r.1.tab.excess.ctr) + (nextPot r.2.1 r.2.2 : Int) ≤ pc.pot ex

theorem Inv.insPot (h : Inv I chain xp s) {i : Nat} {t : Thread K V} (ht : s.threads[i]? = some t) {v : V} {pc : IPC}
    (hcur : t.cur = .ins v pc) (hctr : (pc.pot t.ex : Int) ≤ s.shared.tab.excess.ctr) (b : Nat) (eq : V → Bool) :
    PotOK s.shared pc t.ex (insStep s.shared v b eq t.ex pc) := by
  have hmem := List.mem_of_getElem? ht
  have hk := h.knows t hmem
  rw [hcur] at hk
  have hlen : I.free₀.length ≤ I.t₀.total - I.t₀.bc := by rw [← I.rep.excessCap]; exact I.rep.excess.len
  have hcap : Vector.cap s.shared.tab.excess = I.t₀.total - I.t₀.bc := h.excess.v.hcap
  have hle : s.shared.tab.excess.ctr ≤ I.free₀.length := h.excess.le
  have hshape := h.excess.v.shape t.ex (List.mem_map_of_mem (f := (·.ex)) hmem)
  have hP : ∀ {m' : Shared V} {ex' : Ex} {n : Next IPC (Option Nat)}, m'.tab.excess.ctr = s.shared.tab.excess.ctr →
      nextPot ex' n ≤ pc.pot t.ex → PotOK s.shared pc t.ex (m', ex', n) := by
    intro m' ex' n h1 h2
    simp only [PotOK, h1, sub_self, zero_add]
    exact_mod_cast h2
  cases pc with
  | full => simp only [insStep]; split <;> exact hP rfl (by simp [nextPot, IPC.pot])
  | exc => simp only [insStep]; split <;> exact hP rfl (by simp [nextPot, IPC.pot])
  | c1 W =>
    have e := findStep_excess s.shared eq W
    rcases hx : findStep s.shared eq W with ⟨m', (W' | (_ | p))⟩ <;> rw [hx] at e <;> simp only [insStep, hx] <;>
      exact hP (by rw [show m'.tab = _ from e]) (by simp [nextPot, IPC.pot])
  | occ1 => simp only [insStep]; split <;> exact hP rfl (by simp [nextPot, IPC.pot])
  | lockB =>
    simp only [insStep]
    split <;> exact hP rfl (by simp [nextPot, IPC.pot])
  | c2 W =>
    have e := findStep_excess s.shared eq W
    rcases hx : findStep s.shared eq W with ⟨m', (W' | (_ | p))⟩ <;> rw [hx] at e <;> simp only [insStep, hx] <;>
      exact hP (by rw [show m'.tab = _ from e]) (by simp [nextPot, IPC.pot])
  | occ2 => simp only [insStep]; split <;> exact hP rfl (by simp [nextPot, IPC.pot])
  | consB => exact hP rfl (by simp [nextPot, IPC.pot])
  | cntB => exact hP rfl (by simp [nextPot, IPC.pot])
  | setB => exact hP rfl (by simp [nextPot, IPC.pot])
  | e1 W =>
    have e := endStep_excess s.shared W
    rcases hx : endStep s.shared W with ⟨m', (W' | p)⟩ <;> rw [hx] at e <;> simp only [insStep, hx] <;>
      exact hP (by rw [show m'.tab = _ from e]) (by simp [nextPot, IPC.pot])
  | lockE e =>
    simp only [insStep]
    split <;> exact hP rfl (by simp [nextPot, IPC.pot])
  | e2 e0 W =>
    have e := endStep_excess s.shared W
    rcases hx : endStep s.shared W with ⟨m', (W' | p)⟩ <;> rw [hx] at e <;> simp only [insStep, hx] <;>
      exact hP (by rw [show m'.tab = _ from e]) (by simp [nextPot, IPC.pot])
  | c3 e0 e' W =>
    have e := findStep_excess s.shared eq W
    rcases hx : findStep s.shared eq W with ⟨m', (W' | (_ | p))⟩ <;> rw [hx] at e <;> simp only [insStep, hx]
    · exact hP (by rw [show m'.tab = _ from e]) (by simp [nextPot, IPC.pot])
    · split
      · refine hP (by rw [show m'.tab = _ from e]) ?_
        have := hshape.2.1 hk.1
        simp [nextPot, IPC.pot, exPot, this]
      · exact hP (by rw [show m'.tab = _ from e]) (by simp [nextPot, IPC.pot])
    · exact hP (by rw [show m'.tab = _ from e]) (by simp [nextPot, IPC.pot])
  | pop e =>
    have hpop : t.ex.todo = [.pop ()] := hk.1
    cases hpc : t.ex.pc with
    | front f =>
      have hpot : IPC.pot t.ex (.pop e) = 1 := by simp [IPC.pot, exPot, hpc]
      rw [hpot] at hctr
      simp only [insStep, exStep, hcap]
      rcases Vector.vfront_cases (I.t₀.total - I.t₀.bc) s.shared.tab.excess.ctr false () f with ⟨-, e1, -⟩ |
        ⟨-, e1, -, h1⟩ | ⟨-, hb, -⟩ | ⟨-, hb, -⟩ | ⟨-, -, h1, h2, e1⟩ | ⟨-, -, h1, e1⟩
      · rw [Vector.step_cont _ _ hpop hpc e1]
        simp [hpop, PotOK, nextPot, IPC.pot, exPot, hpc]
      · have := h1 rfl
        omega
      · simp at hb
      · simp at hb
      · rw [Vector.step_go _ _ hpop hpc e1]
        simp [hpop, PotOK, nextPot, IPC.pot, exPot, hpc]
      · omega
    | slot p sp =>
      obtain ⟨-, op, rest, e1, hfit⟩ := hshape.1 p sp hpc
      rw [hpop] at e1
      simp only [List.cons.injEq] at e1
      have hfit' : sp.fits (.pop () : SlotConc.Op Unit Nat) := by rw [e1.1]; exact hfit
      simp only [insStep, exStep, SlotConc.step, hpop, hpc]
      cases hr : (SlotConc.slotStep s.shared.tab.excess.slots (.pop () : SlotConc.Op Unit Nat) p sp).2 with
      | inl s' => simp [hpop, PotOK, nextPot, IPC.pot, exPot]
      | inr r =>
        rcases SlotConc.slotStep_inr _ _ _ _ hfit' _ hr with ⟨hc, -⟩ | ⟨-, v, h'⟩
        · simp [SlotConc.Op.isPush] at hc
        · simp [PotOK, nextPot, IPC.pot, h', hpop]
  | cons e n => exact hP rfl (by simp [nextPot, IPC.pot])
  | off e n => exact hP rfl (by simp [nextPot, IPC.pot])
  | cnt e n => exact hP rfl (by simp [nextPot, IPC.pot])
  | set e n => exact hP rfl (by simp [nextPot, IPC.pot])
  | link e n => exact hP rfl (by simp [nextPot, IPC.pot])
  | unlock p r => cases r <;> exact hP rfl (by simp [nextPot, IPC.pot])

theorem Inv.potStep (h : Inv I chain xp s) {i : Nat} {t : Thread K V} (ht : s.threads[i]? = some t)
    (hr : ((s.threads.map pot).sum : Int) ≤ s.shared.tab.excess.ctr) :
    (((s.threads.set i (step P s.shared t).2).map pot).sum : Int) ≤ (step P s.shared t).1.tab.excess.ctr := by
  have hmem := List.mem_of_getElem? ht
  have hle := le_sum_map pot s.threads t hmem
  have key : ∀ (m' : Shared V) (t' : Thread K V), step P s.shared t = (m', t') →
      (s.shared.tab.excess.ctr - m'.tab.excess.ctr) + (pot t' : Int) ≤ pot t →
      (((s.threads.set i (step P s.shared t).2).map pot).sum : Int) ≤ (step P s.shared t).1.tab.excess.ctr := by
    intro m' t' e h1
    rw [e]
    have := sum_map_set pot s.threads i t t' ht
    show (((s.threads.set i t').map pot).sum : Int) ≤ m'.tab.excess.ctr
    omega
  cases hcur : t.cur with
  | idle =>
    cases htd : t.todo with
    | nil => exact key s.shared t (by simp only [step, hcur, htd]) (by simp)
    | cons op rest =>
      refine key _ _ (by simp only [step, hcur, htd]; rfl) ?_
      cases op <;> simp [pot, hcur, htd, begin, Cur.pot, IPC.pot, isIns, List.countP_cons] <;> omega
  | era k pc =>
    have hk := h.knows t hmem
    rw [hcur] at hk; exact hk.elim
  | fnd k W =>
    have e := findStep_excess s.shared (fun w => P.keyEq (P.keyOf w) k) W
    rcases hx : findStep s.shared (fun w => P.keyEq (P.keyOf w) k) W with ⟨m', (W' | (_ | p))⟩ <;> rw [hx] at e
    · refine key _ _ (by simp only [step, hcur, hx]; rfl) ?_
      rw [show m'.tab = _ from e]
      simp [pot, hcur, Cur.pot]
    · refine key _ _ (by simp only [step, hcur, hx]; rfl) ?_
      rw [show m'.tab = _ from e]
      simp [pot, hcur, Cur.pot, isNotIns]
    · refine key _ _ (by simp only [step, hcur, hx]; rfl) ?_
      rw [show m'.tab = _ from e]
      simp [pot, hcur, Cur.pot, isNotIns]
  | ins v pc =>
    have hp : pot t = t.todo.countP isIns + t.done.countP isNotIns + pc.pot t.ex := by simp only [pot, hcur, Cur.pot]
    have h1 := h.insPot ht hcur (by omega) (bkt P s.shared.tab.bc (P.keyOf v)) (eqOf P v)
    rcases hx : insStep s.shared v (bkt P s.shared.tab.bc (P.keyOf v)) (eqOf P v) t.ex pc with ⟨m', ex', (pc' | (_ | p))⟩ <;>
      rw [hx] at h1 <;> simp only [PotOK, nextPot] at h1
    · refine key _ _ (step_ins_go hcur hx) ?_
      rw [hp]
      simp only [pot, Cur.pot]
      omega
    · refine key _ _ (step_ins_none hcur hx) ?_
      rw [hp]
      simp only [pot, Cur.pot, List.countP_append, List.countP_cons, List.countP_nil, isNotIns]
      simp only [if_true]
      omega
    · refine key _ _ (step_ins_some hcur hx) ?_
      rw [hp]
      simp [pot, Cur.pot, isNotIns]
      omega

/-- With enough room the counter of the free list is at least the number of insertions that have failed or have not
been done. -/
theorem room_run0 (I : Start P) (hroom : numInserts I.progs ≤ I.free₀.length) (sched : List Nat) :
    ∃ chain xp, Inv I chain xp (run (step P) (init I.t₀ I.progs) sched) ∧
      (((run (step P) (init I.t₀ I.progs) sched).threads.map pot).sum : Int) ≤
        (run (step P) (init I.t₀ I.progs) sched).shared.tab.excess.ctr := by
  refine run_inv (f := step P) (fun s => ∃ chain xp, Inv I chain xp s ∧ ((s.threads.map pot).sum : Int) ≤ s.shared.tab.excess.ctr)
    ?_ _ ?_ sched
  · rintro s i t ⟨chain, xp, h, hp⟩ ht
    obtain ⟨chain', xp', h', -⟩ := h.stepOK0 ht
    exact ⟨chain', xp', h', h.potStep ht hp⟩
  · refine ⟨_, _, inv_init I, ?_⟩
    have h1 : ((init I.t₀ I.progs).threads.map pot).sum = numInserts I.progs := by
      have e : numInserts I.progs = I.progs.flatten.countP isIns := by
        unfold numInserts
        apply List.countP_congr
        intro op _
        cases op <;> rfl
      rw [e]
      simp only [init, List.map_map]
      generalize I.progs = l
      induction l with
      | nil => rfl
      | cons a l ih =>
        simp only [List.map_cons, List.sum_cons, List.flatten_cons, List.countP_append, ih]
        simp [pot, Cur.pot]
    rw [h1]
    have h2 : I.t₀.excess.ctr = I.free₀.length := I.rep.excess.ctr
    show (numInserts I.progs : Int) ≤ I.t₀.excess.ctr
    omega

theorem room_run (I : Start P) (_ : KeyLaws P) (hroom : numInserts I.progs ≤ I.free₀.length) (sched : List Nat) :
    ∃ chain xp, Inv I chain xp (run (step P) (init I.t₀ I.progs) sched) ∧
      (((run (step P) (init I.t₀ I.progs) sched).threads.map pot).sum : Int) ≤
        (run (step P) (init I.t₀ I.progs) sched).shared.tab.excess.ctr := room_run0 I hroom sched

/-- All entries are occupied at the end: then the free list is empty. -/
theorem Inv.final_full0 (h : Inv I chain xp s) (hf : UFinished s)
    (hc : (s.shared.tab.total : Int) ≤ s.shared.tab.count) : s.shared.tab.excess.ctr ≤ 0 := by
  have hr := h.final_rep0 hf
  have h1 : full (fixExcess s.shared.tab) = true := by
    have h2 := hr.count
    have h3 : countBits (fixExcess s.shared.tab).total (fixExcess s.shared.tab).occ ≤ (fixExcess s.shared.tab).total := by
      unfold countBits
      refine (List.countP_le_length).trans ?_
      simp
    have h4 : (fixExcess s.shared.tab).count = s.shared.tab.count := rfl
    have h5 : (fixExcess s.shared.tab).total = s.shared.tab.total := rfl
    simp only [full, size, beq_iff_eq]
    omega
  have h2 := hr.full_free h1
  have h3 := h.excess.le
  rw [List.take_eq_nil_iff] at h2
  rcases h2 with h2 | h2
  · omega
  · rw [h2] at h3
    replace h3 : s.shared.tab.excess.ctr ≤ (0 : Nat) := h3
    omega

theorem Inv.final_full (h : Inv I chain xp s) (_ : KeyLaws P) (hf : UFinished s)
    (hc : (s.shared.tab.total : Int) ≤ s.shared.tab.count) : s.shared.tab.excess.ctr ≤ 0 := h.final_full0 hf hc

theorem notIns_pot {e : Op K V × Res} (he : e ∈ uresults s) (h : isNotIns e = true) : 0 < (s.threads.map pot).sum := by
  simp only [uresults, List.mem_flatMap] at he
  obtain ⟨t, ht, he⟩ := he
  refine lt_of_lt_of_le ?_ (le_sum_map pot s.threads t ht)
  have : 0 < t.done.countP isNotIns := List.countP_pos_iff.2 ⟨e, he, h⟩
  unfold pot
  omega
end

end Stdgpu.UnorderedConc
