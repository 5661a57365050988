import Verif.Model.Index32
import Verif.Proof.Counter
import Verif.Proof.UFair
import Verif.Proof.UProgIns2
import Verif.Proof.UProgEra2
import Verif.Proof.UConcIns6
import Verif.Proof.UConcEra6
/-! Bounds of the integers of unordered containers. -/
namespace Stdgpu.Index32
open Stdgpu.Counter32 Stdgpu.Conc
open Stdgpu.Unordered Stdgpu.UnorderedConc
open Stdgpu.Vector (vfront countBits)
open Stdgpu.Spec

variable {K V : Type} {P : Params K V}

/-- All integers are in the range given by the size of the table and the number of threads. -/
structure Small (total n : Nat) (m : Shared V) : Prop where
  total_eq : m.tab.total = total
  count : 0 ≤ m.tab.count ∧ m.tab.count ≤ total + n
  off : ∀ p, p < total → 0 ≤ (p : Int) + m.tab.off p ∧ (p : Int) + m.tab.off p < total
  ctr : -(n : Int) ≤ m.tab.excess.ctr ∧ m.tab.excess.ctr ≤ total + n

theorem Small.store {total n : Nat} {m : Shared V} (h : Small total n m) (hn : total + n < 2 ^ 31) : store32 m = m := by
  obtain ⟨h1, h2, h3, h4⟩ := h
  have e1 : wrap m.tab.count = m.tab.count := wrap_eq (by omega) (by omega)
  have e2 : wrap m.tab.excess.ctr = m.tab.excess.ctr := wrap_eq (by omega) (by omega)
  have e3 : (fun p => if p < m.tab.total then wrap (m.tab.off p) else m.tab.off p) = m.tab.off := by
    funext p
    split
    · next hp =>
      have := h3 p (by omega)
      exact wrap_eq (by omega) (by omega)
    · rfl
  unfold store32
  rw [e1, e2, e3]

theorem run32 {s : Sys (Shared V) (Thread K V)} (sched : List Nat)
    (h : ∀ l, store32 (run (step P) s l).shared = (run (step P) s l).shared) :
    run (step32 P) s sched = run (step P) s sched := by
  induction sched generalizing s with
  | nil => rfl
  | cons i l ih =>
    have e : stepAt (step32 P) s i = stepAt (step P) s i := by
      unfold stepAt
      have := h [i]
      simp only [run, List.foldl_cons, List.foldl_nil, stepAt] at this
      split
      · rfl
      · next t ht =>
        rw [ht] at this
        simp only [step32]
        simp only at this
        rw [this]
    show run (step32 P) (stepAt (step32 P) s i) l = run (step P) (stepAt (step P) s i) l
    rw [e]
    exact ih fun l' => h (i :: l')

theorem sum_le_length {α : Type} (f : α → Nat) (hf : ∀ x, f x ≤ 1) (l : List α) : (l.map f).sum ≤ l.length := by
  induction l with
  | nil => simp
  | cons a l ih => simp only [List.map_cons, List.sum_cons, List.length_cons]; have := hf a; omega

theorem countBits_le (n : Nat) (f : Nat → Bool) : countBits n f ≤ n := by
  unfold countBits
  have := List.countP_le_length (p := f) (l := List.range n)
  simpa using this

/-! ### The counter of the free list -/

/-- The bounds of the counter of the free list. -/
def ExC (cap n : Nat) (s : Sys (Shared V) (Thread K V)) : Prop :=
  CInv (C := Int) (F := Vector.FPC) id cap n (fun f => decide (f = .rmw)) (exSys s)

theorem exC_step {cap n : Nat} {s : Sys (Shared V) (Thread K V)} {i : Nat} {t : Thread K V}
    (hcap : Vector.cap s.shared.tab.excess = cap) (hsh : SlotConc.TShape cap (vfront cap).start t.ex)
    (h1 : AtEx t.cur = true → t.ex.todo ≠ []) (h2 : AtEx t.cur = false → t.ex.todo = [])
    (h : ExC cap n s) (ht : s.threads[i]? = some t) :
    ExC cap n (⟨(step P s.shared t).1, s.threads.set i (step P s.shared t).2⟩ : Sys (Shared V) (Thread K V)) := by
  have hxt : (exSys s).threads[i]? = some t.ex := by simp [exSys, ht]
  cases ha : AtEx t.cur with
  | true =>
    obtain ⟨e1, e2, -, -⟩ := exStep_big (P := P) (m := s.shared) ha (h1 ha)
    rw [hcap] at e1 e2
    have := cinv_step (counted_vfront cap) (exSys s) i t.ex h hxt
    have es : exSys (⟨(step P s.shared t).1, s.threads.set i (step P s.shared t).2⟩ : Sys (Shared V) (Thread K V)) =
        ⟨(SlotConc.step (vfront cap) (exSys s).shared t.ex).1, (exSys s).threads.set i (SlotConc.step (vfront cap) (exSys s).shared t.ex).2⟩ := by
      show (⟨(step P s.shared t).1.tab.excess, (s.threads.set i (step P s.shared t).2).map (·.ex)⟩ : Vector.VSys Nat) =
            ⟨(SlotConc.step (vfront cap) s.shared.tab.excess t.ex).1, (s.threads.map (·.ex)).set i
              (SlotConc.step (vfront cap) s.shared.tab.excess t.ex).2⟩
      rw [e1, List.map_set, e2]
    unfold ExC
    rw [es]; exact this
  | false =>
    obtain ⟨e1, e2⟩ := ex_other P s.shared t ha
    have hpc := hsh.2.1 (h2 ha)
    rw [hpc] at e2
    have hz : ∀ b, pend (fun f => decide (f = Vector.FPC.rmw)) b (step P s.shared t).2.ex = 0 := by
      intro b
      unfold pend
      rw [e2]
      split
      · next f _ he => cases he; rfl
      · rfl
    have hz' : ∀ b, pend (fun f => decide (f = Vector.FPC.rmw)) b t.ex = 0 := by
      intro b
      unfold pend
      rw [hpc]
      split
      · next f _ he => cases he; rfl
      · rfl
    have es : exSys (⟨(step P s.shared t).1, s.threads.set i (step P s.shared t).2⟩ : Sys (Shared V) (Thread K V)) =
        ⟨(exSys s).shared, (exSys s).threads.set i (step P s.shared t).2.ex⟩ := by
      show (⟨(step P s.shared t).1.tab.excess, (s.threads.set i (step P s.shared t).2).map (·.ex)⟩ : Vector.VSys Nat) =
            ⟨s.shared.tab.excess, (s.threads.map (·.ex)).set i (step P s.shared t).2.ex⟩
      rw [e1, List.map_set]
    unfold ExC
    rw [es]
    have hp := fun b => sum_map_set (pend (fun f => decide (f = Vector.FPC.rmw)) b) (exSys s).threads i t.ex (step P s.shared t).2.ex hxt
    have p1 := hp true
    have p2 := hp false
    rw [hz, hz'] at p1 p2
    obtain ⟨g1, g2, g3⟩ := h
    refine ⟨by simpa using g1, ?_, ?_⟩
    · dsimp only; omega
    · dsimp only; omega

/-! ### Insertions -/

theorem ins_small {I : UnorderedConc.Start P} (hl : KeyLaws P) (n : Nat) (hn : I.progs.length ≤ n + 1) (sched : List Nat) :
    Small I.t₀.total (n + 1) (run (step P) (init I.t₀ I.progs) sched).shared := by
  have key : (∃ chain xp, UnorderedConc.Inv I chain xp (run (step P) (init I.t₀ I.progs) sched)) ∧
      ExC (I.t₀.total - I.t₀.bc) n (run (step P) (init I.t₀ I.progs) sched) := by
    refine run_inv (f := step P) (fun s => (∃ chain xp, UnorderedConc.Inv I chain xp s) ∧ ExC (I.t₀.total - I.t₀.bc) n s) ?_ _
      ⟨⟨_, _, inv_init I⟩, ?_⟩ sched
    · rintro s i t ⟨⟨c, x, h⟩, hE⟩ ht
      obtain ⟨c', x', h', -⟩ := h.stepOK hl ht
      refine ⟨⟨c', x', h'⟩, exC_step h.excess.v.hcap (h.excess.v.shape _ (List.mem_map_of_mem (List.mem_of_getElem? ht))) ?_ ?_ hE ht⟩
      · intro ha
        have hk := h.knows t (List.mem_of_getElem? ht)
        revert hk ha
        generalize t.cur = cur
        intro ha hk
        cases cur with
        | ins v pc =>
          cases pc with
          | pop e =>
            have : t.ex.todo = [.pop ()] := hk.1
            rw [this]; simp
          | _ => cases ha
        | era k pc => exact hk.elim
        | _ => cases ha
      · intro ha
        by_contra hne
        have := h.wellEx t (List.mem_of_getElem? ht) hne
        rw [ha] at this; cases this
    · rw [ExC, init_exSys]
      have hx := I.rep.excess
      refine cinv_init (counted_vfront _) _ _ (by simpa using hn) ?_ ?_
      · have := hx.ctr; simp only [id]; omega
      · have := hx.ctr; have := hx.len; have := I.rep.excessCap; simp only [id]; omega
  obtain ⟨⟨c, x, h⟩, hE⟩ := key
  have hlen : (run (step P) (init I.t₀ I.progs) sched).threads.length ≤ n + 1 := by
    have := hE.len
    simpa [exSys] using this
  generalize run (step P) (init I.t₀ I.progs) sched = s at h hE hlen
  have hb := hE.bounds
  refine ⟨h.total, ?_, ?_, ?_⟩
  · rw [h.count]
    have h1 := countBits_le I.t₀.total s.shared.tab.occ
    have h2 := sum_le_length (fun t : Thread K V => t.cur.counted) (fun t => by
      cases t.cur <;> simp [Cur.counted]; rename_i pc; cases pc <;> simp [IPC.counted]) s.threads
    omega
  · intro p hp
    have := h.g.offs p (by rw [h.total]; exact hp)
    rw [h.total] at this; exact this
  · simp only [id] at hb
    have : (exSys s).shared.ctr = s.shared.tab.excess.ctr := rfl
    rw [this] at hb
    omega

/-! ### Erasures -/

theorem era_small {E : Er.Start P} (hl : KeyLaws P) (n : Nat) (hn : E.progs.length ≤ n + 1) (sched : List Nat) :
    Small E.t₀.total (n + 1) (run (step P) (init E.t₀ E.progs) sched).shared := by
  obtain ⟨c, x, h⟩ := Er.inv_run E hl sched
  have hlen : (run (step P) (init E.t₀ E.progs) sched).threads.length ≤ n + 1 := by
    refine run_inv (f := step P) (fun s => s.threads.length ≤ n + 1) (fun s i t h _ => by simpa using h) _ ?_ sched
    simpa [init] using hn
  generalize run (step P) (init E.t₀ E.progs) sched = s at h hlen
  refine ⟨h.g.total, ?_, h.g.offs, ?_⟩
  · rw [h.count]
    have h1 := countBits_le E.t₀.total s.shared.tab.occ
    have h2 := sum_le_length (fun t : Thread K V => Er.uncnt t.cur) (fun t => by
      cases t.cur <;> simp [Er.uncnt]; rename_i pc; cases pc <;> simp) s.threads
    omega
  · have h1 := h.excess.ge
    have h2 := h.room
    have : (exSys s).shared.ctr = s.shared.tab.excess.ctr := rfl
    rw [this] at h1
    omega

end Stdgpu.Index32
