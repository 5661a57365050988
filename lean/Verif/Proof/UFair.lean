import Verif.Proof.UProg2
import Verif.Proof.Fair
import Verif.Proof.WaitFree
/-! Infinite executions of the unordered containers under a fair schedule: states that no thread is in after some moment. -/
namespace Stdgpu.UnorderedConc
open Stdgpu.Conc
open Stdgpu.Unordered
open Stdgpu.Vector (FPC vfront)
open Stdgpu.Spec (UFinished Fair upTo)
variable {K V : Type}

/-- The states of an infinite execution. -/
structure Trace (P : Params K V) (σ : Nat → Nat) (S : Nat → Sys (Shared V) (Thread K V)) : Prop where
  next : ∀ n, S (n + 1) = stepAt (step P) (S n) (σ n)
  fair : Fair (S 0).threads.length σ

theorem trace_of (P : Params K V) (σ : Nat → Nat) (s : Sys (Shared V) (Thread K V)) (hf : Fair s.threads.length σ) :
    Trace P σ (fun n => run (step P) s (upTo σ n)) := by
  refine ⟨fun n => ?_, hf⟩
  rw [Stdgpu.Spec.upTo_succ, run_append]; rfl

section
variable {P : Params K V} {σ : Nat → Nat} {S : Nat → Sys (Shared V) (Thread K V)}

theorem Trace.length (h : Trace P σ S) (n : Nat) : (S n).threads.length = (S 0).threads.length := by
  induction n with
  | zero => rfl
  | succ n ih =>
    rw [h.next, ← ih]
    exact length_run (step P) (S n) [σ n]

theorem Trace.own (h : Trace P σ S) {n i : Nat} {t : Thread K V} (ht : (S n).threads[i]? = some t) (e : σ n = i) :
    S (n + 1) = ⟨(step P (S n).shared t).1, (S n).threads.set i (step P (S n).shared t).2⟩ := by
  rw [h.next, e, SlotConc.stepAt_eq _ _ _ _ ht]

theorem Trace.own_thread (h : Trace P σ S) {n i : Nat} {t : Thread K V} (ht : (S n).threads[i]? = some t) (e : σ n = i) :
    (S (n + 1)).threads[i]? = some (step P (S n).shared t).2 := by
  rw [h.own ht e]
  have hlt := (List.getElem?_eq_some_iff.1 ht).1
  simp [hlt]

theorem Trace.other (h : Trace P σ S) {n i : Nat} (e : σ n ≠ i) : (S (n + 1)).threads[i]? = (S n).threads[i]? := by
  rw [h.next]
  unfold stepAt
  split
  · rfl
  · exact List.getElem?_set_ne e

/-- What a step of the system is. -/
theorem Trace.cases (h : Trace P σ S) (n : Nat) : S (n + 1) = S n ∨
    ∃ (i : Nat) (t : Thread K V), σ n = i ∧ (S n).threads[i]? = some t ∧
      S (n + 1) = ⟨(step P (S n).shared t).1, (S n).threads.set i (step P (S n).shared t).2⟩ := by
  cases ht : (S n).threads[σ n]? with
  | none => left; rw [h.next]; simp [stepAt, ht]
  | some t => exact .inr ⟨_, t, rfl, ht, h.own ht rfl⟩

/-- The next step of a thread. -/
theorem Trace.next_own (h : Trace P σ S) {n i : Nat} {t : Thread K V} (ht : (S n).threads[i]? = some t) :
    ∃ m, n ≤ m ∧ σ m = i ∧ (S m).threads[i]? = some t := by
  have hlt : i < (S 0).threads.length := by
    rw [← h.length n]; exact (List.getElem?_eq_some_iff.1 ht).1
  obtain ⟨m, hm, e⟩ := h.fair i hlt n
  obtain ⟨k, rfl⟩ := Nat.exists_eq_add_of_le hm
  clear hm
  induction k generalizing n with
  | zero => exact ⟨n, le_refl _, e, ht⟩
  | succ k ih =>
    by_cases hn : σ n = i
    · exact ⟨n, le_refl _, hn, ht⟩
    · obtain ⟨m, h1, h2⟩ := ih (n := n + 1) (by rw [h.other hn]; exact ht) (by rw [← e]; congr 1; omega)
      exact ⟨m, by omega, h2⟩

/-- From the moment `N` on, thread `i` is never in a state `φ`. -/
def Dead (S : Nat → Sys (Shared V) (Thread K V)) (N i : Nat) (φ : Thread K V → Prop) : Prop :=
  ∀ n, N ≤ n → ∀ t, (S n).threads[i]? = some t → ¬ φ t

theorem Dead.mono {N N' i : Nat} {φ : Thread K V → Prop} (h : Dead S N i φ) (hN : N ≤ N') : Dead S N' i φ :=
  fun n hn => h n (hN.trans hn)

theorem Dead.of {N i : Nat} {φ ψ : Thread K V → Prop} (h : Dead S N i ψ) (hφ : ∀ t, φ t → ψ t) : Dead S N i φ :=
  fun n hn t ht hx => h n hn t ht (hφ t hx)

theorem Dead.own (hT : Trace P σ S) {N i : Nat} {φ : Thread K V → Prop}
    (h : ∀ n, N ≤ n → ∀ t, (S n).threads[i]? = some t → σ n = i → φ t →
      ∃ ψ, Dead S N i ψ ∧ ψ (step P (S n).shared t).2) : Dead S N i φ := by
  intro n hn t ht hx
  obtain ⟨m, h1, h2, h3⟩ := hT.next_own ht
  obtain ⟨ψ, h4, h5⟩ := h m (by omega) t h3 h2 hx
  exact h4 (m + 1) (by omega) _ (hT.own_thread h3 h2) h5

theorem Dead.measure (hT : Trace P σ S) {N i : Nat} {φ : Thread K V → Prop} (μ : Thread K V → Nat)
    (h : ∀ n, N ≤ n → ∀ t, (S n).threads[i]? = some t → σ n = i → φ t →
      (φ (step P (S n).shared t).2 ∧ μ (step P (S n).shared t).2 < μ t) ∨
      ∃ ψ, Dead S N i ψ ∧ ψ (step P (S n).shared t).2) : Dead S N i φ := by
  have key : ∀ k, Dead S N i (fun t => φ t ∧ μ t = k) := by
    intro k
    induction k using Nat.strong_induction_on with
    | _ k ih =>
      refine Dead.own hT ?_
      rintro n hn t ht e ⟨hx, rfl⟩
      rcases h n hn t ht e hx with ⟨h1, h2⟩ | h1
      · exact ⟨_, ih _ h2, h1, rfl⟩
      · exact h1
  exact fun n hn t ht hx => key (μ t) n hn t ht ⟨hx, rfl⟩

/-! ### Operations that start and return -/

def workT (t : Thread K V) : Nat := 2 * t.todo.length + (match t.cur with | .idle => 0 | _ => 1)

theorem workT_step (m : Shared V) (t : Thread K V) :
    workT (step P m t).2 ≤ workT t ∧
    (t.cur = .idle → t.todo ≠ [] → workT (step P m t).2 < workT t) ∧
    (t.cur ≠ .idle → (step P m t).2.cur = .idle → workT (step P m t).2 < workT t) := by
  obtain ⟨todo, cur, ex, done⟩ := t
  cases cur with
  | idle =>
    cases todo with
    | nil => simp [step]
    | cons op rest =>
      have hb : ∀ (t : Tab V), (match begin P t op with | .idle => 0 | _ => 1) = 1 := by
        intro t; cases op <;> rfl
      simp only [step, workT, hb]
      simp
      omega
  | ins v pc =>
    simp only [step]
    generalize insStep m v (bucket P m.tab (P.keyOf v)) (fun w => P.keyEq (P.keyOf w) (P.keyOf v)) ex pc = r
    rcases r with ⟨m', ex', pc' | r⟩
    · simp [workT]
    · cases r <;> simp [workT]
  | era k pc =>
    simp only [step]
    generalize eraStep m (bucket P m.tab k) (fun w => P.keyEq (P.keyOf w) k) ex pc = r
    rcases r with ⟨m', ex', pc' | r⟩ <;> simp [workT]
  | fnd k w =>
    simp only [step]
    generalize findStep m (fun w => P.keyEq (P.keyOf w) k) w = r
    rcases r with ⟨m', pc' | r⟩
    · simp [workT]
    · cases r <;> simp [workT]

def workS (s : Sys (Shared V) (Thread K V)) : Nat := (s.threads.map workT).sum

theorem Trace.work_step (h : Trace P σ S) (n : Nat) : workS (S (n + 1)) ≤ workS (S n) := by
  rcases h.cases n with e | ⟨i, t, -, ht, e⟩
  · rw [e]
  · rw [e]
    have := sum_map_set workT (S n).threads i t (step P (S n).shared t).2 ht
    have := (workT_step (P := P) (S n).shared t).1
    unfold workS
    show (((S n).threads.set i _).map workT).sum ≤ _
    omega

theorem Trace.work_mono (h : Trace P σ S) {n m : Nat} (hnm : n ≤ m) : workS (S m) ≤ workS (S n) := by
  obtain ⟨k, rfl⟩ := Nat.exists_eq_add_of_le hnm
  clear hnm
  induction k with
  | zero => exact le_refl _
  | succ k ih => exact (h.work_step _).trans ih

/-- No operation starts or returns any more. -/
def QuietT (P : Params K V) (σ : Nat → Nat) (S : Nat → Sys (Shared V) (Thread K V)) (N : Nat) : Prop :=
  ∀ n, N ≤ n → ∀ (i : Nat) (t : Thread K V), (S n).threads[i]? = some t → σ n = i → workT (step P (S n).shared t).2 = workT t

theorem Trace.quiet (h : Trace P σ S) : ∃ N, QuietT P σ S N := by
  have : ∃ N, ∀ n, workS (S N) ≤ workS (S n) := by
    have key : ∀ k, (∃ n, workS (S n) = k) → ∃ N, ∀ n, workS (S N) ≤ workS (S n) := by
      intro k
      induction k using Nat.strong_induction_on with
      | _ k ih =>
        rintro ⟨n, rfl⟩
        by_cases hx : ∃ m, workS (S m) < workS (S n)
        · obtain ⟨m, hm⟩ := hx; exact ih _ hm ⟨m, rfl⟩
        · push Not at hx; exact ⟨n, hx⟩
    exact key _ ⟨0, rfl⟩
  obtain ⟨N, hN⟩ := this
  refine ⟨N, fun n hn i t ht e => ?_⟩
  have h1 := hN (n + 1)
  have h2 := h.work_mono hn
  have h3 := (workT_step (P := P) (S n).shared t).1
  have h4 := sum_map_set workT (S n).threads i t (step P (S n).shared t).2 ht
  have h5 : workS (S (n + 1)) = (((S n).threads.set i (step P (S n).shared t).2).map workT).sum := by rw [h.own ht e]; rfl
  have h6 : workS (S n) = ((S n).threads.map workT).sum := rfl
  omega

/-- A step that returns is not possible. -/
theorem QuietT.dead {N i : Nat} (hq : QuietT P σ S N) (hT : Trace P σ S) {φ : Thread K V → Prop}
    (h : ∀ n, N ≤ n → ∀ t, (S n).threads[i]? = some t → σ n = i → φ t →
      (∃ ψ, Dead S N i ψ ∧ ψ (step P (S n).shared t).2) ∨ (t.cur ≠ .idle ∧ (step P (S n).shared t).2.cur = .idle)) :
    Dead S N i φ := by
  refine Dead.own hT ?_
  intro n hn t ht e hx
  rcases h n hn t ht e hx with h1 | ⟨h1, h2⟩
  · exact h1
  · have := (workT_step (P := P) (S n).shared t).2.2 h1 h2
    have := hq n hn i t ht e
    omega

theorem QuietT.mono {N N' : Nat} (hq : QuietT P σ S N) (h : N ≤ N') : QuietT P σ S N' := fun n hn => hq n (h.trans hn)

/-- No thread has an operation it has not started. -/
theorem QuietT.idle {N : Nat} (hq : QuietT P σ S N) (hT : Trace P σ S) (i : Nat) :
    Dead S N i (fun t => t.cur = .idle ∧ t.todo ≠ []) := by
  intro n hn t ht ⟨h1, h2⟩
  obtain ⟨m, hm, e, ht'⟩ := hT.next_own ht
  have := (workT_step (P := P) (S m).shared t).2.1 h1 h2
  have := hq m (by omega) i t ht' e
  omega

/-- If no thread can be inside an operation, all are finished. -/
theorem QuietT.finished {N : Nat} (hq : QuietT P σ S N) (hT : Trace P σ S) {N' : Nat} (hN : N ≤ N')
    (h : ∀ i, Dead S N' i (fun t => t.cur ≠ .idle)) : UFinished (S N') := by
  intro t ht
  obtain ⟨i, hi⟩ := List.mem_iff_getElem?.1 ht
  have h1 : t.cur = .idle := by
    by_contra hc
    exact h i N' (le_refl _) t hi hc
  refine ⟨?_, h1⟩
  by_contra hc
  exact hq.idle hT i N' hN t hi ⟨h1, hc⟩

/-- A property that is stable and that every thread gets, holds for all threads from some moment on. -/
theorem Trace.all_eventually (hT : Trace P σ S) {N : Nat} {φ : Thread K V → Prop}
    (hst : ∀ n, N ≤ n → ∀ (i : Nat) (t : Thread K V), (S n).threads[i]? = some t → σ n = i → φ t → φ (step P (S n).shared t).2)
    (hev : ∀ i, i < (S 0).threads.length → ∃ n, N ≤ n ∧ ∀ t, (S n).threads[i]? = some t → φ t) :
    ∃ N', N ≤ N' ∧ ∀ n, N' ≤ n → ∀ (i : Nat) (t : Thread K V), (S n).threads[i]? = some t → φ t := by
  have stay : ∀ (i n : Nat), N ≤ n → (∀ t, (S n).threads[i]? = some t → φ t) → ∀ m, n ≤ m → ∀ t, (S m).threads[i]? = some t → φ t := by
    intro i n hn h m hm
    obtain ⟨k, rfl⟩ := Nat.exists_eq_add_of_le hm
    clear hm
    induction k with
    | zero => exact h
    | succ k ih =>
      intro t ht
      by_cases e : σ (n + k) = i
      · cases hu : (S (n + k)).threads[i]? with
        | none =>
          have := (List.getElem?_eq_some_iff.1 ht).1
          rw [hT.length] at this
          rw [List.getElem?_eq_none_iff, hT.length] at hu
          omega
        | some u =>
          have h2 := hT.own_thread hu e
          rw [← Nat.add_assoc] at ht
          rw [h2] at ht; cases ht
          exact hst _ (by omega) i u hu e (ih u hu)
      · rw [← Nat.add_assoc, hT.other e] at ht
        exact ih t ht
  have all : ∀ k, k ≤ (S 0).threads.length → ∃ N', N ≤ N' ∧ ∀ i, i < k → ∀ n, N' ≤ n → ∀ t, (S n).threads[i]? = some t → φ t := by
    intro k
    induction k with
    | zero => exact fun _ => ⟨N, le_refl _, fun i hi => by omega⟩
    | succ k ih =>
      intro hk
      obtain ⟨N1, h1, h2⟩ := ih (by omega)
      obtain ⟨n, h3, h4⟩ := hev k (by omega)
      refine ⟨max N1 n, by omega, fun i hi m hm => ?_⟩
      by_cases hik : i = k
      · subst hik; exact stay i n h3 h4 m (by omega)
      · exact h2 i (by omega) m (by omega)
  obtain ⟨N', h1, h2⟩ := all _ (le_refl _)
  refine ⟨N', h1, fun n hn i t ht => h2 i ?_ n hn t ht⟩
  rw [← hT.length n]; exact (List.getElem?_eq_some_iff.1 ht).1

end

/-! ### Calls on the free list -/

/-- Outside of calls on the free list a step leaves it alone. -/
theorem ex_other (P : Params K V) (m : Shared V) (t : Thread K V) (h : AtEx t.cur = false) :
    (step P m t).1.tab.excess = m.tab.excess ∧ (step P m t).2.ex.pc = t.ex.pc := by
  obtain ⟨todo, cur, ex, done⟩ := t
  have hF : ∀ (eq : V → Bool) W, (findStep m eq W).1.tab = m.tab := fun eq W => (findStep_tab m eq W).1
  have hE : ∀ W, (endStep m W).1.tab = m.tab := fun W => (endStep_tab m W).1
  have hP : ∀ p W, (prevStep m p W).1.tab = m.tab := fun p W => (prevStep_tab m p W).1
  cases cur with
  | idle => cases todo <;> simp [step]
  | fnd k w =>
    simp only [step]
    have := hF (fun w => P.keyEq (P.keyOf w) k) w
    generalize findStep m (fun w => P.keyEq (P.keyOf w) k) w = r at this ⊢
    rcases r with ⟨m', pc' | r⟩
    · simp_all
    · cases r <;> simp_all
  | ins v pc =>
    have : (insStep m v (bucket P m.tab (P.keyOf v)) (fun w => P.keyEq (P.keyOf w) (P.keyOf v)) ex pc).1.tab.excess = m.tab.excess ∧
        (insStep m v (bucket P m.tab (P.keyOf v)) (fun w => P.keyEq (P.keyOf w) (P.keyOf v)) ex pc).2.1.pc = ex.pc := by
      cases pc with
      | pop e => simp [AtEx] at h
      | c1 W => 
        simp only [insStep]
        have := hF (fun w => P.keyEq (P.keyOf w) (P.keyOf v)) W
        generalize findStep m (fun w => P.keyEq (P.keyOf w) (P.keyOf v)) W = r at this ⊢
        rcases r with ⟨m', pc' | r⟩
        · simp_all
        · cases r <;> simp_all
      | c2 W => 
        simp only [insStep]
        have := hF (fun w => P.keyEq (P.keyOf w) (P.keyOf v)) W
        generalize findStep m (fun w => P.keyEq (P.keyOf w) (P.keyOf v)) W = r at this ⊢
        rcases r with ⟨m', pc' | r⟩
        · simp_all
        · cases r <;> simp_all
      | c3 e e' W => 
        simp only [insStep]
        have := hF (fun w => P.keyEq (P.keyOf w) (P.keyOf v)) W
        generalize findStep m (fun w => P.keyEq (P.keyOf w) (P.keyOf v)) W = r at this ⊢
        rcases r with ⟨m', pc' | r⟩
        · simp_all
        · cases r
          · by_cases he : e = e' <;> simp_all
          · simp_all
      | e1 W =>
        simp only [insStep]
        have := hE W
        generalize endStep m W = r at this ⊢
        rcases r with ⟨m', pc' | r⟩ <;> simp_all
      | e2 e W =>
        simp only [insStep]
        have := hE W
        generalize endStep m W = r at this ⊢
        rcases r with ⟨m', pc' | r⟩ <;> simp_all
      | lockB => simp only [insStep]; split <;> exact ⟨rfl, rfl⟩
      | lockE e => simp only [insStep]; split <;> exact ⟨rfl, rfl⟩
      | _ => exact ⟨rfl, rfl⟩
    simp only [step]
    generalize insStep m v (bucket P m.tab (P.keyOf v)) (fun w => P.keyEq (P.keyOf w) (P.keyOf v)) ex pc = r at this ⊢
    rcases r with ⟨m', ex', pc' | r⟩
    · exact this
    · cases r <;> exact this
  | era k pc =>
    have : (eraStep m (bucket P m.tab k) (fun w => P.keyEq (P.keyOf w) k) ex pc).1.tab.excess = m.tab.excess ∧
        (eraStep m (bucket P m.tab k) (fun w => P.keyEq (P.keyOf w) k) ex pc).2.1.pc = ex.pc := by
      cases pc with
      | push p q => simp [AtEx] at h
      | f1 W => 
        simp only [eraStep]
        have := hF (fun w => P.keyEq (P.keyOf w) k) W
        generalize findStep m (fun w => P.keyEq (P.keyOf w) k) W = r at this ⊢
        rcases r with ⟨m', pc' | r⟩
        · simp_all
        · cases r <;> simp_all
      | f2 p W => 
        simp only [eraStep]
        have := hF (fun w => P.keyEq (P.keyOf w) k) W
        generalize findStep m (fun w => P.keyEq (P.keyOf w) k) W = r at this ⊢
        rcases r with ⟨m', pc' | r⟩ <;> simp_all
      | f3 p q W => 
        simp only [eraStep]
        have := hF (fun w => P.keyEq (P.keyOf w) k) W
        generalize findStep m (fun w => P.keyEq (P.keyOf w) k) W = r at this ⊢
        rcases r with ⟨m', pc' | r⟩ <;> simp_all
      | p1 p W =>
        simp only [eraStep]
        have := hP p W
        generalize prevStep m p W = r at this ⊢
        rcases r with ⟨m', pc' | r⟩ <;> simp_all
      | p2 p q it W =>
        simp only [eraStep]
        have := hP p W
        generalize prevStep m p W = r at this ⊢
        rcases r with ⟨m', pc' | r⟩ <;> simp_all
      | lockB p => simp only [eraStep]; split <;> exact ⟨rfl, rfl⟩
      | lock1 p q => simp only [eraStep]; split <;> exact ⟨rfl, rfl⟩
      | lock2 p q => simp only [eraStep]; split <;> exact ⟨rfl, rfl⟩
      | _ => exact ⟨rfl, rfl⟩
    simp only [step]
    generalize eraStep m (bucket P m.tab k) (fun w => P.keyEq (P.keyOf w) k) ex pc = r at this ⊢
    rcases r with ⟨m', ex', pc' | r⟩ <;> exact this

def vphi : FPC → Nat
  | .check => 2
  | .rmw => 1

theorem vphi_lt (cap : Nat) (c : Int) (b : Bool) (k : Unit) (f : FPC) (c' : Int) (f' : FPC)
    (e : (vfront cap).step c b k f = (c', .cont f')) : vphi f' < vphi f := by
  rcases Vector.vfront_cases cap c b k f with ⟨h1, e', -⟩ | ⟨h1, e', -⟩ | ⟨h1, -, -, -, e'⟩ | ⟨h1, -, -, e'⟩ |
    ⟨h1, -, -, -, e'⟩ | ⟨h1, -, -, e'⟩ <;> rw [e] at e' <;> simp at e'
  rw [h1, e'.2]; simp [vphi]

theorem vphi_pos (f : FPC) : 0 < vphi f := by cases f <;> simp [vphi]

section
variable {P : Params K V} {cap : Nat} {c₀ : Multiset Nat} {xp : List (List (SlotConc.Op Unit Nat))} {b : Bool}
  {s : Sys (Shared V) (Thread K V)} {i : Nat} {t : Thread K V}

/-- No thread meets an entry of the free list that is not ready. -/
theorem exclean_step (hv : Vector.VInv cap c₀ xp (exSys s)) (hk : ∀ p ∈ xp, ∀ op ∈ p, op.isPush = b)
    (hw : AtEx t.cur = true → t.ex.todo ≠ []) (hc : SlotConc.Clean b (exSys s)) (ht : s.threads[i]? = some t) :
    SlotConc.Clean b (exSys (⟨(step P s.shared t).1, s.threads.set i (step P s.shared t).2⟩ : Sys (Shared V) (Thread K V))) := by
  have hxt : (exSys s).threads[i]? = some t.ex := by simp [exSys, ht]
  cases ha : AtEx t.cur with
  | true =>
    obtain ⟨e1, e2, -, -⟩ := exStep_big (P := P) (m := s.shared) ha (hw ha)
    have hcap : Vector.cap s.shared.tab.excess = cap := hv.hcap
    rw [hcap] at e1 e2
    have := SlotConc.clean_step hv hk (fun p _ => by unfold Vector.vtick; split <;> simp) hc hxt
    have es : exSys (⟨(step P s.shared t).1, s.threads.set i (step P s.shared t).2⟩ : Sys (Shared V) (Thread K V)) =
        ⟨(SlotConc.step (vfront cap) (exSys s).shared t.ex).1, (exSys s).threads.set i (SlotConc.step (vfront cap) (exSys s).shared t.ex).2⟩ := by
      show (⟨(step P s.shared t).1.tab.excess, (s.threads.set i (step P s.shared t).2).map (·.ex)⟩ : Vector.VSys Nat) =
            ⟨(SlotConc.step (vfront cap) s.shared.tab.excess t.ex).1, (s.threads.map (·.ex)).set i
              (SlotConc.step (vfront cap) s.shared.tab.excess t.ex).2⟩
      rw [e1, List.map_set, e2]
    rw [es]; exact this
  | false =>
    obtain ⟨e1, e2⟩ := ex_other P s.shared t ha
    have hpc : ∀ x ∈ (exSys (⟨(step P s.shared t).1, s.threads.set i (step P s.shared t).2⟩ : Sys (Shared V) (Thread K V))).threads,
        ∃ y ∈ (exSys s).threads, x.pc = y.pc := by
      intro x hx
      obtain ⟨u, hu, rfl⟩ := List.mem_map.1 hx
      rcases mem_set_cases _ _ _ _ hu with rfl | ⟨j, -, hj⟩
      · exact ⟨t.ex, List.mem_of_getElem? hxt, e2⟩
      · exact ⟨u.ex, List.mem_map_of_mem (List.mem_of_getElem? hj), rfl⟩
    constructor
    · intro x hx p r h
      obtain ⟨y, hy, e⟩ := hpc x hx
      show (step P s.shared t).1.tab.excess.slots.occ p = b
      rw [e1]
      exact hc.fin y hy p r (by rw [← e]; exact h)
    · intro x hx p h
      obtain ⟨y, hy, e⟩ := hpc x hx
      exact hc.retry y hy p (by rw [← e]; exact h)

/-- A call on the free list comes closer to its end with every step of its thread. -/
theorem exleft (hv : Vector.VInv cap c₀ xp (exSys s)) (hk : ∀ p ∈ xp, ∀ op ∈ p, op.isPush = b)
    (hc : SlotConc.Clean b (exSys s)) (ht : s.threads[i]? = some t) (ha : AtEx t.cur = true) (hne : t.ex.todo ≠ []) :
    SlotConc.left vphi .check (step P s.shared t).2.ex < SlotConc.left vphi .check t.ex := by
  have hxt : (exSys s).threads[i]? = some t.ex := by simp [exSys, ht]
  obtain ⟨-, e2, -, -⟩ := exStep_big (P := P) (m := s.shared) ha hne
  have hcap : Vector.cap s.shared.tab.excess = cap := hv.hcap
  rw [e2, hcap]
  exact SlotConc.left_step (fr := vfront cap) vphi (vphi_lt cap) vphi_pos hv hk
    (fun p _ => by unfold Vector.vtick; split <;> simp) hc hxt hne

end

end Stdgpu.UnorderedConc
