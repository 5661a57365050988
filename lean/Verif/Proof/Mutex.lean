import Verif.Proof.Bitset
import Verif.Proof.Conc
import Verif.Spec.Mutex
/-! Invariant of the mutex machine. -/
namespace Stdgpu.Mutex
open Stdgpu.Bitset Stdgpu.Conc Stdgpu.Spec

variable {w : Nat}

theorem set_bitAt {b : Bitset w} (h : WF b) (n : Nat) (hn : n < b.size) (x : Bool) :
    ∃ b', Bitset.set b n x = some (bitAt b n, b') ∧ b'.size = b.size ∧ WF b' ∧
      ∀ m, m < b.size → bitAt b' m = if m = n then x else bitAt b m := by
  obtain ⟨b', h1, h2, h3, h4⟩ := set_refines h n hn x
  refine ⟨b', h1, h2, h3, ?_⟩
  intro m hm
  have := congrArg (fun l => l[m]?) h4
  simp only [abs_getElem?, List.getElem?_set, abs_length] at this
  rw [h2] at this
  by_cases hmn : m = n
  · subst hmn; simpa [hm] using this
  · have hnm : ¬ n = m := fun e => hmn e.symm
    simpa [hm, hmn, hnm, abs_getElem?] using this

/-- Mutexes held according to the program counter. -/
def heldList : PC → List Nat
  | .idle => []
  | .acquire _ held _ | .rollback _ held _ | .leave _ held => held
  | .inside r => r.locks

def heldN (n : Nat) (t : Thread) : Nat := (heldList t.pc).count n

def ReqOK (size : Nat) (r : Req) : Prop := (∀ n ∈ r.locks, n < size) ∧ r.unlockOrder.Perm r.locks

/-- Shape of a thread: trace and program counter. -/
def Shape (size : Nat) (t : Thread) : Prop :=
  match t.pc with
  | .idle => t.acts = t.done.flatMap segment
  | .acquire r held rest => ReqOK size r ∧ held.reverse ++ rest = r.locks ∧
      t.acts = t.done.flatMap segment ++ held.reverse.map acquired
  | .rollback r held res => ReqOK size r ∧ ∃ i n rel, res = Int.ofNat i ∧ r.locks[i]? = some n ∧
      (r.locks.take i).reverse = rel ++ held ∧
      t.acts = t.done.flatMap segment ++ ((r.locks.take i).map acquired ++ [refused n] ++ rel.map released)
  | .inside r => ReqOK size r ∧ ∃ D, t.done = D ++ [(r, -1)] ∧
      t.acts = D.flatMap segment ++ r.locks.map acquired
  | .leave r held => ReqOK size r ∧ ∃ D rel, t.done = D ++ [(r, -1)] ∧ r.unlockOrder = rel ++ held ∧
      t.acts = D.flatMap segment ++ (r.locks.map acquired ++ rel.map released)

structure Inv (b₀ : Bitset w) (s : Sys (Mem w) Thread) : Prop where
  ub : s.shared.ub = false
  wf : WF s.shared.bits
  size : s.shared.bits.size = b₀.size
  todo : ∀ t ∈ s.threads, ∀ r ∈ t.todo, ReqOK b₀.size r
  shape : ∀ t ∈ s.threads, Shape b₀.size t
  bal : ∀ t ∈ s.threads, ∀ n, balance t.acts n = (heldN n t : Int)
  lock : ∀ n, n < b₀.size → (s.threads.map (heldN n)).sum + (bitAt b₀ n).toNat = (bitAt s.shared.bits n).toNat

theorem balance_append (a b : List Act) (n : Nat) : balance (a ++ b) n = balance a n + balance b n := by
  simp only [balance, List.countP_append]; push_cast; omega

theorem balance_acq (m n : Nat) : balance [⟨m, true, false⟩] n = if m = n then 1 else 0 := by
  simp only [balance, List.countP_cons]; split <;> simp_all
theorem balance_ref (m n : Nat) : balance [⟨m, true, true⟩] n = 0 := by
  simp [balance, List.countP_cons]
theorem balance_rel (m n : Nat) (o : Bool) : balance [⟨m, false, o⟩] n = if m = n then -1 else 0 := by
  by_cases h : m = n <;> simp [balance, List.countP_cons, h]

theorem inv_step (b₀ : Bitset w) (s : Sys (Mem w) Thread) (i : Nat) (t : Thread) (h : Inv b₀ s)
    (ht : s.threads[i]? = some t) :
    Inv b₀ ⟨(step s.shared t).1, s.threads.set i (step s.shared t).2⟩ := by
  have hmem := List.mem_of_getElem? ht
  have hsum := fun n t' => sum_map_set (heldN n) s.threads i t t' ht
  have rebuild : ∀ (m' : Mem w) (t' : Thread), m'.ub = false → WF m'.bits → m'.bits.size = b₀.size →
      (∀ r ∈ t'.todo, ReqOK b₀.size r) → Shape b₀.size t' →
      (∀ n, balance t'.acts n = (heldN n t' : Int)) →
      (∀ n, n < b₀.size → heldN n t' + (bitAt s.shared.bits n).toNat = heldN n t + (bitAt m'.bits n).toNat) →
      Inv b₀ ⟨m', s.threads.set i t'⟩ := by
    intro m' t' h1 h2 h3 h4 h5 h6 h7
    refine ⟨h1, h2, h3, ?_, ?_, ?_, ?_⟩
    · intro x hx
      rcases mem_set_cases _ _ _ _ hx with rfl | ⟨j, hj, hx⟩
      · exact h4
      · exact h.todo x (List.mem_of_getElem? hx)
    · intro x hx
      rcases mem_set_cases _ _ _ _ hx with rfl | ⟨j, hj, hx⟩
      · exact h5
      · exact h.shape x (List.mem_of_getElem? hx)
    · intro x hx
      rcases mem_set_cases _ _ _ _ hx with rfl | ⟨j, hj, hx⟩
      · exact h6
      · exact h.bal x (List.mem_of_getElem? hx)
    · intro n hn
      have a := hsum n t'
      have b := h.lock n hn
      have c := h7 n hn
      simp only at *
      omega
  -- a held mutex has its bit set
  have heldbit : ∀ n, n < b₀.size → 0 < heldN n t → bitAt s.shared.bits n = true := by
    intro n hn hp
    have a := le_sum_map (heldN n) s.threads t hmem
    have b := h.lock n hn
    cases hb : bitAt s.shared.bits n
    · rw [hb] at b; simp at b; omega
    · rfl
  have hshape := h.shape t hmem
  have hbal := h.bal t hmem
  have htodo := h.todo t hmem
  have hsz := h.size
  obtain ⟨todo, pc, done, acts⟩ := t
  cases pc with
  | idle =>
    cases todo with
    | nil =>
      simp only [step]
      rw [set_self _ _ _ ht]; exact h
    | cons r todo =>
      simp only [step]
      refine rebuild _ _ h.ub h.wf h.size (fun r' hr' => htodo r' (by simp [hr'])) ?_ ?_ ?_
      · simp only [Shape] at hshape ⊢
        exact ⟨htodo r (by simp), by simp, by simp [hshape]⟩
      · intro n; simpa [heldN, heldList] using hbal n
      · intro n hn; simp [heldN, heldList]
  | acquire r held rest =>
    obtain ⟨hr, hl, ha⟩ := hshape
    simp only at ha hl
    cases rest with
    | nil =>
      simp only [step]
      simp at hl
      refine rebuild _ _ h.ub h.wf h.size htodo ?_ ?_ ?_
      · exact ⟨hr, done, rfl, by simp only; rw [ha, hl]⟩
      · intro n; simpa [heldN, heldList, ← hl] using hbal n
      · intro n hn; simp [heldN, heldList, ← hl]
    | cons n rest =>
      have hn : n < b₀.size := hr.1 n (by rw [← hl]; simp)
      obtain ⟨b', e1, e2, e3, e4⟩ := set_bitAt h.wf n (by omega) true
      simp only [step, e1]
      cases hold : bitAt s.shared.bits n
      · simp only [Bool.not_false, if_true]
        refine rebuild _ _ h.ub e3 (by simp [e2, hsz]) htodo ?_ ?_ ?_
        · refine ⟨hr, by simp [← hl], by simp [ha, acquired]⟩
        · intro m
          have := hbal m
          simp only [heldN, heldList] at this ⊢
          rw [balance_append, this, balance_acq, List.count_cons]
          by_cases hmn : n = m <;> simp [hmn]
        · intro m hm
          simp only [heldN, heldList]
          rw [e4 m (by omega), List.count_cons]
          by_cases hmn : m = n
          · subst hmn; simp [hold]
          · have : ¬ n = m := fun e => hmn e.symm
            simp [hmn, this]
      · simp only [Bool.not_true, Bool.false_eq_true, if_false]
        refine rebuild _ _ h.ub e3 (by simp [e2, hsz]) htodo ?_ ?_ ?_
        · refine ⟨hr, held.length, n, [], rfl, ?_, ?_, ?_⟩
          · rw [← hl]; simp
          · rw [← hl, List.take_left' (by simp)]; simp
          · rw [← hl, List.take_left' (by simp)]; simp [ha, refused]
        · intro m
          have := hbal m
          simp only [heldN, heldList] at this ⊢
          rw [balance_append, this, balance_ref]; simp
        · intro m hm
          simp only [heldN, heldList]
          rw [e4 m (by omega)]
          by_cases hmn : m = n
          · subst hmn; simp [hold]
          · simp [hmn]
  | rollback r held res =>
    obtain ⟨hr, j, n, rel, hres, hj, hrel, ha⟩ := hshape
    simp only at ha
    cases held with
    | nil =>
      simp only [step]
      refine rebuild _ _ h.ub h.wf h.size htodo ?_ ?_ ?_
      · simp only [Shape, List.flatMap_append, List.flatMap_cons, List.flatMap_nil, segment, hres, hj]
        rw [List.append_nil] at hrel
        rw [ha, hrel]; simp
      · intro n; simpa [heldN, heldList] using hbal n
      · intro n hn; simp [heldN, heldList]
    | cons n' held =>
      have hmem' : n' ∈ r.locks := by
        have : n' ∈ (r.locks.take j).reverse := by rw [hrel]; simp
        exact List.mem_of_mem_take (List.mem_reverse.1 this)
      have hn : n' < b₀.size := hr.1 n' hmem'
      obtain ⟨b', e1, e2, e3, e4⟩ := set_bitAt h.wf n' (by omega) false
      have hold : bitAt s.shared.bits n' = true := heldbit n' hn (by simp [heldN, heldList])
      simp only [step, e1, hold]
      refine rebuild _ _ h.ub e3 (by simp [e2, hsz]) htodo ?_ ?_ ?_
      · exact ⟨hr, j, n, rel ++ [n'], hres, hj, by simp [hrel], by simp [ha, released]⟩
      · intro m
        have := hbal m
        simp only [heldN, heldList] at this ⊢
        rw [balance_append, this, balance_rel, List.count_cons]
        by_cases hmn : n' = m <;> simp [hmn]
      · intro m hm
        simp only [heldN, heldList]
        rw [e4 m (by omega), List.count_cons]
        by_cases hmn : m = n'
        · subst hmn; simp [hold]
        · have : ¬ n' = m := fun e => hmn e.symm
          simp [hmn, this]
  | inside r =>
    obtain ⟨hr, D, hd, ha⟩ := hshape
    simp only [step]
    refine rebuild _ _ h.ub h.wf h.size htodo ?_ ?_ ?_
    · exact ⟨hr, D, [], hd, by simp, by simpa using ha⟩
    · intro n
      have := hbal n
      simp only [heldN, heldList] at this ⊢
      rw [this, hr.2.count_eq]
    · intro n hn; simp [heldN, heldList, hr.2.count_eq]
  | leave r held =>
    obtain ⟨hr, D, rel, hd, hu, ha⟩ := hshape
    simp only at ha hd
    cases held with
    | nil =>
      simp only [step]
      refine rebuild _ _ h.ub h.wf h.size htodo ?_ ?_ ?_
      · simp only [Shape, hd, List.flatMap_append, List.flatMap_cons, List.flatMap_nil]
        rw [List.append_nil] at hu
        have : segment (r, -1) = r.locks.map acquired ++ r.unlockOrder.map released := rfl
        rw [ha, this, hu]; simp
      · intro n; simpa [heldN, heldList] using hbal n
      · intro n hn; simp [heldN, heldList]
    | cons n' held =>
      have hn : n' < b₀.size := hr.1 n' (hr.2.mem_iff.1 (by rw [hu]; simp))
      obtain ⟨b', e1, e2, e3, e4⟩ := set_bitAt h.wf n' (by omega) false
      have hold : bitAt s.shared.bits n' = true := heldbit n' hn (by simp [heldN, heldList])
      simp only [step, e1, hold]
      refine rebuild _ _ h.ub e3 (by simp [e2, hsz]) htodo ?_ ?_ ?_
      · exact ⟨hr, D, rel ++ [n'], hd, by simp [hu], by simp [ha, released]⟩
      · intro m
        have := hbal m
        simp only [heldN, heldList] at this ⊢
        rw [balance_append, this, balance_rel, List.count_cons]
        by_cases hmn : n' = m <;> simp [hmn]
      · intro m hm
        simp only [heldN, heldList]
        rw [e4 m (by omega), List.count_cons]
        by_cases hmn : m = n'
        · subst hmn; simp [hold]
        · have : ¬ n' = m := fun e => hmn e.symm
          simp [hmn, this]

def ValidPrograms (size : Nat) (programs : List (List Req)) : Prop :=
  ∀ p ∈ programs, ∀ r ∈ p, (∀ n ∈ r.locks, n < size) ∧ r.unlockOrder.Perm r.locks

theorem inv_run (b₀ : Bitset w) (h : WF b₀) (programs : List (List Req)) (hv : ValidPrograms b₀.size programs)
    (sched : List Nat) : Inv b₀ (run step (init b₀ programs) sched) := by
  refine run_inv (f := step) (Inv b₀) (fun s i t => inv_step b₀ s i t) _ ?_ sched
  have hth : ∀ t ∈ (init b₀ programs).threads, ∃ p ∈ programs, t = ⟨p, .idle, [], []⟩ := by
    intro t ht
    simp [init] at ht
    obtain ⟨p, hp, rfl⟩ := ht
    exact ⟨p, hp, rfl⟩
  refine ⟨rfl, h, rfl, ?_, ?_, ?_, ?_⟩
  · intro t ht; obtain ⟨p, hp, rfl⟩ := hth t ht; exact hv p hp
  · intro t ht; obtain ⟨p, hp, rfl⟩ := hth t ht; simp [Shape]
  · intro t ht n; obtain ⟨p, hp, rfl⟩ := hth t ht; simp [heldN, heldList, balance]
  · intro n hn
    have : ((init b₀ programs).threads.map (heldN n)).sum = 0 := by
      rw [sum_map_eq_zero]
      intro t ht; obtain ⟨p, hp, rfl⟩ := hth t ht; rfl
    rw [this]; simp [init]

/-! Sequential `try_lock` -/

theorem tryLockAux_spec {b : Bitset w} (h : WF b) (i : Int) (hi : 0 ≤ i) (n : Nat) (ns : List Nat)
    (hv : ∀ m ∈ n :: ns, m < b.size) :
    ∃ res b', tryLockAux b i n ns = some (res, b') ∧ b'.size = b.size ∧ WF b' ∧
      ((res = -1 ∧ (n :: ns).Nodup ∧ (∀ m ∈ n :: ns, bitAt b m = false) ∧
          ∀ m, m < b.size → bitAt b' m = (bitAt b m || decide (m ∈ n :: ns))) ∨
       (∃ k : Nat, ∃ x, res = i + k ∧ (n :: ns)[k]? = some x ∧ ((n :: ns).take k).Nodup ∧
          (∀ m ∈ (n :: ns).take k, bitAt b m = false) ∧
          (bitAt b x = true ∨ x ∈ (n :: ns).take k) ∧
          ∀ m, m < b.size → bitAt b' m = bitAt b m)) := by
  induction ns generalizing b i n with
  | nil =>
    have hn := hv n (by simp)
    obtain ⟨b', e1, e2, e3, e4⟩ := set_bitAt h n hn true
    cases hb : bitAt b n
    · refine ⟨-1, b', by simp [tryLockAux, tryLock1, e1, hb], e2, e3, Or.inl ⟨rfl, by simp, by simp [hb], ?_⟩⟩
      intro m hm
      rw [e4 m hm]
      by_cases hmn : m = n <;> simp [hmn]
    · refine ⟨i, b', by simp [tryLockAux, tryLock1, e1, hb], e2, e3,
        Or.inr ⟨0, n, by simp, by simp, by simp, by simp, Or.inl hb, ?_⟩⟩
      intro m hm
      rw [e4 m hm]
      by_cases hmn : m = n
      · simp [hmn, hb]
      · simp [hmn]
  | cons n2 ns ih =>
    have hn := hv n (by simp)
    obtain ⟨b', e1, e2, e3, e4⟩ := set_bitAt h n hn true
    cases hb : bitAt b n
    · obtain ⟨res, b2, f1, f2, f3, f4⟩ := ih e3 (i + 1) (by omega) n2
        (fun m hm => by rw [e2]; exact hv m (List.mem_cons_of_mem _ hm))
      rcases f4 with ⟨rfl, hnd, hfree, hbits⟩ | ⟨k, x, rfl, hk, hnd, hfree, hx, hbits⟩
      · refine ⟨-1, b2, by simp [tryLockAux, tryLock1, e1, hb, f1], by omega, f3,
          Or.inl ⟨rfl, ?_, ?_, ?_⟩⟩
        · refine List.nodup_cons.2 ⟨?_, hnd⟩
          intro hc
          have := hfree n hc
          rw [e4 n hn] at this; simp at this
        · intro m hm
          rcases List.mem_cons.1 hm with rfl | hm'
          · exact hb
          · have := hfree m hm'
            rw [e4 m (hv m hm)] at this
            by_cases hmn : m = n
            · simp [hmn] at this
            · simpa [hmn] using this
        · intro m hm
          rw [hbits m (by omega), e4 m hm]
          by_cases hmn : m = n
          · simp [hmn]
          · simp [hmn]
      · have hne : i + 1 + (k : Int) ≠ -1 := by omega
        obtain ⟨b3, g1, g2, g3, g4⟩ := set_bitAt f3 n (by omega) false
        refine ⟨i + 1 + k, b3, by simp [tryLockAux, tryLock1, e1, hb, f1, hne, unlock, g1], by omega, g3,
          Or.inr ⟨k + 1, x, by push_cast; omega, by simpa using hk, ?_, ?_, ?_, ?_⟩⟩
        · rw [List.take_succ_cons]
          refine List.nodup_cons.2 ⟨?_, hnd⟩
          intro hc
          have := hfree n hc
          rw [e4 n hn] at this; simp at this
        · intro m hm
          rw [List.take_succ_cons] at hm
          rcases List.mem_cons.1 hm with rfl | hm'
          · exact hb
          · have := hfree m hm'
            rw [e4 m (hv m (List.mem_cons_of_mem _ (List.mem_of_mem_take hm')))] at this
            by_cases hmn : m = n
            · simp [hmn] at this
            · simpa [hmn] using this
        · rw [List.take_succ_cons]
          rcases hx with hx | hx
          · have hxs : x < b.size := hv x (List.mem_cons_of_mem _ (List.mem_of_getElem? hk))
            rw [e4 x hxs] at hx
            by_cases hxn : x = n
            · right; simp [hxn]
            · left; simpa [hxn] using hx
          · right; exact List.mem_cons_of_mem _ hx
        · intro m hm
          rw [g4 m (by omega), hbits m (by omega), e4 m hm]
          by_cases hmn : m = n
          · simp [hmn, hb]
          · simp [hmn]
    · refine ⟨i, b', by simp [tryLockAux, tryLock1, e1, hb], e2, e3,
        Or.inr ⟨0, n, by simp, by simp, by simp, by simp, Or.inl hb, ?_⟩⟩
      intro m hm
      rw [e4 m hm]
      by_cases hmn : m = n
      · simp [hmn, hb]
      · simp [hmn]

end Stdgpu.Mutex
