import Verif.Spec.Linear
import Verif.Proof.Conc
/-! Invariant of the atomic read-modify-write machine. -/
namespace Stdgpu.Atomic
open Stdgpu.Conc Stdgpu.Spec

variable {V : Type} [DecidableEq V]

theorem replay_append (v : V) (L : List (Entry V)) (v' : V) (i : Nat) (op : Op V) (h : Replay v L v') :
    Replay v (L ++ [(i, op, v')]) (op.f v') := by
  induction L generalizing v with
  | nil => simp [Replay] at *; exact ⟨h, by rw [h]⟩
  | cons e L ih =>
    obtain ⟨k, o, r⟩ := e
    simp only [Replay, List.cons_append] at *
    exact ⟨h.1, ih _ h.2⟩

theorem perThread_append_same (L : List (Entry V)) (i : Nat) (op : Op V) (v : V) :
    perThread (L ++ [(i, op, v)]) i = perThread L i ++ [(op, v)] := by
  simp [perThread, List.filter_append]

theorem perThread_append_other (L : List (Entry V)) (i j : Nat) (op : Op V) (v : V) (h : j ≠ i) :
    perThread (L ++ [(i, op, v)]) j = perThread L j := by
  have : ¬ (i = j) := fun e => h e.symm
  simp [perThread, List.filter_append, this]

/-- Thread is inside the OpenMP critical section. -/
def inCrit : PC V → Nat
  | .entered | .hasRead _ | .leaving => 1
  | _ => 0

structure Inv (v₀ : V) (programs : List (List (Op V))) (c : Bool) (s : Sys (Mem V) (Thread V)) : Prop where
  prog : ∀ (i : Nat) (t : Thread V), s.threads[i]? = some t → programs[i]? = some (t.done.map (·.1) ++ t.todo)
  len : s.threads.length = programs.length
  kind : ∀ t ∈ s.threads, ∀ op ∈ t.todo, (op.kind = .critical ↔ c = true)
  pcs : ∀ t ∈ s.threads, (c = false → t.pc = .idle ∨ ∃ v, t.pc = .loaded v) ∧
    (c = true → ∀ v, t.pc ≠ .loaded v)
  excl : (s.threads.map (fun t => inCrit t.pc)).sum = if s.shared.crit then 1 else 0
  read : ∀ t ∈ s.threads, ∀ v, t.pc = .hasRead v → s.shared.value = v
  lin : ∃ L, Linearizes v₀ s L

theorem inv_init (v : V) (programs : List (List (Op V))) (c : Bool)
    (hc : ∀ p ∈ programs, ∀ op ∈ p, (op.kind = .critical ↔ c = true)) :
    Inv v programs c (init v programs) := by
  refine ⟨?_, ?_, ?_, ?_, ?_, ?_, [], ?_, ?_, ?_⟩
  · intro i t h
    simp [init] at h
    obtain ⟨p, hp, rfl⟩ := h
    simpa using hp
  · simp [init]
  · intro t ht
    simp [init] at ht
    obtain ⟨p, hp, rfl⟩ := ht
    exact hc p hp
  · intro t ht
    simp [init] at ht
    obtain ⟨p, hp, rfl⟩ := ht
    simp
  · simp [init, Function.comp_def, inCrit]
  · intro t ht
    simp [init] at ht
    obtain ⟨p, hp, rfl⟩ := ht
    simp
  · simp [init, Replay]
  · intro i t h
    simp [init] at h
    obtain ⟨p, hp, rfl⟩ := h
    simp [perThread]
  · simp

/-- Extending the sequential history at a commit. -/
theorem lin_commit {v₀ : V} {s : Sys (Mem V) (Thread V)} {i : Nat} {t t' : Thread V} {op : Op V}
    (ht : s.threads[i]? = some t) (hl : ∃ L, Linearizes v₀ s L) (m' : Mem V)
    (hm : m'.value = op.f s.shared.value) (hd : t'.done = t.done ++ [(op, s.shared.value)]) :
    ∃ L, Linearizes v₀ ⟨m', s.threads.set i t'⟩ L := by
  obtain ⟨L, h1, h2, h3⟩ := hl
  refine ⟨L ++ [(i, op, s.shared.value)], ?_, ?_, ?_⟩
  · simp only [hm]; exact replay_append _ _ _ _ _ h1
  · intro j x hx
    rcases getElem?_set_cases _ _ _ _ _ hx with ⟨rfl, rfl⟩ | ⟨hj, hx⟩
    · rw [perThread_append_same, h2 _ _ ht, hd]
    · rw [perThread_append_other _ _ _ _ _ hj, h2 _ _ hx]
  · intro e he
    simp at he
    rcases he with he | he
    · simpa using h3 e he
    · subst he
      simp
      exact (List.getElem?_eq_some_iff.1 ht).1

/-- Steps that change neither the value nor a log. -/
theorem lin_silent {v₀ : V} {s : Sys (Mem V) (Thread V)} {i : Nat} {t t' : Thread V}
    (ht : s.threads[i]? = some t) (hl : ∃ L, Linearizes v₀ s L) (m' : Mem V)
    (hm : m'.value = s.shared.value) (hd : t'.done = t.done) :
    ∃ L, Linearizes v₀ ⟨m', s.threads.set i t'⟩ L := by
  obtain ⟨L, h1, h2, h3⟩ := hl
  refine ⟨L, ?_, ?_, ?_⟩
  · simpa only [hm] using h1
  · intro j x hx
    rcases getElem?_set_cases _ _ _ _ _ hx with ⟨rfl, rfl⟩ | ⟨hj, hx⟩
    · rw [hd]; exact h2 _ _ ht
    · exact h2 _ _ hx
  · simpa using h3

theorem inv_step (v₀ : V) (programs : List (List (Op V))) (c : Bool) (s : Sys (Mem V) (Thread V))
    (i : Nat) (t : Thread V) (h : Inv v₀ programs c s) (ht : s.threads[i]? = some t) :
    Inv v₀ programs c ⟨(step s.shared t).1, s.threads.set i (step s.shared t).2⟩ := by
  have hmem := List.mem_of_getElem? ht
  have hsum := fun t' => sum_map_set (fun t => inCrit (V := V) t.pc) s.threads i t t' ht
  -- a uniform way to rebuild the invariant
  have rebuild : ∀ (m' : Mem V) (t' : Thread V),
      t'.done.map (·.1) ++ t'.todo = t.done.map (·.1) ++ t.todo →
      (∀ op ∈ t'.todo, op ∈ t.todo) →
      (c = false → t'.pc = .idle ∨ ∃ v, t'.pc = .loaded v) →
      (c = true → ∀ v, t'.pc ≠ .loaded v) →
      (inCrit t'.pc + (if s.shared.crit then 1 else 0) = inCrit t.pc + (if m'.crit then 1 else 0)) →
      (∀ v, t'.pc = .hasRead v → m'.value = v) →
      (∀ j x v, j ≠ i → s.threads[j]? = some x → x.pc = .hasRead v → m'.value = v) →
      (∃ L, Linearizes v₀ ⟨m', s.threads.set i t'⟩ L) →
      Inv v₀ programs c ⟨m', s.threads.set i t'⟩ := by
    intro m' t' hp htodo hpc1 hpc2 hex hr hro hl
    refine ⟨?_, by simpa using h.len, ?_, ?_, ?_, ?_, hl⟩
    · intro j x hx
      rcases getElem?_set_cases _ _ _ _ _ hx with ⟨rfl, rfl⟩ | ⟨hj, hx⟩
      · rw [hp]; exact h.prog _ _ ht
      · exact h.prog _ _ hx
    · intro x hx op hop
      rcases mem_set_cases _ _ _ _ hx with rfl | ⟨j, hj, hx⟩
      · exact h.kind t hmem op (htodo op hop)
      · exact h.kind x (List.mem_of_getElem? hx) op hop
    · intro x hx
      rcases mem_set_cases _ _ _ _ hx with rfl | ⟨j, hj, hx⟩
      · exact ⟨hpc1, hpc2⟩
      · exact h.pcs x (List.mem_of_getElem? hx)
    · have := hsum t'
      have he := h.excl
      simp only at *
      omega
    · intro x hx v hv
      rcases mem_set_cases _ _ _ _ hx with rfl | ⟨j, hj, hx⟩
      · exact hr v hv
      · exact hro j x v hj hx hv
  have hkind := h.kind t hmem
  have hpcs := h.pcs t hmem
  have hread := h.read
  -- reads of the others are stable when the value is unchanged
  have stable : ∀ (m' : Mem V), m'.value = s.shared.value →
      ∀ j x v, j ≠ i → s.threads[j]? = some x → x.pc = .hasRead v → m'.value = v := by
    intro m' hm j x v _ hx hv
    rw [hm]; exact hread x (List.mem_of_getElem? hx) v hv
  -- nobody else is in the critical section when the thread commits
  have nobody : (c = false ∨ inCrit t.pc = 1) →
      ∀ (m' : Mem V), ∀ j x v, j ≠ i → s.threads[j]? = some x → x.pc = .hasRead v → m'.value = v := by
    intro hcc m' j x v hj hx hv
    exfalso
    rcases hcc with hcf | hcr
    · have := (h.pcs x (List.mem_of_getElem? hx)).1 hcf
      rcases this with h1 | ⟨w, h1⟩ <;> rw [h1] at hv <;> cases hv
    · have := add_le_sum_map (fun t => inCrit (V := V) t.pc) s.threads i j t x (fun e => hj e.symm) ht hx
      have he := h.excl
      have : inCrit x.pc = 1 := by rw [hv]; rfl
      simp only at *
      split at he <;> omega
  have hcrit : inCrit t.pc = 1 → s.shared.crit = true := by
    intro h1
    have := le_sum_map (fun t => inCrit (V := V) t.pc) s.threads t hmem
    have he := h.excl
    by_contra hn
    simp only [hn] at he
    simp only at *
    simp at he
    omega
  obtain ⟨todo, pc, done⟩ := t
  cases todo with
  | nil =>
    cases pc with
    | leaving =>
      simp only [step]
      refine rebuild _ _ rfl (fun _ h => h) (by simp) (by simp) ?_ (by simp)
        (stable _ rfl) (lin_silent ht h.lin _ rfl rfl)
      have := hcrit rfl
      simp [inCrit, this]
    | idle | entered | hasRead v | loaded v =>
      simp only [step]
      have e : s.threads.set i _ = s.threads := set_self _ _ _ ht
      rw [e]
      exact h
  | cons op rest =>
    have hk : op.kind = .critical ↔ c = true := hkind op (by simp)
    cases pc with
    | idle =>
      cases hkd : op.kind with
      | capture =>
        have hcf : c = false := by
          rw [hkd] at hk; simpa using hk
        simp only [step, hkd]
        refine rebuild _ _ (by simp) (by simp +contextual) (by simp) (by simp) ?_ (by simp)
          (nobody (Or.inl hcf) _) (lin_commit ht h.lin _ rfl rfl)
        simp [inCrit]
      | critical =>
        simp only [step, hkd]
        have hct : c = true := hk.1 hkd
        by_cases hcr : s.shared.crit = true
        · simp only [hcr, if_true]; rw [set_self _ _ _ ht]; exact h
        · simp only [hcr, if_false]
          refine rebuild _ _ rfl (fun _ h => h) (by simp [hct]) (by simp) ?_ (by simp)
            (stable _ rfl) (lin_silent ht h.lin _ rfl rfl)
          simp [inCrit, hcr]
      | casloop =>
        have hcf : c = false := by
          rw [hkd] at hk; simpa using hk
        simp only [step, hkd]
        refine rebuild _ _ rfl (fun _ h => h) (by simp) (by simp [hcf]) ?_ (by simp)
          (stable _ rfl) (lin_silent ht h.lin _ rfl rfl)
        simp [inCrit]
    | entered =>
      simp only [step]
      have hct : c = true := by
        by_contra hc'
        have hcf : c = false := by simpa using hc'
        rcases hpcs.1 hcf with h1 | ⟨w, h1⟩ <;> cases h1
      refine rebuild _ _ rfl (fun _ h => h) (by simp [hct]) (by simp) ?_ (by simp)
        (stable _ rfl) (lin_silent ht h.lin _ rfl rfl)
      simp [inCrit]
    | hasRead v =>
      simp only [step]
      have hv : s.shared.value = v := hread _ hmem v rfl
      have hct : c = true := by
        by_contra hc'
        have hcf : c = false := by simpa using hc'
        rcases hpcs.1 hcf with h1 | ⟨w, h1⟩ <;> cases h1
      refine rebuild _ _ (by simp) (by simp +contextual) (by simp [hct]) (by simp) ?_ (by simp)
        (nobody (Or.inr rfl) _) (lin_commit (op := op) ht h.lin _ (by simp [hv]) (by simp [hv]))
      · simp [inCrit]
    | leaving =>
      simp only [step]
      refine rebuild _ _ rfl (fun _ h => h) (by simp) (by simp) ?_ (by simp)
        (stable _ rfl) (lin_silent ht h.lin _ rfl rfl)
      have := hcrit rfl
      simp [inCrit, this]
    | loaded v =>
      have hcf : c = false := by
        by_contra hc'
        exact hpcs.2 (by simpa using hc') v rfl
      simp only [step, backendCompareExchange]
      by_cases hvv : v = s.shared.value
      · simp only [hvv, if_true]
        refine rebuild _ _ (by simp) (by simp +contextual) (by simp) (by simp) ?_ (by simp)
          (nobody (Or.inl hcf) _) (lin_commit (op := op) ht h.lin _ (by simp [hvv]) rfl)
        simp [inCrit]
      · have hvv' : ¬ (s.shared.value = v) := fun e => hvv e.symm
        simp only [hvv, hvv', if_false]
        refine rebuild _ _ rfl (fun _ h => h) (by simp) (by simp [hcf]) ?_ (by simp)
          (stable _ (by simp [hvv'])) (lin_silent ht h.lin _ (by simp [hvv']) rfl)
        simp [inCrit]

theorem inv_run (v : V) (programs : List (List (Op V))) (c : Bool)
    (hc : ∀ p ∈ programs, ∀ op ∈ p, (op.kind = .critical ↔ c = true)) (sched : List Nat) :
    Inv v programs c (run step (init v programs) sched) :=
  run_inv (f := step) (Inv v programs c) (fun s i t h ht => inv_step v programs c s i t h ht) _
    (inv_init v programs c hc) sched

end Stdgpu.Atomic
