import Verif.Model.BitsetConc
import Verif.Proof.Bitset
import Verif.Proof.Conc
/-! Linearization of concurrent bitset operations. -/
namespace Stdgpu.BitsetConc
open Stdgpu.Bitset Stdgpu.Conc Stdgpu.Spec

variable {w : Nat}

/-- Sequential history entries (thread, operation, output). -/
abbrev Entry := Nat × Op × Out

def perThread (L : List Entry) (i : Nat) : List (Op × Out) := (L.filter (fun e => e.1 == i)).map (·.2)

theorem boolsExecAll_append (l l' l'' : List Bool) (ops : List Op) (op : Op) (os : List Out) (o : Out)
    (h : boolsExecAll l ops = some (os, l')) (h2 : boolsExec l' op = some (o, l'')) :
    boolsExecAll l (ops ++ [op]) = some (os ++ [o], l'') := by
  induction ops generalizing l os with
  | nil =>
    simp [boolsExecAll] at h
    obtain ⟨rfl, rfl⟩ := h
    simp [boolsExecAll, h2]
  | cons a ops ih =>
    simp only [boolsExecAll, List.cons_append] at h ⊢
    cases ha : boolsExec l a with
    | none => simp [ha] at h
    | some r =>
      obtain ⟨o1, l1⟩ := r
      simp only [ha] at h ⊢
      cases hb : boolsExecAll l1 ops with
      | none => simp [hb] at h
      | some r2 =>
        obtain ⟨os2, l2⟩ := r2
        simp [hb] at h
        obtain ⟨rfl, rfl⟩ := h
        have := ih l1 os2 hb
        simp [this]

structure Inv (b₀ : Bitset w) (programs : List (List Op)) (s : Sys (Mem w) Thread) : Prop where
  wf : WF s.shared.bits
  size : s.shared.bits.size = b₀.size
  ub : s.shared.ub = false
  prog : ∀ (i : Nat) (t : Thread), s.threads[i]? = some t → programs[i]? = some (t.done.map (·.1) ++ t.todo)
  lin : ∃ L : List Entry,
    boolsExecAll (abs b₀) (L.map (·.2.1)) = some (L.map (·.2.2), abs s.shared.bits) ∧
    (∀ (i : Nat) (t : Thread), s.threads[i]? = some t → perThread L i = t.done) ∧
    (∀ e ∈ L, e.1 < s.threads.length)

/-- All operations of the programs are element operations with a valid index. -/
def ValidPrograms (size : Nat) (programs : List (List Op)) : Prop :=
  ∀ p ∈ programs, ∀ op ∈ p, ∃ n, idx op = some n ∧ n < size

/-- Uniform description of the element operations. -/
theorem elem_form (op : Op) (n : Nat) (hi : idx op = some n) :
    ∃ g : Bool → Bool, ∀ l : List Bool,
      boolsExec l op = (l[n]?).map (fun old => (.bit old, l.set n (g old))) := by
  cases op with
  | set m x => simp only [idx, Option.some.injEq] at hi; subst hi; exact ⟨fun _ => x, fun l => rfl⟩
  | reset m => simp only [idx, Option.some.injEq] at hi; subst hi; exact ⟨fun _ => false, fun l => rfl⟩
  | flip m => simp only [idx, Option.some.injEq] at hi; subst hi; exact ⟨fun x => !x, fun l => rfl⟩
  | test m =>
    simp only [idx, Option.some.injEq] at hi; subst hi
    refine ⟨fun x => x, fun l => ?_⟩
    simp only [boolsExec]
    cases h : l[m]? with
    | none => rfl
    | some old => simp [Conc.set_self _ _ _ h]
  | setAll | resetAll | flipAll | count => simp [idx] at hi

theorem boolsExec_elem (l : List Bool) (op : Op) (n : Nat) (hi : idx op = some n) (hn : n < l.length) :
    ∃ o l', boolsExec l op = some (o, l') := by
  obtain ⟨g, hg⟩ := elem_form op n hi
  rw [hg, List.getElem?_eq_getElem hn]
  exact ⟨_, _, rfl⟩

theorem inv_init (b₀ : Bitset w) (hwf : WF b₀) (programs : List (List Op)) :
    Inv b₀ programs (init b₀ programs) := by
  refine ⟨hwf, rfl, rfl, ?_, [], ?_, ?_, ?_⟩
  · intro i t h
    simp [init] at h
    obtain ⟨p, hp, rfl⟩ := h
    simpa using hp
  · simp [boolsExecAll, init]
  · intro i t h
    simp [init] at h
    obtain ⟨p, hp, rfl⟩ := h
    simp [perThread]
  · simp

theorem inv_step (b₀ : Bitset w) (programs : List (List Op)) (hv : ValidPrograms b₀.size programs)
    (s : Sys (Mem w) Thread) (i : Nat) (t : Thread) (h : Inv b₀ programs s) (ht : s.threads[i]? = some t) :
    Inv b₀ programs ⟨(step s.shared t).1, s.threads.set i (step s.shared t).2⟩ := by
  obtain ⟨todo, done⟩ := t
  cases todo with
  | nil =>
    simp only [step]
    rw [set_self _ _ _ ht]; exact h
  | cons op rest =>
    have hp := h.prog i _ ht
    obtain ⟨n, hn1, hn2⟩ := hv _ (List.mem_of_getElem? hp) op (by simp)
    obtain ⟨o, l', hb⟩ := boolsExec_elem (abs s.shared.bits) op n hn1 (by rw [abs_length, h.size]; exact hn2)
    have hr := exec_refines h.wf op
    rw [hb] at hr
    obtain ⟨b', he, hwf', hs', ha'⟩ := hr
    simp only [step, he]
    obtain ⟨L, hl1, hl2, hl3⟩ := h.lin
    refine ⟨hwf', by rw [hs', h.size], h.ub, ?_, L ++ [(i, op, o)], ?_, ?_, ?_⟩
    · intro j x hx
      rcases getElem?_set_cases _ _ _ _ _ hx with ⟨rfl, rfl⟩ | ⟨hj, hx⟩
      · simpa using hp
      · exact h.prog _ _ hx
    · simp only [List.map_append, List.map_cons, List.map_nil]
      exact boolsExecAll_append _ _ _ _ _ _ _ hl1 (by rw [hb, ha'])
    · intro j x hx
      rcases getElem?_set_cases _ _ _ _ _ hx with ⟨rfl, rfl⟩ | ⟨hj, hx⟩
      · have := hl2 _ _ ht
        simp only [perThread, List.filter_append, List.map_append] at this ⊢
        rw [this]; simp
      · have := hl2 _ _ hx
        have hne : ¬ (i = j) := fun e => hj e.symm
        simp only [perThread, List.filter_append, List.map_append] at this ⊢
        rw [this]; simp [hne]
    · intro e he
      simp at he
      rcases he with he | he
      · simpa using hl3 e he
      · subst he
        simp
        exact (List.getElem?_eq_some_iff.1 ht).1

theorem inv_run (b₀ : Bitset w) (hwf : WF b₀) (programs : List (List Op)) (hv : ValidPrograms b₀.size programs)
    (sched : List Nat) : Inv b₀ programs (run step (init b₀ programs) sched) :=
  run_inv (f := step) (Inv b₀ programs) (fun s i t h ht => inv_step b₀ programs hv s i t h ht) _
    (inv_init b₀ hwf programs) sched

/-- Restricting a sequential history to a set of bits. -/
theorem restrict (S : Nat → Bool) (l l' : List Bool) (hlen : l.length = l'.length)
    (hag : ∀ n, S n = true → l[n]? = l'[n]?)
    (L : List Entry) (hidx : ∀ e ∈ L, ∃ n, idx e.2.1 = some n) (lf : List Bool)
    (h : boolsExecAll l (L.map (·.2.1)) = some (L.map (·.2.2), lf)) :
    ∃ lf', boolsExecAll l' ((L.filter (fun e => ((idx e.2.1).map S).getD false)).map (·.2.1))
        = some ((L.filter (fun e => ((idx e.2.1).map S).getD false)).map (·.2.2), lf') ∧
      ∀ n, S n = true → lf[n]? = lf'[n]? := by
  induction L generalizing l l' with
  | nil =>
    simp [boolsExecAll] at h
    subst h
    exact ⟨l', by simp [boolsExecAll], hag⟩
  | cons e L ih =>
    obtain ⟨i, op, o⟩ := e
    obtain ⟨n, hn⟩ := hidx (i, op, o) (by simp)
    simp only at hn
    simp only [List.map_cons, boolsExecAll] at h
    cases he : boolsExec l op with
    | none => simp [he] at h
    | some r =>
      obtain ⟨o1, l1⟩ := r
      simp only [he] at h
      cases hb : boolsExecAll l1 (L.map (·.2.1)) with
      | none => simp [hb] at h
      | some r2 =>
        obtain ⟨os, l2⟩ := r2
        simp [hb] at h
        obtain ⟨⟨rfl, rfl⟩, rfl⟩ := h
        -- effect of an element operation
        obtain ⟨g, hg⟩ := elem_form op n hn
        rw [hg, Option.map_eq_some_iff] at he
        obtain ⟨old, ho, he⟩ := he
        simp only [Prod.mk.injEq] at he
        obtain ⟨rfl, rfl⟩ := he
        have heff : (l.set n (g old)).length = l.length ∧ (∀ m, m ≠ n → (l.set n (g old))[m]? = l[m]?) :=
          ⟨by simp, fun m hm => List.getElem?_set_ne (fun e => hm e.symm)⟩
        by_cases hS : S n = true
        · have hln := hag n hS
          have heq : ∃ l1', boolsExec l' op = some (.bit old, l1') ∧ l1'.length = l'.length ∧
              (∀ m, S m = true → (l.set n (g old))[m]? = l1'[m]?) := by
            refine ⟨l'.set n (g old), by rw [hg, ← hln, ho]; rfl, by simp, fun m hm => ?_⟩
            rw [List.getElem?_set, List.getElem?_set, hlen, hag m hm]
          obtain ⟨l1', he1, hl1, hag1⟩ := heq
          obtain ⟨lf', h1, h2⟩ := ih _ l1' (by rw [heff.1, hl1, hlen]) hag1
            (fun e he => hidx e (by simp [he])) hb
          refine ⟨lf', ?_, h2⟩
          simp [List.filter_cons, hn, hS, boolsExecAll, he1, h1]
        · have hag1 : ∀ m, S m = true → (l.set n (g old))[m]? = l'[m]? := by
            intro m hm
            rw [heff.2 m (fun e => hS (e ▸ hm)), hag m hm]
          obtain ⟨lf', h1, h2⟩ := ih _ l' (by rw [heff.1, hlen]) hag1
            (fun e he => hidx e (by simp [he])) hb
          refine ⟨lf', ?_, h2⟩
          simpa [List.filter_cons, hn, hS] using h1

end Stdgpu.BitsetConc
