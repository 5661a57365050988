import Verif.Proof.AtomicLin
import Mathlib.Tactic.Ring
import Mathlib.Data.List.Nodup
/-! Property theorems C06–C09 (atomics). -/
namespace Stdgpu.Props
open Stdgpu.Atomic Stdgpu.Conc Stdgpu.Spec

/-! ### C06 modular increment and decrement -/

/-- C06 (one call). The old value is returned; from a value in `[0,m)` the step is `± 1 mod m`; from any value the
result is inside `[0,m)`. -/
theorem C06_inc_dec_mod_step (m v : Nat) (hm : 0 < m) :
    (fetchIncMod v m).1 = v ∧ (fetchDecMod v m).1 = v ∧
    (fetchIncMod v m).2 < m ∧ (fetchDecMod v m).2 < m ∧
    (v < m → (fetchIncMod v m).2 = (v + 1) % m ∧ (fetchDecMod v m).2 = (v + (m - 1)) % m) := by
  refine ⟨rfl, rfl, ?_, ?_, ?_⟩
  · simp only [fetchIncMod, backendIncMod]; split <;> omega
  · simp only [fetchDecMod, backendDecMod]; split <;> omega
  · intro hv
    constructor
    · simp only [fetchIncMod, backendIncMod]
      split
      · have : v + 1 = m := by omega
        rw [this, Nat.mod_self]
      · rw [Nat.mod_eq_of_lt (by omega)]
    · simp only [fetchDecMod, backendDecMod]
      split
      · have : v = 0 := by omega
        subst this
        rw [Nat.mod_eq_of_lt (by omega)]; omega
      · have : v + (m - 1) = (v - 1) + m := by omega
        rw [this, Nat.add_mod_right, Nat.mod_eq_of_lt (by omega)]

/-- The operation `fetch_inc_mod(m)` (`true`) or `fetch_dec_mod(m)` (`false`) as an atomic operation. -/
def modOp (k : Kind) (m : Nat) (inc : Bool) : Op Nat :=
  { kind := k, f := fun v => if inc then (fetchIncMod v m).2 else (fetchDecMod v m).2 }

theorem modOp_fold (k : Kind) (m : Nat) (hm : 0 < m) (l : List Bool) (v : Nat) (hv : v < m) :
    (((l.map (modOp k m)).foldl (fun v op => op.f v) v : Nat) : Int)
      = ((v : Int) + l.count true - l.count false) % m
    ∧ (l.map (modOp k m)).foldl (fun v op => op.f v) v < m := by
  induction l generalizing v with
  | nil =>
    simp only [List.map_nil, List.foldl_nil, List.count_nil]
    refine ⟨?_, hv⟩
    rw [Int.emod_eq_of_lt (by omega) (by omega)]; omega
  | cons b l ih =>
    simp only [List.map_cons, List.foldl_cons]
    obtain ⟨-, -, hlt1, hlt2, h⟩ := C06_inc_dec_mod_step m v hm
    obtain ⟨h1, h2⟩ := h hv
    cases b
    · have hlt : (modOp k m false).f v < m := by simpa [modOp] using hlt2
      obtain ⟨e, e2⟩ := ih _ hlt
      refine ⟨?_, e2⟩
      rw [e]
      have : (modOp k m false).f v = (v + (m - 1)) % m := by simpa [modOp] using h2
      rw [this, Int.natCast_emod]
      have h3 : ((v + (m - 1) : Nat) : Int) = v + m - 1 := by omega
      rw [h3]
      simp only [List.count_cons, beq_self_eq_true, if_true]
      have e4 : ((v : Int) + m - 1) % m + l.count true - l.count false
          = ((v : Int) + m - 1) % m + (l.count true - l.count false) := by ring
      rw [e4, Int.emod_add_emod]
      have e5 : (v : Int) + m - 1 + (l.count true - l.count false)
          = (v + l.count true - (l.count false + 1)) + m := by ring
      rw [e5, Int.add_emod_right]
      simp
    · have hlt : (modOp k m true).f v < m := by simpa [modOp] using hlt1
      obtain ⟨e, e2⟩ := ih _ hlt
      refine ⟨?_, e2⟩
      rw [e]
      have : (modOp k m true).f v = (v + 1) % m := by simpa [modOp] using h1
      rw [this, Int.natCast_emod]
      simp only [List.count_cons, beq_self_eq_true, if_true]
      have e4 : (((v + 1 : Nat) : Int) % m) + l.count true - l.count false
          = (((v + 1 : Nat) : Int) % m) + (l.count true - l.count false) := by ring
      rw [e4, Int.emod_add_emod]
      congr 1
      simp; ring

/-- C06 (any number of threads, any schedule). Threads run arbitrary programs of `fetch_inc_mod(m)` /
`fetch_dec_mod(m)`. When all are finished the value is `v₀ + #inc - #dec` modulo `m`, whatever the schedule. -/
theorem C06_concurrent_mod_counter (k : Kind) (m v₀ : Nat) (hv : v₀ < m)
    (programs : List (List Bool)) (sched : List Nat) :
    let s := run step (init v₀ (programs.map (·.map (modOp k m)))) sched
    Finished s →
      (s.shared.value : Int) = ((v₀ : Int) + programs.flatten.count true - programs.flatten.count false) % m
      ∧ s.shared.value < m := by
  intro s hf
  have hm : 0 < m := by omega
  have hk : ∀ p ∈ programs.map (·.map (modOp k m)), ∀ op ∈ p, (op.kind = .critical ↔ decide (k = .critical) = true) := by
    intro p hp op hop
    simp only [List.mem_map] at hp
    obtain ⟨q, _, rfl⟩ := hp
    simp only [List.mem_map] at hop
    obtain ⟨b, _, rfl⟩ := hop
    simp [modOp]
  have hinv := inv_run v₀ _ _ hk sched
  obtain ⟨L, hL⟩ := hinv.lin
  have hp := ops_perm hinv hL hf
  have hfl : (programs.map (·.map (modOp k m))).flatten = programs.flatten.map (modOp k m) := by
    rw [List.map_flatten]
  rw [hfl] at hp
  obtain ⟨l, hl1, hl2⟩ : ∃ l : List Bool, L.map (fun e => e.2.1) = l.map (modOp k m) ∧ l.Perm programs.flatten := by
    exact perm_map_exists _ _ _ hp
  have hr := replay_foldl _ _ _ hL.replay
  rw [hl1] at hr
  obtain ⟨h1, h2⟩ := modOp_fold k m hm l v₀ hv
  rw [hr, h1, hl2.count_eq, hl2.count_eq]
  exact ⟨rfl, h2⟩

/-- Non-vacuity: three threads, a complete schedule. -/
example : (run step (init 2 ([[true, true], [false], [true]].map (·.map (modOp .capture 3)))) [0, 1, 0, 2]).shared.value
    = 1 := by decide

/-! ### C07 atomicity under every schedule -/

/-- All operations of all programs are of one kind of implementation: either none or all of them use the OpenMP
critical section. (All CUDA/HIP operations are `capture`/`casloop`; OpenMP add/sub/and/or/xor are `capture`;
OpenMP load/store/exchange/compare_exchange/min/max/inc_mod/dec_mod are `critical`.) -/
def UniformKind {V : Type} (programs : List (List (Op V))) : Prop :=
  (∀ p ∈ programs, ∀ op ∈ p, op.kind ≠ .critical) ∨ (∀ p ∈ programs, ∀ op ∈ p, op.kind = .critical)

theorem uniform_inv {V : Type} [DecidableEq V] (v₀ : V) (programs : List (List (Op V))) (hu : UniformKind programs)
    (sched : List Nat) : ∃ c, Inv v₀ programs c (run step (init v₀ programs) sched) := by
  rcases hu with h | h
  · exact ⟨false, inv_run v₀ programs false (fun p hp op hop => by simp [h p hp op hop]) sched⟩
  · exact ⟨true, inv_run v₀ programs true (fun p hp op hop => by simp [h p hp op hop]) sched⟩

/-- C07 (atomicity). For any number of threads, any programs and any schedule there is one sequential order of all
performed operations that explains every returned value and the current value, and in which every thread's
operations appear in program order. -/
theorem C07_linearizable_partial {V : Type} [DecidableEq V] (v₀ : V) (programs : List (List (Op V)))
    (hu : UniformKind programs) (sched : List Nat) :
    let s := run step (init v₀ programs) sched
    ∃ L, Linearizes v₀ s L ∧
      ∀ (i : Nat) (t : Thread V), s.threads[i]? = some t → programs[i]? = some (t.done.map (·.1) ++ t.todo) := by
  obtain ⟨c, h⟩ := uniform_inv v₀ programs hu sched
  obtain ⟨L, hL⟩ := h.lin
  exact ⟨L, hL, h.prog⟩

/-- C07 (no lost updates, schedule independence). If the operations commute pairwise, then after every complete
schedule the value is the result of applying all operations, in program order, one after another. -/
theorem C07_final_value_schedule_independent {V : Type} [DecidableEq V] (v₀ : V) (programs : List (List (Op V)))
    (hu : UniformKind programs)
    (hc : ∀ a ∈ programs.flatten, ∀ b ∈ programs.flatten, ∀ v, a.f (b.f v) = b.f (a.f v))
    (sched : List Nat) :
    let s := run step (init v₀ programs) sched
    Finished s → s.shared.value = programs.flatten.foldl (fun v op => op.f v) v₀ := by
  intro s hf
  obtain ⟨c, h⟩ := uniform_inv v₀ programs hu sched
  obtain ⟨L, hL⟩ := h.lin
  have hp := ops_perm h hL hf
  rw [replay_foldl _ _ _ hL.replay]
  exact foldl_perm_comm _ _ hp
    (fun a ha b hb => hc a (hp.mem_iff.1 ha) b (hp.mem_iff.1 hb)) v₀

/-- The families of operations for which stdgpu offers `fetch_*`, as updates of a `w`-bit word. -/
inductive Fam (w : Nat) where
  | addSub (a : BitVec w) (sub : Bool) | and (a : BitVec w) | or (a : BitVec w) | xor (a : BitVec w)
  | umin (a : BitVec w) | umax (a : BitVec w)

/-- impl/atomic_detail.cuh:578-674 with openmp/impl/atomic_detail.h:82-191 (the new value). -/
def Fam.app {w : Nat} : Fam w → BitVec w → BitVec w
  | .addSub a s, v => if s then v - a else v + a
  | .and a, v => v &&& a
  | .or a, v => v ||| a
  | .xor a, v => v ^^^ a
  | .umin a, v => if a < v then a else v
  | .umax a, v => if v < a then a else v

/-- Both operations come from the same function (`fetch_add` and `fetch_sub` count as one). -/
def Fam.same {w : Nat} : Fam w → Fam w → Prop
  | .addSub _ _, .addSub _ _ | .and _, .and _ | .or _, .or _ | .xor _, .xor _
  | .umin _, .umin _ | .umax _, .umax _ => True
  | _, _ => False

/-- C07 (the fetch operations commute). So the previous theorem applies to programs that use one kind of
`fetch_*` on a location. -/
theorem C07_fetch_ops_commute {w : Nat} (a b : Fam w) (h : a.same b) (v : BitVec w) :
    a.app (b.app v) = b.app (a.app v) := by
  cases a <;> cases b <;> simp only [Fam.same] at h
  · rename_i x s y t
    cases s <;> cases t <;> simp only [Fam.app, if_true, if_false, Bool.false_eq_true]
    · rw [BitVec.add_assoc, BitVec.add_assoc, BitVec.add_comm x y]
    · rw [BitVec.sub_eq_add_neg, BitVec.sub_eq_add_neg, BitVec.add_assoc, BitVec.add_assoc, BitVec.add_comm x]
    · rw [BitVec.sub_eq_add_neg, BitVec.sub_eq_add_neg, BitVec.add_assoc, BitVec.add_assoc, BitVec.add_comm y]
    · rw [BitVec.sub_eq_add_neg, BitVec.sub_eq_add_neg, BitVec.sub_eq_add_neg, BitVec.sub_eq_add_neg,
        BitVec.add_assoc, BitVec.add_assoc, BitVec.add_comm (-x)]
  · simp only [Fam.app]; rename_i x y; rw [BitVec.and_assoc, BitVec.and_assoc, BitVec.and_comm y x]
  · simp only [Fam.app]; rename_i x y; rw [BitVec.or_assoc, BitVec.or_assoc, BitVec.or_comm y x]
  · simp only [Fam.app]; rename_i x y; rw [BitVec.xor_assoc, BitVec.xor_assoc, BitVec.xor_comm y x]
  · rename_i x y
    simp only [Fam.app]
    apply BitVec.eq_of_toNat_eq
    simp only [BitVec.lt_def]
    repeat' split
    all_goals omega
  · rename_i x y
    simp only [Fam.app]
    apply BitVec.eq_of_toNat_eq
    simp only [BitVec.lt_def]
    repeat' split
    all_goals omega

/-- `fetch_add(1)` / `operator++(int)` on an integer counter. -/
def incOp (k : Kind) : Op Int := { kind := k, f := fun v => v + 1 }

theorem replay_tickets (k : Kind) (v v' : Int) (L : List (Entry Int)) (h : Replay v L v')
    (ho : ∀ e ∈ L, e.2.1 = incOp k) :
    L.map (fun e => e.2.2) = (List.range L.length).map (fun (i : Nat) => v + (i : Int)) := by
  induction L generalizing v with
  | nil => rfl
  | cons e L ih =>
    obtain ⟨i, o, r⟩ := e
    simp only [Replay] at h
    obtain ⟨h1, h2⟩ := h
    have h3 : o = incOp k := ho (i, o, r) (by simp)
    rw [h3] at h2
    have := ih _ h2 (fun e he => ho e (by simp [he]))
    rw [List.map_cons, this, List.length_cons, List.range_succ_eq_map]
    simp [h1, incOp, Function.comp_def]
    intro a _
    ring

/-- C07 (unique consecutive tickets). When threads only execute `fetch_add(1)` on a counter, then at every point of
every schedule the values handed out so far, over all threads, are exactly `v₀, v₀+1, ..., v₀+n-1`, each once. -/
theorem C07_unique_tickets (k : Kind) (v₀ : Int) (programs : List (List (Op Int)))
    (hp : ∀ p ∈ programs, ∀ op ∈ p, op = incOp k) (sched : List Nat) :
    let s := run step (init v₀ programs) sched
    let tickets := s.threads.flatMap (fun t => t.done.map (·.2))
    tickets.Perm ((List.range tickets.length).map (fun (i : Nat) => v₀ + (i : Int))) ∧ tickets.Nodup := by
  intro s tickets
  have hu : UniformKind programs := by
    by_cases hk : k = .critical
    · right; intro p hpp op hop; rw [hp p hpp op hop]; exact hk
    · left; intro p hpp op hop; rw [hp p hpp op hop]; exact hk
  obtain ⟨c, h⟩ := uniform_inv v₀ programs hu sched
  obtain ⟨L, hL⟩ := h.lin
  have hperm := rets_perm hL
  have ho : ∀ e ∈ L, e.2.1 = incOp k := by
    intro e he
    have h1 := hL.known e he
    have ht : s.threads[e.1]? = some s.threads[e.1] := List.getElem?_eq_getElem h1
    have h2 := hL.threads _ _ ht
    have h3 := h.prog _ _ ht
    have h4 : e.2 ∈ perThread L e.1 := by
      simp only [perThread, List.mem_map, List.mem_filter]
      exact ⟨e, ⟨he, by simp⟩, rfl⟩
    rw [h2] at h4
    exact hp _ (List.mem_of_getElem? h3) e.2.1 (by
      rw [List.mem_append]; left; exact List.mem_map_of_mem h4)
  have ht := replay_tickets k _ _ L hL.replay ho
  have hlen : tickets.length = L.length := by
    have := hperm.length_eq; rw [List.length_map] at this; exact this.symm
  have hP : tickets.Perm ((List.range tickets.length).map (fun (i : Nat) => v₀ + (i : Int))) := by
    rw [hlen, ← ht]; exact hperm.symm
  refine ⟨hP, hP.nodup_iff.2 ?_⟩
  refine List.Nodup.map_on ?_ List.nodup_range
  intro a _ b _ hab
  simp at hab; exact hab

example : (run step (init 5 [[incOp .capture, incOp .capture], [incOp .capture]]) [0, 1, 0]).threads.flatMap
    (fun t => t.done.map (·.2)) = [5, 7, 6] := by decide

/-- C07 is false without `UniformKind`: with the OpenMP backend a `fetch_max(10)` (critical section) racing with a
`fetch_add(5)` (`omp atomic capture`) on value 0 can lose the addition: both operations return 0
and the final value is 10. No sequential order explains this: max-then-add ends in 15, and add-then-max makes
`fetch_max` return 5. -/
theorem C07_openmp_mixed_kinds_lose_update :
    let max10 : Op Nat := { kind := .critical, f := fun v => max v 10 }
    let s := run step (init 0 [[max10], [{ kind := .capture, f := fun v => v + 5 }]]) [0, 0, 1, 0]
    s.shared.value = 10 ∧ (s.threads.map (fun t => t.done.map (·.2))) = [[0], [0]] ∧ Finished s ∧
      ¬ ∃ L, Linearizes 0 s L := by
  refine ⟨by decide, by decide, by simp [Finished, run, init, stepAt, step], ?_⟩
  rintro ⟨L, hL⟩
  have h0 := hL.threads 0 _ rfl
  have h1 := hL.threads 1 _ rfl
  have hr := hL.replay
  -- the first entry returns 0 and the second one must not
  have hperm := rets_perm hL
  simp [run, init, stepAt, step] at hperm
  match L, h0, h1, hr, hperm with
  | [], h0, _, _, _ => simp [perThread, run, init, stepAt, step] at h0
  | [e], h0, h1, _, hp => simpa using hp.length_eq
  | e :: e' :: e'' :: L, _, _, _, hp => simpa using hp.length_eq
  | [(i, o, r), (j, p, q)], h0, h1, hr, hp =>
    have hk := hL.known
    have hq : q = 0 := by
      have : q ∈ [0, 0] := hp.mem_iff.1 (by simp)
      simpa using this
    simp only [Replay] at hr
    obtain ⟨hr0, hr1, -⟩ := hr
    have hi : i = 0 ∨ i = 1 := by
      have := hk (i, o, r) (by simp)
      simp [run, init, stepAt, step] at this
      omega
    have hq' : 0 = o.f 0 := hq.symm.trans hr1
    rcases hi with hi | hi
    · subst hi
      simp [perThread, run, init, stepAt, step, List.filter_cons] at h0
      rw [h0.1.1] at hq'
      simp at hq'
    · subst hi
      simp [perThread, run, init, stepAt, step, List.filter_cons] at h1
      rw [h1.1.1] at hq'
      simp at hq'

/-! ### C08 compare_exchange -/

/-- C08 (one call). Returns true and writes `desired` exactly when the current value is `expected`; otherwise
nothing is written and `expected` becomes the observed value. -/
theorem C08_compare_exchange {V : Type} [DecidableEq V] (value expected desired : V) :
    (value = expected → compareExchange value expected desired = (true, expected, desired)) ∧
    (value ≠ expected → compareExchange value expected desired = (false, value, value)) := by
  constructor <;> intro h <;> simp [compareExchange, backendCompareExchange, h]

/-- C08 (atomicity of CAS loops in every schedule) is `C07_linearizable_partial` for `kind = .casloop`; here for
programs that consist of CAS loops and hardware atomics only. -/
theorem C08_cas_loop_atomic {V : Type} [DecidableEq V] (v₀ : V) (programs : List (List (Op V)))
    (h : ∀ p ∈ programs, ∀ op ∈ p, op.kind = .casloop ∨ op.kind = .capture) (sched : List Nat) :
    ∃ L, Linearizes v₀ (run step (init v₀ programs) sched) L := by
  obtain ⟨L, hL, -⟩ := C07_linearizable_partial v₀ programs (Or.inl (fun p hp op hop => by
    rcases h p hp op hop with e | e <;> simp [e])) sched
  exact ⟨L, hL⟩

/-- C08 (system-wide progress). If a thread that has read the current value is about to do its CAS, then either
some operation completes in the meantime, or its CAS succeeds: after any schedule in which no operation completes,
one step of the thread completes its operation. -/
theorem C08_cas_loop_lock_free {V : Type} [DecidableEq V] (s : Sys (Mem V) (Thread V)) (i : Nat)
    (t : Thread V) (op : Op V) (rest : List (Op V)) (hto : t.todo = op :: rest) (hpc : t.pc = .loaded s.shared.value)
    (sched : List Nat) (hno : performed (run step s sched) = performed s)
    (ht : (run step s sched).threads[i]? = some t) :
    performed (run step s (sched ++ [i])) = performed s + 1 := by
  have hv := (performed_run s sched).2 hno
  rw [run_append]
  generalize hs' : run step s sched = s' at *
  have h1 := sum_map_set (fun t : Thread V => t.done.length) s'.threads i t (step s'.shared t).2 ht
  have h2 : (step s'.shared t).2.done.length = t.done.length + 1 := by
    obtain ⟨todo, pc, done⟩ := t
    simp only at hto hpc
    subst hto hpc
    simp [step, backendCompareExchange, hv]
  have h3 : run step s' [i] = ⟨(step s'.shared t).1, s'.threads.set i (step s'.shared t).2⟩ := by
    simp [run, stepAt, ht]
  rw [h3]
  simp only [performed] at *
  omega

/-- C08 (solo termination). From every state, a thread whose next operation is a CAS loop completes an operation
when it runs two steps alone. -/
theorem C08_cas_loop_solo {V : Type} [DecidableEq V] (m : Mem V) (t : Thread V) (op : Op V) (rest : List (Op V))
    (hto : t.todo = op :: rest) (hk : op.kind = .casloop) (hpc : t.pc = .idle ∨ ∃ v, t.pc = .loaded v) :
    t.done.length < (step (step m t).1 (step m t).2).2.done.length := by
  obtain ⟨todo, pc, done⟩ := t
  simp only at hto hpc
  subst hto
  rcases hpc with rfl | ⟨v, rfl⟩
  · simp [step, hk, backendCompareExchange]
  · by_cases hv : v = m.value
    · have h1 : (step m ⟨op :: rest, .loaded v, done⟩).2.done.length = done.length + 1 := by
        simp [step, backendCompareExchange, hv]
      have := step_done_le (step m ⟨op :: rest, .loaded v, done⟩).1 (step m ⟨op :: rest, .loaded v, done⟩).2
      simp only
      omega
    · have hv' : ¬ m.value = v := fun e => hv e.symm
      simp [step, backendCompareExchange, hv, hv']

/-- Non-vacuity: two CAS loops interfere, the first CAS of thread 0 fails and is repeated. -/
example : let mx (a : Nat) : Op Nat := { kind := .casloop, f := fun v => max v a }
    let s := run step (init 1 [[mx 7], [mx 5]]) [0, 1, 1, 0, 0]
    s.shared.value = 7 ∧ s.threads.map (fun t => t.done.map (·.2)) = [[5], [1]] := by decide

/-! ### C09 CUDA subtraction -/

/-- C09. Adding `max - value + 1` is wrap-around subtraction for all operands. -/
theorem C09_cuda_atomic_sub (v a : BitVec 64) : cudaAtomicSub v a = v - a ∧
    (cudaAtomicSub v a).toNat = (v.toNat + (2 ^ 64 - a.toNat)) % 2 ^ 64 := by
  have h : cudaAtomicSub v a = v - a := by
    have h1 : BitVec.allOnes 64 - a + 1 = -a := by
      rw [BitVec.allOnes_sub_eq_not, BitVec.neg_eq_not_add]
      rfl
    simp only [cudaAtomicSub]
    rw [h1, BitVec.sub_eq_add_neg]
  refine ⟨h, ?_⟩
  rw [h, BitVec.toNat_sub]
  congr 1
  omega

example : cudaAtomicSub 5 0 = 5 ∧ cudaAtomicSub 3 5 = BitVec.allOnes 64 - 1 := by decide

end Stdgpu.Props
