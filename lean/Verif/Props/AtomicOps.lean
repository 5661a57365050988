import Verif.Props.Atomic
import Verif.Spec.AtomicOps
/-! C67: the member functions and operators of atomics. -/
namespace Stdgpu.Props
open Stdgpu.Atomic Stdgpu.Conc Stdgpu.Spec
open Stdgpu.Vector (Fault)

variable {w : Nat}

theorem sub_mod (a b : BitVec w) : a.toNat = ((a - b).toNat + b.toNat) % 2 ^ w := by
  rw [← BitVec.toNat_add, BitVec.sub_add_cancel]

theorem one_mod (a : BitVec w) : (a + 1).toNat = (a.toNat + 1) % 2 ^ w := by
  rw [BitVec.toNat_add]; simp

theorem sub_one_mod (a : BitVec w) : a.toNat = ((a - 1).toNat + 1) % 2 ^ w := by
  have h := sub_mod a 1
  rw [h]
  simp

/-- C67 (one call). Every member function changes the value and returns what the C++ standard says: the old value for
`exchange`, `fetch_*` and the postfix operators, the new value for the prefix operators and the compound assignments. -/
theorem C67_call_effect (m : Member w) (old : BitVec w) : CallEffect m old (m.update old) (m.result old) := by
  cases m with
  | load => exact ⟨rfl, rfl⟩
  | store a => rfl
  | exchange a => exact ⟨rfl, rfl⟩
  | fetchAdd a => exact ⟨BitVec.toNat_add _ _, rfl⟩
  | fetchSub a => exact ⟨sub_mod _ _, rfl⟩
  | fetchAnd a => exact ⟨fun i => BitVec.getLsbD_and, rfl⟩
  | fetchOr a => exact ⟨fun i => BitVec.getLsbD_or, rfl⟩
  | fetchXor a => exact ⟨fun i => BitVec.getLsbD_xor, rfl⟩
  | fetchMin a =>
    refine ⟨?_, rfl⟩
    simp only [Member.update, BitVec.lt_def]; split <;> omega
  | fetchMax a =>
    refine ⟨?_, rfl⟩
    simp only [Member.update, BitVec.lt_def]; split <;> omega
  | preInc => exact ⟨one_mod _, rfl⟩
  | postInc => exact ⟨one_mod _, rfl⟩
  | preDec => exact ⟨sub_one_mod _, rfl⟩
  | postDec => exact ⟨sub_one_mod _, rfl⟩
  | addAssign a => exact ⟨BitVec.toNat_add _ _, rfl⟩
  | subAssign a => exact ⟨sub_mod _ _, rfl⟩
  | andAssign a => exact ⟨fun i => BitVec.getLsbD_and, rfl⟩
  | orAssign a => exact ⟨fun i => BitVec.getLsbD_or, rfl⟩
  | xorAssign a => exact ⟨fun i => BitVec.getLsbD_xor, rfl⟩

/-- The history of calls that belongs to a history of primitives. -/
def liftCalls : (Nat → List (Member w)) → List (Entry (BitVec w)) → List (Nat × Member w × BitVec w)
  | _, [] => []
  | progs, (i, _, old) :: L =>
    match progs i with
    | [] => liftCalls progs L
    | m :: rest => (i, m, m.result old) :: liftCalls (fun j => if j = i then rest else progs j) L

theorem lift_spec (b : Backend) : ∀ (L : List (Entry (BitVec w))) (progs : Nat → List (Member w)) (v v' : BitVec w),
    Replay v L v' → (∀ i, ((perThread L i).map Prod.fst) <+: (progs i).map (Member.op b)) →
    CallsFrom v (liftCalls progs L) v' ∧
      ∀ i, callsOf (liftCalls progs L) i = List.zipWith (fun m d => (m, m.result d.2)) (progs i) (perThread L i) := by
  intro L
  induction L with
  | nil => intro progs v v' h _; exact ⟨h, fun i => by simp [liftCalls, callsOf, perThread]⟩
  | cons e L ih =>
    obtain ⟨i, op, old⟩ := e
    intro progs v v' h hp
    obtain ⟨rfl, hr⟩ : old = v ∧ Replay (op.f v) L v' := h
    have hi := hp i
    have hpt : perThread ((i, op, old) :: L) i = (op, old) :: perThread L i := by simp [perThread]
    have hpt' : ∀ j, j ≠ i → perThread ((i, op, old) :: L) j = perThread L j := by
      intro j hj
      have : (i == j) = false := by simpa using fun hh => hj hh.symm
      simp [perThread, this]
    rw [hpt] at hi
    cases hx : progs i with
    | nil => rw [hx] at hi; simp at hi
    | cons m rest =>
      rw [hx] at hi
      simp only [List.map_cons, List.cons_prefix_cons] at hi
      obtain ⟨h1, h2⟩ := hi
      obtain ⟨g1, g2⟩ := ih (fun j => if j = i then rest else progs j) (op.f old) v' hr (by
        intro j
        by_cases hj : j = i
        · subst hj; simpa using h2
        · have := hp j; rw [hpt' j hj] at this; simpa [hj] using this)
      simp only [liftCalls, hx]
      refine ⟨⟨op.f old, ?_, g1⟩, ?_⟩
      · rw [h1]; exact C67_call_effect m old
      · intro j
        have g := g2 j
        by_cases hj : j = i
        · subst hj
          rw [hpt, hx]
          simp only [callsOf, List.filter_cons, beq_self_eq_true, if_true, List.map_cons, List.zipWith_cons_cons]
          simp only [if_true] at g
          rw [← g]; rfl
        · rw [hpt' j hj]
          have hne : (i == j) = false := by simpa using fun hh => hj hh.symm
          simp only [callsOf, List.filter_cons, hne, Bool.false_eq_true, if_false]
          simp only [if_neg hj] at g
          exact g

/-- C67 (concurrency). For every number of threads, programs and schedule there is one order of all calls in which every
call changes the value and returns as the C++ standard says; each thread's calls are in the order of its program. -/
theorem C67_linearizable (b : Backend) (progs : List (List (Member w))) (hb : Excluding b progs) (v₀ : BitVec w)
    (sched : List Nat) :
    let s := run step (init v₀ (progs.map (fun p => p.map (Member.op b)))) sched
    ∃ H, CallsFrom v₀ H s.shared.value ∧
      ∀ (i : Nat) (p : List (Member w)) (t : Thread (BitVec w)), progs[i]? = some p → s.threads[i]? = some t →
        callsOf H i = returned p t := by
  intro s
  have hu : UniformKind (progs.map (fun p => p.map (Member.op b))) := by
    have hk : ∀ q ∈ progs.map (fun p => p.map (Member.op b)), ∀ op ∈ q, ∃ p ∈ progs, ∃ m ∈ p, op.kind = m.kind b := by
      intro q hq op hop
      obtain ⟨p, hp, rfl⟩ := List.mem_map.1 hq
      obtain ⟨m, hm, rfl⟩ := List.mem_map.1 hop
      exact ⟨p, hp, m, hm, rfl⟩
    cases b with
    | cuda =>
      left
      intro q hq op hop
      obtain ⟨p, _, m, _, e⟩ := hk q hq op hop
      rw [e]; cases m <;> simp [Member.kind]
    | openmp =>
      rcases hb with h | h | h
      · exact absurd h (by simp)
      · left
        intro q hq op hop
        obtain ⟨p, hp, m, hm, e⟩ := hk q hq op hop
        rw [e]; have := h p hp m hm
        cases m <;> simp [Member.kind, IsArith] at this ⊢
      · right
        intro q hq op hop
        obtain ⟨p, hp, m, hm, e⟩ := hk q hq op hop
        rw [e]; have := h p hp m hm
        cases m <;> simp [Member.kind, IsArith] at this ⊢
  obtain ⟨L, hL, hprog⟩ := C07_linearizable_partial v₀ _ hu sched
  have hlen : s.threads.length = progs.length := by
    show (run step (init v₀ _) sched).threads.length = _
    rw [length_run]; simp [init]
  have hpre : ∀ i, ((perThread L i).map Prod.fst) <+: ((progs[i]?).getD []).map (Member.op b) := by
    intro i
    cases ht : s.threads[i]? with
    | some t =>
      rw [hL.threads i t ht]
      have := hprog i t ht
      rw [List.getElem?_map] at this
      cases hq : progs[i]? with
      | none => rw [hq] at this; simp at this
      | some p =>
        rw [hq] at this
        simp only [Option.map_some, Option.some.injEq] at this
        simp only [Option.getD_some]
        rw [this]
        exact List.prefix_append _ _
    | none =>
      have hnone : perThread L i = [] := by
        rw [List.getElem?_eq_none_iff] at ht
        unfold perThread
        rw [List.map_eq_nil_iff, List.filter_eq_nil_iff]
        intro e he
        have := hL.known e he
        have h2 : e.1 ≠ i := by
          have : e.1 < s.threads.length := this
          omega
        simpa using h2
      rw [hnone]; simp
  obtain ⟨g1, g2⟩ := lift_spec b L (fun i => (progs[i]?).getD []) v₀ _ hL.replay hpre
  refine ⟨_, g1, ?_⟩
  intro i p t hp ht
  rw [g2 i, hL.threads i t ht]
  simp [hp, returned]

/-- OpenMP: counters that are only changed by arithmetic operators are covered. -/
example : Excluding .openmp ([[.preInc, .addAssign 5], [.postDec, .xorAssign 3]] : List (List (Member 32))) := by
  right; left; simp [IsArith]

/-- Two threads that use prefix and postfix operators on one atomic, CUDA. -/
example : let progs : List (List (Member 32)) := [[.preInc, .addAssign 5], [.postDec, .xorAssign 3]]
    let s := run step (init 7#32 (progs.map (fun p => p.map (Member.op .cuda)))) [0, 1, 1, 0]
    Excluding .cuda progs ∧ s.shared.value = 9#32 ∧ s.threads.map (fun t => t.todo.length) = [0, 0] ∧
      List.zipWith returned progs s.threads = [[(.preInc, 8#32), (.addAssign 5, 9#32)], [(.postDec, 8#32), (.xorAssign 3, 4#32)]] := by
  refine ⟨Or.inl rfl, by decide, by decide, by decide⟩

theorem add_overflow (x y : BitVec w) (hw : 0 < w) : BitVec.saddOverflow x y = true ↔ (x + y).toInt ≠ x.toInt + y.toInt := by
  have h2 : (2 : Int) ^ w = 2 * 2 ^ (w - 1) := by
    obtain ⟨n, rfl⟩ := Nat.exists_eq_succ_of_ne_zero (Nat.pos_iff_ne_zero.1 hw)
    simp [Int.pow_succ, Int.mul_comm]
  have l := BitVec.two_mul_toInt_lt (x := x + y)
  have l' := BitVec.le_two_mul_toInt (x := x + y)
  simp only [BitVec.saddOverflow, Bool.or_eq_true, decide_eq_true_eq]
  constructor
  · intro h hc; omega
  · intro h
    by_contra hc
    apply h
    rw [BitVec.toInt_add]
    refine Int.bmod_eq_of_le ?_ ?_ <;> push_cast <;> omega

theorem sub_overflow (x y : BitVec w) (hw : 0 < w) : BitVec.ssubOverflow x y = true ↔ (x - y).toInt ≠ x.toInt - y.toInt := by
  have h2 : (2 : Int) ^ w = 2 * 2 ^ (w - 1) := by
    obtain ⟨n, rfl⟩ := Nat.exists_eq_succ_of_ne_zero (Nat.pos_iff_ne_zero.1 hw)
    simp [Int.pow_succ, Int.mul_comm]
  have l := BitVec.two_mul_toInt_lt (x := x - y)
  have l' := BitVec.le_two_mul_toInt (x := x - y)
  simp only [BitVec.ssubOverflow, Bool.or_eq_true, decide_eq_true_eq]
  constructor
  · intro h hc; omega
  · intro h
    by_contra hc
    apply h
    rw [BitVec.toInt_sub]
    refine Int.bmod_eq_of_le ?_ ?_ <;> push_cast <;> omega

/-- C67 (signed types). The operators compute the new value a second time, with the addition of `int`, so the result is
undefined exactly if the update wraps around (`std::atomic` is defined there); otherwise it is the mathematical value. -/
theorem C67_signed_results (a old : BitVec w) (hw : 1 < w) :
    (∀ m : Member w, (∀ r, m.resultSigned old = .ok r → r = m.result old)) ∧
    (Member.resultSigned (.addAssign a) old = .error .ub ↔
      ((old + a).toInt ≠ old.toInt + a.toInt)) ∧
    (Member.resultSigned (.subAssign a) old = .error .ub ↔
      ((old - a).toInt ≠ old.toInt - a.toInt)) ∧
    (Member.resultSigned (.preInc : Member w) old = .error .ub ↔ old.toInt = 2 ^ (w - 1) - 1) ∧
    (Member.resultSigned (.preDec : Member w) old = .error .ub ↔ old.toInt = - 2 ^ (w - 1)) := by
  have h2 : (2 : Int) ^ w = 2 * 2 ^ (w - 1) := by
    obtain ⟨n, rfl⟩ := Nat.exists_eq_succ_of_ne_zero (Nat.pos_iff_ne_zero.1 (by omega : 0 < w))
    simp [Int.pow_succ, Int.mul_comm]
  have one : (1 : BitVec w).toInt = 1 := by
    have h1 : (1 : BitVec w).toNat = 1 := BitVec.toNat_one (by omega)
    rw [BitVec.toInt_eq_toNat_of_lt, h1]; rfl
    rw [h1]
    calc 2 * 1 < 2 ^ 2 := by decide
      _ ≤ 2 ^ w := Nat.pow_le_pow_right (by decide) hw
  have l := BitVec.two_mul_toInt_lt (x := old)
  have l' := BitVec.le_two_mul_toInt (x := old)
  have pos : (0 : Int) < 2 ^ (w - 1) := Int.pow_pos (by decide)
  refine ⟨?_, ?_, ?_, ?_, ?_⟩
  · intro m r hr
    cases m <;> simp only [Member.resultSigned, Member.result] at hr ⊢ <;> first
      | (split at hr <;> simp at hr; done)
      | (split at hr <;> first | (simp at hr; done) | (cases hr; rfl))
      | (cases hr; rfl)
  · rw [← add_overflow old a (by omega)]
    simp only [Member.resultSigned]; split <;> simp_all
  · rw [← sub_overflow old a (by omega)]
    simp only [Member.resultSigned]; split <;> simp_all
  · have : BitVec.saddOverflow old 1 = true ↔ old.toInt = 2 ^ (w - 1) - 1 := by
      simp only [BitVec.saddOverflow, Bool.or_eq_true, decide_eq_true_eq, one]; omega
    rw [← this]
    simp only [Member.resultSigned]; split <;> simp_all
  · have : BitVec.ssubOverflow old 1 = true ↔ old.toInt = - 2 ^ (w - 1) := by
      simp only [BitVec.ssubOverflow, Bool.or_eq_true, decide_eq_true_eq, one]; omega
    rw [← this]
    simp only [Member.resultSigned]; split <;> simp_all

example : Member.resultSigned (.preInc : Member 32) 0x7fffffff#32 = .error .ub ∧
    Member.resultSigned (.preInc : Member 32) 41#32 = .ok 42#32 := by
  constructor <;> decide

end Stdgpu.Props
