import Verif.Proof.DequeConc2
import Verif.Spec.Adaptors
import Mathlib.Data.List.Induction
/-! C27, C28: `stdgpu::queue` and `stdgpu::stack`. -/
namespace Stdgpu.Props
open Stdgpu.Deque hiding create
open Stdgpu.Spec Stdgpu.Adaptor
open Stdgpu.Vector (Out Fault)

variable {α : Type}

theorem accepted_append (a b : List (AOp α × Out α)) : accepted (a ++ b) = accepted a ++ accepted b := by
  fun_induction accepted a with
  | case1 => rfl
  | case2 x tr ih => simp [accepted, ih]
  | case3 e tr h ih => rw [List.cons_append, accepted, ih]; exact h

theorem returned_append (a b : List (AOp α × Out α)) : returned (a ++ b) = returned a ++ returned b := by
  fun_induction returned a with
  | case1 => rfl
  | case2 x tr ih => simp [returned, ih]
  | case3 e tr h ih => rw [List.cons_append, returned, ih]; exact h

theorem trace_append {exec : Deq α → AOp α → Except Fault (Out α × Deq α)} (d : Deq α) (ops : List (AOp α)) (op : AOp α)
    (tr : List (AOp α × Out α)) (d1 d2 : Deq α) (o : Out α) (h1 : trace exec d ops = .ok (tr, d1))
    (h2 : exec d1 op = .ok (o, d2)) : trace exec d (ops ++ [op]) = .ok (tr ++ [(op, o)], d2) := by
  induction ops generalizing d tr with
  | nil =>
    simp [trace] at h1
    obtain ⟨rfl, rfl⟩ := h1
    simp [trace, h2, bind, Except.bind, pure, Except.pure]
  | cons a ops ih =>
    simp only [trace, bind, Except.bind, pure, Except.pure, List.cons_append] at h1 ⊢
    cases he : exec d a with
    | error e => simp [he] at h1
    | ok r =>
      obtain ⟨o', d'⟩ := r
      simp only [he] at h1 ⊢
      cases ht : trace exec d' ops with
      | error e => simp [ht] at h1
      | ok r =>
        obtain ⟨tr', d''⟩ := r
        simp [ht] at h1
        obtain ⟨rfl, rfl⟩ := h1
        rw [ih d' tr' ht]
        rfl

/-- The results of a queue in terms of the history before the operation. -/
def queueOut (c : Nat) (tr : List (AOp α × Out α)) : AOp α → Out α
  | .push _ => .bool (decide (inside tr < c))
  | .pop => .pop (accepted tr)[(returned tr).length]?
  | op => (observer c (inside tr) op).getD .unit

theorem queue_state (c : Nat) (hc : 0 < c) (ops : List (AOp α)) :
    ∃ tr d, trace queueExec (create c) ops = .ok (tr, d) ∧ cap d = c ∧ tr.map (·.1) = ops ∧
      (returned tr).length ≤ (accepted tr).length ∧ returned tr = (accepted tr).take (returned tr).length ∧
      Holds d ((accepted tr).drop (returned tr).length) ∧
      (∀ tr1 op o tr2, tr = tr1 ++ (op, o) :: tr2 → o = queueOut c tr1 op) := by
  induction ops using List.reverseRecOn with
  | nil =>
    refine ⟨[], create c, rfl, rfl, rfl, Nat.le_refl _, rfl, create_holds c hc, ?_⟩
    intro tr1 op o tr2 h; simp at h
  | append_singleton ops op ih =>
    obtain ⟨tr, d, h1, h2, h3, h4, h5, h6, h7⟩ := ih
    have key : ∀ o d', queueExec d op = .ok (o, d') → cap d' = c → o = queueOut c tr op →
        (returned (tr ++ [(op, o)])).length ≤ (accepted (tr ++ [(op, o)])).length →
        returned (tr ++ [(op, o)]) = (accepted (tr ++ [(op, o)])).take (returned (tr ++ [(op, o)])).length →
        Holds d' ((accepted (tr ++ [(op, o)])).drop (returned (tr ++ [(op, o)])).length) →
        ∃ tr' d', trace queueExec (create c) (ops ++ [op]) = .ok (tr', d') ∧ cap d' = c ∧ tr'.map (·.1) = ops ++ [op] ∧
      (returned tr').length ≤ (accepted tr').length ∧ returned tr' = (accepted tr').take (returned tr').length ∧
      Holds d' ((accepted tr').drop (returned tr').length) ∧
      (∀ tr1 op o tr2, tr' = tr1 ++ (op, o) :: tr2 → o = queueOut c tr1 op) := by
      intro o d' e1 e2 e3 e4 e5 e6
      refine ⟨tr ++ [(op, o)], d', trace_append _ _ _ _ _ _ _ h1 e1, e2, by simp [h3], e4, e5, e6, ?_⟩
      intro tr1 op' o' tr2 he
      rcases List.eq_nil_or_concat tr2 with rfl | ⟨tr2', e, rfl⟩
      · obtain ⟨g1, g2⟩ := List.append_inj' he rfl
        simp at g2
        rw [← g1, ← g2.1, ← g2.2]; exact e3
      · rw [List.concat_eq_append, ← List.cons_append, ← List.append_assoc] at he
        have := (List.append_inj' he rfl).1
        exact h7 tr1 op' o' tr2' this
    have hlen : ((accepted tr).drop (returned tr).length).length = inside tr := by simp [inside]
    have hs : Deque.size d = inside tr := by rw [size_eq h6, hlen]
    have obs : ∀ o, queueExec d op = .ok (o, d) → o = queueOut c tr op →
        accepted [(op, o)] = [] → returned [(op, o)] = [] → ∃ tr' d', trace queueExec (create c) (ops ++ [op]) = .ok (tr', d') ∧ cap d' = c ∧ tr'.map (·.1) = ops ++ [op] ∧
      (returned tr').length ≤ (accepted tr').length ∧ returned tr' = (accepted tr').take (returned tr').length ∧
      Holds d' ((accepted tr').drop (returned tr').length) ∧
      (∀ tr1 op o tr2, tr' = tr1 ++ (op, o) :: tr2 → o = queueOut c tr1 op) := by
      intro o e1 e2 e3 e4
      refine key o d e1 h2 e2 ?_ ?_ ?_ <;> rw [accepted_append, returned_append, e3, e4] <;> simp
      · exact h4
      · exact h5
      · exact h6
    cases op with
    | empty => exact obs _ rfl (by simp [queueOut, observer, Deque.empty, hs, beq_eq_decide]) rfl rfl
    | full => exact obs _ rfl (by simp [queueOut, observer, Deque.full, hs, h2, beq_eq_decide, Int.natCast_inj]) rfl rfl
    | size => exact obs _ rfl (by simp [queueOut, observer, hs]) rfl rfl
    | capacity => exact obs _ rfl (by simp [queueOut, observer, h2]) rfl rfl
    | valid => exact obs _ rfl (by simp [queueOut, observer, valid_of_holds h6]) rfl rfl
    | push x =>
      obtain ⟨d', e1, e2, e3⟩ := push_holds h6 .back x
      rw [hlen, h2] at e1 e3
      by_cases hlt : inside tr < c
      · refine key (.bool true) d' ?_ (e2.trans h2) (by simp [queueOut, hlt]) ?_ ?_ ?_
        · simp [queueExec, queuePush, e1, hlt, bind, Except.bind, pure, Except.pure]
        · simp [accepted_append, returned_append, accepted, returned]; omega
        · simp only [accepted_append, returned_append, accepted, returned, List.append_nil]
          rw [List.take_append_of_le_length h4]; exact h5
        · simp only [accepted_append, returned_append, accepted, returned, List.append_nil]
          rw [List.drop_append_of_le_length h4]
          simpa [hlt] using e3
      · refine key (.bool false) d' ?_ (e2.trans h2) (by simp [queueOut, hlt]) ?_ ?_ ?_
        · simp [queueExec, queuePush, e1, hlt, bind, Except.bind, pure, Except.pure]
        · simpa [accepted_append, returned_append, accepted, returned] using h4
        · simpa [accepted_append, returned_append, accepted, returned] using h5
        · simpa [accepted_append, returned_append, accepted, returned, hlt] using e3
    | pop =>
      obtain ⟨d', e1, e2, e3⟩ := pop_holds h6 .front
      simp only [List.head?_drop, List.tail_drop] at e1 e3
      cases hv : (accepted tr)[(returned tr).length]? with
      | none =>
        have hge : (accepted tr).length ≤ (returned tr).length := by simpa using hv
        refine key (.pop none) d' ?_ (e2.trans h2) (by simp [queueOut, hv]) ?_ ?_ ?_
        · simp [queueExec, queuePop, e1, hv, bind, Except.bind, pure, Except.pure]
        · simpa [accepted_append, returned_append, accepted, returned] using h4
        · simpa [accepted_append, returned_append, accepted, returned] using h5
        · simp only [accepted_append, returned_append, accepted, returned, List.append_nil]
          rw [List.drop_eq_nil_of_le (by omega)] at e3 ⊢; exact e3
      | some v =>
        obtain ⟨hlt, hv'⟩ := List.getElem?_eq_some_iff.1 hv
        refine key (.pop (some v)) d' ?_ (e2.trans h2) (by simp [queueOut, hv]) ?_ ?_ ?_
        · simp [queueExec, queuePop, e1, hv, bind, Except.bind, pure, Except.pure]
        · simp [accepted_append, returned_append, accepted, returned]; omega
        · simp only [accepted_append, returned_append, accepted, returned, List.append_nil, List.length_append,
            List.length_cons, List.length_nil, Nat.zero_add]
          rw [List.take_succ, hv, ← h5]; rfl
        · simpa [accepted_append, returned_append, accepted, returned] using e3

/-- C27. Every history of operations on a new queue of capacity `c ≥ 1` runs without undefined behaviour and without
hanging; the successfully popped values are, in order, a prefix of the successfully pushed values; and for each
operation of the history: a push succeeds exactly when fewer than `c` elements are inside, a pop returns the oldest
element that has not been returned yet and fails exactly when there is none, and size, empty, full, capacity and valid
answer accordingly. -/
theorem C27_queue_fifo (c : Nat) (hc : 0 < c) (ops : List (AOp α)) :
    ∃ tr d, trace queueExec (create c) ops = .ok (tr, d) ∧ tr.map (·.1) = ops ∧
      returned tr <+: accepted tr ∧
      (∀ tr1 op o tr2, tr = tr1 ++ (op, o) :: tr2 →
        (∀ x, op = .push x → o = .bool (decide (inside tr1 < c))) ∧
        (op = .pop → o = .pop (accepted tr1)[(returned tr1).length]?) ∧
        (∀ o', observer c (inside tr1) op = some o' → o = o')) := by
  obtain ⟨tr, d, h1, -, h3, -, h5, -, h7⟩ := queue_state c hc ops
  refine ⟨tr, d, h1, h3, ?_, ?_⟩
  · rw [h5]; exact List.take_prefix _ _
  · intro tr1 op o tr2 he
    have := h7 tr1 op o tr2 he
    refine ⟨?_, ?_, ?_⟩
    · rintro x rfl; exact this
    · rintro rfl; exact this
    · intro o' ho; cases op <;> simp [observer] at ho <;> simp [queueOut, observer] at this <;> rw [this, ← ho]

/-! ### C28 -/

/-- The contents of a stack after a history, top first (helper for the proof). -/
def stackOf (st : List α) : List (AOp α × Out α) → List α
  | [] => st
  | (.push x, .bool true) :: tr => stackOf (x :: st) tr
  | (.pop, .pop (some _)) :: tr => stackOf st.tail tr
  | _ :: tr => stackOf st tr

theorem stackOf_append (st : List α) (a b : List (AOp α × Out α)) : stackOf st (a ++ b) = stackOf (stackOf st a) b := by
  fun_induction stackOf st a with
  | case1 => rfl
  | case2 st x tr ih => simp [stackOf, ih]
  | case3 st x tr ih => simp [stackOf, ih]
  | case4 st e tr h1 h2 ih => rw [List.cons_append, stackOf, ih] <;> assumption

def stackOut (c : Nat) (tr : List (AOp α × Out α)) : AOp α → Out α
  | .push _ => .bool (decide (inside tr < c))
  | .pop => .pop (stackOf [] tr).head?
  | op => (observer c (inside tr) op).getD .unit

theorem stack_state (c : Nat) (hc : 0 < c) (ops : List (AOp α)) :
    ∃ tr d, trace stackExec (create c) ops = .ok (tr, d) ∧ cap d = c ∧ tr.map (·.1) = ops ∧
      (returned tr).length + (stackOf [] tr).length = (accepted tr).length ∧
      Holds d (stackOf [] tr).reverse ∧
      (∀ tr1 op o tr2, tr = tr1 ++ (op, o) :: tr2 → o = stackOut c tr1 op) := by
  induction ops using List.reverseRecOn with
  | nil =>
    refine ⟨[], create c, rfl, rfl, rfl, rfl, create_holds c hc, ?_⟩
    intro tr1 op o tr2 h; simp at h
  | append_singleton ops op ih =>
    obtain ⟨tr, d, h1, h2, h3, h4, h6, h7⟩ := ih
    have key : ∀ o d', stackExec d op = .ok (o, d') → cap d' = c → o = stackOut c tr op →
        (returned (tr ++ [(op, o)])).length + (stackOf [] (tr ++ [(op, o)])).length =
          (accepted (tr ++ [(op, o)])).length →
        Holds d' (stackOf [] (tr ++ [(op, o)])).reverse →
        ∃ tr' d', trace stackExec (create c) (ops ++ [op]) = .ok (tr', d') ∧ cap d' = c ∧ tr'.map (·.1) = ops ++ [op] ∧
      (returned tr').length + (stackOf [] tr').length = (accepted tr').length ∧
      Holds d' (stackOf [] tr').reverse ∧
      (∀ tr1 op o tr2, tr' = tr1 ++ (op, o) :: tr2 → o = stackOut c tr1 op) := by
      intro o d' e1 e2 e3 e4 e6
      refine ⟨tr ++ [(op, o)], d', trace_append _ _ _ _ _ _ _ h1 e1, e2, by simp [h3], e4, e6, ?_⟩
      intro tr1 op' o' tr2 he
      rcases List.eq_nil_or_concat tr2 with rfl | ⟨tr2', e, rfl⟩
      · obtain ⟨g1, g2⟩ := List.append_inj' he rfl
        simp at g2
        rw [← g1, ← g2.1, ← g2.2]; exact e3
      · rw [List.concat_eq_append, ← List.cons_append, ← List.append_assoc] at he
        have := (List.append_inj' he rfl).1
        exact h7 tr1 op' o' tr2' this
    have hlen : (stackOf [] tr).reverse.length = inside tr := by simp [inside]; omega
    have hs : Deque.size d = inside tr := by rw [size_eq h6, hlen]
    cases op with
    | empty => exact key _ _ rfl h2 (by simp [stackOut, observer, Deque.empty, hs, beq_eq_decide]) (by simpa [returned_append, accepted_append, stackOf_append, returned, accepted, stackOf] using h4) (by simpa [stackOf_append, stackOf] using h6)
    | full => exact key _ _ rfl h2 (by simp [stackOut, observer, Deque.full, hs, h2, beq_eq_decide, Int.natCast_inj]) (by simpa [returned_append, accepted_append, stackOf_append, returned, accepted, stackOf] using h4) (by simpa [stackOf_append, stackOf] using h6)
    | size => exact key _ _ rfl h2 (by simp [stackOut, observer, hs]) (by simpa [returned_append, accepted_append, stackOf_append, returned, accepted, stackOf] using h4) (by simpa [stackOf_append, stackOf] using h6)
    | capacity => exact key _ _ rfl h2 (by simp [stackOut, observer, h2]) (by simpa [returned_append, accepted_append, stackOf_append, returned, accepted, stackOf] using h4) (by simpa [stackOf_append, stackOf] using h6)
    | valid => exact key _ _ rfl h2 (by simp [stackOut, observer, valid_of_holds h6]) (by simpa [returned_append, accepted_append, stackOf_append, returned, accepted, stackOf] using h4) (by simpa [stackOf_append, stackOf] using h6)
    | push x =>
      obtain ⟨d', e1, e2, e3⟩ := push_holds h6 .back x
      rw [hlen, h2] at e1 e3
      by_cases hlt : inside tr < c
      · refine key (.bool true) d' ?_ (e2.trans h2) (by simp [stackOut, hlt]) ?_ ?_
        · simp [stackExec, stackPush, e1, hlt, bind, Except.bind, pure, Except.pure]
        · simp [accepted_append, returned_append, accepted, returned, stackOf_append, stackOf]; omega
        · simpa [stackOf_append, stackOf, hlt] using e3
      · refine key (.bool false) d' ?_ (e2.trans h2) (by simp [stackOut, hlt]) ?_ ?_
        · simp [stackExec, stackPush, e1, hlt, bind, Except.bind, pure, Except.pure]
        · simpa [accepted_append, returned_append, accepted, returned, stackOf_append, stackOf] using h4
        · simpa [stackOf_append, stackOf, hlt] using e3
    | pop =>
      obtain ⟨d', e1, e2, e3⟩ := pop_holds h6 .back
      simp only [List.getLast?_reverse, List.dropLast_reverse] at e1 e3
      cases hv : stackOf [] tr with
      | nil =>
        rw [hv] at e1 e3 h4
        refine key (.pop none) d' ?_ (e2.trans h2) (by simp [stackOut, hv]) ?_ ?_
        · simp [stackExec, stackPop, e1, bind, Except.bind, pure, Except.pure]
        · simpa [accepted_append, returned_append, accepted, returned, stackOf_append, stackOf, hv] using h4
        · simpa [stackOf_append, stackOf, hv] using e3
      | cons v st =>
        rw [hv] at e1 e3 h4
        refine key (.pop (some v)) d' ?_ (e2.trans h2) (by simp [stackOut, hv]) ?_ ?_
        · simp [stackExec, stackPop, e1, bind, Except.bind, pure, Except.pure]
        · simp [accepted_append, returned_append, accepted, returned, stackOf_append, stackOf, hv] at h4 ⊢; omega
        · simpa [stackOf_append, stackOf, hv] using e3

theorem stackOf_length (base : List α) (tr : List (AOp α × Out α))
    (h : ∀ p, p <+: tr → (returned p).length ≤ (accepted p).length) :
    ∃ top, stackOf base tr = top ++ base ∧ (returned tr).length + top.length = (accepted tr).length := by
  induction tr using List.reverseRecOn with
  | nil => exact ⟨[], rfl, rfl⟩
  | append_singleton tr e ih =>
    obtain ⟨top, h1, h2⟩ := ih (fun p hp => h p (hp.trans (List.prefix_append _ _)))
    have h3 := h _ (List.prefix_refl _)
    rw [stackOf_append, h1]
    rw [accepted_append, returned_append] at h3 ⊢
    obtain ⟨op, o⟩ := e
    have triv : accepted [(op, o)] = [] → returned [(op, o)] = [] → stackOf (top ++ base) [(op, o)] = top ++ base →
      ∃ top', stackOf (top ++ base) [(op, o)] = top' ++ base ∧
        (returned tr ++ returned [(op, o)]).length + top'.length = (accepted tr ++ accepted [(op, o)]).length := by
      intro a b c; exact ⟨top, c, by rw [a, b]; simpa using h2⟩
    cases op with
    | push x =>
      cases o with
      | bool b =>
        cases b with
        | true => exact ⟨x :: top, by simp [stackOf], by simp [accepted, returned]; omega⟩
        | false => exact triv rfl rfl rfl
      | _ => exact triv rfl rfl rfl
    | pop =>
      cases o with
      | pop v =>
        cases v with
        | none => exact triv rfl rfl rfl
        | some v =>
          simp [accepted, returned] at h3
          cases top with
          | nil => simp at h2; omega
          | cons a top => exact ⟨top, by simp [stackOf], by simp [accepted, returned] at h2 ⊢; omega⟩
      | _ => exact triv rfl rfl rfl
    | _ => exact triv rfl rfl rfl

/-- C28. Every history of operations on a new stack of capacity `c ≥ 1` runs without undefined behaviour and without
hanging; a push succeeds exactly when fewer than `c` elements are inside; a pop fails exactly when nothing is inside,
and otherwise returns the most recently pushed element that has not been popped yet: if `x` was pushed successfully and
everything pushed successfully since then has been popped (`Balanced`), then the pop returns `x`; the other operations
answer accordingly. -/
theorem C28_stack_lifo (c : Nat) (hc : 0 < c) (ops : List (AOp α)) :
    ∃ tr d, trace stackExec (create c) ops = .ok (tr, d) ∧ tr.map (·.1) = ops ∧
      (∀ tr1 op o tr2, tr = tr1 ++ (op, o) :: tr2 →
        (∀ x, op = .push x → o = .bool (decide (inside tr1 < c))) ∧
        (op = .pop → (o = .pop none ↔ inside tr1 = 0) ∧ (inside tr1 ≠ 0 → ∃ v, o = .pop (some v))) ∧
        (∀ o', observer c (inside tr1) op = some o' → o = o')) ∧
      (∀ tr1 x tr2 o tr3, tr = tr1 ++ (.push x, .bool true) :: tr2 ++ (.pop, o) :: tr3 → Balanced tr2 →
        o = .pop (some x)) := by
  obtain ⟨tr, d, h1, -, h3, h4, -, h7⟩ := stack_state c hc ops
  refine ⟨tr, d, h1, h3, ?_, ?_⟩
  · intro tr1 op o tr2 he
    have := h7 tr1 op o tr2 he
    refine ⟨?_, ?_, ?_⟩
    · rintro x rfl; exact this
    · rintro rfl
      have hl : (returned tr1).length + (stackOf [] tr1).length = (accepted tr1).length := by
        -- the same invariant for the prefix
        obtain ⟨tr', d', g1, -, g3, g4, -, -⟩ := stack_state c hc (tr1.map (·.1))
        have : tr' = tr1 := by
          have hpre : ∀ (ops1 ops2 : List (AOp α)) (d0 : Deq α) t dd, trace stackExec d0 (ops1 ++ ops2) = .ok (t, dd) →
              ∀ t1 dd1, trace stackExec d0 ops1 = .ok (t1, dd1) → t1 <+: t := by
            intro ops1 ops2
            induction ops1 with
            | nil => intro d0 t dd _ t1 dd1 e; simp [trace] at e; rw [e.1]; exact List.nil_prefix
            | cons a ops1 ih =>
              intro d0 t dd e t1 dd1 e1
              simp only [trace, bind, Except.bind, pure, Except.pure, List.cons_append] at e e1
              cases hx : stackExec d0 a with
              | error _ => simp [hx] at e
              | ok r =>
                obtain ⟨o', d'⟩ := r
                simp only [hx] at e e1
                cases hy : trace stackExec d' (ops1 ++ ops2) with
                | error _ => simp [hy] at e
                | ok r =>
                  cases hz : trace stackExec d' ops1 with
                  | error _ => simp [hz] at e1
                  | ok r' =>
                    simp [hy] at e; simp [hz] at e1
                    rw [← e.1, ← e1.1]
                    exact List.cons_prefix_cons.2 ⟨rfl, ih d' r.1 r.2 hy r'.1 r'.2 hz⟩
          have hp := hpre (tr1.map (·.1)) ((AOp.pop :: tr2.map (·.1))) (create c) tr d
            (by rw [← h1, ← h3, he]; simp) tr' d' g1
          have hp2 : tr1 <+: tr := ⟨_, he.symm⟩
          have hl : tr'.length = tr1.length := by simpa using congrArg List.length g3
          rcases hp with ⟨a, ha⟩
          rcases hp2 with ⟨b, hb⟩
          exact (List.append_inj (ha.trans hb.symm) hl).1
        rw [this] at g4; exact g4
      simp only [stackOut] at this
      have hin : inside tr1 = (stackOf [] tr1).length := by simp [inside]; omega
      rw [this, hin]
      cases stackOf [] tr1 with
      | nil => simp
      | cons a st => simp
    · intro o' ho; cases op <;> simp [observer] at ho <;> simp [stackOut, observer] at this <;> rw [this, ← ho]
  · intro tr1 x tr2 o tr3 he hb
    have := h7 (tr1 ++ (.push x, .bool true) :: tr2) .pop o tr3 he
    rw [this, stackOut, stackOf_append]
    obtain ⟨top, e1, e2⟩ := stackOf_length (x :: stackOf [] tr1) tr2 hb.1
    have hb2 := hb.2
    have : top = [] := List.length_eq_zero_iff.1 (by omega)
    subst this
    simp only [stackOf, e1]; rfl

/-- C27, C28 on concrete histories, with failing operations and `Balanced` pieces. -/
example : (trace queueExec (create 2) [.push 1, .push 2, .push 3, .pop, .push 4, .pop, .pop, .pop]).map (·.1) =
    .ok [(.push 1, .bool true), (.push 2, .bool true), (.push 3, .bool false), (.pop, .pop (some 1)),
      (.push 4, .bool true), (.pop, .pop (some 2)), (.pop, .pop (some 4)), (.pop, .pop none)] := by rfl

example : (trace stackExec (create 2) [.push 1, .push 2, .push 3, .pop, .push 4, .pop, .pop, .pop]).map (·.1) =
    .ok [(.push 1, .bool true), (.push 2, .bool true), (.push 3, .bool false), (.pop, .pop (some 2)),
      (.push 4, .bool true), (.pop, .pop (some 4)), (.pop, .pop (some 1)), (.pop, .pop none)] := by rfl

/-- The piece between the push of 1 and the last successful pop above is balanced. -/
example : Balanced ([(.push 2, .bool true), (.push 3, .bool false), (.pop, .pop (some 2)), (.push 4, .bool true),
    (.pop, .pop (some 4))] : List (AOp Nat × Out Nat)) := by
  refine ⟨?_, rfl⟩
  intro p hp
  rw [List.prefix_iff_eq_take] at hp
  have : p.length ≤ 5 := by rw [hp]; simp
  rcases (by omega : p.length = 0 ∨ p.length = 1 ∨ p.length = 2 ∨ p.length = 3 ∨ p.length = 4 ∨ p.length = 5) with
    h | h | h | h | h | h <;> rw [hp, h] <;> simp [returned, accepted]

end Stdgpu.Props
