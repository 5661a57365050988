import Verif.Proof.VectorConc
/-!
C16–C22: `stdgpu::vector`.

`Spec.vecExec` (Spec/Lists.lean) is the bounded list; `Vector.Holds v l` says that the vector `v` is in a proper state
with contents `l`. `Spec.Finished`, `Spec.pushedVals`, `Spec.poppedVals`, `Spec.results` (Spec/SlotConc.lean) observe
executions of the concurrent machine.
-/
namespace Stdgpu.Props
open Stdgpu.Vector Stdgpu.SlotConc Stdgpu.Conc Stdgpu.Spec

variable {α : Type}

theorem vec_history (c : Nat) (ops : List (VOp α)) : ∀ (ords : Nat → Nat → List Nat)
    (_ : ∀ k n, (ords k n).Perm (List.range n)) (v : Vec α) (l : List α) (_ : Holds v l) (_ : cap v = c)
    (outs : List (Out α)) (l' : List α) (_ : vecExecAll c l ops = some (outs, l')),
    ∃ v', execAll ords v ops = .ok (outs, v') ∧ cap v' = c ∧ Holds v' l' := by
  induction ops with
  | nil =>
    intro ords ho v l h hc outs l' hs
    simp [vecExecAll] at hs
    obtain ⟨rfl, rfl⟩ := hs
    exact ⟨v, rfl, hc, h⟩
  | cons op ops ih =>
    intro ords ho v l h hc outs l' hs
    simp only [vecExecAll, Option.bind_eq_bind, Option.bind_eq_some_iff] at hs
    obtain ⟨⟨o, l1⟩, h1, ⟨os, l2⟩, h2, h3⟩ := hs
    simp at h3
    obtain ⟨rfl, rfl⟩ := h3
    subst hc
    obtain ⟨v1, e1, e2, e3⟩ := exec_refines h (ho 0) op o l1 h1
    obtain ⟨v2, f1, f2, f3⟩ := ih (fun k => ords (k + 1)) (fun k => ho (k + 1)) v1 l1 e3 e2 os l2 h2
    refine ⟨v2, ?_, f2, f3⟩
    simp only [execAll, e1, f1, bind, Except.bind, pure, Except.pure]

/-- C16 (and C17 inside histories). Every history of operations that respects the API's preconditions (element access
only to existing elements, ranges with `begin ≤ end`) on a newly created vector of any capacity runs without undefined
behaviour and without hanging and gives exactly the results of the bounded list, whatever the order in which the
parallel range operations process their elements. `valid()` is one of the operations; it is always true. -/
theorem C16_vector_is_bounded_list (c : Nat) (ops : List (VOp α)) (ords : Nat → Nat → List Nat)
    (ho : ∀ k n, (ords k n).Perm (List.range n)) (outs : List (Out α)) (l : List α)
    (hs : vecExecAll c [] ops = some (outs, l)) :
    ∃ v, execAll ords (create c) ops = .ok (outs, v) ∧ cap v = c ∧ Holds v l :=
  vec_history c ops ords ho (create c) [] (create_holds c) rfl outs l hs

/-- C16: the specification is total apart from element accesses outside the contents and inverted ranges. -/
theorem C16_spec_total (c : Nat) (l : List α) (op : VOp α) :
    vecExec c l op = none → (op = .front ∧ l = []) ∨ (op = .back ∧ l = []) ∨
      (∃ n, op = .get n ∧ (n < 0 ∨ (l.length : Int) ≤ n)) ∨ (∃ b e, op = .erase b e ∧ e < b) := by
  cases op <;> simp [vecExec]
  case push => split <;> simp
  case insert => split <;> simp
  case erase b e =>
    intro h1
    by_contra hc
    have := h1 (by omega)
    split at this <;> simp at this
  case get n =>
    intro h
    by_cases hn : n < 0
    · exact Or.inl hn
    · right; have := h (by omega); omega

/-- The plain stack reading of C16: from contents `l`, `push_back` succeeds iff the vector is not full and then
appends; `pop_back` returns the last element iff the vector is not empty and then removes it. -/
theorem C16_push_pop {v : Vec α} {l : List α} (h : Holds v l) (x : α) :
    (∃ v', pushBack v x = .ok (decide (l.length < cap v), v') ∧
      Holds v' (if l.length < cap v then l ++ [x] else l)) ∧
    (∃ v', popBack v = .ok (l.getLast?, v') ∧ Holds v' l.dropLast) := by
  constructor
  · obtain ⟨v', e1, -, e3⟩ := push_holds h x
    refine ⟨v', ?_, e3⟩
    rw [e1]; by_cases hh : l.length < cap v <;> simp [hh]
  · obtain ⟨v', e1, -, e3⟩ := pop_holds h
    exact ⟨v', e1, e3⟩

/-- C16: the sequential functions are what the concurrent machine does when one thread runs alone. -/
theorem C16_machine_agrees_push (v v' : Vec α) (x : α) (b : Bool) (h : pushBack v x = .ok (b, v')) :
    ∃ n t, run (step (vfront (cap v))) (init (vfront (cap v)) v [[.push () x]]) (List.replicate n 0) =
      ⟨v', [t]⟩ ∧ t.todo = [] ∧ t.done = [(.push () x, if b then .pushed else .pushFailed)] := by
  unfold pushBack at h
  by_cases hf : full v = true
  · simp only [hf, if_true, Except.ok.injEq, Prod.mk.injEq] at h
    obtain ⟨rfl, rfl⟩ := h
    have hf' : clampSize (cap v) v.ctr = cap v := by simpa [full, size] using hf
    refine ⟨1, ⟨[], .front .check, [(.push () x, .pushFailed)]⟩, ?_, rfl, rfl⟩
    simp [List.replicate, run, stepAt, init, step, vfront, Op.isPush, hf', failRes]
  · simp only [Bool.not_eq_true] at hf
    simp only [hf, Bool.false_eq_true, if_false] at h
    have hf' : ¬ clampSize (cap v) v.ctr = cap v := by simpa [full, size] using hf
    by_cases hp : 0 ≤ v.ctr ∧ v.ctr < cap v
    · simp only [if_pos hp, slotPush] at h
      by_cases h1 : v.slots.cap ≤ v.ctr.toNat
      · simp [h1, bind, Except.bind] at h
      · by_cases h2 : v.slots.locks v.ctr.toNat = true
        · simp [h1, h2, bind, Except.bind] at h
        · by_cases h3 : v.slots.occ v.ctr.toNat = true
          · simp [h1, h2, h3, bind, Except.bind] at h
          · by_cases h4 : (v.slots.data v.ctr.toNat).isSome = true
            · simp [h1, h2, h3, h4, bind, Except.bind] at h
            · simp [h1, h2, h3, h4, bind, Except.bind, pure, Except.pure] at h
              obtain ⟨rfl, rfl⟩ := h
              have hl : upd (upd v.slots.locks v.ctr.toNat true) v.ctr.toNat false = v.slots.locks := by
                funext q; unfold upd; by_cases hq : q = v.ctr.toNat
                · subst hq; simpa using h2
                · simp [hq]
              refine ⟨7, ⟨[], .front .check, [(.push () x, .pushed)]⟩, ?_, rfl, rfl⟩
              simp only [Bool.not_eq_true] at h2 h3 h4
              simp [List.replicate, run, stepAt, init, step, vfront, Op.isPush, hf', hp, slotStep, h1, h2, h3, h4, hl]
    · simp [if_neg hp] at h
      obtain ⟨rfl, rfl⟩ := h
      refine ⟨2, ⟨[], .front .check, [(.push () x, .pushFailed)]⟩, ?_, rfl, rfl⟩
      simp [List.replicate, run, stepAt, init, step, vfront, Op.isPush, hf', if_neg hp, failRes]

/-- C16: the same for `pop_back`. -/
theorem C16_machine_agrees_pop (v v' : Vec α) (r : Option α) (h : popBack v = .ok (r, v')) :
    ∃ n t, run (step (vfront (cap v))) (init (vfront (cap v)) v [[.pop ()]]) (List.replicate n 0) =
      ⟨v', [t]⟩ ∧ t.todo = [] ∧
      t.done = [(.pop (), match r with | some x => .popped x | none => .popFailed)] := by
  unfold popBack at h
  by_cases hf : empty v = true
  · simp only [hf, if_true, Except.ok.injEq, Prod.mk.injEq] at h
    obtain ⟨rfl, rfl⟩ := h
    have hf' : clampSize (cap v) v.ctr = 0 := by simpa [empty, size] using hf
    refine ⟨1, ⟨[], .front .check, [(.pop (), .popFailed)]⟩, ?_, rfl, rfl⟩
    simp [List.replicate, run, stepAt, init, step, vfront, Op.isPush, hf', failRes]
  · simp only [Bool.not_eq_true] at hf
    simp only [hf, Bool.false_eq_true, if_false] at h
    have hf' : ¬ clampSize (cap v) v.ctr = 0 := by simpa [empty, size] using hf
    by_cases hp : 0 ≤ v.ctr - 1 ∧ v.ctr - 1 < cap v
    · have hpd : (v.ctr - 1).toNat = v.ctr.toNat - 1 := by omega
      simp only [if_pos hp, slotPop, hpd] at h
      by_cases h1 : v.slots.cap ≤ (v.ctr.toNat - 1)
      · simp [h1, bind, Except.bind] at h
      · by_cases h2 : v.slots.locks (v.ctr.toNat - 1) = true
        · simp [h1, h2, bind, Except.bind] at h
        · by_cases h3 : v.slots.occ (v.ctr.toNat - 1) = false
          · simp [h1, h2, h3, bind, Except.bind] at h
          · cases h4 : v.slots.data (v.ctr.toNat - 1) with
            | none => simp [h1, h2, h3, h4, bind, Except.bind] at h
            | some x =>
              simp [h1, h2, h3, h4, bind, Except.bind, pure, Except.pure] at h
              obtain ⟨rfl, rfl⟩ := h
              have hl : upd (upd v.slots.locks (v.ctr.toNat - 1) true) (v.ctr.toNat - 1) false = v.slots.locks := by
                funext q; unfold upd; by_cases hq : q = (v.ctr.toNat - 1)
                · subst hq; simpa using h2
                · simp [hq]
              refine ⟨8, ⟨[], .front .check, [(.pop (), .popped x)]⟩, ?_, rfl, rfl⟩
              simp only [Bool.not_eq_true, Bool.not_eq_false] at h2 h3
              simp only [List.replicate, run, List.foldl_cons, List.foldl_nil, stepAt, init, step, vfront, Op.isPush,
                List.map_cons, List.map_nil, List.getElem?_cons_zero, List.set_cons_zero]
              have hp1 : 1 ≤ v.ctr := by omega
              simp [hf', hp1, hp.2, slotStep, h1, h2, h3, h4, hl]
    · simp only [if_neg hp, Except.ok.injEq, Prod.mk.injEq] at h
      obtain ⟨rfl, rfl⟩ := h
      refine ⟨2, ⟨[], .front .check, [(.pop (), .popFailed)]⟩, ?_, rfl, rfl⟩
      simp only [List.replicate, run, List.foldl_cons, List.foldl_nil, stepAt, init, step, vfront, Op.isPush,
                List.map_cons, List.map_nil, List.getElem?_cons_zero, List.set_cons_zero]
      have hp1 : ¬ (1 ≤ v.ctr ∧ v.ctr - 1 < cap v) := by omega
      simp [hf', if_neg hp1, failRes]

example : vecExecAll 2 [] [.push 7, .push 8, .push 9, .full, .back, .pop, .size, .valid, .deviceRange] =
    some ([.bool true, .bool true, .bool false, .bool true, .val 8, .pop (some 8), .num 1, .bool true, .vals [7]], [7]) :=
  by decide

/-- C17 (partial: the ranges of `erase` must satisfy `begin ≤ end`; see `C17_erase_past_end`). From contents `l`:
`insert` at the end appends the range if it fits and otherwise, or at any other position, changes nothing; `erase` of a
tail removes exactly this tail, and any range that does not end at `device_end()` or that starts before the first
element changes nothing; `clear` empties the vector. All for every processing order of the parallel loops, without
undefined behaviour, and `valid()` stays true. -/
theorem C17_range_operations_partial {v : Vec α} {l : List α} (h : Holds v l) (ord : Nat → List Nat)
    (ho : ∀ n, (ord n).Perm (List.range n)) (pos b e : Int) (hbe : b ≤ e) (xs : List α) :
    (∃ v', insertRange (ord xs.length) v pos xs = .ok v' ∧ valid v' = true ∧ cap v' = cap v ∧
      Holds v' (if pos = l.length ∧ l.length + xs.length ≤ cap v then l ++ xs else l)) ∧
    (∃ v', eraseRange (ord (e - b).toNat) v b e = .ok v' ∧ valid v' = true ∧ cap v' = cap v ∧
      Holds v' (if e = l.length ∧ 0 ≤ b then l.take b.toNat else l)) ∧
    (∃ v', clear (ord (size v).toNat) v = .ok v' ∧ valid v' = true ∧ cap v' = cap v ∧ Holds v' []) := by
  refine ⟨?_, ?_, ?_⟩
  · obtain ⟨v', e1, e2, e3⟩ := insert_holds h ho pos xs
    exact ⟨v', e1, valid_of_holds e3, e2, e3⟩
  · obtain ⟨v', e1, e2, e3⟩ := erase_holds h ho b e hbe
    exact ⟨v', e1, valid_of_holds e3, e2, e3⟩
  · obtain ⟨v', e1, e2, e3⟩ := clear_holds h ho
    exact ⟨v', e1, valid_of_holds e3, e2, e3⟩

/-- C17 does not hold for a position past the end: `erase(device_begin() + b, device_end())` with `b > size()` is not
rejected; it sets the size to `b` and leaves an invalid vector. -/
theorem C17_erase_past_end {v : Vec α} {l : List α} (h : Holds v l) (b : Nat) (hb : l.length < b) (hc : b ≤ cap v) :
    ∃ v', eraseRange [] v b l.length = .ok v' ∧ size v' = b ∧ valid v' = false := by
  have hs := size_eq h
  have hsz : size ({ slots := v.slots, ctr := (b : Int) } : Vec α) = b := by
    unfold size clampSize
    rw [if_neg (by simp)]
    simp only [cap] at *
    simp only [gt_iff_lt]
    rw [if_neg (by omega)]
  refine ⟨{ slots := v.slots, ctr := b }, ?_, hsz, ?_⟩
  · simp only [eraseRange, hs, ne_eq, not_true, if_false]
    rw [show (l.length : Int) - (l.length - b) = b by omega, if_neg (by omega)]
    rfl
  · unfold valid
    have hc0 : ¬ cap ({ slots := v.slots, ctr := (b : Int) } : Vec α) = 0 := by simp only [cap] at *; omega
    rw [if_neg hc0, hsz]
    have := countBits_lt _ _ h.len _ h.occ
    simp only [cap] at this ⊢
    rw [this]
    simp; omega

example : ∃ v : Vec Nat, Holds v [4, 5] ∧ cap v = 3 := by
  obtain ⟨v, -, h2, h3⟩ := C16_vector_is_bounded_list 3 [.push 4, .push 5] (fun _ n => List.range n)
    (fun _ n => List.Perm.refl _) [.bool true, .bool true] [4, 5] (by decide)
  exact ⟨v, h3, h2⟩

/-- The concurrent execution of `programs` (one list of operations per thread) on the vector `v`. -/
abbrev vrun (v : Vec α) (programs : List (List (Op Unit α))) (sched : List Nat) : VSys α :=
  run (step (vfront (cap v))) (init (vfront (cap v)) v programs) sched

theorem pushInv_run {v : Vec α} {l : List α} (h : Holds v l) (programs : List (List (Op Unit α)))
    (hp : ∀ p ∈ programs, ∀ op ∈ p, op.isPush = true) (sched : List Nat) :
    PushInv (cap v) l programs (vrun v programs sched) := by
  refine run_inv (PushInv (cap v) l programs) (fun s i t hs ht => pushInv_step hp s i t hs ht) _ ?_ sched
  have hlen := h.len
  refine ⟨vinv_init h programs, ?_, ?_, ?_, ?_⟩
  · simp only [init]; rw [h.ctr]
  · simp [init]
  · intro p hp; exact h.data p (by omega)
  · simp [init]

/-- C18. When any number of threads push (programs contain only pushes) onto a vector with contents `l`, then in every
schedule in which all of them finish: exactly `min (number of pushes) (capacity - size)` pushes return true; the slots
hold the old elements, unchanged, followed by exactly the successfully pushed values in some order; the occupied bits
and `size()` agree; and nothing undefined happened (no slot was constructed twice). -/
theorem C18_concurrent_push {v : Vec α} {l : List α} (h : Holds v l) (programs : List (List (Op Unit α)))
    (hp : ∀ p ∈ programs, ∀ op ∈ p, op.isPush = true) (sched : List Nat) :
    let s := vrun v programs sched
    Finished s →
    (pushedVals s).length = min programs.flatten.length (cap v - l.length) ∧
    s.shared.slots.err = false ∧
    ∃ l', l'.Perm (pushedVals s) ∧ (∀ p, p < cap v → s.shared.slots.data p = (l ++ l')[p]?) ∧
      (∀ p, p < cap v → s.shared.slots.occ p = decide (p < (l ++ l').length)) ∧
      size s.shared = (l ++ l').length := by
  intro s hf
  have hi := pushInv_run h programs hp sched
  obtain ⟨h1, l', h2, h3, h4, h5⟩ := push_final hp h.len hi hf
  refine ⟨h1, hi.v.err, l', h2, h3, h4, ?_⟩
  unfold size
  have : cap s.shared = cap v := hi.v.hcap
  rw [this]; exact h5

/-- C19. When any number of threads pop from a vector with contents `l`, then in every schedule in which all of them
finish, with `k = min (number of pops) (size)`: the popped values are exactly the last `k` elements, each once; the
first `size - k` elements remain, unchanged. -/
theorem C19_concurrent_pop {v : Vec α} {l : List α} (h : Holds v l) (programs : List (List (Op Unit α)))
    (hp : ∀ p ∈ programs, ∀ op ∈ p, op.isPush = false) (sched : List Nat) :
    let s := vrun v programs sched
    let k := min programs.flatten.length l.length
    Finished s →
    (poppedVals s).Perm (l.drop (l.length - k)) ∧ (poppedVals s).length = k ∧
    s.shared.slots.err = false ∧
    (∀ p, p < cap v → s.shared.slots.data p = (l.take (l.length - k))[p]?) ∧
    (∀ p, p < cap v → s.shared.slots.occ p = decide (p < l.length - k)) ∧
    size s.shared = ((l.length - k : Nat) : Int) := by
  intro s k hf
  have hi : PopInv (cap v) l programs s := by
    refine run_inv (PopInv (cap v) l programs) (fun s i t hs ht => popInv_step hp h.len s i t hs ht) _ ?_ sched
    have hlen := h.len
    have hctr := h.ctr
    refine ⟨vinv_init h programs, ?_, ?_, ?_, ?_⟩
    · simp only [init]; omega
    · simp [init]
    · intro p hp; exact h.data p (by simp only [init] at hp; omega)
    · simp [init]
  obtain ⟨h1, h2, h3, h4⟩ := pop_final hp h.len hi hf
  refine ⟨h1, ?_, hi.v.err, h2, h3, ?_⟩
  · rw [h1.length_eq, List.length_drop]; omega
  · unfold size
    have : cap s.shared = cap v := hi.v.hcap
    rw [this]; exact h4

/-- C20. For every initial contents, all programs mixing pushes and pops and every schedule: nothing undefined ever
happens (no slot is constructed while it holds an object, nothing is read or destroyed in raw storage, no index is
outside the array); threads execute their programs in order, each operation once; and in every state in which no
operation is between its counter update and its return, in particular when all are finished, initial elements plus
successfully pushed values are exactly the stored objects plus the successfully popped values (as multisets), the
occupied bits mark exactly the live objects, and no mutex is held. -/
theorem C20_conservation {v : Vec α} {l : List α} (h : Holds v l) (programs : List (List (Op Unit α)))
    (sched : List Nat) :
    let s := vrun v programs sched
    s.shared.slots.err = false ∧
    (∀ (i : Nat) (t : VThread α), s.threads[i]? = some t → programs[i]? = some (t.done.map (·.1) ++ t.todo)) ∧
    ((∀ t ∈ s.threads, ∃ f, t.pc = .front f) →
      (l ++ pushedVals s).Perm (liveIn s.shared.slots.data 0 (cap v) ++ poppedVals s) ∧
      (∀ p, p < cap v → (s.shared.slots.data p).isSome = s.shared.slots.occ p) ∧
      (∀ p, p < cap v → s.shared.slots.locks p = false)) := by
  intro s
  have hi := vinv_run h programs sched
  refine ⟨hi.err, hi.prog, fun hq => ⟨?_, fun p hp => quiet_live hi hq p hp, fun p hp => quiet_locks hi hq p hp⟩⟩
  have := quiet_cons hi hq
  rw [Multiset.coe_add, Multiset.coe_add] at this
  exact Multiset.coe_eq_coe.1 this

/-- C21. From every state reachable in any execution there is a continuation in which all operations finish: the
machine never deadlocks, no thread waits for something that cannot happen any more. -/
theorem C21_no_deadlock {v : Vec α} {l : List α} (h : Holds v l) (programs : List (List (Op Unit α)))
    (sched : List Nat) : ∃ sched', Finished (vrun v programs (sched ++ sched')) := by
  obtain ⟨sched', hs⟩ := can_finish (vfront (cap v)) (fun f => match f with | .check => 1 | .rmw => 0) (by
      intro c b k f c' f' e
      rcases vfront_cases (cap v) c b k f with ⟨h1, e', -⟩ | ⟨h1, e', -⟩ | ⟨h1, -, -, -, e'⟩ | ⟨h1, -, -, e'⟩ |
        ⟨h1, -, -, -, e'⟩ | ⟨h1, -, -, e'⟩ <;> rw [e] at e' <;> simp at e'
      rw [h1, e'.2]; simp)
    (VInv (cap v) (l : Multiset α) programs) (fun s i t hs ht => vinv_step s i t hs ht)
    (fun s hs => ⟨_, hs, fun p _ => by unfold vtick; split <;> simp⟩) _ (vinv_run h programs sched)
  refine ⟨sched', ?_⟩
  unfold vrun
  rw [run_append]
  exact hs

/-- The states reached by finished executions whose counter is in range are proper states. -/
theorem holds_of_range {v : Vec α} {l : List α} (h : Holds v l) (programs : List (List (Op Unit α)))
    (sched : List Nat) (hf : Finished (vrun v programs sched))
    (h0 : 0 ≤ (vrun v programs sched).shared.ctr) (h1 : (vrun v programs sched).shared.ctr ≤ cap v) :
    ∃ l', Holds (vrun v programs sched).shared l' ∧
      (l ++ pushedVals (vrun v programs sched)).Perm (l' ++ poppedVals (vrun v programs sched)) := by
  have hi := vinv_run h programs sched
  have hq := quiet_of_finished hi hf
  have hc := (C20_conservation h programs sched).2.2 hq
  obtain ⟨c, hcc⟩ : ∃ c, c = (vrun v programs sched).shared.ctr.toNat := ⟨_, rfl⟩
  have hcap : cap (vrun v programs sched).shared = cap v := hi.hcap
  have hocc' : ∀ p, p < cap v → (vrun v programs sched).shared.slots.occ p = decide (p < c) := by
    intro p hp
    have : _ = vtick (vrun v programs sched).shared.ctr p := quiet_occ hi hq p hp
    unfold vtick at this
    cases hb : (vrun v programs sched).shared.slots.occ p <;> rw [hb] at this <;> split at this <;> simp at this ⊢ <;>
      omega
  have hsome : ∀ p, 0 ≤ p → p < c → ((vrun v programs sched).shared.slots.data p).isSome := by
    intro p _ hp; rw [hc.2.1 p (by omega), hocc' p (by omega)]; simpa using hp
  have hnone : ∀ p, c ≤ p → p < cap v → (vrun v programs sched).shared.slots.data p = none := by
    intro p h1 h2
    have := hc.2.1 p h2
    rw [hocc' p h2] at this
    have hd : decide (p < c) = false := by simp; omega
    rw [hd] at this
    simpa using this
  have hlen := liveIn_length _ 0 c hsome
  refine ⟨liveIn (vrun v programs sched).shared.slots.data 0 c, ⟨?_, ?_, ?_, ?_, hi.err, ?_⟩, ?_⟩
  · omega
  · rw [hlen]; omega
  · rw [hcap]; exact hc.2.2
  · rw [hcap, hlen]; intro p hp; rw [hocc' p hp]; simp
  · rw [hcap]
    intro p hp
    by_cases hpc : p < c
    · rw [liveIn_get _ _ _ hsome _ (by omega)]; simp
    · rw [List.getElem?_eq_none (by omega)]; exact hnone p (by omega) hp
  · have := hc.1
    rw [liveIn_split _ 0 c (cap v) (by omega) (by omega), liveIn_none _ c (cap v) hnone] at this
    simpa using this

/-- C22 (partial: only for programs that cannot cross a boundary). If the number of pushes does not exceed the free
space and the number of pops does not exceed the initial size, then in every schedule no operation fails, and when all
have finished the vector is in a proper state (so `valid()` is true and C16/C17 apply to everything done with it
afterwards) holding initial plus pushed minus popped elements. -/
theorem C22_valid_after_concurrent_use_partial {v : Vec α} {l : List α} (h : Holds v l)
    (programs : List (List (Op Unit α)))
    (hpush : l.length + programs.flatten.countP (fun op => op.isPush) ≤ cap v)
    (hpop : programs.flatten.countP (fun op => !op.isPush) ≤ l.length) (sched : List Nat) :
    let s := vrun v programs sched
    (∀ e ∈ results s, e.2 ≠ .pushFailed ∧ e.2 ≠ .popFailed) ∧
    (Finished s → valid s.shared = true ∧
      ∃ l', Holds s.shared l' ∧ (l ++ pushedVals s).Perm (l' ++ poppedVals s)) := by
  intro s
  have hi : RoomInv (cap v) l programs s := by
    refine run_inv (RoomInv (cap v) l programs) (fun s i t hs ht => roomInv_step s i t hs ht) _ ?_ sched
    have e : ∀ b, ((init (vfront (cap v)) v programs).threads.map (remOps b)).sum =
        programs.flatten.countP (fun op => op.isPush == b) := by
      intro b
      simp only [init]
      clear hpush hpop
      induction programs with
      | nil => rfl
      | cons p ps ih =>
        simp only [List.map_cons, List.sum_cons, List.flatten_cons, List.countP_append]
        rw [ih]; rfl
    have hc := h.ctr
    refine ⟨vinv_init h programs, ?_, ?_, ?_⟩
    · rw [e]
      have e2 : programs.flatten.countP (fun op => op.isPush == true) = programs.flatten.countP (fun op => op.isPush) := by
        congr 1; funext op; cases op.isPush <;> rfl
      rw [e2]; simp only [init]; omega
    · rw [e]
      have e2 : programs.flatten.countP (fun op => op.isPush == false) =
          programs.flatten.countP (fun op => !op.isPush) := by
        congr 1; funext op; cases op.isPush <;> rfl
      rw [e2]; simp only [init]; omega
    · simp [init]
  refine ⟨?_, fun hf => ?_⟩
  · intro e he
    obtain ⟨t, ht, he⟩ := mem_results.1 he
    exact hi.ok t ht e he
  · have a1 := hi.hi
    have a2 := hi.lo
    obtain ⟨l', h1, h2⟩ := holds_of_range h programs sched hf (by show 0 ≤ s.shared.ctr; omega)
      (by show s.shared.ctr ≤ _; omega)
    exact ⟨valid_of_holds h1, l', h1, h2⟩

/-- C22 (partial, for all programs): whenever the raw counter is back in `[0, capacity]` after all operations finished,
the vector is in a proper state, and exactly then `valid()` is true. -/
theorem C22_valid_iff_counter_in_range_partial {v : Vec α} {l : List α} (h : Holds v l)
    (programs : List (List (Op Unit α))) (sched : List Nat) (hc0 : 0 < cap v) :
    let s := vrun v programs sched
    Finished s → (valid s.shared = true ↔ 0 ≤ s.shared.ctr ∧ s.shared.ctr ≤ cap v) ∧
      (valid s.shared = true → ∃ l', Holds s.shared l' ∧ (l ++ pushedVals s).Perm (l' ++ poppedVals s)) := by
  intro s hf
  have hcap : cap s.shared = cap v := (vinv_run h programs sched).hcap
  have hiff : valid s.shared = true ↔ 0 ≤ s.shared.ctr ∧ s.shared.ctr ≤ cap v := by
    constructor
    · intro hv
      unfold valid at hv
      rw [if_neg (by omega), hcap] at hv
      simp at hv
      exact ⟨hv.1.1.1, hv.1.1.2⟩
    · rintro ⟨h0, h1⟩
      obtain ⟨l', h2, -⟩ := holds_of_range h programs sched hf h0 h1
      exact valid_of_holds h2
  exact ⟨hiff, fun hv => holds_of_range h programs sched hf (hiff.1 hv).1 (hiff.1 hv).2⟩

/-- C22 is false in general (empty boundary): two threads pop from a vector with one element; both see it non-empty.
Afterwards `valid()` is false, and a push into the empty vector of capacity 1 fails. -/
theorem C22_counterexample_pops :
    ∃ v : Vec Nat, Holds v [5] ∧ cap v = 1 ∧ ∃ sched, let s := vrun v [[.pop ()], [.pop ()]] sched
      Finished s ∧ valid s.shared = false ∧ size s.shared = 0 ∧
      ∃ v', pushBack s.shared 9 = .ok (false, v') := by
  obtain ⟨v', e, -, -⟩ := push_holds (create_holds (α := Nat) 1) 5
  refine ⟨{ slots := { cap := 1, locks := fun _ => false, occ := fun p => decide (p < 1),
                       data := fun p => if p = 0 then some 5 else none, err := false }, ctr := 1 }, ?_, rfl,
    [0, 1, 0, 1, 1, 0, 0, 0, 0, 0, 0, 0], ?_⟩
  · refine ⟨by decide, rfl, by simp, by simp, rfl, ?_⟩
    intro p hp
    simp only [cap] at hp
    have : p = 0 := by omega
    subst this; rfl
  · refine ⟨?_, by decide, by decide, ?_⟩
    · unfold Finished; decide
    · exact ⟨_, rfl⟩

/-- C22 is false in general (full boundary): two threads push into a vector with one free slot; both see it non-full.
Afterwards `valid()` is false, and a pop from the non-empty vector fails. -/
theorem C22_counterexample_pushes :
    ∃ sched, let s := vrun (create 1 : Vec Nat) [[.push () 3], [.push () 4]] sched
      Finished s ∧ valid s.shared = false ∧ size s.shared = 1 ∧
      ∃ v', popBack s.shared = .ok (none, v') := by
  refine ⟨[0, 1, 0, 1, 1, 0, 0, 0, 0, 0, 0, 0], ?_, by decide, by decide, ⟨_, rfl⟩⟩
  unfold Finished; decide

/-- C22: `clear()` does not repair a vector whose counter is negative: it returns early because `empty()` holds. -/
theorem C22_clear_does_not_repair (v : Vec α) (h : v.ctr < 0) (order : List Nat) : clear order v = .ok v := by
  have : empty v = true := by simp [empty, size, clampSize, h]
  simp [clear, this]

/-- A finished execution of C18 with a failing push, so that C18–C21 are not vacuous. -/
example : (vrun (create 2 : Vec Nat) [[.push () 1, .push () 2], [.push () 3]] ((List.range 40).map (· % 2))).threads.map
      (fun t => (t.todo, t.done)) =
    [([], [(.push () 1, .pushed), (.push () 2, .pushFailed)]), ([], [(.push () 3, .pushed)])] := by decide

end Stdgpu.Props
