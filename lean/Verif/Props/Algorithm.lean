import Verif.Model.Algorithm
import Mathlib.Data.List.Perm.Basic
import Mathlib.Tactic.Ring
/-! C45, C46, C47: algorithms. -/
namespace Stdgpu.Props
open Stdgpu.Algorithm

variable {α M R : Type}

/-- Reachable loop states satisfy every invariant. -/
theorem loop_inv {n : Nat} {body : Nat → Body M R} (I : LoopState M R → Prop)
    (hstep : ∀ s i f, I s → i < n → (body i)[s.pc i]? = some f →
      I { mem := (f s.mem (s.reg i)).1, reg := fun j => if j = i then (f s.mem (s.reg i)).2 else s.reg j,
          pc := fun j => if j = i then s.pc i + 1 else s.pc j }) :
    ∀ (sched : List Nat) (s : LoopState M R), I s → I (loopRun n body s sched) := by
  intro sched
  induction sched with
  | nil => intro s h; exact h
  | cons i sched ih =>
    intro s h
    apply ih
    unfold loopStep
    split
    · next hi =>
      split
      · exact h
      · next f hf => exact hstep s i f h hi hf
    · exact h

/-! ### C45 -/

/-- A complete execution of a parallel loop. -/
def Complete (n : Int) (body : Nat → Body M R) (s : LoopState M R) : Prop := loopDone n.toNat body s

/-- C45: every loop can be completed, whatever has happened so far (there is no schedule that blocks it). -/
theorem C45_loop_completes (n : Int) (body : Nat → Body M R) (mem : M) (r : R) (sched : List Nat) :
    ∃ sched', Complete n body (forEachIndex n body mem r (sched ++ sched')) := by
  have hle : ∀ (sched : List Nat) (s : LoopState M R), (∀ i, s.pc i ≤ (body i).length) →
      ∀ i, (loopRun n.toNat body s sched).pc i ≤ (body i).length := by
    intro sched s h
    refine loop_inv (fun s => ∀ i, s.pc i ≤ (body i).length) ?_ sched s h
    intro s i f hs hi hf j
    simp only
    split
    · next hj =>
      subst hj
      have := (List.getElem?_eq_some_iff.1 hf).1
      omega
    · exact hs j
  have key : ∀ (m : Nat) (s : LoopState M R), m ≤ n.toNat → (∀ i, s.pc i ≤ (body i).length) → ∃ sched',
      ∀ i, (loopRun n.toNat body s sched').pc i = if i < m then (body i).length else s.pc i := by
    intro m
    induction m with
    | zero => intro s _ _; exact ⟨[], fun i => by simp [loopRun]⟩
    | succ m ih =>
      intro s hm hs
      obtain ⟨s1, h1⟩ := ih s (by omega) hs
      have one : ∀ (k : Nat) (s : LoopState M R), s.pc m + k ≤ (body m).length →
          ∀ i, (loopRun n.toNat body s (List.replicate k m)).pc i = if i = m then s.pc m + k else s.pc i := by
        intro k
        induction k with
        | zero => intro s _ i; simp [loopRun]; intro h; rw [h]
        | succ k ihk =>
          intro s hk i
          have hlt : s.pc m < (body m).length := by omega
          have e : (loopStep n.toNat body s m).pc = fun j => if j = m then s.pc m + 1 else s.pc j := by
            unfold loopStep
            rw [if_pos (by omega), List.getElem?_eq_getElem hlt]
          rw [List.replicate_succ]
          show (loopRun n.toNat body (loopStep n.toNat body s m) (List.replicate k m)).pc i = _
          rw [ihk _ (by rw [e]; simp; omega) i, e]
          by_cases hi : i = m <;> simp [hi]; omega
      have hle1 := hle s1 s hs m
      refine ⟨s1 ++ List.replicate ((body m).length - (loopRun n.toNat body s s1).pc m) m, fun i => ?_⟩
      have : loopRun n.toNat body s (s1 ++ List.replicate ((body m).length - (loopRun n.toNat body s s1).pc m) m) =
          loopRun n.toNat body (loopRun n.toNat body s s1)
            (List.replicate ((body m).length - (loopRun n.toNat body s s1).pc m) m) := by
        unfold loopRun; rw [List.foldl_append]
      rw [this, one _ _ (by omega) i]
      by_cases hi : i = m
      · rw [if_pos hi, if_pos (by omega), hi]; omega
      · rw [if_neg hi, h1]
        by_cases hlt : i < m
        · rw [if_pos hlt, if_pos (by omega)]
        · rw [if_neg hlt, if_neg (by omega)]
  obtain ⟨s', h'⟩ := key n.toNat (forEachIndex n body mem r sched) (le_refl _)
    (hle sched _ (fun i => by simp [loopInit]))
  refine ⟨s', fun i hi => ?_⟩
  have e : forEachIndex n body mem r (sched ++ s') = loopRun n.toNat body (forEachIndex n body mem r sched) s' := by
    unfold forEachIndex loopRun; rw [List.foldl_append]
  rw [e, h', if_pos hi]

/-- A function that counts its calls per index. -/
def visitBody (i : Nat) : Body (Nat → Nat) Unit := [fun m r => (fun j => if j = i then m j + 1 else m j, r)]

/-- C45: `for_each_index` calls the function exactly once for every index of `[0, n)` and for no other one. -/
theorem C45_visits_once (n : Int) (sched : List Nat)
    (hc : Complete n visitBody (forEachIndex n visitBody (fun _ => 0) () sched)) (i : Nat) :
    (forEachIndex n visitBody (fun _ => 0) () sched).mem i = if (i : Int) < n then 1 else 0 := by
  have hI := loop_inv (n := n.toNat) (body := visitBody)
    (fun s => (∀ j, s.mem j = s.pc j) ∧ ∀ j, n.toNat ≤ j → s.pc j = 0) (by
      rintro s i f ⟨h1, h2⟩ hi hf
      obtain ⟨hl, hf⟩ := List.getElem?_eq_some_iff.1 hf
      simp only [visitBody, List.length_singleton] at hl
      have h0 : s.pc i = 0 := by omega
      simp only [visitBody, h0, List.getElem_cons_zero] at hf
      subst hf
      refine ⟨fun j => ?_, fun j hj => ?_⟩
      · by_cases hj : j = i
        · subst hj; simp [h1]
        · simp [hj, h1]
      · simp only; rw [if_neg (by omega)]; exact h2 j hj) sched (loopInit (fun _ => 0) ()) ⟨fun _ => rfl, fun _ _ => rfl⟩
  have h1 := hI.1 i
  by_cases hi : (i : Int) < n
  · rw [if_pos hi]
    have := hc i (by omega)
    simp only [visitBody, List.length_singleton] at this
    exact h1.trans this
  · rw [if_neg hi]
    exact h1.trans (hI.2 i (by omega))

def writeBody (base : Int) (g : Nat → α) (i : Nat) : Body (Mem α) Unit := [fun m r => (write m (base + i) (g i), r)]

/-- Loops that write one value per index. -/
theorem write_loop (n : Nat) (base : Int) (g : Nat → α) (mem : Mem α) (sched : List Nat) :
    let s : LoopState (Mem α) Unit := loopRun n (writeBody base g) (loopInit mem ()) sched
    (∀ i, s.pc i ≤ 1) ∧ (∀ i, n ≤ i → s.pc i = 0) ∧
    ∀ i : Int, s.mem i = if 0 ≤ i - base ∧ s.pc (i - base).toNat = 1 then g (i - base).toNat else mem i := by
  apply loop_inv (I := fun s : LoopState (Mem α) Unit => (∀ i, s.pc i ≤ 1) ∧ (∀ i, n ≤ i → s.pc i = 0) ∧
    ∀ i : Int, s.mem i = if 0 ≤ i - base ∧ s.pc (i - base).toNat = 1 then g (i - base).toNat else mem i)
  · rintro s i f ⟨h1, h2, h3⟩ hi hf
    obtain ⟨hl, hf⟩ := List.getElem?_eq_some_iff.1 hf
    simp only [writeBody, List.length_singleton] at hl
    have h0 : s.pc i = 0 := by omega
    simp only [writeBody, h0, List.getElem_cons_zero] at hf
    subst hf
    refine ⟨fun j => ?_, fun j hj => ?_, fun a => ?_⟩
    · simp only; split
      · omega
      · exact h1 j
    · simp only; rw [if_neg (by omega)]; exact h2 j hj
    · simp only [write, h0]
      by_cases ha : a = base + i
      · subst ha
        have e : (base + (i : Int) - base).toNat = i := by omega
        rw [if_pos rfl, if_pos ⟨by omega, by rw [e]; simp⟩, e]
      · rw [if_neg ha, h3 a]
        by_cases hneg : 0 ≤ a - base
        · rw [if_neg (c := (a - base).toNat = i) (by omega)]
        · rw [if_neg (fun hx => hneg hx.1), if_neg (fun hx => hneg hx.1)]
  · exact ⟨fun _ => by simp [loopInit], fun _ _ => rfl, fun i => by simp [loopInit]⟩

theorem write_loop_done (n : Int) (base : Int) (g : Nat → α) (mem : Mem α) (sched : List Nat)
    (hc : Complete n (writeBody base g)
      (forEachIndex n (writeBody base g) mem () sched)) (a : Int) :
    (forEachIndex n (writeBody base g) mem () sched).mem a =
      if base ≤ a ∧ a < base + n then g (a - base).toNat else mem a := by
  obtain ⟨h1, h2, h3⟩ := write_loop n.toNat base g mem sched
  have h3 := h3 a
  unfold forEachIndex at hc ⊢
  rw [h3]
  by_cases ha : base ≤ a ∧ a < base + n
  · have hd := hc (a - base).toNat (by omega)
    rw [if_pos ha, if_pos ⟨by omega, hd⟩]
  · rw [if_neg ha, if_neg]
    rintro ⟨hx, hy⟩
    rw [h2 _ (by omega)] at hy
    omega

/-- C45: `fill` and `fill_n` write the value to exactly the elements of the range, for every schedule. -/
theorem C45_fill (begin_ n : Int) (value : α) (mem : Mem α) (sched : List Nat)
    (hc : Complete n (fillBody begin_ value) (fillN begin_ n value mem sched).1) :
    (∀ a, (fillN begin_ n value mem sched).1.mem a = if begin_ ≤ a ∧ a < begin_ + n then value else mem a) ∧
    (fillN begin_ n value mem sched).2 = begin_ + n ∧
    fill begin_ (begin_ + n) value mem sched = (fillN begin_ n value mem sched).1 := by
  refine ⟨fun a => write_loop_done n begin_ (fun _ => value) mem sched hc a, rfl, ?_⟩
  unfold fill
  rw [show begin_ + n - begin_ = n by omega]

/-- C45: `iota` writes `value, value + 1, …`, each obtained from the previous one by an increment. -/
theorem C45_iota {w : Nat} (begin_ n : Int) (value : BitVec w) (mem : Mem (BitVec w)) (sched : List Nat)
    (hc : Complete n (iotaBody begin_ value) (iota begin_ (begin_ + n) value mem sched)) (hn : 0 < n) :
    (iota begin_ (begin_ + n) value mem sched).mem begin_ = value ∧
    (∀ a, begin_ ≤ a → a + 1 < begin_ + n →
      (iota begin_ (begin_ + n) value mem sched).mem (a + 1) = (iota begin_ (begin_ + n) value mem sched).mem a + 1) ∧
    (∀ a, a < begin_ ∨ begin_ + n ≤ a → (iota begin_ (begin_ + n) value mem sched).mem a = mem a) := by
  have h : ∀ a, (iota begin_ (begin_ + n) value mem sched).mem a =
      if begin_ ≤ a ∧ a < begin_ + n then value + BitVec.ofNat w (a - begin_).toNat else mem a := by
    unfold iota at hc ⊢
    rw [show begin_ + n - begin_ = n by omega] at hc ⊢
    exact fun a => write_loop_done n begin_ (fun i => value + BitVec.ofNat w i) mem sched hc a
  refine ⟨?_, ?_, ?_⟩
  · rw [h, if_pos (by omega)]; simp
  · intro a h1 h2
    rw [h, h, if_pos (by omega), if_pos (by omega), BitVec.add_assoc]
    congr 1
    rw [show (a + 1 - begin_).toNat = (a - begin_).toNat + 1 by omega]
    apply BitVec.eq_of_toNat_eq
    simp [BitVec.toNat_ofNat]
  · intro a ha
    rw [h, if_neg (by omega)]

/-- C45: `copy` and `copy_n` transfer every element, for every interleaving of the reads and writes, provided the ranges
do not overlap, or are the same range; nothing else is written. -/
theorem C45_copy (begin_ n out : Int) (mem : Mem α) (sched : List Nat)
    (hov : begin_ + n ≤ out ∨ out + n ≤ begin_ ∨ out = begin_)
    (hc : Complete n (copyBody begin_ out) (copyN begin_ n out mem sched).1) :
    (∀ a, (copyN begin_ n out mem sched).1.mem a = if out ≤ a ∧ a < out + n then mem (begin_ + (a - out)) else mem a) ∧
    (copyN begin_ n out mem sched).2 = out + n ∧
    copy begin_ (begin_ + n) out mem sched = copyN begin_ n out mem sched := by
  refine ⟨?_, rfl, ?_⟩
  swap
  · unfold copy; rw [show begin_ + n - begin_ = n by omega]
  have hI := loop_inv (n := n.toNat) (body := copyBody (α := α) begin_ out)
    (fun s => (∀ i, n.toNat ≤ i → s.pc i = 0) ∧ (∀ i, s.pc i ≤ 2) ∧
      (∀ i, s.pc i = 1 → s.reg i = some (mem (begin_ + i))) ∧
      ∀ a : Int, s.mem a = if 0 ≤ a - out ∧ s.pc (a - out).toNat = 2 then mem (begin_ + (a - out)) else mem a) (by
      rintro s i f ⟨h1, h2, h3, h4⟩ hi hf
      obtain ⟨hl, hf⟩ := List.getElem?_eq_some_iff.1 hf
      simp only [copyBody, List.length_cons, List.length_nil] at hl
      have hpc : s.pc i = 0 ∨ s.pc i = 1 := by omega
      rcases hpc with h0 | h0
      · -- read
        simp only [copyBody, h0, List.getElem_cons_zero] at hf
        subst hf
        refine ⟨fun j hj => ?_, fun j => ?_, fun j hj => ?_, fun a => ?_⟩
        · simp only; rw [if_neg (by omega)]; exact h1 j hj
        · simp only; split
          · omega
          · exact h2 j
        · simp only at hj ⊢
          by_cases hji : j = i
          · subst hji
            rw [if_pos rfl, h4]
            rw [if_neg]
            rintro ⟨hx, hy⟩
            rcases hov with ho | ho | ho
            · omega
            · rw [h1 _ (by omega)] at hy; omega
            · rw [show (begin_ + (j : Int) - out).toNat = j by omega, h0] at hy; omega
          · rw [if_neg hji] at hj ⊢; exact h3 j hj
        · simp only [h0]
          rw [h4 a]
          by_cases hai : 0 ≤ a - out ∧ (a - out).toNat = i
          · rw [if_neg (by rw [hai.2, h0]; omega), if_neg (by rw [hai.2]; simp)]
          · by_cases hneg : 0 ≤ a - out
            · rw [if_neg (c := (a - out).toNat = i) (fun hx => hai ⟨hneg, hx⟩)]
            · rw [if_neg (fun hx => hneg hx.1), if_neg (fun hx => hneg hx.1)]
      · -- write
        simp only [copyBody, h0, List.getElem_cons_succ, List.getElem_cons_zero] at hf
        subst hf
        have hr := h3 i h0
        refine ⟨fun j hj => ?_, fun j => ?_, fun j hj => ?_, fun a => ?_⟩
        · simp only; rw [if_neg (by omega)]; exact h1 j hj
        · simp only; split
          · omega
          · exact h2 j
        · simp only at hj ⊢
          by_cases hji : j = i
          · subst hji; simp [h0] at hj
          · rw [if_neg hji] at hj ⊢; exact h3 j hj
        · simp only [hr, write, h0]
          by_cases ha : a = out + i
          · subst ha
            have e : (out + (i : Int) - out).toNat = i := by omega
            rw [if_pos rfl, if_pos ⟨by omega, by rw [e]; simp⟩]
            congr 1; omega
          · rw [if_neg ha, h4 a]
            by_cases hneg : 0 ≤ a - out
            · rw [if_neg (c := (a - out).toNat = i) (by omega)]
            · rw [if_neg (fun hx => hneg hx.1), if_neg (fun hx => hneg hx.1)])
    sched (loopInit mem none) ⟨fun _ _ => rfl, fun _ => by simp [loopInit], fun i h => by simp [loopInit] at h,
      fun a => by simp [loopInit]⟩
  intro a
  obtain ⟨h1, h2, h3, h4⟩ := hI
  have h4 := h4 a
  unfold copyN forEachIndex at hc ⊢
  simp only at hc ⊢
  rw [h4]
  by_cases ha : out ≤ a ∧ a < out + n
  · have hd := hc (a - out).toNat (by omega)
    rw [if_pos ha, if_pos ⟨by omega, hd⟩]
  · rw [if_neg ha, if_neg]
    rintro ⟨hx, hy⟩
    rw [h1 _ (by omega)] at hy
    omega

/-- A complete schedule in which the threads interleave. -/
example : Complete 3 (copyBody (α := Nat) 0 10) (copyN 0 3 10 (fun a => a.toNat) [2, 0, 1, 0, 2, 1]).1 ∧
    (copyN 0 3 10 (fun a => a.toNat) [2, 0, 1, 0, 2, 1]).1.mem 12 = 2 := by
  refine ⟨?_, by decide⟩
  intro i hi
  have : i = 0 ∨ i = 1 ∨ i = 2 := by omega
  rcases this with rfl | rfl | rfl <;> decide

/-- Why the ranges must not overlap: the result then depends on the schedule. -/
theorem C45_overlapping_copy_counterexample : ∃ s1 s2 : List Nat,
    Complete 2 (copyBody (α := Nat) 0 1) (copyN 0 2 1 (fun a => a.toNat) s1).1 ∧
    Complete 2 (copyBody (α := Nat) 0 1) (copyN 0 2 1 (fun a => a.toNat) s2).1 ∧
    (copyN 0 2 1 (fun a => a.toNat) s1).1.mem 2 ≠ (copyN 0 2 1 (fun a => a.toNat) s2).1.mem 2 := by
  refine ⟨[0, 0, 1, 1], [1, 1, 0, 0], ?_, ?_, by decide⟩
  all_goals
    intro i hi
    have : i = 0 ∨ i = 1 := by omega
    rcases this with rfl | rfl <;> decide

/-! ### C46 -/

theorem eval_foldl (op : α → α → α) (ha : ∀ a b c, op (op a b) c = op a (op b c)) (t : RTree α) :
    ∀ x, op x (t.eval op) = t.leaves.foldl op x := by
  induction t with
  | leaf a => intro x; rfl
  | node l r ihl ihr =>
    intro x
    simp only [RTree.eval, RTree.leaves, List.foldl_append]
    rw [← ihr, ← ihl, ha]

/-- The operator extended by a neutral element. -/
def optOp (op : α → α → α) : Option α → α → Option α
  | none, a => some a
  | some b, a => some (op b a)

theorem eval_opt (op : α → α → α) (ha : ∀ a b c, op (op a b) c = op a (op b c)) (t : RTree α) :
    t.leaves.foldl (optOp op) none = some (t.eval op) := by
  have hs : ∀ (l : List α) (x : α), l.foldl (optOp op) (some x) = some (l.foldl op x) := by
    intro l
    induction l with
    | nil => intro x; rfl
    | cons a l ih => intro x; simp only [List.foldl_cons, optOp]; exact ih _
  induction t with
  | leaf a => rfl
  | node l r ihl ihr =>
    simp only [RTree.leaves, List.foldl_append, ihl, RTree.eval]
    rw [hs, ← eval_foldl op ha r]

/-- C46: for an associative and commutative operator the result is `init` reduced with `f 0, …, f (n - 1)` in order, on
both paths and for every grouping and order the library may use; a size that is not positive gives `init`. -/
theorem C46_transform_reduce (hip : Bool) (n : Int) (init : α) (op : α → α → α) (ha : ∀ a b c, op (op a b) c = op a (op b c))
    (hcomm : ∀ a b, op a b = op b a) (f : Nat → α) (t : RTree α) (ht : LibraryTree n init f t) :
    transformReduceIndex hip n init op f t = ((List.range n.toNat).map f).foldl op init ∧
    (n ≤ 0 → transformReduceIndex hip n init op f t = init) := by
  have key : transformReduceIndex hip n init op f t = ((List.range n.toNat).map f).foldl op init := by
    unfold transformReduceIndex
    split
    · unfold transformReduceHost
      split
      · next h => rw [show n.toNat = 0 by omega]; rfl
      · rfl
    · have hrc : RightCommutative (optOp op) := ⟨fun x a b => by
        cases x with
        | none => simp [optOp, hcomm a b]
        | some x => simp only [optOp]; rw [ha, hcomm a b, ← ha]⟩
      have h1 := ht.foldl_eq (f := optOp op) none
      rw [eval_opt op ha t] at h1
      have hs : ∀ (l : List α) (x : α), l.foldl (optOp op) (some x) = some (l.foldl op x) := by
        intro l
        induction l with
        | nil => intro x; rfl
        | cons a l ih => intro x; simp only [List.foldl_cons, optOp]; exact ih _
      simp only [List.foldl_cons, optOp, hs, Option.some.injEq] at h1
      exact h1
  refine ⟨key, fun hn => ?_⟩
  rw [key, show n.toNat = 0 by omega]; rfl

/-- C46: without commutativity it suffices that the library keeps the order (`init` first). -/
theorem C46_transform_reduce_ordered (hip : Bool) (n : Int) (init : α) (op : α → α → α)
    (ha : ∀ a b c, op (op a b) c = op a (op b c)) (f : Nat → α) (t : RTree α)
    (ht : t.leaves = init :: (List.range n.toNat).map f) :
    transformReduceIndex hip n init op f t = ((List.range n.toNat).map f).foldl op init := by
  unfold transformReduceIndex
  split
  · unfold transformReduceHost
    split
    · next h => rw [show n.toNat = 0 by omega]; rfl
    · rfl
  · have h1 := eval_opt op ha t
    have hs : ∀ (l : List α) (x : α), l.foldl (optOp op) (some x) = some (l.foldl op x) := by
      intro l
      induction l with
      | nil => intro x; rfl
      | cons a l ih => intro x; simp only [List.foldl_cons, optOp]; exact ih _
    rw [ht] at h1
    simp only [List.foldl_cons, optOp, hs, Option.some.injEq] at h1
    exact h1.symm

/-- The reductions the library itself uses: counting and conjunction. -/
theorem C46_sum_and_conjunction (hip : Bool) (n : Int) (f : Nat → Int) (g : Nat → Bool) (t : RTree Int) (u : RTree Bool)
    (ht : LibraryTree n 0 f t) (hu : LibraryTree n true g u) :
    transformReduceIndex hip n 0 (· + ·) f t = ((List.range n.toNat).map f).sum ∧
    (transformReduceIndex hip n true (· && ·) g u = true ↔ ∀ i : Nat, (i : Int) < n → g i = true) := by
  rw [(C46_transform_reduce hip n 0 (· + ·) Int.add_assoc Int.add_comm f t ht).1,
    (C46_transform_reduce hip n true (· && ·) Bool.and_assoc Bool.and_comm g u hu).1]
  constructor
  · rw [List.sum_eq_foldl]
  · have : ∀ (l : List Bool) (b : Bool), l.foldl (· && ·) b = true ↔ b = true ∧ ∀ x ∈ l, x = true := by
      intro l
      induction l with
      | nil => intro b; simp
      | cons a l ih => intro b; rw [List.foldl_cons, ih]; simp; tauto
    rw [this]
    simp only [List.mem_map, List.mem_range, true_and, forall_exists_index, and_imp, forall_apply_eq_imp_iff₂]
    constructor
    · intro h i hi; exact h i (by omega)
    · intro h i hi; exact h i (by omega)

/-- A tree with another grouping and order. -/
example : LibraryTree 4 100 (fun i => (i : Int))
    (.node (.node (.leaf 3) (.leaf 1)) (.node (.leaf 0) (.node (.leaf 100) (.leaf 2)))) := by
  unfold LibraryTree transformed RTree.leaves; decide

/-! ### C47 -/

/-- `operator<` is a strict weak order. -/
structure StrictWeak (lt : α → α → Bool) : Prop where
  irrefl : ∀ a, lt a a = false
  trans : ∀ a b c, lt a b = true → lt b c = true → lt a c = true
  negTrans : ∀ a b c, lt a b = false → lt b c = false → lt a c = false

/-- C47: `min` and `max` return one of the arguments, none is smaller (larger), and on ties it is the first one. -/
theorem C47_min_max (lt : α → α → Bool) (h : StrictWeak lt) (a b : α) :
    ((min lt a b = a ∨ min lt a b = b) ∧ lt a (min lt a b) = false ∧ lt b (min lt a b) = false ∧
      (lt a b = false → lt b a = false → min lt a b = a)) ∧
    ((max lt a b = a ∨ max lt a b = b) ∧ lt (max lt a b) a = false ∧ lt (max lt a b) b = false ∧
      (lt a b = false → lt b a = false → max lt a b = a)) := by
  have asym : ∀ x y, lt x y = true → lt y x = false := by
    intro x y hxy
    by_contra hc
    rw [Bool.not_eq_false] at hc
    have := h.trans x y x hxy hc
    rw [h.irrefl] at this
    simp at this
  constructor
  · unfold Algorithm.min
    by_cases hba : lt b a = true
    · simp [hba, asym _ _ hba, h.irrefl]
    · simp [hba, h.irrefl]
  · unfold Algorithm.max
    by_cases hba : lt a b = true
    · simp [hba, asym _ _ hba, h.irrefl]
    · simp [hba, h.irrefl]

/-- C47: `clamp` is the value when it is inside the bounds, otherwise the bound it exceeds; the result is inside. -/
theorem C47_clamp (lt : α → α → Bool) (h : StrictWeak lt) (v lo hi : α) (hb : lt hi lo = false) :
    (lt v lo = false → lt hi v = false → clamp lt v lo hi = v) ∧
    (lt v lo = true → clamp lt v lo hi = lo) ∧ (lt hi v = true → clamp lt v lo hi = hi) ∧
    lt (clamp lt v lo hi) lo = false ∧ lt hi (clamp lt v lo hi) = false := by
  have hx : lt hi v = true → lt v lo = false := by
    intro h1
    by_contra hc
    rw [Bool.not_eq_false] at hc
    have := h.trans _ _ _ h1 hc
    rw [hb] at this; simp at this
  unfold clamp
  refine ⟨fun h1 h2 => by simp [h1, h2], fun h1 => by simp [h1], fun h1 => by simp [h1, hx h1], ?_, ?_⟩
  · by_cases h1 : lt v lo = true
    · simp [h1, h.irrefl]
    · by_cases h2 : lt hi v = true
      · simp [h1, h2, hb]
      · simp [h1, h2]
  · by_cases h1 : lt v lo = true
    · simp [h1, hb]
    · by_cases h2 : lt hi v = true
      · simp [h1, h2, h.irrefl]
      · simp [h1, h2]

/-- An order with ties: pairs compared by their first component. -/
example : StrictWeak (fun a b : Nat × Nat => decide (a.1 < b.1)) ∧
    min (fun a b : Nat × Nat => decide (a.1 < b.1)) (2, 7) (2, 8) = (2, 7) := by
  refine ⟨⟨by simp, by simp; omega, by simp; omega⟩, by decide⟩

end Stdgpu.Props
