import Verif.Model.InsertCopy
import Verif.Props.Vector
import Verif.Props.Deque
import Verif.Props.UnorderedBulk
/-! C77: parallel copies through insert iterators. -/
namespace Stdgpu.Props
open Stdgpu Stdgpu.Spec Stdgpu.InsertCopy Stdgpu.Conc

theorem filterMap_range_get {A : Type} (xs : List A) : (List.range xs.length).filterMap (fun i => xs[i]?) = xs := by
  induction xs with
  | nil => rfl
  | cons a xs ih =>
    rw [List.length_cons, List.range_succ_eq_map, List.filterMap_cons]
    simp only [List.getElem?_cons_zero, List.filterMap_map]
    congr 1

theorem programs_flatten {A B : Type} (op : A → B) {dist : List (List Nat)} {xs : List A} (h : Distributes dist xs.length) :
    (InsertCopy.programs op dist xs).flatten.Perm (xs.map op) := by
  have e : (InsertCopy.programs op dist xs).flatten = dist.flatten.filterMap (fun i => xs[i]?.map op) := by
    unfold InsertCopy.programs
    induction dist with
    | nil => rfl
    | cons a d ih => simp
  rw [e]
  refine (h.filterMap _).trans ?_
  have e2 : (List.range xs.length).filterMap (fun i => xs[i]?.map op) = xs.map op := by
    conv_rhs => rw [← filterMap_range_get xs, List.map_filterMap]
  rw [e2]

theorem programs_mem {A B : Type} (op : A → B) {dist : List (List Nat)} {xs : List A} {p : List B}
    (h : p ∈ InsertCopy.programs op dist xs) : ∀ b ∈ p, ∃ a ∈ xs, b = op a := by
  obtain ⟨is, -, rfl⟩ := List.mem_map.1 h
  intro b hb
  obtain ⟨i, -, hi⟩ := List.mem_filterMap.1 hb
  rw [Option.map_eq_some_iff] at hi
  obtain ⟨a, ha, rfl⟩ := hi
  exact ⟨a, List.mem_of_getElem? ha, rfl⟩

section
open Stdgpu.SlotConc
variable {C K F α : Type}

theorem results_map_fst {programs : List (List (Op K α))} {s : Sys (Mem C α) (Thread K F α)} (hlen : s.threads.length = programs.length)
    (hprog : ∀ (i : Nat) (t : Thread K F α), s.threads[i]? = some t → programs[i]? = some (t.done.map (·.1) ++ t.todo))
    (hf : Finished s) : (results s).map (·.1) = programs.flatten := by
  have e : programs = s.threads.map (fun t => t.done.map (·.1)) := by
    apply List.ext_getElem?
    intro i
    rw [List.getElem?_map]
    cases ht : s.threads[i]? with
    | none =>
      rw [List.getElem?_eq_none_iff] at ht
      rw [List.getElem?_eq_none (by omega)]; rfl
    | some t =>
      rw [hprog i t ht, hf t (List.mem_of_getElem? ht), List.append_nil]; rfl
  rw [e]
  unfold results
  rw [List.map_flatMap, List.flatMap_def]

/-- The value of a push. -/
def opVal : Op K α → Option α
  | .push _ x => some x
  | .pop _ => none

theorem pushVal_sublist (l : List (Op K α × Res α)) : (l.filterMap pushVal).Sublist ((l.map (·.1)).filterMap opVal) := by
  induction l with
  | nil => simp
  | cons a l ih =>
    rcases a with ⟨op, r⟩
    rw [List.map_cons]
    cases op with
    | push k x =>
      rw [List.filterMap_cons, List.filterMap_cons]
      cases r <;> simp only [pushVal, opVal]
      · exact ih.cons₂ _
      all_goals exact ih.cons _
    | pop k =>
      rw [List.filterMap_cons, List.filterMap_cons]
      cases r <;> simpa only [pushVal, opVal] using ih

end

section
open Stdgpu.SlotConc Stdgpu.Vector
variable {α : Type}

theorem opVal_push {K : Type} (k : K) (xs : List α) : (xs.map (Op.push k)).filterMap opVal = xs := by
  induction xs with
  | nil => rfl
  | cons a xs ih => rw [List.map_cons, List.filterMap_cons]; simp only [opVal]; rw [ih]

theorem subperm_pushed {C K F : Type} {k : K} {dist : List (List Nat)} {xs : List α} {s : Sys (Mem C α) (Thread K F α)}
    (hd : Distributes dist xs.length) (he : (results s).map (·.1) = (InsertCopy.programs (.push k) dist xs).flatten) :
    (pushedVals s).Subperm xs := by
  have h1 := pushVal_sublist (results s)
  rw [he] at h1
  have h2 := (programs_flatten (Op.push k) hd).filterMap opVal
  rw [opVal_push] at h2
  exact h1.subperm.trans h2.subperm

/-- C77. Copying `xs` through `back_inserter` to a vector with room for them, with any distribution of the elements to
threads: the copy can always be completed, and in every schedule the vector holds afterwards its old elements followed by
those of `xs`, each exactly once, in some order; `valid()` holds. -/
theorem C77_back_inserter_vector {v : Vec α} {l : List α} (h : Holds v l) (xs : List α) (dist : List (List Nat))
    (hd : Distributes dist xs.length) (hroom : l.length + xs.length ≤ cap v) (sched : List Nat) :
    (∃ sched', Finished (backInsertVector v dist xs (sched ++ sched'))) ∧
    (Finished (backInsertVector v dist xs sched) →
      valid (backInsertVector v dist xs sched).shared = true ∧
      ∃ l', l'.Perm xs ∧ Holds (backInsertVector v dist xs sched).shared (l ++ l')) := by
  refine ⟨C21_no_deadlock h _ sched, fun hf => ?_⟩
  have hfl := programs_flatten (Op.push ()) hd
  have hpush : ∀ p ∈ InsertCopy.programs (Op.push ()) dist xs, ∀ op ∈ p, op.isPush = true := by
    intro p hp op ho
    obtain ⟨a, -, rfl⟩ := programs_mem _ hp op ho
    rfl
  have hlen : (InsertCopy.programs (Op.push ()) dist xs).flatten.length = xs.length := by rw [hfl.length_eq, List.length_map]
  have hi := vinv_run h (InsertCopy.programs (Op.push ()) dist xs) sched
  have hsub := subperm_pushed hd (results_map_fst hi.len hi.prog hf)
  obtain ⟨c1, -, l', c2, c3, -, -⟩ := C18_concurrent_push h _ hpush sched hf
  have hpe : l'.Perm xs := by
    refine c2.trans (hsub.perm_of_length_le ?_)
    change xs.length ≤ (pushedVals (vrun v (InsertCopy.programs (Op.push ()) dist xs) sched)).length
    rw [c1, hlen]; omega
  obtain ⟨-, k2⟩ := C22_valid_after_concurrent_use_partial h (InsertCopy.programs (Op.push ()) dist xs)
    (by have := List.countP_le_length (p := fun op : Op Unit α => op.isPush) (l := (InsertCopy.programs (Op.push ()) dist xs).flatten)
        omega)
    (by
      rw [List.countP_eq_zero.2]
      · omega
      · intro op ho
        obtain ⟨p, hp, ho⟩ := List.mem_flatten.1 ho
        simp [hpush p hp op ho]) sched
  obtain ⟨k3, l2, k4, k5⟩ := k2 hf
  refine ⟨k3, l', hpe, ?_⟩
  change Holds (backInsertVector v dist xs sched).shared l2 at k4
  have hcap : cap (backInsertVector v dist xs sched).shared = cap v := hi.hcap
  have e : l2 = l ++ l' := by
    apply List.ext_getElem?
    intro p
    by_cases hp : p < cap v
    · rw [← c3 p hp]; exact (k4.data p (by rw [hcap]; exact hp)).symm
    · rw [List.getElem?_eq_none (by have := k4.len; rw [hcap] at this; omega),
        List.getElem?_eq_none (by rw [List.length_append, hpe.length_eq]; omega)]
  rw [← e]; exact k4

/-- C77. Without enough room the vector is filled: it holds its old elements followed by some of the values, none more
often than it is in `xs`. -/
theorem C77_back_inserter_vector_full {v : Vec α} {l : List α} (h : Holds v l) (xs : List α) (dist : List (List Nat))
    (hd : Distributes dist xs.length) (hfull : cap v < l.length + xs.length) (sched : List Nat)
    (hf : Finished (backInsertVector v dist xs sched)) :
    ∃ l', l'.Subperm xs ∧ (l ++ l').length = cap v ∧ size (backInsertVector v dist xs sched).shared = cap v ∧
      ∀ p, p < cap v → (backInsertVector v dist xs sched).shared.slots.data p = (l ++ l')[p]? := by
  have hfl := programs_flatten (Op.push ()) hd
  have hpush : ∀ p ∈ InsertCopy.programs (Op.push ()) dist xs, ∀ op ∈ p, op.isPush = true := by
    intro p hp op ho
    obtain ⟨a, -, rfl⟩ := programs_mem _ hp op ho
    rfl
  have hlen : (InsertCopy.programs (Op.push ()) dist xs).flatten.length = xs.length := by rw [hfl.length_eq, List.length_map]
  have hi := vinv_run h (InsertCopy.programs (Op.push ()) dist xs) sched
  have hsub := subperm_pushed hd (results_map_fst hi.len hi.prog hf)
  obtain ⟨c1, -, l', c2, c3, -, c5⟩ := C18_concurrent_push h _ hpush sched hf
  have hll := h.len
  have e : (l ++ l').length = cap v := by rw [List.length_append, c2.length_eq, c1, hlen]; omega
  refine ⟨l', c2.subperm.trans hsub, e, ?_, c3⟩
  have := c5
  rw [e] at this
  exact this

/-- Five values to two threads; and a vector with too little room. -/
example : Distributes [[3, 0], [1, 4, 2]] [10, 11, 12, 13, 14].length ∧
    ((backInsertVector (create 5 : Vec Nat) [[3, 0], [1, 4, 2]] [10, 11, 12, 13, 14]
      ((List.range 80).map (· % 2))).shared.slots.data 0 = some 13) ∧
    (backInsertVector (create 5 : Vec Nat) [[3, 0], [1, 4, 2]] [10, 11, 12, 13, 14] ((List.range 80).map (· % 2))).threads.map
      (fun t => t.todo) = [[], []] ∧
    (backInsertVector (create 4 : Vec Nat) [[3, 0], [1, 4, 2]] [10, 11, 12, 13, 14] ((List.range 80).map (· % 2))).threads.map
      (fun t => t.todo) = [[], []] := by
  refine ⟨?_, by decide +kernel, by decide +kernel, by decide +kernel⟩
  unfold Distributes; decide
end

section
open Stdgpu.SlotConc Stdgpu.Deque
variable {α : Type}

/-- C77. Copying `xs` through `back_inserter` (`front_inserter`) to a deque with room for them: afterwards the deque holds
its old elements in their order with those of `xs`, each exactly once and in some order, behind (before) them. -/
theorem C77_inserter_deque {d : Deq α} {l : List α} (h : Holds d l) (side : Side) (xs : List α) (dist : List (List Nat))
    (hd : Distributes dist xs.length) (hroom : l.length + xs.length ≤ cap d) (sched : List Nat) :
    (∃ sched', Finished (insertDeque side d dist xs (sched ++ sched'))) ∧
    (Finished (insertDeque side d dist xs sched) →
      valid (insertDeque side d dist xs sched).shared = true ∧
      ∃ l', l'.Perm xs ∧ Holds (insertDeque side d dist xs sched).shared
        (match side with | .back => l ++ l' | .front => l' ++ l)) := by
  have hfl := programs_flatten (Op.push side) hd
  have hpush : ∀ p ∈ InsertCopy.programs (Op.push side) dist xs, ∀ op ∈ p, op.isPush = true := by
    intro p hp op ho
    obtain ⟨a, -, rfl⟩ := programs_mem _ hp op ho
    rfl
  have hlen : (InsertCopy.programs (Op.push side) dist xs).flatten.length = xs.length := by rw [hfl.length_eq, List.length_map]
  obtain ⟨-, k1, k2⟩ := C26_usable_after_concurrent_use_partial h (InsertCopy.programs (Op.push side) dist xs)
    (by have := List.countP_le_length (p := fun op : Op Side α => op.isPush) (l := (InsertCopy.programs (Op.push side) dist xs).flatten)
        omega)
    (by
      rw [List.countP_eq_zero.2]
      · omega
      · intro op ho
        obtain ⟨p, hp, ho⟩ := List.mem_flatten.1 ho
        simp [hpush p hp op ho]) sched
  refine ⟨k1, fun hf => ?_⟩
  obtain ⟨tick, hi⟩ := (dinv_run h (InsertCopy.programs (Op.push side) dist xs) sched).inv
  have hops := results_map_fst hi.len hi.prog hf
  have hsub := subperm_pushed hd hops
  obtain ⟨k3, l2, k4, k5⟩ := k2 hf
  obtain ⟨c1, -, lf, lb, c2, c3, c4, -, c5⟩ := C53_concurrent_push h _ hpush sched hf
  change (pushedVals (insertDeque side d dist xs sched)).length = _ at c1
  change lf.Perm (pushedAt .front (insertDeque side d dist xs sched)) at c2
  change lb.Perm (pushedAt .back (insertDeque side d dist xs sched)) at c3
  change ∀ q, q < cap d → (insertDeque side d dist xs sched).shared.slots.data q =
    (lf ++ l ++ lb)[ringIdx (cap d) (insertDeque side d dist xs sched).shared.ctr.begin q]? at c4
  change Deque.size (insertDeque side d dist xs sched).shared = _ at c5
  change Holds (insertDeque side d dist xs sched).shared l2 at k4
  have hkind : ∀ e ∈ results (insertDeque side d dist xs sched), e.1.kind = side := by
    intro e he
    have hm : e.1 ∈ (InsertCopy.programs (Op.push side) dist xs).flatten := by
      rw [← hops]; exact List.mem_map_of_mem he
    obtain ⟨p, hp, ho⟩ := List.mem_flatten.1 hm
    obtain ⟨a, -, e'⟩ := programs_mem _ hp _ ho
    rw [e']; rfl
  have hat : ∀ k, pushedAt k (insertDeque side d dist xs sched) =
      if side = k then pushedVals (insertDeque side d dist xs sched) else [] := by
    intro k
    unfold pushedAt pushedVals
    by_cases hk : side = k
    · rw [if_pos hk]
      apply List.filterMap_congr
      intro e he
      rw [if_pos (by rw [hkind e he, hk])]
    · rw [if_neg hk, List.filterMap_eq_nil_iff]
      intro e he
      rw [if_neg (by rw [hkind e he]; exact hk)]
  have hpe : (pushedVals (insertDeque side d dist xs sched)).Perm xs :=
    hsub.perm_of_length_le (by
      change xs.length ≤ (pushedVals (insertDeque side d dist xs sched)).length
      rw [c1, hlen]; omega)
  have hcap : cap (insertDeque side d dist xs sched).shared = cap d := hi.hcap
  have hlens : l2.length = (lf ++ l ++ lb).length := by
    have h1 := k4.size
    have h2 := k4.len
    have : Deque.size (insertDeque side d dist xs sched).shared = l2.length := by
      unfold Deque.size Vector.clampSize; split
      · omega
      · split <;> omega
    omega
  have e : l2 = lf ++ l ++ lb := by
    apply List.ext_getElem?
    intro i
    by_cases hp : i < cap d
    · obtain ⟨q, hq, hqi⟩ : ∃ q, q < cap d ∧ ringIdx (cap d) (insertDeque side d dist xs sched).shared.ctr.begin q = i := by
        have hb := k4.begin
        rw [hcap] at hb
        generalize (insertDeque side d dist xs sched).shared.ctr.begin = b at hb ⊢
        by_cases hbi : b + i < cap d
        · exact ⟨b + i, hbi, by unfold ringIdx; rw [if_pos (by omega)]; omega⟩
        · exact ⟨b + i - cap d, by omega, by unfold ringIdx; rw [if_neg (by omega)]; omega⟩
      have h1 := k4.data q (by rw [hcap]; exact hq)
      rw [c4 q hq, hcap, hqi] at h1
      exact h1.symm
    · have := k4.len; rw [hcap] at this
      rw [List.getElem?_eq_none (by omega), List.getElem?_eq_none (by omega)]
  refine ⟨k3, ?_⟩
  cases side with
  | back =>
    rw [hat, if_neg (by decide)] at c2
    rw [hat, if_pos rfl] at c3
    obtain rfl := c2.eq_nil
    exact ⟨lb, c3.trans hpe, by show Holds _ (l ++ lb); rw [← List.nil_append (l ++ lb), ← List.append_assoc, ← e]; exact k4⟩
  | front =>
    rw [hat, if_pos rfl] at c2
    rw [hat, if_neg (by decide)] at c3
    obtain rfl := c3.eq_nil
    exact ⟨lf, c2.trans hpe, by show Holds _ (lf ++ l); rw [← List.append_nil (lf ++ l), ← e]; exact k4⟩

/-- Four values to two threads, before the elements of a deque. -/
example : Distributes [[3, 0], [1, 2]] [10, 11, 12, 13].length ∧
    (insertDeque .front (create 5 : Deq Nat) [[3, 0], [1, 2]] [10, 11, 12, 13] ((List.range 80).map (· % 2))).threads.map
      (fun t => t.todo) = [[], []] ∧
    (insertDeque .front (create 5 : Deq Nat) [[3, 0], [1, 2]] [10, 11, 12, 13] ((List.range 80).map (· % 2))).shared.ctr.begin = 1 := by
  refine ⟨?_, by decide +kernel, by decide +kernel⟩
  unfold Distributes; decide
end

section
open Stdgpu.Unordered Stdgpu.UnorderedConc
variable {K V : Type} {P : Params K V} {bc ec : Nat} {t : Tab V}

/-- C77. Copying `vs` through `inserter` to an unordered container with at least as many unused excess entries: the copy
can always be completed, and in every schedule the container keeps its elements and gets, for every key of `vs` that was
not there, exactly one value of `vs` with this key; no other key appears, no key is stored twice, `valid()` holds. -/
theorem C77_inserter_unordered (hl : KeyLaws P) (h0 : 0 < bc) (h1 : bc < 2 ^ 63) (hr : PReachable P bc ec t) (vs : List V)
    (dist : List (List Nat)) (hd : Distributes dist vs.length) (hroom : vs.length ≤ (freeList t).length) (sched : List Nat) :
    (∃ sched', UFinished (insertUnordered P t dist vs (sched ++ sched'))) ∧
    (UFinished (insertUnordered P t dist vs sched) →
      (∃ added, added.Subperm vs ∧ (contents (insertUnordered P t dist vs sched).shared.tab).Perm (contents t ++ added)) ∧
      (contents (insertUnordered P t dist vs sched).shared.tab).Pairwise (fun v w => P.keyEq (P.keyOf v) (P.keyOf w) = false) ∧
      (∀ k, (lookup P (contents (insertUnordered P t dist vs sched).shared.tab) k).isSome =
        ((lookup P (contents t) k).isSome || vs.any (fun v => P.keyEq (P.keyOf v) k))) ∧
      size (insertUnordered P t dist vs sched).shared.tab = (contents (insertUnordered P t dist vs sched).shared.tab).length ∧
      (∀ ord : Nat → List Nat, (∀ n, (ord n).Perm (List.range n)) →
        valid P ord (insertUnordered P t dist vs sched).shared.tab = .ok true)) := by
  have hfl : (InsertCopy.programs (Op.insert (K := K)) dist vs).flatten.Perm (vs.map Op.insert) := programs_flatten _ hd
  have hp : NoErase (InsertCopy.programs (Op.insert (K := K)) dist vs) := by
    intro p hpm k hk
    obtain ⟨a, -, e⟩ := programs_mem _ hpm _ hk
    cases e
  have hnum : numInserts (InsertCopy.programs (Op.insert (K := K)) dist vs) ≤ (freeList t).length := by
    have := List.countP_le_length (p := fun op : Op K V => match op with | .insert _ => true | _ => false)
      (l := (InsertCopy.programs (Op.insert (K := K)) dist vs).flatten)
    rw [hfl.length_eq, List.length_map] at this
    refine Nat.le_trans ?_ hroom
    exact this
  have hdef : ∀ sc, insertUnordered P t dist vs sc = uexec P t (InsertCopy.programs .insert dist vs) sc := fun _ => rfl
  simp only [hdef]
  refine ⟨C56_inserts_no_deadlock hl h0 h1 hr hp sched, fun hf => ?_⟩
  obtain ⟨f1, f2, -⟩ := C38_final hl h0 h1 hr hp sched hf
  obtain ⟨n1, n2⟩ := C38_no_exhaustion hl h0 h1 hr hp sched hnum hf
  have hops := finished_ops hf
  have hsub : (insertedVals (uexec P t (InsertCopy.programs .insert dist vs) sched)).Subperm vs := by
    have hins : ∀ (l : List (Op K V × Res)), (l.filterMap insertedVal).Sublist
        ((l.map (·.1)).filterMap (fun op => match op with | .insert v => some v | _ => none)) := by
      intro l
      induction l with
      | nil => simp
      | cons a l ih =>
        rcases a with ⟨op, r⟩
        rw [List.map_cons, List.filterMap_cons, List.filterMap_cons]
        cases op <;> cases r <;> simp only [insertedVal]
        all_goals first | exact ih.cons₂ _ | exact ih.cons _ | exact ih
    have h2 := hins (uresults (uexec P t (InsertCopy.programs .insert dist vs) sched))
    rw [hops] at h2
    refine h2.subperm.trans ?_
    have h3 := hfl.filterMap (fun op : Op K V => match op with | .insert v => some v | _ => none)
    refine h3.subperm.trans ?_
    rw [List.filterMap_map]
    have : ((fun op : Op K V => match op with | .insert v => some v | _ => none) ∘ Op.insert) = (some : V → Option V) := rfl
    rw [this, List.filterMap_some]
  refine ⟨⟨_, hsub, f1⟩, C38_keys_distinct hl h0 h1 hr hp sched, ?_, f2, n2⟩
  intro k
  rw [Bool.eq_iff_iff, Bool.or_eq_true, lookup_isSome_iff, lookup_isSome_iff, List.any_eq_true]
  constructor
  · rintro ⟨v, hv, hk⟩
    rcases List.mem_append.1 (f1.mem_iff.1 hv) with h | h
    · exact .inl ⟨v, h, hk⟩
    · exact .inr ⟨v, hsub.subset h, hk⟩
  · rintro (⟨v, hv, hk⟩ | ⟨v, hv, hk⟩)
    · exact ⟨v, f1.mem_iff.2 (List.mem_append_left _ hv), hk⟩
    · have hin : Op.insert v ∈ (uresults (uexec P t (InsertCopy.programs .insert dist vs) sched)).map (·.1) := by
        rw [hops]; exact hfl.mem_iff.2 (List.mem_map_of_mem hv)
      obtain ⟨⟨op, r⟩, hmem, he⟩ := List.mem_map.1 hin
      obtain rfl : op = .insert v := he
      obtain ⟨I, c, x, -, -, -, hI⟩ := ins_inv hl h0 h1 hr hp sched
      have hres := hI.res_mem hmem
      cases r with
      | inserted p =>
        refine ⟨v, f1.mem_iff.2 (List.mem_append_right _ (List.mem_filterMap.2 ⟨_, hmem, rfl⟩)), hk⟩
      | notInserted =>
        obtain ⟨w, hw, hwk⟩ := n1 v hmem
        exact ⟨w, hw, hl.trans _ _ _ hwk hk⟩
      | erased => exact absurd hres id
      | notErased => exact absurd hres id
      | found p => exact absurd hres id
      | notFound => exact absurd hres id

/-- Three values, two of them with the same key, to two threads. -/
example : Distributes [[2, 0], [1]] [(2, 20), (2, 21), (1, 11)].length ∧
    UFinished (insertUnordered exC (exTab exC 1 3 [.insert (1, 10)]) [[2, 0], [1]] [(2, 20), (2, 21), (1, 11)]
      (List.replicate 50 0 ++ List.replicate 60 1 ++ List.replicate 60 0)) ∧
    (contents (insertUnordered exC (exTab exC 1 3 [.insert (1, 10)]) [[2, 0], [1]] [(2, 20), (2, 21), (1, 11)]
      (List.replicate 50 0 ++ List.replicate 60 1 ++ List.replicate 60 0)).shared.tab).length = 2 := by
  refine ⟨?_, ?_, by decide +kernel⟩
  · unfold Distributes; decide
  · unfold UFinished; decide +kernel

end

end Stdgpu.Props
