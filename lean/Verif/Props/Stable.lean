import Verif.Proof.Stable
import Verif.Proof.StableU
import Verif.Props.UHistories
import Verif.Props.LiveSize
import Verif.Props.SLinear
/-
C95: references to elements stay valid while other threads push and pop.

The elements are read without a lock in the code (`operator[]` returns a reference), so what a thread that holds a reference can
read is what the slot contains at any moment of the execution: after any schedule.
-/
namespace Stdgpu.Props
open Stdgpu.Spec Stdgpu.Conc Stdgpu.SlotConc Stdgpu.Stable

variable {α : Type}

section Vector
open Stdgpu.Vector

theorem vs_run {v : Vec α} {l : List α} (h : Holds v l) (programs : List (List (Op Unit α))) (sched : List Nat) :
    VS (l.length - popCalls programs) v.slots (vrun v programs sched) := by
  refine run_inv (VS (l.length - popCalls programs) v.slots) (fun s i t hs ht => vs_step (cap v) s i t hs ht) _ ⟨?_, ?_, ?_⟩ sched
  · rw [sum_rem_init]
    have := h.ctr
    simp only [init, popCalls] at *
    omega
  · intro t ht p sp op rest hp
    simp only [init, List.mem_map] at ht
    obtain ⟨pr, -, rfl⟩ := ht
    cases hp
  · exact fun _ _ => ⟨rfl, rfl, rfl⟩

/-- C95. A vector holds the elements `l`, and threads push and pop at the end. Element `i` cannot be reached by the calls of
`pop_back` (there are fewer of them than elements behind `i`). Then at every moment of every execution element `i` can be
accessed: `operator[]` refers to the same object as before, the object is alive and unchanged, its position passes the check of
`at`, and no thread works on its slot or holds its lock. Other pushes and pops, successful or not, do not matter. -/
theorem C95_vector_stable {v : Vec α} {l : List α} (h : Holds v l) (programs : List (List (Op Unit α))) (sched : List Nat)
    (i : Nat) (hi : i + popCalls programs < l.length) :
    let s := vrun v programs sched
    get s.shared i = l[i]? ∧ l[i]?.isSome ∧ atPre s.shared i = true ∧ s.shared.slots.locks i = false ∧
    ∀ t ∈ s.threads, ¬ worksOn t i := by
  intro s
  have hs : VS (l.length - popCalls programs) v.slots s := vs_run h programs sched
  have hcap : cap s.shared = cap v := (vinv_run h programs sched).hcap
  have hlen := h.len
  obtain ⟨d1, d2, d3⟩ := hs.guard.same i (by omega)
  have hc := hs.ctr
  have h0 := sum_rem_nonneg (F := Vector.FPC) (fun op : Op Unit α => !op.isPush) s.threads
  have hsz : (i : Int) < size s.shared := by
    unfold size clampSize
    split
    · omega
    · split <;> omega
  refine ⟨?_, ?_, ?_, ?_, ?_⟩
  · unfold Vector.get
    rw [if_pos ⟨by omega, by omega⟩, Int.toNat_natCast, d1, h.data i (by omega)]
  · simp [show i < l.length by omega]
  · unfold atPre
    rw [Int.toNat_natCast, d2, h.occ i (by omega)]
    simp [hsz, show i < l.length by omega]
  · rw [d3, h.locks i (by omega)]
  · rintro t ht ⟨op, rest, sp, h1, h2⟩
    have := hs.guard.thr t ht i sp op rest h2 h1
    omega

end Vector

section Deque
open Stdgpu.Deque

theorem ds_run {d : Deq α} {l : List α} (h : Holds d l) (programs : List (List (Op Side α))) (sched : List Nat)
    (hF : l.length + pushCallsAt .front programs ≤ cap d) (hB : l.length + pushCallsAt .back programs ≤ cap d) :
    DS (cap d) d.ctr.begin (d.ctr.begin + l.length) (popCallsAt .front programs) (pushCallsAt .front programs)
      (popCallsAt .back programs) (pushCallsAt .back programs) d.slots (drun d programs sched) := by
  refine run_inv (DS (cap d) d.ctr.begin (d.ctr.begin + l.length) (popCallsAt .front programs) (pushCallsAt .front programs)
      (popCallsAt .back programs) (pushCallsAt .back programs) d.slots) (fun s i t hs ht => ds_step ?_ ?_ ?_ s i t hs ht) _
      ⟨?_, ?_, ?_⟩ sched
  · omega
  · omega
  · omega
  · have q1 : ∀ side, (fun op : Op Side α => !op.isPush && decide (op.kind = side)) = opQ false side := by
      intro side; funext op; simp [opQ]
    have q2 : ∀ side, (fun op : Op Side α => op.isPush && decide (op.kind = side)) = opQ true side := by
      intro side; funext op; simp [opQ]
    simp only [sum_rem_init, popCallsAt, pushCallsAt, q1, q2]
    have hb := h.begin
    refine ⟨d.ctr.begin, d.ctr.begin + l.length, ⟨hb, ?_⟩, ⟨?_, ?_⟩, by omega, by omega, by omega, by omega⟩
    · simp only [init]; rw [Int.emod_eq_of_lt (by omega) (by omega)]
    · simp only [init]; rw [h.endd]; exact Nat.mod_lt _ h.pos
    · simp only [init]; rw [h.endd]; push_cast; rfl
  · intro t ht p sp op rest hp
    simp only [init, List.mem_map] at ht
    obtain ⟨pr, -, rfl⟩ := ht
    cases hp
  · exact fun _ _ => ⟨rfl, rfl, rfl⟩

theorem ringIdx_add {c b i : Nat} (hb : b < c) (hi : i < c) : ringIdx c b ((b + i) % c) = i := by
  unfold ringIdx
  by_cases h : b + i < c
  · rw [Nat.mod_eq_of_lt h, if_pos (by omega)]; omega
  · have : (b + i) % c = b + i - c := by
      rw [Nat.mod_eq_sub_mod (by omega), Nat.mod_eq_of_lt (by omega)]
    rw [this, if_neg (by omega)]; omega

/-- C95. A deque holds the elements `l` (front to back), and threads push and pop at both ends. Each end has enough room for its
pushes, and element `i` cannot be reached by the pops: there are at most `i` calls of `pop_front`, and fewer calls of `pop_back`
than elements behind `i`. Then at every moment of every execution the object that `d[i]` denoted before is alive and unchanged,
and no thread works on its slot or holds its lock. -/
theorem C95_deque_stable {d : Deq α} {l : List α} (h : Holds d l) (programs : List (List (Op Side α))) (sched : List Nat)
    (roomFront : l.length + pushCallsAt .front programs ≤ cap d) (roomBack : l.length + pushCallsAt .back programs ≤ cap d)
    (i : Nat) (hF : popCallsAt .front programs ≤ i) (hB : i + popCallsAt .back programs < l.length) :
    let s := drun d programs sched
    let slot := (d.ctr.begin + i) % cap d
    d.slots.data slot = l[i]? ∧ l[i]?.isSome ∧ get d i = l[i]? ∧
    s.shared.slots.data slot = l[i]? ∧ s.shared.slots.occ slot = true ∧ s.shared.slots.locks slot = false ∧
    ∀ t ∈ s.threads, ¬ worksOn t slot := by
  intro s slot
  have hs := ds_run h programs sched roomFront roomBack
  have hlen := h.len
  have hlt : slot < cap d := Nat.mod_lt _ h.pos
  have hidx : ringIdx (cap d) d.ctr.begin slot = i := ringIdx_add h.begin (by omega)
  have hp : DProt (cap d) d.ctr.begin (d.ctr.begin + l.length) (popCallsAt .front programs) (popCallsAt .back programs) slot :=
    ⟨d.ctr.begin + i, ⟨hlt, by simp only [slot]; push_cast; rfl⟩, by omega, by omega⟩
  obtain ⟨d1, d2, d3⟩ := hs.guard.same slot hp
  have e0 : d.slots.data slot = l[i]? := by rw [h.data slot hlt, hidx]
  refine ⟨e0, by simp [show i < l.length by omega], ?_, d1.trans e0, ?_, ?_, ?_⟩
  · unfold Deque.get
    have : (((d.ctr.begin : Int) + (i : Int)).tmod (cap d : Int)) = (slot : Int) := by
      rw [Int.tmod_eq_emod_of_nonneg (by omega)]; simp only [slot]; push_cast; rfl
    simp only [this]
    rw [if_pos ⟨by omega, by omega⟩, Int.toNat_natCast, e0]
  · rw [show s.shared.slots.occ slot = d.slots.occ slot from d2, h.occ slot hlt, hidx]; simp; omega
  · rw [show s.shared.slots.locks slot = d.slots.locks slot from d3, h.locks slot hlt]
  · rintro t ht ⟨op, rest, sp, h1, h2⟩
    obtain ⟨X, hX, hx⟩ := hs.guard.thr t ht slot sp op rest h2 h1
    obtain ⟨Y, hY, hy1, hy2⟩ := hp
    cases hk : op.kind <;> simp only [hk] at hx
    · exact wraps_ne hX hY (by omega) (by omega)
    · exact wraps_ne hY hX (by omega) (by omega)

/-- C95. If nothing is pushed or popped at the front, `operator[]` itself keeps denoting the same object at every moment. -/
theorem C95_deque_index_stable {d : Deq α} {l : List α} (h : Holds d l) (programs : List (List (Op Side α))) (sched : List Nat)
    (noFront : ∀ program ∈ programs, ∀ op ∈ program, op.kind = .back) (roomBack : l.length + pushCallsAt .back programs ≤ cap d)
    (i : Nat) (hB : i + popCallsAt .back programs < l.length) :
    get (drun d programs sched).shared i = l[i]? ∧ l[i]?.isSome := by
  have n1 : popCallsAt .front programs = 0 := by
    unfold popCallsAt
    rw [List.countP_eq_zero]
    intro op hop
    obtain ⟨p, h1, h2⟩ := List.mem_flatten.1 hop
    simp [noFront p h1 op h2]
  have n2 : pushCallsAt .front programs = 0 := by
    unfold pushCallsAt
    rw [List.countP_eq_zero]
    intro op hop
    obtain ⟨p, h1, h2⟩ := List.mem_flatten.1 hop
    simp [noFront p h1 op h2]
  have hlen := h.len
  obtain ⟨c1, c2, c3, c4, -⟩ := C95_deque_stable h programs sched (by omega) roomBack i (by omega) hB
  refine ⟨?_, c2⟩
  have hs := ds_run h programs sched (by omega) roomBack
  obtain ⟨B, E, w1, w2, i1, i2, i3, i4⟩ := hs.ctr
  have p1 := sum_rem_nonneg (F := Deque.FPC) (opQ (α := α) false .front) (drun d programs sched).threads
  have p2 := sum_rem_nonneg (F := Deque.FPC) (opQ (α := α) true .front) (drun d programs sched).threads
  have eB : B = d.ctr.begin := by omega
  have hb := h.begin
  have eb : (drun d programs sched).shared.ctr.begin = d.ctr.begin := by
    have := w1.2
    rw [eB, Int.emod_eq_of_lt (by omega) (by omega)] at this
    omega
  have hcap : cap (drun d programs sched).shared = cap d := drun_cap h _ _
  have hlt : (d.ctr.begin + i) % cap d < cap d := Nat.mod_lt _ h.pos
  unfold Deque.get
  have : (((d.ctr.begin : Int) + (i : Int)).tmod (cap d : Int)) = (((d.ctr.begin + i) % cap d : Nat) : Int) := by
    rw [Int.tmod_eq_emod_of_nonneg (by omega)]; push_cast; rfl
  simp only [eb, hcap, this]
  rw [if_pos ⟨by omega, by omega⟩, Int.toNat_natCast, c4]

/-- One thread pops, the other one pushes, both at the back. -/
def fullProgs : List (List (Op Side Nat)) := [[.pop .back], [.push .back 7]]

/-- The pop decreases the size; then the push increases it and takes the position behind the last element, which on a full deque
is the position of the first element; then the pop takes the position before that of the push. -/
def fullSched : List Nat := List.replicate 2 0 ++ List.replicate 3 1 ++ List.replicate 30 0 ++ List.replicate 30 1

/-- C95, room is needed: the deque (or stack) is full, one thread calls `pop_back`, the other one `push_back`, both succeed. The
pop returns the front element (the bottom of the stack) although there is only one pop and there is an element behind it, and
the new element ends up at the front. -/
theorem C95_counterexample_full_deque :
    let s := drun linDeq fullProgs fullSched
    Holds linDeq [10, 11] ∧ cap linDeq = 2 ∧ Finished s ∧ valid s.shared = true ∧ s.shared.slots.err = false ∧
    results s = [(.pop .back, .popped 10), (.push .back 7, .pushed)] ∧ get s.shared 0 = some 7 ∧ get s.shared 1 = some 11 := by
  refine ⟨linDeq_holds, rfl, ?_, ?_⟩
  · unfold Finished; decide +kernel
  · decide +kernel

end Deque

section Unordered
open Stdgpu.Unordered Stdgpu.UnorderedConc
variable {K V : Type} {P : Params K V} {bc ec : Nat} {t : Tab V}

/-- C95. Threads insert, erase and look up anything in an unordered container, in any mixture, also one that is not supported, as
long as nothing undefined happens. An element whose key no thread erases stays where it is: if value `v` is stored at position `p`
at some moment (stored before or inserted by any of the threads), it is stored there at every later moment, alive and unchanged. -/
theorem C95_unordered_stable (hl : KeyLaws P) (h0 : 0 < bc) (h1 : bc < 2 ^ 63) (hr : PReachable P bc ec t)
    (programs : List (List (UnorderedConc.Op K V))) (sched later : List Nat)
    (hu : (uexec P t programs (sched ++ later)).shared.ub = false) {p : Nat} {v : V}
    (hm : (p, v) ∈ entries (uexec P t programs sched).shared.tab) (he : erases P programs (P.keyOf v) = false) :
    (p, v) ∈ entries (uexec P t programs (sched ++ later)).shared.tab ∧
    (uexec P t programs (sched ++ later)).shared.tab.live p = true := by
  obtain ⟨⟨chain, free, h⟩, -, -⟩ := preachable_rep hl h0 h1 hr
  obtain ⟨m1, m2, m3⟩ := mem_entries.1 hm
  have hk : ∀ l, (uexec P t programs l).shared.ub = false → An.KI P t programs (uexec P t programs l) := by
    intro l hb
    rcases An.ki_run h programs l with e | e
    · rw [hb] at e; cases e
    · exact e
  have hu1 : (uexec P t programs sched).shared.ub = false := by
    cases hb : (uexec P t programs sched).shared.ub with
    | false => rfl
    | true =>
      have : (uexec P t programs (sched ++ later)).shared.ub = true := by
        unfold uexec at hb ⊢
        rw [run_append]
        exact run_inv (f := UnorderedConc.step P) (fun s => s.shared.ub = true) (fun s i u hs _ => An.ub_mono hs) _ hb later
      rw [hu] at this; cases this
  have k1 := hk _ hu1
  have k2 := hk _ hu
  obtain ⟨a, b, c⟩ := An.keep_run h programs sched later hu (k1.inv.g.occ p m1 m2).1 m3 he
  exact ⟨mem_entries.2 ⟨by rw [k2.inv.total, ← k1.inv.total]; exact m1, c m2, b⟩, a⟩

/-- C95. At every moment, for calls that have returned: the iterator returned by a successful `insert` refers to the inserted
value, and the iterator returned by a successful `find` to a living value with the key, unless some thread erases the key. -/
theorem C95_unordered_iterators (hl : KeyLaws P) (h0 : 0 < bc) (h1 : bc < 2 ^ 63) (hr : PReachable P bc ec t)
    (programs : List (List (UnorderedConc.Op K V))) (sched : List Nat) (hu : (uexec P t programs sched).shared.ub = false) (p : Nat) :
    (∀ v, (UnorderedConc.Op.insert v, UnorderedConc.Res.inserted p) ∈ uresults (uexec P t programs sched) →
      erases P programs (P.keyOf v) = false → (p, v) ∈ entries (uexec P t programs sched).shared.tab ∧
      (uexec P t programs sched).shared.tab.live p = true) ∧
    (∀ k, (UnorderedConc.Op.find k, UnorderedConc.Res.found p) ∈ uresults (uexec P t programs sched) →
      erases P programs k = false → (uexec P t programs sched).shared.tab.live p = true ∧
      ∃ v, (uexec P t programs sched).shared.tab.val p = some v ∧ P.keyEq (P.keyOf v) k = true) := by
  obtain ⟨⟨chain, free, h⟩, -, -⟩ := preachable_rep hl h0 h1 hr
  rcases An.ri_run hl h programs sched with e | ⟨-, r⟩
  · rw [hu] at e; cases e
  · refine ⟨fun v hv he => ?_, fun k hk he => ?_⟩
    · obtain ⟨u, hu', hd⟩ := List.mem_flatMap.1 hv
      obtain ⟨a, b, c, d⟩ := r.ins u hu' v p hd he
      exact ⟨mem_entries.2 ⟨d, b, c⟩, a⟩
    · obtain ⟨u, hu', hd⟩ := List.mem_flatMap.1 hk
      exact r.fnd u hu' k p hd he

/-- C95. In the supported uses (no `erase`, or no `insert`, or both on keys with different buckets) nothing undefined happens, so
both hold without this condition. -/
theorem C95_unordered_supported (hl : KeyLaws P) (h0 : 0 < bc) (h1 : bc < 2 ^ 63) (hr : PReachable P bc ec t)
    (programs : List (List (UnorderedConc.Op K V))) (hp : NoErase programs ∨ NoInsert programs ∨ Separated P t programs)
    (sched later : List Nat) (p : Nat) :
    (∀ v, (p, v) ∈ entries (uexec P t programs sched).shared.tab → erases P programs (P.keyOf v) = false →
      (p, v) ∈ entries (uexec P t programs (sched ++ later)).shared.tab ∧
      (uexec P t programs (sched ++ later)).shared.tab.live p = true) ∧
    (∀ v, (UnorderedConc.Op.insert v, UnorderedConc.Res.inserted p) ∈ uresults (uexec P t programs sched) →
      erases P programs (P.keyOf v) = false → (p, v) ∈ entries (uexec P t programs sched).shared.tab) ∧
    (∀ k, (UnorderedConc.Op.find k, UnorderedConc.Res.found p) ∈ uresults (uexec P t programs sched) →
      erases P programs k = false → (uexec P t programs sched).shared.tab.live p = true ∧
      ∃ v, (uexec P t programs sched).shared.tab.val p = some v ∧ P.keyEq (P.keyOf v) k = true) := by
  have hu : ∀ sched, (uexec P t programs sched).shared.ub = false := by
    intro sched
    rcases hp with hp | hp | hp
    · exact (C38_safe hl h0 h1 hr hp sched).1
    · exact (C39_safe hl h0 h1 hr hp sched).1
    · exact (C75_mixed_defined hl h0 h1 hr hp sched).1
  obtain ⟨a, b⟩ := C95_unordered_iterators hl h0 h1 hr programs sched (hu _) p
  exact ⟨fun v hm he => C95_unordered_stable hl h0 h1 hr programs sched later (hu _) hm he, fun v hv he => (a v hv he).1, b⟩

end Unordered

/-- Two threads push and pop on a vector with three elements, in the middle of an execution: element 1 is stable. -/
example : Vector.get (vrun linVec [[.pop ()], [.push () 5, .push () 6]] [0, 1, 0, 1, 1, 1, 0]).shared 1 = some 1 :=
  (C95_vector_stable linVec_holds [[.pop ()], [.push () 5, .push () 6]] [0, 1, 0, 1, 1, 1, 0] 1 (by decide)).1

theorem twoDeq_holds : Deque.Holds twoDeq [1, 2] := ⟨by decide, by decide, rfl, by decide, by decide, by decide, by decide, rfl, by decide⟩

/-- Pushes at both ends and a pop at the back of a deque whose elements wrap around: the front element stays in slot 3. -/
example : (drun twoDeq [[.push .front 5, .pop .back], [.push .back 6]] [0, 1, 0, 1, 1, 1, 0, 0, 0, 0]).shared.slots.data 3 = some 1 :=
  (C95_deque_stable twoDeq_holds [[.push .front 5, .pop .back], [.push .back 6]] [0, 1, 0, 1, 1, 1, 0, 0, 0, 0] (by decide)
    (by decide) 0 (by decide) (by decide)).2.2.2.1

/-- Only the back is used: the index of the front element does not change. -/
example : Deque.get (drun twoDeq [[.push .back 5], [.pop .back]] [0, 1, 0, 1, 1, 1, 0, 0, 0, 0]).shared 0 = some 1 :=
  (C95_deque_index_stable twoDeq_holds [[.push .back 5], [.pop .back]] [0, 1, 0, 1, 1, 1, 0, 0, 0, 0] (by decide) (by decide)
    0 (by decide)).1

/-- An unsupported mixture, after which key 3 is stored twice (C40): the element with key 2, which nobody erases, is still where
it was, and both insertions of key 3 have returned the positions of their values. -/
example : ∃ p, (p, (2, 20)) ∈ entries dupTab ∧ (p, (2, 20)) ∈ entries (uexec exC dupTab dupProgs dupSched).shared.tab := by
  have h : ((3, (2, 20)) : Nat × Nat × Nat) ∈ entries dupTab := by decide +kernel
  have := (C95_unordered_stable exC_laws (by decide) (by decide) dupTab_reachable dupProgs [] dupSched
    (by rw [List.nil_append]; exact dupRun_defined) h (by decide +kernel)).1
  rw [List.nil_append] at this
  exact ⟨3, h, this⟩

example : (2, (3, 30)) ∈ entries (uexec exC dupTab dupProgs dupSched).shared.tab :=
  ((C95_unordered_iterators exC_laws (by decide) (by decide) dupTab_reachable dupProgs dupSched dupRun_defined 2).1 (3, 30)
    (by decide +kernel) (by decide +kernel)).1

end Stdgpu.Props
