import Verif.Proof.PackedUnordered
import Verif.Proof.UReach
import Verif.Props.Vector
import Verif.Props.Deque
import Verif.Props.UnorderedConc
import Verif.Props.UConserve
/-!
C81: the occupied flags and the locks of neighbouring elements are bits of the same words. Nevertheless the elements do not
disturb each other: an execution on the packed words (Model/Packed.lean, Model/PackedUnordered.lean) gives, schedule by
schedule, the results and the contents of the execution with one independent flag and lock per element, for which the other
properties are proved.
-/
namespace Stdgpu.Packed
open Stdgpu.Spec Stdgpu.Conc
open Stdgpu.Bitset (Bitset)

variable {w : Nat} {α V : Type}

theorem _root_.Stdgpu.Spec.Bits.setAll {b : Bitset w} {n : Nat} {f : Nat → Bool} (h : Bits b n f) :
    Bits (Bitset.setAll b) n (fun _ => true) := by
  have hw := h.wf
  refine Bits.of_wf (Bitset.map_blocks_wf hw _) h.size ?_
  intro i hi
  unfold Bitset.setAll
  rw [Bitset.bitAt_map hw _ i (by rw [h.size]; exact hi) (fun _ => true) (by intro blk m hm; simp [hm])]

theorem _root_.Stdgpu.Spec.Bits.count {b : Bitset w} {n : Nat} {f : Nat → Bool} (h : Bits b n f) :
    Bitset.count b = Vector.countBits n f := by
  rw [Bitset.count_eq h.wf, Bitset.abs, Vector.countBits, h.size, List.count, List.countP_map]
  refine List.countP_congr fun i hi => ?_
  simp [h.at i (List.mem_range.1 hi)]

/-- Any bits can be packed. -/
theorem bits_exist (k n : Nat) (hk : k < 64) (hn : n < 2 ^ 64) (f : Nat → Bool) : ∃ b : Bitset (2 ^ k), Bits b n f := by
  have key : ∀ j, j ≤ n → ∃ b : Bitset (2 ^ k), Bits b n (fun i => decide (i < j) && f i) := by
    intro j
    induction j with
    | zero => intro _; exact ⟨_, (Bits.create k n hk hn).congr (fun i _ => by simp)⟩
    | succ j ih =>
      intro hj
      obtain ⟨b, hb⟩ := ih (by omega)
      obtain ⟨b', -, hb'⟩ := hb.set j (by omega) (f j)
      refine ⟨b', hb'.congr fun i hi => ?_⟩
      unfold SlotConc.upd
      split
      · next e => subst e; simp
      · next e =>
        have : decide (i < j + 1) = decide (i < j) := by rw [decide_eq_decide]; omega
        rw [this]
  obtain ⟨b, hb⟩ := key n (Nat.le_refl n)
  exact ⟨b, hb.congr fun i hi => by simp [hi]⟩

end Stdgpu.Packed

namespace Stdgpu.Props
open Stdgpu.Packed Stdgpu.Spec Stdgpu.Conc Stdgpu.SlotConc

variable {w : Nat} {α : Type}

/-- C81. A new vector: no element is occupied or locked. -/
theorem C81_vector_create (k cap : Nat) (hk : k < 64) (hc : cap < 2 ^ 64) :
    Packs (create (2 ^ k) cap 0 : PMem (2 ^ k) Int α) (Vector.create cap) :=
  ⟨rfl, rfl, rfl, rfl, Bits.create k cap hk hc, Bits.create k cap hk hc⟩

/-- C81. A new deque. -/
theorem C81_deque_create (k cap : Nat) (hk : k < 64) (hc : cap < 2 ^ 64) :
    Packs (create (2 ^ k) cap ⟨0, 0, 0⟩ : PMem (2 ^ k) Deque.Ctr α) (Deque.create cap) :=
  ⟨rfl, rfl, rfl, rfl, Bits.create k cap hk hc, Bits.create k cap hk hc⟩

/-- C81. Every state of the vector or deque with independent flags is represented by packed words. -/
theorem C81_representable {C : Type} (k : Nat) (hk : k < 64) (v : Mem C α) (hc : v.slots.cap < 2 ^ 64) :
    ∃ m : PMem (2 ^ k) C α, Packs m v := by
  obtain ⟨a, ha⟩ := bits_exist k v.slots.cap hk hc v.slots.locks
  obtain ⟨b, hb⟩ := bits_exist k v.slots.cap hk hc v.slots.occ
  exact ⟨⟨⟨v.slots.cap, a, b, v.slots.data, v.slots.err⟩, v.ctr⟩, rfl, rfl, rfl, rfl, ha, hb⟩

/-- C81, vector. Any programs of `push_back` / `pop_back` and any schedule: the threads get the same results from the packed
vector, which ends with the same elements, the same size and the same flags and locks. -/
theorem C81_vector {m : PMem w Int α} {v : Vector.Vec α} (h : Packs m v) (programs : List (List (Op Unit α)))
    (sched : List Nat) :
    let s := run (pstep (Vector.vfront m.slots.cap)) (pinit (Vector.vfront m.slots.cap) m programs) sched
    s.threads = (vrun v programs sched).threads ∧ Packs s.shared (vrun v programs sched).shared := by
  intro s
  have := run_sim (Vector.vfront v.slots.cap) sched (pinit (Vector.vfront v.slots.cap) m programs)
    (init (Vector.vfront v.slots.cap) v programs) rfl h (by
      intro t ht
      obtain ⟨p, -, rfl⟩ := List.mem_map.1 ht
      trivial)
  rw [← h.cap] at this
  simpa [s, vrun, Vector.cap, h.cap] using this

/-- C81, deque: the same for `push_back`, `push_front`, `pop_back`, `pop_front`. -/
theorem C81_deque {m : PMem w Deque.Ctr α} {d : Deque.Deq α} (h : Packs m d)
    (programs : List (List (Op Deque.Side α))) (sched : List Nat) :
    let s := run (pstep (Deque.dfront m.slots.cap)) (pinit (Deque.dfront m.slots.cap) m programs) sched
    s.threads = (drun d programs sched).threads ∧ Packs s.shared (drun d programs sched).shared := by
  intro s
  have := run_sim (Deque.dfront d.slots.cap) sched (pinit (Deque.dfront d.slots.cap) m programs)
    (init (Deque.dfront d.slots.cap) d programs) rfl h (by
      intro t ht
      obtain ⟨p, -, rfl⟩ := List.mem_map.1 ht
      trivial)
  rw [← h.cap] at this
  simpa [s, drun, Deque.cap, h.cap] using this

/-- C81. `valid()`, which counts bits of the words, gives the same answer. -/
theorem C81_valid (m : PMem w Int α) (v : Vector.Vec α) (h : Packs m v) : vvalid m = Vector.valid v := by
  unfold vvalid Vector.valid Mutex.valid Vector.size
  rw [h.occ.count, h.locks.count, h.cap, h.ctr]
  rfl

theorem C81_deque_valid (m : PMem w Deque.Ctr α) (d : Deque.Deq α) (h : Packs m d) : dvalid m = Deque.valid d := by
  unfold dvalid Deque.valid Mutex.valid Deque.size
  rw [h.occ.count, h.locks.count, h.cap, h.ctr]
  rfl

/-- C81. So what is proved with independent flags holds for the packed vector, e.g. C20: concurrent `push_back` and
`pop_back` on a new vector lose and duplicate no element, never read or destroy an element that is not there. -/
theorem C81_vector_conservation (k cap : Nat) (hk : k < 64) (hc : cap < 2 ^ 64) (programs : List (List (Op Unit α)))
    (sched : List Nat) :
    let s := run (pstep (Vector.vfront cap)) (pinit (Vector.vfront cap) (create (2 ^ k) cap 0 : PMem (2 ^ k) Int α) programs) sched
    s.shared.slots.err = false ∧
    ((∀ t ∈ s.threads, ∃ f, t.pc = .front f) →
      ((s.threads.flatMap (·.done)).filterMap pushVal).Perm
        (liveIn s.shared.slots.data 0 cap ++ (s.threads.flatMap (·.done)).filterMap popVal) ∧
      (∀ p, p < cap → Bitset.test s.shared.slots.occ p = some (s.shared.slots.data p).isSome) ∧
      (∀ p, p < cap → Bitset.test s.shared.slots.locks p = some false)) := by
  intro s
  obtain ⟨h1, h2⟩ := C81_vector (C81_vector_create (α := α) k cap hk hc) programs sched
  obtain ⟨c1, c2, c3⟩ := C20_conservation (Vector.create_holds (α := α) cap) programs sched
  have hcap : (vrun (Vector.create cap : Vector.Vec α) programs sched).shared.slots.cap = cap := by
    have := (Vector.vinv_run (Vector.create_holds (α := α) cap) programs sched).hcap
    exact this
  refine ⟨h2.err.trans c1, fun hq => ?_⟩
  obtain ⟨e1, e2, e3⟩ := c3 (by rw [← h1]; exact hq)
  have hl := h2.locks
  have ho := h2.occ
  rw [hcap] at hl ho
  refine ⟨?_, fun p hp => ?_, fun p hp => ?_⟩
  · have hd : s.shared.slots.data = _ := h2.data
    have ht : s.threads = _ := h1
    rw [hd, ht]
    simpa [pushedVals, poppedVals, results, Vector.cap, Vector.create] using e1
  · have hd : s.shared.slots.data = _ := h2.data
    exact (ho.bits p hp).trans (by rw [hd, e2 p hp])
  · exact (hl.bits p hp).trans (by rw [e3 p hp])

/-! ### Unordered containers -/

section Unordered
open Stdgpu.Unordered (Params Tab)
variable {K V : Type} {P : Params K V} {bc ec : Nat}

/-- An execution on packed words. -/
def puexec (P : Params K V) (t : PTab w V) (progs : List (List (UnorderedConc.Op K V))) (sched : List Nat) :
    Sys (PShared w V) (UnorderedConc.Thread K V) := run (pustep P) (puinit t progs) sched

/-- C81. A new unordered container: empty, all excess entries in the free list. -/
theorem C81_unordered_create (k : Nat) (hk : k < 64) (hc : bc + ec < 2 ^ 64) :
    PacksT (pcreate (2 ^ k) bc ec : PTab (2 ^ k) V) (Unordered.create bc ec) := by
  refine ⟨rfl, rfl, rfl, fun _ _ => rfl, rfl, rfl, Bits.create k _ hk hc, Bits.create k _ hk hc, rfl, ?_, rfl, rfl, ?_, ?_⟩
  · rfl
  · exact Bits.create k ec hk (by omega)
  · exact (Bits.create k ec hk (by omega)).setAll

/-- C81. Every state of the container with independent flags is represented by packed words. -/
theorem C81_unordered_representable (k : Nat) (hk : k < 64) (t : Tab V) (h1 : t.total < 2 ^ 64)
    (h2 : t.excess.slots.cap < 2 ^ 64) : ∃ m : PTab (2 ^ k) V, PacksT m t := by
  obtain ⟨a, ha⟩ := bits_exist k t.total hk h1 t.locks
  obtain ⟨b, hb⟩ := bits_exist k t.total hk h1 t.occ
  obtain ⟨e, he⟩ := C81_representable k hk t.excess h2
  exact ⟨⟨t.bc, t.total, b, t.count, t.off, t.val, t.live, a, e⟩, rfl, rfl, rfl, fun _ _ => rfl, rfl, rfl, hb, ha, he⟩

/-- C81, unordered containers. `t` is any container obtained by creation and operations (also concurrent ones), `m` its
representation with packed words. Any programs of `insert`, `erase` and `find` and any schedule: the threads get the same
results from the packed container, which ends with the same entries, counters, flags and locks, has done the same
undefined accesses (none, where the other properties say so), and has read destroyed values in the same cases. -/
theorem C81_unordered (hl : KeyLaws P) (h0 : 0 < bc) (h1 : bc < 2 ^ 63) {t : Tab V} (hr : PReachable P bc ec t)
    {m : PTab w V} (h : PacksT m t) (progs : List (List (UnorderedConc.Op K V))) (sched : List Nat) :
    (puexec P m progs sched).threads = (uexec P t progs sched).threads ∧
    PacksT (puexec P m progs sched).shared.tab (uexec P t progs sched).shared.tab ∧
    (puexec P m progs sched).shared.ub = (uexec P t progs sched).shared.ub ∧
    (puexec P m progs sched).shared.stale = (uexec P t progs sched).shared.stale := by
  obtain ⟨⟨chain, free, hR⟩, -, -⟩ := UnorderedConc.preachable_rep hl h0 h1 hr
  have hd : DataOK t.total t.excess.slots.cap t.excess.slots.data := by
    intro p x hp e
    rw [hR.excess.data p hp] at e
    exact (hR.free_rng x (List.mem_of_getElem? e)).2
  have := urun_sim (B := t.bc) (T := t.total) (c := t.excess.slots.cap) P
    (fun t' k e => by
      have := Unordered.bucket_lt P t' k (by rw [e]; exact hR.bc_pos) (by rw [e]; exact hR.bc_lt)
      have := hR.bc_le
      omega)
    sched (puinit m progs) (UnorderedConc.init t progs) rfl ⟨h, rfl, rfl⟩ ⟨rfl, rfl, rfl, hd⟩ (by
      intro th hth
      obtain ⟨p, -, rfl⟩ := List.mem_map.1 hth
      exact ⟨trivial, trivial, by simp, by simp, by simp, by simp⟩)
  exact ⟨this.1, this.2.tab, this.2.ub, this.2.stale⟩

/-- C81. E.g. C38: concurrent insertions and lookups on a packed container do nothing undefined, and when all threads have
finished, its occupied bits and values are exactly the old elements and the successfully inserted ones. -/
theorem C81_unordered_inserts (hl : KeyLaws P) (h0 : 0 < bc) (h1 : bc < 2 ^ 63) {t : Tab V} (hr : PReachable P bc ec t)
    {m : PTab w V} (h : PacksT m t) (progs : List (List (UnorderedConc.Op K V))) (hp : NoErase progs) (sched : List Nat)
    (hf : ∀ th ∈ (puexec P m progs sched).threads, th.todo = [] ∧ th.cur = .idle) :
    let s := puexec P m progs sched
    s.shared.ub = false ∧
    ((List.range s.shared.tab.total).filterMap
      (fun p => if Bitset.test s.shared.tab.occ p = some true then s.shared.tab.val p else none)).Perm
      (contents t ++ (s.threads.flatMap (·.done)).filterMap insertedVal) := by
  intro s
  obtain ⟨e1, e2, e3, e4⟩ := C81_unordered hl h0 h1 hr h progs sched
  have hF : UFinished (uexec P t progs sched) := by
    intro th hth; rw [← e1] at hth; exact hf th hth
  refine ⟨e3.trans (C38_safe hl h0 h1 hr hp sched).1, ?_⟩
  have hfin := (C38_final hl h0 h1 hr hp sched hF).1
  have ht : s.threads = _ := e1
  rw [ht]
  refine List.Perm.trans (List.Perm.of_eq ?_) hfin
  rw [Unordered.contents_eq]
  have htot : s.shared.tab.total = (uexec P t progs sched).shared.tab.total := e2.total
  rw [htot]
  refine List.filterMap_congr fun p hp => ?_
  have hb := e2.occ.bits p (List.mem_range.1 hp)
  have hv : s.shared.tab.val = _ := e2.val
  have hb' : Bitset.test s.shared.tab.occ p = _ := hb
  rw [hb', hv, Unordered.stored]
  cases (uexec P t progs sched).shared.tab.occ p <;> simp

end Unordered

/-! ### Examples -/

/-- Two threads push into neighbouring elements of a vector, whose locks and flags are in one word of 32 bits: half way
both locks are set in the word; at the end both elements are there. -/
example : (run (pstep (Vector.vfront 4)) (pinit (Vector.vfront 4) (create 32 4 0 : PMem 32 Int Nat)
      [[.push () 5], [.push () 6]]) [0, 1, 0, 1, 0, 1]).shared.slots.locks.blocks = [3#32] ∧
    (run (pstep (Vector.vfront 4)) (pinit (Vector.vfront 4) (create 32 4 0 : PMem 32 Int Nat)
      [[.push () 5], [.push () 6]]) ((List.range 40).map (· % 2))).shared.slots.occ.blocks = [3#32] ∧
    (run (pstep (Vector.vfront 4)) (pinit (Vector.vfront 4) (create 32 4 0 : PMem 32 Int Nat)
      [[.push () 5], [.push () 6]]) ((List.range 40).map (· % 2))).shared.slots.locks.blocks = [0#32] ∧
    (List.range 4).map (run (pstep (Vector.vfront 4)) (pinit (Vector.vfront 4) (create 32 4 0 : PMem 32 Int Nat)
      [[.push () 5], [.push () 6]]) ((List.range 40).map (· % 2))).shared.slots.data = [some 5, some 6, none, none] :=
  ⟨by decide +kernel, by decide +kernel, by decide +kernel, by decide +kernel⟩

/-- Insertions with colliding keys and an erasure at the same time on packed words. Entry 0 is the bucket, entry 3 the excess
entry that is taken from the free list (whose words have ones also behind its three slots, because its flags are set
word by word at creation). -/
example : PReachable exC 1 3 (Unordered.create 1 3) ∧
    PacksT (pcreate (2 ^ 5) 1 3 : PTab (2 ^ 5) (Nat × Nat)) (Unordered.create 1 3) ∧
    (puexec exC (pcreate (2 ^ 5) 1 3 : PTab (2 ^ 5) (Nat × Nat)) [[.insert (1, 10), .insert (2, 20)], [.erase 1, .find 2]]
      (List.replicate 30 0 ++ List.replicate 4 1 ++ List.replicate 60 0 ++ List.replicate 60 1)).threads.map (·.done) =
        [[(.insert (1, 10), .inserted 0), (.insert (2, 20), .inserted 3)], [(.erase 1, .erased), (.find 2, .found 3)]] ∧
    (puexec exC (pcreate (2 ^ 5) 1 3 : PTab (2 ^ 5) (Nat × Nat)) [[.insert (1, 10), .insert (2, 20)], [.erase 1, .find 2]]
      (List.replicate 30 0 ++ List.replicate 4 1 ++ List.replicate 60 0 ++ List.replicate 60 1)).shared.tab.occ.blocks = [8#32] ∧
    (puexec exC (pcreate (2 ^ 5) 1 3 : PTab (2 ^ 5) (Nat × Nat)) [[.insert (1, 10), .insert (2, 20)], [.erase 1, .find 2]]
      (List.replicate 30 0 ++ List.replicate 4 1 ++ List.replicate 60 0 ++ List.replicate 60 1)).shared.tab.excess.slots.occ.blocks =
        [0xfffffffb#32] :=
  ⟨.create, C81_unordered_create 5 (by decide) (by decide), by decide +kernel, by decide +kernel, by decide +kernel⟩

end Stdgpu.Props
