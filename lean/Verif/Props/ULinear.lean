import Verif.Props.UnorderedConc
import Verif.Proof.ULinIns
import Verif.Proof.ULinEra
import Verif.Spec.ULinear
/-!
C64: concurrent insertions and lookups, and concurrent erasures and lookups, on an unordered container are linearizable.
-/
namespace Stdgpu.UnorderedConc
open Stdgpu.Unordered Stdgpu.Spec Stdgpu.Conc

variable {K V : Type} {P : Params K V}

/-- Under the representation invariant the entries are what lies in the chains. -/
theorem entries_stored {t t' : Tab V} {chain : Nat → List Nat} {free : List Nat} (h : Rep P t' chain free)
    (e1 : t'.occ = t.occ) (e2 : t'.val = t.val) (e3 : t'.bc = t.bc) (e4 : t'.total = t.total) (p : Nat) (v : V) :
    StoredAt P t chain v p ↔ (p, v) ∈ entries t := by
  rw [mem_entries]
  have hb := bkt_lt P t'.bc (P.keyOf v) h.bc_pos h.bc_lt
  constructor
  · rintro ⟨g1, g2, g3⟩
    rw [← e3] at g1
    refine ⟨?_, g2, g3⟩
    rw [← e4]
    rcases List.mem_cons.1 g1 with g1 | g1
    · rw [g1]; exact Nat.lt_of_lt_of_le hb h.bc_le
    · exact (h.rng _ hb p g1).2
  · rintro ⟨g1, g2, g3⟩
    refine ⟨?_, g2, g3⟩
    rw [← e3]
    exact h.home (e4 ▸ g1) (by rw [e1]; exact g2) (by rw [e2]; exact g3)

end Stdgpu.UnorderedConc

namespace Stdgpu.Props
open Stdgpu.Unordered Stdgpu.UnorderedConc Stdgpu.Spec Stdgpu.Conc

variable {K V : Type} {P : Params K V} {bc ec : Nat} {t : Tab V} {progs : List (List (Op K V))}

/-- C64. Every execution of insertions and lookups is linearizable with respect to a map whose insertions may fail at any
time; at every state, and when all threads have finished the map is the one that is stored in the container. -/
theorem C64_insert_linearizable (hl : KeyLaws P) (h0 : 0 < bc) (h1 : bc < 2 ^ 63) (hr : PReachable P bc ec t)
    (hp : NoErase progs) (sched : List Nat) :
    ∃ L m, Linearization P false t progs sched L m ∧
      (UFinished (uexec P t progs sched) → ∀ e, e ∈ m ↔ e ∈ entries (uexec P t progs sched).shared.tab) := by
  obtain ⟨⟨chain, free, h⟩, -, -⟩ := preachable_rep hl h0 h1 hr
  obtain ⟨L, m, hL, c, x, hI, hm⟩ := ins_linearizable (mkStart h progs hp) hl sched false (by simp)
  refine ⟨L, m, hL, fun hf e => ?_⟩
  obtain ⟨p, v⟩ := e
  rw [hm p v]
  exact entries_stored (hI.final_rep hl hf) rfl rfl rfl rfl p v

/-- C64. If at the end of the execution there is an unused excess entry left and the container is not full, then it is
linearizable with respect to a map whose insertions fail only if the key is stored already. -/
theorem C64_insert_linearizable_strict (hl : KeyLaws P) (h0 : 0 < bc) (h1 : bc < 2 ^ 63) (hr : PReachable P bc ec t)
    (hp : NoErase progs) (sched : List Nat)
    (hroom : Vector.empty (uexec P t progs sched).shared.tab.excess = false)
    (hfull : size (uexec P t progs sched).shared.tab < (uexec P t progs sched).shared.tab.total) :
    ∃ L m, Linearization P true t progs sched L m ∧
      (UFinished (uexec P t progs sched) → ∀ e, e ∈ m ↔ e ∈ entries (uexec P t progs sched).shared.tab) := by
  obtain ⟨⟨chain, free, h⟩, -, -⟩ := preachable_rep hl h0 h1 hr
  obtain ⟨L, m, hL, c, x, hI, hm⟩ := ins_linearizable (mkStart h progs hp) hl sched true (fun _ => by
    refine ⟨?_, hfull⟩
    simp only [Vector.empty, Vector.size, Vector.clampSize, beq_eq_false_iff_ne, ne_eq] at hroom
    by_contra hc
    apply hroom
    change ¬ 0 < (uexec P t progs sched).shared.tab.excess.ctr at hc
    split
    · rfl
    · split <;> omega)
  refine ⟨L, m, hL, fun hf e => ?_⟩
  obtain ⟨p, v⟩ := e
  rw [hm p v]
  exact entries_stored (hI.final_rep hl hf) rfl rfl rfl rfl p v

/-- C64. Every execution of erasures and lookups is linearizable. -/
theorem C64_erase_linearizable (hl : KeyLaws P) (h0 : 0 < bc) (h1 : bc < 2 ^ 63) (hr : PReachable P bc ec t)
    (hp : NoInsert progs) (sched : List Nat) :
    ∃ L m, Linearization P true t progs sched L m ∧
      (UFinished (uexec P t progs sched) → ∀ e, e ∈ m ↔ e ∈ entries (uexec P t progs sched).shared.tab) := by
  obtain ⟨⟨chain, free, h⟩, -, -⟩ := preachable_rep hl h0 h1 hr
  obtain ⟨L, m, hL, c, x, hI, hm⟩ := Er.era_linearizable (Er.mkStart h progs hp) hl sched true
  refine ⟨L, m, hL, fun hf e => ?_⟩
  obtain ⟨p, v⟩ := e
  obtain ⟨free', hR⟩ := hI.final_rep hf
  rw [hm p v]
  exact entries_stored hR rfl rfl rfl rfl p v

/-- The race of `raceIns` has room: the strict form applies. The lookup that missed and the one that hit are ordered
around the insertion, and the failed insertion comes after the successful one. -/
example : Vector.empty (raceIns 200).shared.tab.excess = false ∧
    size (raceIns 200).shared.tab < (raceIns 200).shared.tab.total ∧
    seqRun exC true (entries (exTab exC 1 3 [.insert (1, 10), .insert (2, 20)]))
      [(.find 3, .notFound), (.insert (3, 30), .inserted 2), (.find 3, .found 2), (.insert (3, 31), .notInserted)] =
      some [(2, (3, 30)), (0, (1, 10)), (3, (2, 20))] ∧
    seqRun exC true (entries (exTab exC 1 3 [.insert (1, 10), .insert (2, 20)]))
      [(.insert (3, 30), .inserted 2), (.find 3, .notFound), (.find 3, .found 2), (.insert (3, 31), .notInserted)] =
      none ∧
    seqRun exC false (entries (exTab exC 1 3 [.insert (1, 10), .insert (2, 20)]))
      [(.find 3, .notFound), (.insert (3, 31), .notInserted), (.insert (3, 30), .inserted 2), (.find 3, .found 2)] =
      some [(2, (3, 30)), (0, (1, 10)), (3, (2, 20))] :=
  ⟨by decide +kernel, by decide +kernel, by decide +kernel, by decide +kernel, by decide +kernel⟩

/-- All linearizations of an execution in which every operation has returned are permutations of the results. -/
theorem linearization_perm {strict : Bool} {sched : List Nat} {L : List (OpId × Op K V × Res)} {m : List (Nat × V)}
    (h : Linearization P strict t progs sched L m) (R : List (OpId × Op K V × Res)) (hR : (R.map (·.1)).Nodup)
    (h1 : ∀ r ∈ R, resAt (uexec P t progs sched) r.1 = some r.2)
    (h2 : ∀ x, Called (uexec P t progs sched) x → x ∈ R.map (·.1)) : L.Perm R := by
  refine (List.perm_ext_iff_of_nodup h.nodup.of_map hR.of_map).2 (fun a => ⟨fun ha => ?_, fun ha => ?_⟩)
  · obtain ⟨r, hr, hx⟩ := List.mem_map.1 (h2 _ (h.called a.1 a.2 ha).1)
    have h3 : (r.1, r.2) ∈ L := h.returned _ _ (h1 r hr)
    have := List.inj_on_of_nodup_map h.nodup ha h3 hx.symm
    rwa [this]
  · exact h.returned _ _ (h1 a ha)

theorem called_ones {s : Sys (Shared V) (Thread K V)} (h : s.threads.map numCalled = [1, 1, 1]) {x : OpId}
    (hx : Called s x) : x ∈ [((0, 0) : OpId), (1, 0), (2, 0)] := by
  obtain ⟨i, j⟩ := x
  obtain ⟨th, hth, hj⟩ := hx
  have hi := congrArg (fun l => l[i]?) h
  simp only [List.getElem?_map, hth, Option.map_some] at hi
  simp only at hj
  match i, hi with
  | 0, hi => simp at hi; have : j = 0 := by omega
             simp [this]
  | 1, hi => simp at hi; have : j = 0 := by omega
             simp [this]
  | 2, hi => simp at hi; have : j = 0 := by omega
             simp [this]
  | n + 3, hi => simp at hi

/-- The results of the execution of C40_counterexample_duplicate_key. -/
def mixedResults : List (OpId × Op Nat (Nat × Nat) × Res) :=
  [((0, 0), .insert (3, 30), .inserted 2), ((1, 0), .erase 1, .erased), ((2, 0), .insert (3, 31), .inserted 0)]

/-- C64 does not hold when insertions, erasures and lookups run at the same time: the execution of
C40_counterexample_duplicate_key has no linearization, even if insertions are allowed to fail. -/
theorem C64_counterexample_mixed :
    ∃ (t : Tab (Nat × Nat)) (progs : List (List (Op Nat (Nat × Nat)))) (sched : List Nat), PReachable exC 1 3 t ∧
      UFinished (uexec exC t progs sched) ∧ ∀ strict L m, ¬ Linearization exC strict t progs sched L m := by
  refine ⟨exTab exC 1 3 [.insert (1, 10), .insert (2, 20)], [[.insert (3, 30)], [.erase 1], [.insert (3, 31)]],
    List.replicate 26 0 ++ List.replicate 14 1 ++ List.replicate 40 2 ++ List.replicate 40 0, exTab_reachable _ _ _ _, ?_,
    ?_⟩
  · unfold UFinished; decide +kernel
  · intro strict L m h
    have hperm := linearization_perm h mixedResults (by decide) (by decide +kernel) (by
        intro x hx
        exact called_ones (by decide +kernel) hx)
    have hleg := h.legal
    have hnd : (L.map (·.1)).Nodup := h.nodup
    have hsub := hperm.subset
    have hlen := hperm.length_eq
    clear hperm h
    match L, hlen, hleg, hnd, hsub with
    | [x, y, z], _, hleg, hnd, hsub =>
      have key : ∀ strict, ∀ x ∈ mixedResults, ∀ y ∈ mixedResults, ∀ z ∈ mixedResults, ([x, y, z].map (·.1)).Nodup →
          (seqRun exC strict (entries (exTab exC 1 3 [.insert (1, 10), .insert (2, 20)])) ([x, y, z].map (·.2))).isNone =
            true := by decide +kernel
      have := key strict x (hsub (by simp)) y (hsub (by simp)) z (hsub (by simp)) hnd
      rw [hleg] at this
      cases this

end Stdgpu.Props
