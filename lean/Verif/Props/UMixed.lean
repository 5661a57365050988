import Verif.Props.ULinear
import Verif.Proof.UReach
/-!
C75: insertions, erasures and lookups at the same time are linearizable if no two different keys that are stored or
inserted belong to the same bucket (compare the counterexamples of C40 and C64, in which keys share a bucket).
-/
namespace Stdgpu.Props
open Stdgpu.Unordered Stdgpu.UnorderedConc Stdgpu.Spec Stdgpu.Conc

variable {K V : Type} {P : Params K V} {bc ec : Nat} {t : Tab V} {progs : List (List (Op K V))}

/-- C75. Every execution of insertions, erasures and lookups with separated keys is linearizable with respect to a map
whose insertions may fail at any time; at every state, and when all threads have finished the map is the one that is
stored in the container. -/
theorem C75_mixed_linearizable (hl : KeyLaws P) (h0 : 0 < bc) (h1 : bc < 2 ^ 63) (hr : PReachable P bc ec t)
    (hs : Separated P t progs) (sched : List Nat) :
    ∃ L m, Linearization P false t progs sched L m ∧
      (UFinished (uexec P t progs sched) → ∀ e, e ∈ m ↔ e ∈ entries (uexec P t progs sched).shared.tab) := by
  obtain ⟨⟨chain, free, h⟩, -, -⟩ := preachable_rep hl h0 h1 hr
  obtain ⟨L, m, hL, -, hm⟩ := Mx.mixed_linearizable (E := Mx.mkStart h progs hs) hl false sched (by simp)
  obtain ⟨xp, hI⟩ := Mx.inv_run (Mx.mkStart h progs hs) hl sched
  refine ⟨L, m, hL, fun hf e => ?_⟩
  obtain ⟨p, v⟩ := e
  exact (hm p v).trans (hI.final_in hf p v)

/-- C75. If there are at least as many unused excess entries as `insert` calls, then the execution is linearizable with
respect to a map whose insertions fail only if the key is stored already. -/
theorem C75_mixed_linearizable_strict (hl : KeyLaws P) (h0 : 0 < bc) (h1 : bc < 2 ^ 63) (hr : PReachable P bc ec t)
    (hs : Separated P t progs) (hroom : numInserts progs ≤ (freeList t).length) (sched : List Nat) :
    ∃ L m, Linearization P true t progs sched L m ∧
      (UFinished (uexec P t progs sched) → ∀ e, e ∈ m ↔ e ∈ entries (uexec P t progs sched).shared.tab) := by
  obtain ⟨⟨chain, free, h⟩, -, -⟩ := preachable_rep hl h0 h1 hr
  rw [freeList_eq h] at hroom
  obtain ⟨L, m, hL, -, hm⟩ := Mx.mixed_strict (Mx.mkStart h progs hs) hl hroom true sched
  obtain ⟨xp, hI⟩ := Mx.inv_run (Mx.mkStart h progs hs) hl sched
  refine ⟨L, m, hL, fun hf e => ?_⟩
  obtain ⟨p, v⟩ := e
  exact (hm p v).trans (hI.final_in hf p v)

/-- C75. At no time is an element accessed outside of the table, constructed over another one or destroyed twice. -/
theorem C75_mixed_defined (hl : KeyLaws P) (h0 : 0 < bc) (h1 : bc < 2 ^ 63) (hr : PReachable P bc ec t)
    (hs : Separated P t progs) (sched : List Nat) :
    (uexec P t progs sched).shared.ub = false ∧ (uexec P t progs sched).shared.tab.excess.slots.err = false := by
  obtain ⟨⟨chain, free, h⟩, -, -⟩ := preachable_rep hl h0 h1 hr
  obtain ⟨xp, hI⟩ := Mx.inv_run (Mx.mkStart h progs hs) hl sched
  exact ⟨hI.ub, hI.ex.err⟩

/-- C75. When all threads have finished no key is stored twice, `size()` is the number of stored values and no lock is
held. -/
theorem C75_mixed_final (hl : KeyLaws P) (h0 : 0 < bc) (h1 : bc < 2 ^ 63) (hr : PReachable P bc ec t)
    (hs : Separated P t progs) (sched : List Nat) (hf : UFinished (uexec P t progs sched)) :
    (∀ p q v w, (p, v) ∈ entries (uexec P t progs sched).shared.tab → (q, w) ∈ entries (uexec P t progs sched).shared.tab →
      P.keyEq (P.keyOf v) (P.keyOf w) = true → p = q) ∧
    size (uexec P t progs sched).shared.tab = (entries (uexec P t progs sched).shared.tab).length ∧
    ∀ p, p < bc + ec → (uexec P t progs sched).shared.tab.locks p = false := by
  obtain ⟨⟨chain, free, h⟩, hb, ht⟩ := preachable_rep hl h0 h1 hr
  obtain ⟨xp, hI⟩ := Mx.inv_run (Mx.mkStart h progs hs) hl sched
  replace hI : Mx.Inv (Mx.mkStart h progs hs) xp (uexec P t progs sched) := hI
  refine ⟨?_, ?_, ?_⟩
  · intro p q v w h2 h3 hk
    exact ((hI.final_in hf p v).2 h2).uniq hl hI.g ((hI.final_in hf q w).2 h3) hk
  · have hc := hI.count
    rw [(sum_map_eq_zero _ _).2 (fun t ht => by rw [(hf t ht).2]; rfl)] at hc
    have e1 : size (uexec P t progs sched).shared.tab = (uexec P t progs sched).shared.tab.count := rfl
    rw [e1, hc]
    have htot : (uexec P t progs sched).shared.tab.total = t.total := hI.g.total
    have hval : ∀ p, p < t.total → (uexec P t progs sched).shared.tab.occ p = true →
        ((uexec P t progs sched).shared.tab.val p).isSome = true := by
      intro p hp ho
      obtain ⟨v, hv, -⟩ := hI.g.occG p hp ho
      rw [hv]; rfl
    have : ∀ l : List Nat, (∀ x ∈ l, x < t.total) → l.countP (uexec P t progs sched).shared.tab.occ =
        (l.filterMap (fun p => if (uexec P t progs sched).shared.tab.occ p then
          ((uexec P t progs sched).shared.tab.val p).map (fun v => (p, v)) else none)).length := by
      intro l
      induction l with
      | nil => intro _; rfl
      | cons a l ih =>
        intro hx
        have ih := ih (fun x hm => hx x (List.mem_cons_of_mem _ hm))
        rw [List.countP_cons, ih, List.filterMap_cons]
        cases ho : (uexec P t progs sched).shared.tab.occ a with
        | false => simp
        | true =>
          obtain ⟨v, hv⟩ := Option.isSome_iff_exists.1 (hval a (hx a (by simp)) ho)
          simp [hv]
    have h2 := this (List.range t.total) (fun x hx => List.mem_range.1 hx)
    have h3 : (Mx.mkStart h progs hs).t₀.total = t.total := rfl
    unfold Vector.countBits entries
    rw [h3, htot, h2]
    simp
  · intro p hp
    exact hI.final_locks hf (by rw [← ht] at hp; exact hp)

/-- C75. If there are at least as many unused excess entries as `insert` calls, then the container is valid when all
threads have finished. -/
theorem C75_mixed_valid (hl : KeyLaws P) (h0 : 0 < bc) (h1 : bc < 2 ^ 63) (hr : PReachable P bc ec t)
    (hs : Separated P t progs) (hroom : numInserts progs ≤ (freeList t).length) (sched : List Nat)
    (hf : UFinished (uexec P t progs sched)) (ord : Nat → List Nat) (ho : ∀ n, (ord n).Perm (List.range n)) :
    valid P ord (uexec P t progs sched).shared.tab = .ok true := by
  obtain ⟨⟨chain, free, h⟩, -, -⟩ := preachable_rep hl h0 h1 (.mixed hr progs sched hs hroom hf)
  exact valid_eq h hl ho

/-- C75. Afterwards every operation of one thread behaves as on a map with the stored values. -/
theorem C75_mixed_then_sequential [DecidableEq V] (hl : KeyLaws P) (h0 : 0 < bc) (h1 : bc < 2 ^ 63) (hr : PReachable P bc ec t)
    (hs : Separated P t progs) (hroom : numInserts progs ≤ (freeList t).length) (sched : List Nat)
    (hf : UFinished (uexec P t progs sched)) (ops : List (UOp K V)) (ords : Nat → Nat → List Nat)
    (ho : ∀ j n, (ords j n).Perm (List.range n)) :
    ∃ outs t' m, execAll P ords (uexec P t progs sched).shared.tab ops = .ok (outs, t') ∧
      mapRun P (contents (uexec P t progs sched).shared.tab) ops outs = some m ∧ m.Perm (contents t') := by
  obtain ⟨hR, -, -⟩ := preachable_rep hl h0 h1 (.mixed hr progs sched hs hroom hf)
  obtain ⟨outs, t', m, e1, e2, h, -⟩ := execAll_refines hl ops _ (contents (uexec P t progs sched).shared.tab) ords ho
    ⟨hR, List.Perm.refl _⟩
  exact ⟨outs, t', m, e1, e2, h.perm⟩

/-! ### A concrete execution -/

/-- Key 2 is stored in an excess entry (its bucket was taken by key 0, which has been erased), key 1 in its bucket. -/
def mixTab : Tab (Nat × Nat) := exTab exP 4 4 [.insert (0, 0), .insert (2, 20), .erase 0, .insert (1, 10)]

/-- Four threads; key 2 is erased, inserted and looked up at the same time, and so is key 1. -/
def mixProgs : List (List (Op Nat (Nat × Nat))) :=
  [[.insert (4, 40), .erase 2], [.erase 2, .insert (2, 21)], [.find 2, .find 0, .find 2], [.insert (1, 11), .erase 1]]

def mixSched : List Nat := (List.range 400).map (fun i => (i * i / 3 + i) % 4)

/-- The hypotheses of C75 hold. -/
example : PReachable exP 4 4 mixTab := exTab_reachable _ _ _ _

theorem mix_separated : Separated exP mixTab mixProgs := by
  have hu : ∀ k, UsedKey exP mixTab mixProgs k → k ∈ [1, 2, 4] := by
    have hc : contents mixTab = [(1, 10), (2, 20)] := by decide +kernel
    rintro k (⟨v, hv, rfl⟩ | ⟨p, hp, v, hv, rfl⟩)
    · rw [hc] at hv
      simp only [List.mem_cons, List.not_mem_nil, or_false] at hv
      rcases hv with rfl | rfl <;> simp [exP]
    · simp only [mixProgs, List.mem_cons, List.not_mem_nil, or_false] at hp
      rcases hp with rfl | rfl | rfl | rfl <;> simp at hv <;> subst hv <;> simp [exP]
  have key : ∀ a ∈ [1, 2, 4], ∀ b ∈ [1, 2, 4], bucket exP mixTab a = bucket exP mixTab b → exP.keyEq a b = true := by
    decide +kernel
  exact fun a b ha hb => key a (hu a ha) b (hu b hb)

theorem mix_room : numInserts mixProgs ≤ (freeList mixTab).length := by decide +kernel

theorem mix_finished : UFinished (uexec exP mixTab mixProgs mixSched) := by
  unfold UFinished; decide +kernel

/-- The results are not trivial: thread 1 erases key 2 from the excess entry 7, in which thread 2 has found it, thread 0
fails to erase it, and thread 1 inserts it again. -/
example : uresults (uexec exP mixTab mixProgs mixSched) =
    [(.insert (4, 40), .inserted 1), (.erase 2, .notErased), (.erase 2, .erased), (.insert (2, 21), .inserted 0),
     (.find 2, .found 7), (.find 0, .notFound), (.find 2, .notFound), (.insert (1, 11), .notInserted), (.erase 1, .erased)] ∧
    contents (uexec exP mixTab mixProgs mixSched).shared.tab = [(2, 21), (4, 40)] := ⟨by decide +kernel, by decide +kernel⟩

/-- Afterwards further phases of every kind may follow. -/
example : PReachable exP 4 4 (uexec exP mixTab mixProgs mixSched).shared.tab :=
  .mixed (t := mixTab) (exTab_reachable _ _ _ _) mixProgs mixSched mix_separated mix_room mix_finished

/-- In the execution of C64_counterexample_mixed, which has no linearization, the keys are not separated. -/
example : ¬ Separated exC (exTab exC 1 3 [.insert (1, 10), .insert (2, 20)]) [[.insert (3, 30)], [.erase 1], [.insert (3, 31)]] := by
  intro h
  have := h 1 2 (.inl ⟨(1, 10), by decide +kernel, rfl⟩) (.inl ⟨(2, 20), by decide +kernel, rfl⟩) (by decide +kernel)
  simp [exC] at this

end Stdgpu.Props
