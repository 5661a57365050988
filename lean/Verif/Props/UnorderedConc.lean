import Verif.Props.Unordered
import Verif.Proof.UReach
import Verif.Proof.UProgEra2
/-!
C38–C40, C55: `insert`, `erase` and `find` of the unordered containers called by any number of threads.

`uexec P t progs sched` (Spec/UnorderedConc.lean) is the state after the threads have run the programs `progs` on the
container `t`, interleaved by `sched`, which is any list of thread numbers: every access to a shared variable is one
step. `PReachable P bc ec t` says that `t` has been made by a sequence of phases on a new container. Nothing is assumed
about the number of threads, the programs (apart from the kinds of operations), the hash function or the schedule.
-/
namespace Stdgpu.UnorderedConc
open Stdgpu.Unordered
variable {K V : Type} {P : Params K V}

theorem findFrom_fix (t : Tab V) (eq : V → Bool) : ∀ (n p : Nat), findFrom (fixExcess t) eq n p = findFrom t eq n p := by
  intro n
  induction n with
  | zero =>
    intro p
    unfold findFrom
    have e1 : entryMatches (fixExcess t) eq p = entryMatches t eq p := rfl
    have e2 : next (fixExcess t) p = next t p := rfl
    rw [e1, e2]
  | succ n ih =>
    intro p
    unfold findFrom
    have e1 : entryMatches (fixExcess t) eq p = entryMatches t eq p := rfl
    have e2 : next (fixExcess t) p = next t p := rfl
    rw [e1, e2]
    simp only [ih]

theorem find_fix (t : Tab V) (k : K) : find P (fixExcess t) k = find P t k := findFrom_fix t _ _ _

theorem step_done (m : Shared V) (t : Thread K V) : t.done <+: (step P m t).2.done := by
  unfold step
  split
  · split <;> exact List.prefix_refl _
  all_goals (split <;> first | exact List.prefix_refl _ | exact List.prefix_append _ _)

theorem run_done (s : Conc.Sys (Shared V) (Thread K V)) {i : Nat} {t : Thread K V} (ht : s.threads[i]? = some t)
    (sched : List Nat) : ∃ t', (Conc.run (step P) s sched).threads[i]? = some t' ∧ t.done <+: t'.done := by
  refine Conc.run_inv (f := step P) (fun s => ∃ t', s.threads[i]? = some t' ∧ t.done <+: t'.done) ?_ s
    ⟨t, ht, List.prefix_refl _⟩ sched
  rintro s j u ⟨t', h1, h2⟩ hu
  by_cases e : j = i
  · subst e
    rw [hu] at h1
    cases h1
    have hlt : j < s.threads.length := (List.getElem?_eq_some_iff.1 hu).1
    exact ⟨(step P s.shared u).2, by simp [hlt], h2.trans (step_done s.shared u)⟩
  · exact ⟨t', by simpa [List.getElem?_set_ne e] using h1, h2⟩

end Stdgpu.UnorderedConc

namespace Stdgpu.Props
open Stdgpu.Unordered Stdgpu.UnorderedConc Stdgpu.Spec Stdgpu.Conc
open Stdgpu.Vector (Fault)

variable {K V : Type} {P : Params K V} {bc ec : Nat} {t : Tab V} {progs : List (List (Op K V))}

section
variable (hl : KeyLaws P) (h0 : 0 < bc) (h1 : bc < 2 ^ 63) (hr : PReachable P bc ec t) (hp : NoErase progs)
  (sched : List Nat)
include hl h0 h1 hr hp

theorem ins_inv : ∃ (I : Start P) (chain : Nat → List Nat) (xp : _), I.t₀ = t ∧ I.progs = progs ∧ I.free₀ = freeList t ∧
    Inv I chain xp (uexec P t progs sched) := by
  obtain ⟨⟨chain, free, h⟩, -, -⟩ := preachable_rep hl h0 h1 hr
  obtain ⟨c, x, hI⟩ := inv_run (mkStart h progs hp) hl sched
  exact ⟨mkStart h progs hp, c, x, rfl, rfl, (freeList_eq h).symm, hI⟩

/-- C38. In every state of every execution: nothing undefined has happened. -/
theorem C38_safe : Defined (uexec P t progs sched) := by
  obtain ⟨I, c, x, -, -, -, h⟩ := ins_inv hl h0 h1 hr hp sched
  exact h.defined

/-- C38. In every state of every execution: no key is stored twice. -/
theorem C38_keys_distinct : (contents (uexec P t progs sched).shared.tab).Pairwise
    (fun v w => P.keyEq (P.keyOf v) (P.keyOf w) = false) := by
  obtain ⟨I, c, x, -, -, -, h⟩ := ins_inv hl h0 h1 hr hp sched
  exact h.contents_uniq hl

/-- C38. In every state of every execution: the elements that were there before are still there, and so are all
successfully inserted ones (as multisets: an element is not shared by two insertions). -/
theorem C38_contents_grow : (contents t ++ insertedVals (uexec P t progs sched)).Subperm
    (contents (uexec P t progs sched).shared.tab) := by
  obtain ⟨I, c, x, rfl, -, -, h⟩ := ins_inv hl h0 h1 hr hp sched
  exact h.subperm

/-- C38. At most one insertion of a key succeeds, and none if the key was present: the keys of the elements at the start
and of the successful insertions are pairwise different. -/
theorem C38_at_most_one : (contents t ++ insertedVals (uexec P t progs sched)).Pairwise
    (fun v w => P.keyEq (P.keyOf v) (P.keyOf w) = false) := by
  obtain ⟨l, h2, h3⟩ := C38_contents_grow hl h0 h1 hr hp sched
  refine (List.Perm.pairwise_iff ?_ h2).1 ((C38_keys_distinct hl h0 h1 hr hp sched).sublist h3)
  intro a b hab
  by_contra hc
  rw [Bool.not_eq_false] at hc
  rw [hl.symm _ _ hc] at hab
  simp at hab

/-- C38. An insertion that reported success has stored the value of its own thread, and the returned iterator points to
it, also later. -/
theorem C38_success_stored (v : V) (p : Nat) (he : (Op.insert v, Res.inserted p) ∈ uresults (uexec P t progs sched)) :
    deref (uexec P t progs sched).shared.tab (some p) = .ok (some v) ∧
    (uexec P t progs sched).shared.tab.occ p = true := by
  obtain ⟨I, c, x, -, -, -, h⟩ := ins_inv hl h0 h1 hr hp sched
  obtain ⟨g1, g2, g3⟩ : StoredAt P _ c v p := h.res_mem he
  have hb := bkt_lt P (uexec P t progs sched).shared.tab.bc (P.keyOf v) h.g.bc_pos h.g.bc_lt
  have hlt := h.g.lt hb g1
  have hlive := (h.g.live p hlt g2).1
  exact ⟨by simp [deref, hlt, hlive, g3], g2⟩

/-- C38. An insertion that reported failure did so because its key is stored, or because the list of unused excess
entries ran empty, or because the container was full. -/
theorem C38_failure (v : V) (he : (Op.insert v, Res.notInserted) ∈ uresults (uexec P t progs sched)) :
    (∃ w ∈ contents (uexec P t progs sched).shared.tab, P.keyEq (P.keyOf w) (P.keyOf v) = true) ∨
    Vector.empty (uexec P t progs sched).shared.tab.excess = true ∨
    ((uexec P t progs sched).shared.tab.total : Int) ≤ size (uexec P t progs sched).shared.tab := by
  obtain ⟨I, c, x, -, -, -, h⟩ := ins_inv hl h0 h1 hr hp sched
  have hb := bkt_lt P (uexec P t progs sched).shared.tab.bc (P.keyOf v) h.g.bc_pos h.g.bc_lt
  rcases (h.res_mem he : (∃ u, KeyAt P _ c (P.keyOf v) u) ∨ _ ∨ _) with ⟨u, w, g1, g2, g3, g4⟩ | g | g
  · exact .inl ⟨w, mem_contents.2 ⟨u, h.g.lt hb g1, g2, g3⟩, g4⟩
  · refine .inr (.inl ?_)
    simp only [Vector.empty, Vector.size]
    generalize (uexec P t progs sched).shared.tab.excess.ctr = z at *
    have : Vector.clampSize (Vector.cap (uexec P t progs sched).shared.tab.excess) z = 0 := by
      unfold Vector.clampSize
      split
      · rfl
      · omega
    simp [this]
  · exact .inr (.inr g)

/-- C38. When all threads have finished, the container holds exactly the elements it held before and the values of the
successful insertions, its size is right and every key is found exactly if it is stored. -/
theorem C38_final (hf : UFinished (uexec P t progs sched)) :
    (contents (uexec P t progs sched).shared.tab).Perm (contents t ++ insertedVals (uexec P t progs sched)) ∧
    size (uexec P t progs sched).shared.tab = (contents (uexec P t progs sched).shared.tab).length ∧
    ∀ k, ∃ it, find P (uexec P t progs sched).shared.tab k = .ok it ∧ deref (uexec P t progs sched).shared.tab it =
      .ok (lookup P (contents t ++ insertedVals (uexec P t progs sched)) k) := by
  obtain ⟨I, c, x, rfl, -, -, h⟩ := ins_inv hl h0 h1 hr hp sched
  have hperm := h.final_contents hf
  have hR := h.final_rep hl hf
  refine ⟨hperm, ?_, ?_⟩
  · have h2 := hR.count
    have h3 := length_contents hR
    have h4 : contents (fixExcess (uexec P I.t₀ progs sched).shared.tab) = contents (uexec P I.t₀ progs sched).shared.tab := rfl
    rw [h4] at h3
    have h5 : (fixExcess (uexec P I.t₀ progs sched).shared.tab).count = size (uexec P I.t₀ progs sched).shared.tab := rfl
    rw [← h5, h2, h3]
  · intro k
    refine ⟨_, (find_fix _ k).symm.trans (hR.find_eq k), ?_⟩
    have he := lookup_eq hR hl (m := contents I.t₀ ++ insertedVals (uexec P I.t₀ progs sched)) hperm.symm k
    rw [he]
    cases hq : Rep.pos P (fixExcess (uexec P I.t₀ progs sched).shared.tab) c k with
    | none => rfl
    | some p =>
      obtain ⟨g1, g2, -⟩ := hR.pos_some hq
      have g3 := (hR.stored_ok g1 g2).1
      have g1' : p < (uexec P I.t₀ progs sched).shared.tab.total := g1
      have g3' : (uexec P I.t₀ progs sched).shared.tab.live p = true := g3
      simp [deref, g1', g3', fixExcess]

/-- C38. If `valid()` holds when all threads have finished, then the container works like a finite map with these
elements from then on: every further history of operations gives the results of the map, without undefined behaviour. -/
theorem C38_usable_afterwards [DecidableEq V] (hf : UFinished (uexec P t progs sched)) {ord : Nat → List Nat}
    (hv : valid P ord (uexec P t progs sched).shared.tab = .ok true) (ops : List (UOp K V))
    (ords : Nat → Nat → List Nat) (ho : ∀ j n, (ords j n).Perm (List.range n)) :
    ∃ outs t' m, execAll P ords (uexec P t progs sched).shared.tab ops = .ok (outs, t') ∧
      mapRun P (contents t ++ insertedVals (uexec P t progs sched)) ops outs = some m ∧ m.Perm (contents t') := by
  obtain ⟨hR, -, -⟩ := preachable_rep hl h0 h1 (.inserts hr progs sched hp hf hv)
  obtain ⟨outs, t', m, e1, e2, h, -⟩ := execAll_refines hl ops _
    (contents t ++ insertedVals (uexec P t progs sched)) ords ho ⟨hR, (C38_final hl h0 h1 hr hp sched hf).1.symm⟩
  exact ⟨outs, t', m, e1, e2, h.perm⟩

/-- C38. If there are at least as many unused excess entries as `insert` calls, then an insertion only fails because its
key is stored, and the container is valid when all threads have finished. -/
theorem C38_no_exhaustion (hroom : numInserts progs ≤ (freeList t).length) (hf : UFinished (uexec P t progs sched)) :
    (∀ v, (Op.insert v, Res.notInserted) ∈ uresults (uexec P t progs sched) →
      ∃ w ∈ contents (uexec P t progs sched).shared.tab, P.keyEq (P.keyOf w) (P.keyOf v) = true) ∧
    ∀ ord : Nat → List Nat, (∀ n, (ord n).Perm (List.range n)) →
      valid P ord (uexec P t progs sched).shared.tab = .ok true := by
  obtain ⟨⟨chain, free, h⟩, -, -⟩ := preachable_rep hl h0 h1 hr
  rw [freeList_eq h] at hroom
  obtain ⟨c, x, hI, hrm⟩ := room_run (mkStart h progs hp) hl hroom sched
  replace hI : Inv (mkStart h progs hp) c x (uexec P t progs sched) := hI
  replace hrm : (((uexec P t progs sched).threads.map pot).sum : Int) ≤ (uexec P t progs sched).shared.tab.excess.ctr := hrm
  constructor
  · intro v he
    have hpos := notIns_pot he rfl
    have hb := bkt_lt P (uexec P t progs sched).shared.tab.bc (P.keyOf v) hI.g.bc_pos hI.g.bc_lt
    rcases (hI.res_mem he : (∃ u, KeyAt P _ c (P.keyOf v) u) ∨ _ ∨ _) with ⟨u, w, g1, g2, g3, g4⟩ | g | g
    · exact ⟨w, mem_contents.2 ⟨u, hI.g.lt hb g1, g2, g3⟩, g4⟩
    · omega
    · have := hI.final_full hl hf g
      omega
  · intro ord ho
    have hR : Rep P (fixExcess (uexec P t progs sched).shared.tab) c _ := hI.final_rep hl hf
    have e : fixExcess (uexec P t progs sched).shared.tab = _ := fixExcess_eq (by omega)
    rw [e] at hR
    exact valid_eq hR hl ho

/-- C55. Lookups concurrent with insertions: if at some moment (after `s1`) a value with key `k` was there from the start
or its insertion had returned, and thread `i` is between two operations, then every `find(k)` that thread `i` completes
later (during `s2`) returns an iterator to this value. -/
theorem C55_find_sees_inserted (sched2 : List Nat) (i : Nat) (th : Thread K V)
    (hi : (uexec P t progs sched).threads[i]? = some th) (hidle : th.cur = .idle) (v : V) (k : K)
    (hk : P.keyEq (P.keyOf v) k = true) (hv : v ∈ contents t ++ insertedVals (uexec P t progs sched)) :
    ∃ th', (uexec P t progs (sched ++ sched2)).threads[i]? = some th' ∧ th.done <+: th'.done ∧
      ∀ e ∈ th'.done.drop th.done.length, e.1 = .find k →
        ∃ p, e.2 = .found p ∧ deref (uexec P t progs (sched ++ sched2)).shared.tab (some p) = .ok (some v) := by
  obtain ⟨⟨chain, free, h⟩, -, -⟩ := preachable_rep hl h0 h1 hr
  obtain ⟨c, x, hI⟩ := inv_run (mkStart h progs hp) hl sched
  replace hI : Inv (mkStart h progs hp) c x (uexec P t progs sched) := hI
  have hst : ∃ p, StoredAt P (uexec P t progs sched).shared.tab c v p := by
    rcases List.mem_append.1 hv with hv | hv
    · obtain ⟨p, g1, g2, g3⟩ := mem_contents.1 hv
      have hb := bucket_lt P t (P.keyOf v) h.bc_pos h.bc_lt
      have hm := h.home g1 g2 g3
      have hg := hI.base
      have hbc : (uexec P t progs sched).shared.tab.bc = t.bc := hI.bc
      refine ⟨p, ?_, hg.occ p g2, ?_⟩
      · rw [hbc]
        rcases List.mem_cons.1 hm with hm | hm
        · exact List.mem_cons.2 (.inl hm)
        · exact List.mem_cons_of_mem _ ((hg.grow _ hb).subset hm)
      · rw [(hg.live p (h.stored_ok g1 g2).1).2]
        exact g3
    · simp only [insertedVals, List.mem_filterMap] at hv
      obtain ⟨⟨op, r⟩, he, hx⟩ := hv
      cases op <;> cases r <;> simp [insertedVal] at hx
      subst hx
      exact ⟨_, hI.res_mem he⟩
  obtain ⟨p, hst⟩ := hst
  obtain ⟨c', x', th', hI', hst', hth', hfd⟩ := finds_run hl hI hi hidle hst hk sched2
  have hrun : run (step P) (uexec P t progs sched) sched2 = uexec P t progs (sched ++ sched2) := by
    simp [uexec, run_append]
  rw [hrun] at hI' hst' hth'
  obtain ⟨th2, hth2, hpre⟩ := run_done (P := P) (uexec P t progs sched) hi sched2
  rw [hrun, hth'] at hth2
  cases hth2
  refine ⟨th', hth', hpre, ?_⟩
  intro e he hek
  obtain ⟨q, hq⟩ := hfd e he hek
  refine ⟨q, hq, ?_⟩
  have hmem : e ∈ uresults (uexec P t progs (sched ++ sched2)) :=
    List.mem_flatMap.2 ⟨th', List.mem_of_getElem? hth', List.mem_of_mem_drop he⟩
  have hb := bkt_lt P (uexec P t progs (sched ++ sched2)).shared.tab.bc k hI'.g.bc_pos hI'.g.bc_lt
  have hb2 := bkt_lt P (uexec P t progs (sched ++ sched2)).shared.tab.bc (P.keyOf v) hI'.g.bc_pos hI'.g.bc_lt
  obtain ⟨eo, er⟩ := e
  simp only at hek hq
  subst hek hq
  obtain ⟨w, g1, g2, g3, g4⟩ : KeyAt P _ c' k q := hI'.res_mem hmem
  have hlt := hI'.g.lt hb g1
  have htot : (uexec P t progs (sched ++ sched2)).shared.tab.total = t.total := hI'.total
  have hpq : p = q := hI'.uniq hl (htot ▸ hI'.g.lt hb2 hst'.1) (htot ▸ hlt) hst'.2.1 g2 hst'.2.2 g3
    (hl.trans _ _ _ hk (hl.symm _ _ g4))
  subst hpq
  have hlive := (hI'.g.live p hlt g2).1
  simp [deref, hlt, hlive, hst'.2.2]

/-- C55. A lookup concurrent with insertions that returns an iterator has found a stored value with the key. -/
theorem C55_found_is_stored (k : K) (p : Nat) (he : (Op.find k, Res.found p) ∈ uresults (uexec P t progs sched)) :
    ∃ v, deref (uexec P t progs sched).shared.tab (some p) = .ok (some v) ∧ P.keyEq (P.keyOf v) k = true ∧
      v ∈ contents (uexec P t progs sched).shared.tab := by
  obtain ⟨I, c, x, -, -, -, h⟩ := ins_inv hl h0 h1 hr hp sched
  have hb := bkt_lt P (uexec P t progs sched).shared.tab.bc k h.g.bc_pos h.g.bc_lt
  obtain ⟨w, g1, g2, g3, g4⟩ : KeyAt P _ c k p := h.res_mem he
  have hlt := h.g.lt hb g1
  have hlive := (h.g.live p hlt g2).1
  exact ⟨w, by simp [deref, hlt, hlive, g3], g4, mem_contents.2 ⟨p, hlt, g2, g3⟩⟩

/-- C56. No deadlock: whatever insertions and lookups have been doing up to some moment, the schedule can be continued so
that every operation of every thread returns. -/
theorem C56_inserts_no_deadlock : ∃ sched', UFinished (uexec P t progs (sched ++ sched')) := by
  obtain ⟨I, c, x, -, -, -, h⟩ := ins_inv hl h0 h1 hr hp sched
  obtain ⟨σ, hσ⟩ := h.can_finish hl
  exact ⟨σ, by simpa [uexec, run_append] using hσ⟩

end

/-! ### C39: erasures and lookups at the same time -/

section
variable (hl : KeyLaws P) (h0 : 0 < bc) (h1 : bc < 2 ^ 63) (hr : PReachable P bc ec t) (hp : NoInsert progs)
  (sched : List Nat)
include hl h0 h1 hr hp

theorem era_inv : ∃ (E : Er.Start P) (path : Nat → List Nat) (xp : _), E.t₀ = t ∧ E.progs = progs ∧
    Er.Inv E path xp (uexec P t progs sched) ∧ (uexec P t progs sched).threads.length = E.progs.length := by
  obtain ⟨⟨chain, free, h⟩, -, -⟩ := preachable_rep hl h0 h1 hr
  obtain ⟨c, x, hI⟩ := Er.inv_run (Er.mkStart h progs hp) hl sched
  refine ⟨Er.mkStart h progs hp, c, x, rfl, rfl, hI, ?_⟩
  refine run_inv (f := step P) (fun s => s.threads.length = progs.length) ?_ _ (by simp [init]) sched
  intro s i t hs _
  simpa using hs

/-- C39. In every state of every execution: no access outside the table, no destruction of an object that is not there,
and the list of unused entries is used without errors. -/
theorem C39_safe : (uexec P t progs sched).shared.ub = false ∧
    (uexec P t progs sched).shared.tab.excess.slots.err = false := by
  obtain ⟨E, c, x, -, -, h, -⟩ := era_inv hl h0 h1 hr hp sched
  exact ⟨h.ub, h.excess.v.err⟩

/-- C39. In every state of every execution: an erase that has returned 1 has erased a key that was stored at the start,
and this key is not stored any more. -/
theorem C39_erased_was_stored (k : K) (he : (Op.erase k, Res.erased) ∈ uresults (uexec P t progs sched)) :
    (lookup P (contents t) k).isSome = true ∧ lookup P (contents (uexec P t progs sched).shared.tab) k = none := by
  obtain ⟨E, c, x, rfl, -, h, -⟩ := era_inv hl h0 h1 hr hp sched
  obtain ⟨p, hH, ho⟩ : ∃ p, Er.Home E k p ∧ _ := h.res_mem he
  have hlt := hH.lt
  obtain ⟨v, h2, h3, h4⟩ := hH.lookup_some hl
  refine ⟨by rw [h3]; rfl, ?_⟩
  unfold lookup
  rw [List.find?_eq_none]
  intro w hw hk
  obtain ⟨q, q1, q2, q3⟩ := h.mem_contents.1 hw
  have := Er.Home.uniq hl hH (Er.Home.of_stored hl q1 (h.g.occM q q2) q3 hk)
  subst this
  rw [ho] at q2; simp at q2

/-- C39. In every state of every execution: of the erases of a key at most one has returned 1. -/
theorem C39_at_most_one : (erasedKeys (uexec P t progs sched)).Pairwise (fun a b => P.keyEq a b = false) := by
  obtain ⟨E, c, x, -, -, h, -⟩ := era_inv hl h0 h1 hr hp sched
  exact h.erased_distinct hl

/-- C39. In every state of every execution: the stored elements and the erased ones are elements of the start, and no
element is both or is erased twice (as multisets). -/
theorem C39_contents_shrink : (contents (uexec P t progs sched).shared.tab ++
    (erasedKeys (uexec P t progs sched)).filterMap (lookup P (contents t))).Subperm (contents t) := by
  obtain ⟨E, c, x, rfl, -, h, -⟩ := era_inv hl h0 h1 hr hp sched
  exact h.subperm hl

/-- C39. In every state of every execution: an element for whose key no thread calls `erase` is stored. -/
theorem C39_others_stay (v : V) (hv : v ∈ contents t) (hn : erases P progs (P.keyOf v) = false) :
    v ∈ contents (uexec P t progs sched).shared.tab := by
  obtain ⟨E, c, x, rfl, rfl, h, -⟩ := era_inv hl h0 h1 hr hp sched
  by_contra hc
  obtain ⟨th, hth, k, -, hk, hop⟩ := h.lost hl hv hc
  obtain ⟨p, hH, hpv⟩ := Er.Home.of_lookup hl hk
  obtain ⟨w, w1, -, w3⟩ := hH.lookup_some hl
  rw [hpv] at w1
  cases w1
  simp only [erases, List.any_eq_false] at hn
  exact hn _ hop w3

/-- C39. In every state of every execution: an erase or a find reports that a key is not there only if it was not there
at the start or some thread calls `erase` for it. -/
theorem C39_miss (k : K) (he : (Op.erase k, Res.notErased) ∈ uresults (uexec P t progs sched) ∨
    (Op.find k, Res.notFound) ∈ uresults (uexec P t progs sched)) :
    lookup P (contents t) k = none ∨ erases P progs k = true := by
  obtain ⟨E, c, x, rfl, rfl, h, -⟩ := era_inv hl h0 h1 hr hp sched
  have hres : ∀ p, Er.Home E k p → Er.Gone (uexec P E.t₀ E.progs sched).shared.tab c (bkt P E.t₀.bc k) p := by
    rcases he with he | he
    · exact h.res_mem he
    · exact h.res_mem he
  cases hk : lookup P (contents E.t₀) k with
  | none => exact .inl rfl
  | some v =>
    right
    obtain ⟨p, hH, -⟩ := Er.Home.of_lookup hl hk
    obtain ⟨k', h2, h3⟩ := h.gone_erased hl hH (hres p hH)
    exact List.any_eq_true.2 ⟨_, h3, hl.symm _ _ h2⟩

/-- C39. In every state of every execution: an iterator returned by a find points to the entry in which the value with
this key was stored at the start (it may have been erased in the meantime). -/
theorem C39_found (k : K) (p : Nat) (he : (Op.find k, Res.found p) ∈ uresults (uexec P t progs sched)) :
    ∃ v, lookup P (contents t) k = some v ∧ deref t (some p) = .ok (some v) ∧
      (uexec P t progs sched).shared.tab.val p = some v := by
  obtain ⟨E, c, x, rfl, -, h, -⟩ := era_inv hl h0 h1 hr hp sched
  have hH : Er.Home E k p := h.res_mem he
  obtain ⟨v, h2, h3, -⟩ := hH.lookup_some hl
  have hlt := hH.lt
  obtain ⟨-, -, ho, -⟩ := hH
  have hlive := (E.rep.stored_ok hlt ho).1
  exact ⟨v, h3, by simp [deref, hlt, hlive, h2], by rw [h.g.val]; exact h2⟩

/-- C39. If an erase of key `k` has returned 1 at some moment (after `sched`), and thread `i` is between two operations,
then no `find(k)` that thread `i` completes later (during `sched2`) finds it. -/
theorem C39_find_after_erase (sched2 : List Nat) (i : Nat) (th : Thread K V)
    (hi : (uexec P t progs sched).threads[i]? = some th) (hidle : th.cur = .idle) (k k' : K)
    (hk : P.keyEq k' k = true) (he : (Op.erase k', Res.erased) ∈ uresults (uexec P t progs sched)) :
    ∃ th', (uexec P t progs (sched ++ sched2)).threads[i]? = some th' ∧ th.done <+: th'.done ∧
      ∀ e ∈ th'.done.drop th.done.length, e.1 = .find k → e.2 = .notFound := by
  obtain ⟨E, c, x, rfl, rfl, h, -⟩ := era_inv hl h0 h1 hr hp sched
  obtain ⟨p, hH, ho⟩ : ∃ p, Er.Home E k' p ∧ _ := h.res_mem he
  have hH' : Er.Home E k p := by
    have hlt := hH.lt
    obtain ⟨v, -, o1, o2, o3⟩ := hH
    exact Er.Home.of_stored hl hlt o1 o2 (hl.trans _ _ _ o3 hk)
  obtain ⟨th', hth', hfd⟩ := Er.late_run hl h hi hidle hH' ho sched2
  obtain ⟨th2, hth2, hpre⟩ := run_done (P := P) (uexec P E.t₀ E.progs sched) hi sched2
  have hrun : run (step P) (uexec P E.t₀ E.progs sched) sched2 = uexec P E.t₀ E.progs (sched ++ sched2) := by
    simp [uexec, run_append]
  rw [hrun] at hth' hth2
  rw [hth'] at hth2
  cases hth2
  exact ⟨th', hth', hpre, hfd⟩

/-- C39. When all threads have finished, exactly the elements are left for whose key no thread has called `erase`, the
size is right and every key is found exactly if it is stored. -/
theorem C39_final (hf : UFinished (uexec P t progs sched)) :
    contents (uexec P t progs sched).shared.tab = (contents t).filter (fun v => !erases P progs (P.keyOf v)) ∧
    size (uexec P t progs sched).shared.tab = (contents (uexec P t progs sched).shared.tab).length ∧
    ∀ k, ∃ it, find P (uexec P t progs sched).shared.tab k = .ok it ∧ deref (uexec P t progs sched).shared.tab it =
      .ok (lookup P (contents (uexec P t progs sched).shared.tab) k) := by
  obtain ⟨E, c, x, rfl, rfl, h, hlen⟩ := era_inv hl h0 h1 hr hp sched
  obtain ⟨free, hR⟩ := h.final_rep hf
  refine ⟨?_, ?_, ?_⟩
  · refine h.final_filter hl hf hlen _ ?_
    intro v
    simp only [erases, Bool.not_eq_true', List.any_eq_false]
    constructor
    · intro hc k hk
      simpa using hc _ hk
    · intro hc op hop
      cases op with
      | erase k => simp [hc k hop]
      | _ => simp
  · exact hR.count.trans (by rw [length_contents hR])
  · intro k
    refine ⟨_, hR.find_eq k, ?_⟩
    rw [lookup_eq hR hl (List.Perm.refl _) k]
    cases hq : Rep.pos P (uexec P E.t₀ E.progs sched).shared.tab c k with
    | none => rfl
    | some p =>
      obtain ⟨g1, g2, -⟩ := hR.pos_some hq
      have g3 := (hR.stored_ok g1 g2).1
      simp [deref, g1, g3]

/-- C39. When all threads have finished: of the erases of a key that was stored at the start exactly one has returned 1
(if there was one). An erase has returned 0 only if the key was not stored at the start or another erase of it has
returned 1. -/
theorem C39_exactly_one (hf : UFinished (uexec P t progs sched)) (k : K) (hk : (lookup P (contents t) k).isSome = true)
    (hc : erases P progs k = true) :
    ((erasedKeys (uexec P t progs sched)).filter (fun k' => P.keyEq k' k)).length = 1 := by
  have hfin := (C39_final hl h0 h1 hr hp sched hf).1
  have hd := C39_at_most_one hl h0 h1 hr hp sched
  obtain ⟨v, hv⟩ := Option.isSome_iff_exists.1 hk
  have hv2 : P.keyEq (P.keyOf v) k = true := by simpa using List.find?_some hv
  have hmem : v ∈ contents t := List.mem_of_find?_eq_some hv
  have hno : v ∉ contents (uexec P t progs sched).shared.tab := by
    rw [hfin, List.mem_filter]
    rintro ⟨-, hx⟩
    simp only [erases, Bool.not_eq_true', List.any_eq_false] at hx
    obtain ⟨op, h2, h3⟩ := List.any_eq_true.1 hc
    refine hx op h2 ?_
    cases op with
    | erase k' => exact hl.trans _ _ _ hv2 h3
    | _ => simp at h3
  obtain ⟨E, c, x, rfl, -, h, -⟩ := era_inv hl h0 h1 hr hp sched
  have hin := (h.final_contents hl hf).mem_iff.1 hmem
  rcases List.mem_append.1 hin with hin | hin
  · exact absurd hin hno
  · obtain ⟨k', h2, h3⟩ := List.mem_filterMap.1 hin
    have hk' : P.keyEq k' k = true := by
      have : P.keyEq (P.keyOf v) k' = true := by simpa using List.find?_some h3
      exact hl.trans _ _ _ (hl.symm _ _ this) hv2
    have h4 : k' ∈ (erasedKeys (uexec P E.t₀ progs sched)).filter (fun k' => P.keyEq k' k) := List.mem_filter.2 ⟨h2, hk'⟩
    have h5 := hd.filter (fun k' => P.keyEq k' k)
    have h6 : ∀ a ∈ (erasedKeys (uexec P E.t₀ progs sched)).filter (fun k' => P.keyEq k' k), P.keyEq a k = true :=
      fun a ha => (List.mem_filter.1 ha).2
    generalize (erasedKeys (uexec P E.t₀ progs sched)).filter (fun k' => P.keyEq k' k) = l at h4 h5 h6
    match l with
    | [] => simp at h4
    | [_] => rfl
    | a :: b :: l =>
      have h7 : P.keyEq a b = false := by
        simp only [List.pairwise_cons] at h5
        exact h5.1 b (by simp)
      rw [hl.trans _ _ _ (h6 a (by simp)) (hl.symm _ _ (h6 b (by simp)))] at h7
      simp at h7

/-- C39. When all threads have finished, `valid()` holds, and the container works like a finite map with the remaining
elements from then on: every further history of operations gives the results of the map, without undefined behaviour. -/
theorem C39_usable_afterwards [DecidableEq V] (hf : UFinished (uexec P t progs sched)) :
    (∀ ord : Nat → List Nat, (∀ n, (ord n).Perm (List.range n)) →
      valid P ord (uexec P t progs sched).shared.tab = .ok true) ∧
    ∀ (ops : List (UOp K V)) (ords : Nat → Nat → List Nat), (∀ j n, (ords j n).Perm (List.range n)) →
    ∃ outs t' m, execAll P ords (uexec P t progs sched).shared.tab ops = .ok (outs, t') ∧
      mapRun P ((contents t).filter (fun v => !erases P progs (P.keyOf v))) ops outs = some m ∧ m.Perm (contents t') := by
  obtain ⟨⟨chain, free, hR⟩, -, -⟩ := preachable_rep hl h0 h1 (.erases hr progs sched hp hf)
  refine ⟨fun ord ho => valid_eq hR hl ho, fun ops ords ho => ?_⟩
  obtain ⟨outs, t', m, e1, e2, h, -⟩ := execAll_refines hl ops _
    (contents (uexec P t progs sched).shared.tab) ords ho ⟨⟨_, _, hR⟩, List.Perm.refl _⟩
  rw [(C39_final hl h0 h1 hr hp sched hf).1] at e2
  exact ⟨outs, t', m, e1, e2, h.perm⟩

/-- C56. No deadlock: whatever erasures and lookups have been doing up to some moment, the schedule can be continued so
that every operation of every thread returns (an erase holds up to two locks at a time). -/
theorem C56_erases_no_deadlock : ∃ sched', UFinished (uexec P t progs (sched ++ sched')) := by
  obtain ⟨E, c, x, -, -, h, -⟩ := era_inv hl h0 h1 hr hp sched
  obtain ⟨σ, hσ⟩ := h.can_finish hl
  exact ⟨σ, by simpa [uexec, run_append] using hσ⟩

end

/-- Every state reached by one thread is a phase state. -/
theorem preachable_of_reachable (hr : Reachable P bc ec t) : PReachable P bc ec t := by
  obtain ⟨ops, ords, outs, ho, e⟩ := hr
  have : ∀ (ops : List (UOp K V)) (ords : Nat → Nat → List Nat) (s : Tab V) (outs : List (UOut V)),
      (∀ j n, (ords j n).Perm (List.range n)) → PReachable P bc ec s → execAll P ords s ops = .ok (outs, t) →
      PReachable P bc ec t := by
    intro ops
    induction ops with
    | nil =>
      intro ords s outs _ hs e
      simp only [execAll, Except.ok.injEq, Prod.mk.injEq] at e
      rw [← e.2]; exact hs
    | cons op ops ih =>
      intro ords s outs ho hs e
      simp only [execAll, bind, Except.bind] at e
      split at e
      · simp at e
      · next r h2 =>
        obtain ⟨o, s'⟩ := r
        simp only at e
        split at e
        · simp at e
        · next r h3 =>
          obtain ⟨os, s''⟩ := r
          simp only [pure, Except.pure, Except.ok.injEq, Prod.mk.injEq] at e
          obtain ⟨-, rfl⟩ := e
          exact ih (fun j => ords (j + 1)) s' os (fun j => ho (j + 1)) (.op hs (ho 0) h2) h3
  exact this ops ords _ outs ho .create e

/-! ### Concrete executions -/

/-- The state after a history of one thread on a new map. -/
def exTab (P : Params Nat (Nat × Nat)) (bc ec : Nat) (ops : List (UOp Nat (Nat × Nat))) : Tab (Nat × Nat) :=
  match execAll P (fun _ n => List.range n) (create bc ec) ops with
  | .ok (_, t) => t
  | .error _ => create bc ec

theorem exTab_reachable (P : Params Nat (Nat × Nat)) (bc ec : Nat) (ops : List (UOp Nat (Nat × Nat))) :
    PReachable P bc ec (exTab P bc ec ops) := by
  unfold exTab
  split
  · next h => exact preachable_of_reachable ⟨ops, _, _, fun _ _ => List.Perm.refl _, h⟩
  · exact .create

/-- Two threads race to insert key 3 into the chain of a map whose keys all collide, a third one looks it up twice; the
hypotheses of C38 and C55 hold and the results are not trivial. -/
def raceIns (n : Nat) : Sys (Shared (Nat × Nat)) (Thread Nat (Nat × Nat)) :=
  uexec exC (exTab exC 1 3 [.insert (1, 10), .insert (2, 20)])
    [[.insert (3, 30)], [.insert (3, 31)], [.find 3, .find 3]]
    ((List.replicate 20 0 ++ List.replicate 20 1 ++ List.replicate 8 2 ++ List.replicate 40 0 ++ List.replicate 40 1 ++
        List.replicate 20 2).take n)

example : UFinished (raceIns 200) ∧
    uresults (raceIns 200) = [(.insert (3, 30), .inserted 2), (.insert (3, 31), .notInserted), (.find 3, .notFound),
      (.find 3, .found 2)] ∧
    contents (raceIns 200).shared.tab = [(1, 10), (3, 30), (2, 20)] := by
  refine ⟨?_, by decide +kernel, by decide +kernel⟩
  unfold UFinished; decide +kernel

example : NoErase [[Op.insert (3, 30)], [.insert (3, 31)], [.find 3, .find (V := Nat × Nat) 3]] ∧
    numInserts [[Op.insert (3, 30)], [.insert (3, 31)], [.find 3, .find (V := Nat × Nat) 3]] ≤
      (freeList (exTab exC 1 3 [.insert (1, 10), .insert (2, 20)])).length := by
  constructor
  · intro p hp k hk
    simp only [List.mem_cons, List.not_mem_nil, or_false] at hp
    rcases hp with rfl | rfl | rfl <;> simp at hk
  · decide +kernel

/-- At step 100 thread 2 is between its two lookups and the insertion by thread 0 has returned (hypotheses of C55). -/
example : (raceIns 100).threads[2]?.map (fun th => th.cur) = some .idle ∧
    (raceIns 100).threads[2]?.map (fun th => th.done) = some [(.find 3, .notFound)] ∧
    (raceIns 100).threads[2]?.map (fun th => th.todo) = some [.find 3] ∧
    insertedVals (raceIns 100) = [(3, 30)] :=
  ⟨by decide +kernel, by decide +kernel, by decide +kernel, by decide +kernel⟩

/-- At step 40 both inserting threads are inside their calls, thread 0 holds the lock of the chain's last entry and no
further step of thread 1 alone can make it return: C56 is not about finished executions only. -/
example : (raceIns 40).shared.tab.locks 3 = true ∧
    (raceIns 40).threads.map (fun th => decide (th.cur = .idle)) = [false, false, true] ∧
    (uexec exC (exTab exC 1 3 [.insert (1, 10), .insert (2, 20)]) [[.insert (3, 30)], [.insert (3, 31)], [.find 3, .find 3]]
      (List.replicate 20 0 ++ List.replicate 200 1)).threads.map (fun th => decide (th.cur = .idle)) = [false, false, true] :=
  ⟨by decide +kernel, by decide +kernel, by decide +kernel⟩

/-- C38: the provision about the list of unused excess entries is needed. Two threads insert into different buckets when
one excess entry is left; both see it before either takes it. One insertion succeeds, the other one fails, and `valid()`
is false afterwards. Erasing the inserted key makes `valid()` true again, but its excess entry is lost: the key cannot
be inserted any more, although the container has 3 entries and holds 2 elements. -/
theorem C38_counterexample_exhaustion :
    ∃ (t : Tab (Nat × Nat)) (progs : List (List (Op Nat (Nat × Nat)))) (sched : List Nat),
      PReachable exP 2 1 t ∧ NoErase progs ∧ UFinished (uexec exP t progs sched) ∧
      uresults (uexec exP t progs sched) = [(.insert (2, 30), .inserted 2), (.insert (3, 40), .notInserted)] ∧
      valid exP List.range (uexec exP t progs sched).shared.tab = .ok false ∧
      (execAll exP (fun _ => List.range) (uexec exP t progs sched).shared.tab
        [.erase 2, .valid, .size, .insert (2, 30), .insert (3, 40)]).map Prod.fst =
        .ok [.num 1, .bool true, .num 2, .inserted none false, .inserted none false] := by
  refine ⟨exTab exP 2 1 [.insert (0, 10), .insert (1, 20)], [[.insert (2, 30)], [.insert (3, 40)]],
    List.replicate 14 0 ++ List.replicate 14 1 ++ List.replicate 60 0 ++ List.replicate 60 1, exTab_reachable _ _ _ _,
    ?_, ?_, by decide +kernel, by decide +kernel, by decide +kernel⟩
  · intro p hp k hk
    simp only [List.mem_cons, List.not_mem_nil, or_false] at hp
    rcases hp with rfl | rfl <;> simp at hk
  · unfold UFinished; decide +kernel

/-- Two threads race to erase key 2, a third one erases its neighbour 3 in the chain of a map whose keys all collide, a
fourth one looks up key 3 twice and key 4 (hypotheses of C39, with a result that is not trivial). -/
def raceEra (n : Nat) : Sys (Shared (Nat × Nat)) (Thread Nat (Nat × Nat)) :=
  uexec exC (exTab exC 1 4 [.insert (1, 10), .insert (2, 20), .insert (3, 30), .insert (4, 40)])
    [[.erase 2], [.erase 2], [.erase 3], [.find 3, .find 3, .find 4]]
    ((List.replicate 12 0 ++ List.replicate 9 1 ++ List.replicate 8 2 ++ List.replicate 11 3 ++ List.replicate 60 0 ++
        List.replicate 60 2 ++ List.replicate 60 1 ++ List.replicate 40 3).take n)

example : UFinished (raceEra 300) ∧
    uresults (raceEra 300) = [(.erase 2, .erased), (.erase 2, .notErased), (.erase 3, .erased), (.find 3, .found 3),
      (.find 3, .notFound), (.find 4, .found 2)] ∧
    contents (raceEra 300).shared.tab = [(1, 10), (4, 40)] := by
  refine ⟨?_, by decide +kernel, by decide +kernel⟩
  unfold UFinished; decide +kernel

example : NoInsert [[Op.erase 2], [.erase 2], [.erase 3], [.find 3, .find 3, .find (V := Nat × Nat) 4]] ∧
    erases exC [[Op.erase 2], [.erase 2], [.erase 3], [.find 3, .find 3, .find 4]] 3 = true ∧
    erases exC [[Op.erase 2], [.erase 2], [.erase 3], [.find 3, .find 3, .find 4]] 4 = false := by
  refine ⟨?_, by decide +kernel, by decide +kernel⟩
  intro p hp k hk
  simp only [List.mem_cons, List.not_mem_nil, or_false] at hp
  rcases hp with rfl | rfl | rfl | rfl <;> simp at hk

/-- At step 160 thread 3 is between its lookups and the erase of key 3 has returned (hypotheses of
`C39_find_after_erase`). -/
example : (raceEra 160).threads[3]?.map (fun th => th.cur) = some .idle ∧
    (raceEra 160).threads[3]?.map (fun th => th.done) = some [(.find 3, .found 3)] ∧
    (Op.erase 3, Res.erased) ∈ uresults (raceEra 160) :=
  ⟨by decide +kernel, by decide +kernel, by decide +kernel⟩

/-- C39: a lookup reads an entry after it has tested its bit, without a lock. If another thread erases the value in
between, the key of a destroyed object is compared. This happens with two erases of the same key alone, and it is why
`C39_safe` does not say anything about reads. (For a trivially destructible key and value the storage still has the old
value, which is what the model reads, and the results are right by the other theorems.) -/
theorem C39_counterexample_stale_read :
    ∃ (t : Tab (Nat × Nat)) (sched : List Nat), PReachable exC 1 3 t ∧
      UFinished (uexec exC t [[.erase 2], [.erase 2]] sched) ∧
      uresults (uexec exC t [[.erase 2], [.erase 2]] sched) = [(.erase 2, .notErased), (.erase 2, .erased)] ∧
      (uexec exC t [[.erase 2], [.erase 2]] sched).shared.stale = true := by
  refine ⟨exTab exC 1 3 [.insert (1, 10), .insert (2, 20)],
    List.replicate 6 0 ++ List.replicate 60 1 ++ List.replicate 60 0, exTab_reachable _ _ _ _, ?_,
    by decide +kernel, by decide +kernel⟩
  unfold UFinished; decide +kernel

/-! ### C40: insertions and erasures at the same time -/

/-- C40 is false: with insertions and an erasure at the same time a key can be stored twice. All keys collide; the map
holds keys 1 (in the bucket) and 2. Thread 0 inserts key 3 and has checked that it is not there when thread 1 erases key
1; thread 2 inserts key 3 into the empty bucket; then thread 0 continues and appends key 3 to the chain. Both insertions
report success. -/
theorem C40_counterexample_duplicate_key :
    ∃ (t : Tab (Nat × Nat)) (sched : List Nat), PReachable exC 1 3 t ∧
      UFinished (uexec exC t [[.insert (3, 30)], [.erase 1], [.insert (3, 31)]] sched) ∧
      uresults (uexec exC t [[.insert (3, 30)], [.erase 1], [.insert (3, 31)]] sched) =
        [(.insert (3, 30), .inserted 2), (.erase 1, .erased), (.insert (3, 31), .inserted 0)] ∧
      contents (uexec exC t [[.insert (3, 30)], [.erase 1], [.insert (3, 31)]] sched).shared.tab =
        [(3, 31), (3, 30), (2, 20)] := by
  refine ⟨exTab exC 1 3 [.insert (1, 10), .insert (2, 20)],
    List.replicate 26 0 ++ List.replicate 14 1 ++ List.replicate 40 2 ++ List.replicate 40 0, exTab_reachable _ _ _ _, ?_,
    by decide +kernel, by decide +kernel⟩
  unfold UFinished; decide +kernel

/-- C40 is false: an erasure can miss a key that is stored all the time. Thread 0 erases key 3 and has walked to the entry
of key 2 when thread 1 erases key 2; thread 2 inserts key 4 and gets this entry, which is the end of the chain now. Thread
0 continues at the end of the chain and reports that key 3 is not there, although it is stored before, after and at every
step of the execution, and no other thread erases it. -/
theorem C40_counterexample_lost_erase :
    ∃ (t : Tab (Nat × Nat)) (sched : List Nat), PReachable exC 1 3 t ∧
      UFinished (uexec exC t [[.erase 3], [.erase 2], [.insert (4, 31)]] sched) ∧
      uresults (uexec exC t [[.erase 3], [.erase 2], [.insert (4, 31)]] sched) =
        [(.erase 3, .notErased), (.erase 2, .erased), (.insert (4, 31), .inserted 3)] ∧
      ∀ n, (3, 30) ∈ contents (uexec exC t [[.erase 3], [.erase 2], [.insert (4, 31)]] (sched.take n)).shared.tab := by
  refine ⟨exTab exC 1 3 [.insert (1, 10), .insert (2, 20), .insert (3, 30)],
    List.replicate 7 0 ++ List.replicate 60 1 ++ List.replicate 60 2 ++ List.replicate 5 0, exTab_reachable _ _ _ _, ?_,
    by decide +kernel, ?_⟩
  · unfold UFinished; decide +kernel
  · have key : ∀ n < 133, (3, 30) ∈ contents (uexec exC (exTab exC 1 3 [.insert (1, 10), .insert (2, 20), .insert (3, 30)])
        [[.erase 3], [.erase 2], [.insert (4, 31)]]
        ((List.replicate 7 0 ++ List.replicate 60 1 ++ List.replicate 60 2 ++ List.replicate 5 0).take n)).shared.tab := by
      decide +kernel
    intro n
    by_cases hn : n < 133
    · exact key n hn
    · have h2 := key 132 (by omega)
      rw [List.take_of_length_le (by simp)] at h2
      rw [List.take_of_length_le (by simp; omega)]
      exact h2

/-- The container and the schedule of the two counterexamples below: one bucket holds a chain of five entries, thread 0
erases the fourth of them, threads 1 and 2 the third and the second one, and thread 3 inserts two keys of the other
bucket. Thread 0 first sees the third entry in front of the one it erases; after thread 1 has erased this third entry,
thread 0 locks it and walks to the second one; thread 2 erases this one, and thread 3 gets both entries for the other
chain. Thread 0 continues along the wrong chain, which ends at the entry it holds the lock of, and it takes this end for
the predecessor of the entry it erases. -/
def mixedProgs : List (List (Op Nat (Nat × Nat))) :=
  [[.erase 5], [.erase 4], [.erase 2], [.insert (3, 30), .insert (6, 60)], [.find 8]]

def mixedSched : List Nat :=
  List.replicate 21 0 ++ List.replicate 80 1 ++ List.replicate 14 0 ++ List.replicate 80 2 ++ List.replicate 120 3 ++
    List.replicate 60 0

/-- C40 is false: with insertions and erasures at the same time, of pairwise different keys, all of them successful, the
chains are corrupted: a lookup after them leaves the entries of the container (it would read `_occupied[9]` of a
container with 7 entries), although no other call is running any more. -/
theorem C40_counterexample_out_of_bounds :
    ∃ (t : Tab (Nat × Nat)) (sched : List Nat), PReachable exP 2 5 t ∧
      uresults (uexec exP t mixedProgs sched) = [(.erase 5, .erased), (.erase 4, .erased), (.erase 2, .erased),
        (.insert (3, 30), .inserted 4), (.insert (6, 60), .inserted 5)] ∧
      (uexec exP t mixedProgs sched).threads.map (fun th => th.todo) = [[], [], [], [], [.find 8]] ∧
      (uexec exP t mixedProgs sched).threads.map (fun th => th.cur) = [.idle, .idle, .idle, .idle, .idle] ∧
      Defined (uexec exP t mixedProgs sched) ∧
      (uexec exP t mixedProgs (sched ++ List.replicate 13 4)).shared.ub = true := by
  refine ⟨exTab exP 2 5 [.insert (0, 10), .insert (2, 10), .insert (4, 10), .insert (5, 10), .insert (7, 10),
      .insert (10, 10), .erase 7, .erase 2, .erase 10, .erase 4, .erase 5, .insert (2, 10), .insert (4, 10),
      .insert (5, 10), .insert (7, 10), .insert (1, 10)], mixedSched, exTab_reachable _ _ _ _, by decide +kernel,
    by decide +kernel, by decide +kernel, ?_, by decide +kernel⟩
  exact ⟨by decide +kernel, by decide +kernel, by decide +kernel⟩

/-- The chain of key 8 of the next counterexample is a cycle: 1, 6, 5, 6, … -/
def Cyc (t : Tab (Nat × Nat)) : Prop :=
  bucket exP t 8 = 1 ∧ t.total = 7 ∧ t.off 1 = 5 ∧ t.off 6 = -1 ∧ t.off 5 = 1 ∧ t.val 1 = some (1, 10) ∧
    t.val 6 = some (3, 30) ∧ t.val 5 = some (6, 60)

/-- A thread that is going to look up key 8, or is doing so and has arrived at one of these entries. -/
def Looking (th : Thread Nat (Nat × Nat)) : Prop :=
  th.done = [] ∧ ((th.todo = [.find 8] ∧ th.cur = .idle) ∨ ∃ w, (w = 1 ∨ w = 6 ∨ w = 5) ∧
    (th.cur = .fnd 8 (.occ w) ∨ th.cur = .fnd 8 (.val w) ∨ th.cur = .fnd 8 (.off1 w) ∨ th.cur = .fnd 8 (.off2 w)))

theorem looking_step {m : Shared (Nat × Nat)} {th : Thread Nat (Nat × Nat)} (hc : Cyc m.tab) (h : Looking th) :
    (step exP m th).1.tab = m.tab ∧ Looking (step exP m th).2 := by
  obtain ⟨todo, cur, ex, done⟩ := th
  obtain ⟨c1, c2, c3, c4, c5, c6, c7, c8⟩ := hc
  obtain ⟨hd, hl⟩ := h
  dsimp only at hd hl
  subst hd
  rcases hl with ⟨rfl, rfl⟩ | ⟨w, hw, hl⟩
  · refine ⟨rfl, rfl, .inr ⟨1, .inl rfl, .inl ?_⟩⟩
    simp [step, begin, c1]
  · rcases hl with rfl | rfl | rfl | rfl
    · refine ⟨rfl, rfl, .inr ⟨w, hw, ?_⟩⟩
      simp only [step, findStep]
      split <;> simp
    · rcases hw with rfl | rfl | rfl
      · simp [step, findStep, c6, Looking, exP]
      · simp [step, findStep, c7, Looking, exP]
      · simp [step, findStep, c8, Looking, exP]
    · rcases hw with rfl | rfl | rfl
      · simp [step, findStep, c3, Looking]
      · simp [step, findStep, c4, Looking]
      · simp [step, findStep, c5, Looking]
    · rcases hw with rfl | rfl | rfl
      · simp [step, findStep, c3, c2, hop, Looking]
      · simp [step, findStep, c4, c2, hop, Looking]
      · simp [step, findStep, c5, c2, hop, Looking]

/-- All threads but the fifth one have finished, the fifth one is looking up key 8. -/
def HangInv (s : Sys (Shared (Nat × Nat)) (Thread Nat (Nat × Nat))) : Prop :=
  Cyc s.shared.tab ∧ ∀ (i : Nat) (th : Thread Nat (Nat × Nat)),
    s.threads[i]? = some th → (i ≠ 4 → th.todo = [] ∧ th.cur = .idle) ∧ (i = 4 → Looking th)

theorem looking_forever {s : Sys (Shared (Nat × Nat)) (Thread Nat (Nat × Nat))} (h : HangInv s) (more : List Nat)
    (th : Thread Nat (Nat × Nat)) (h4 : (run (step exP) s more).threads[4]? = some th) : th.done = [] := by
  suffices H : HangInv (run (step exP) s more) from ((H.2 4 th h4).2 rfl).1
  refine run_inv HangInv ?_ s h more
  intro s i u ⟨hc, h⟩ hi
  have hu := h i u hi
  have hstep : (step exP s.shared u).1.tab = s.shared.tab ∧
      (i ≠ 4 → (step exP s.shared u).2.todo = [] ∧ (step exP s.shared u).2.cur = .idle) ∧
      (i = 4 → Looking (step exP s.shared u).2) := by
    by_cases e : i = 4
    · obtain ⟨a, b⟩ := looking_step hc (hu.2 e)
      exact ⟨a, fun h => absurd e h, fun _ => b⟩
    · obtain ⟨a, b⟩ := hu.1 e
      have : step exP s.shared u = (s.shared, u) := by simp only [step, a, b]
      rw [this]
      exact ⟨rfl, hu⟩
  refine ⟨hstep.1 ▸ hc, fun j v hj => ?_⟩
  replace hj : (s.threads.set i (step exP s.shared u).2)[j]? = some v := hj
  rw [List.getElem?_set] at hj
  split at hj
  · next e =>
    subst e
    split at hj
    · cases hj; exact hstep.2
    · exact absurd hj (by simp)
  · exact h j v hj

/-- C40 is false: for another order of the entries the corrupted chain is a cycle, and a lookup of an absent key never
returns, however it is scheduled, although every other call has returned. -/
theorem C40_counterexample_find_hangs :
    ∃ (t : Tab (Nat × Nat)) (sched : List Nat), PReachable exP 2 5 t ∧
      uresults (uexec exP t mixedProgs sched) = [(.erase 5, .erased), (.erase 4, .erased), (.erase 2, .erased),
        (.insert (3, 30), .inserted 6), (.insert (6, 60), .inserted 5)] ∧
      (uexec exP t mixedProgs sched).threads.map (fun th => th.todo) = [[], [], [], [], [.find 8]] ∧
      (uexec exP t mixedProgs sched).threads.map (fun th => th.cur) = [.idle, .idle, .idle, .idle, .idle] ∧
      ∀ (more : List Nat) (th : Thread Nat (Nat × Nat)),
        (uexec exP t mixedProgs (sched ++ more)).threads[4]? = some th → th.done = [] := by
  refine ⟨exTab exP 2 5 [.insert (0, 10), .insert (2, 10), .insert (4, 10), .insert (5, 10), .insert (7, 10),
      .erase 5, .erase 7, .insert (5, 10), .insert (7, 10), .insert (1, 10)], mixedSched, exTab_reachable _ _ _ _,
    by decide +kernel, by decide +kernel, by decide +kernel, ?_⟩
  intro more th h4
  unfold uexec at h4
  rw [run_append] at h4
  refine looking_forever ⟨?_, ?_⟩ more th h4
  · exact ⟨by decide +kernel, by decide +kernel, by decide +kernel, by decide +kernel, by decide +kernel,
      by decide +kernel, by decide +kernel, by decide +kernel⟩
  · have h1 : (uexec exP (exTab exP 2 5 [.insert (0, 10), .insert (2, 10), .insert (4, 10), .insert (5, 10),
        .insert (7, 10), .erase 5, .erase 7, .insert (5, 10), .insert (7, 10), .insert (1, 10)]) mixedProgs
        mixedSched).threads.map (fun th => (th.todo, th.cur, th.done.length)) = [([], .idle, 1), ([], .idle, 1),
        ([], .idle, 1), ([], .idle, 2), ([.find 8], .idle, 0)] := by decide +kernel
    unfold uexec at h1
    intro i u hi
    have h2 := congrArg (fun l => l[i]?) h1
    simp only [List.getElem?_map, hi, Option.map_some] at h2
    rcases i with _ | _ | _ | _ | _ | i <;> simp at h2
    · exact ⟨fun _ => ⟨h2.1, h2.2.1⟩, fun h => absurd h (by decide)⟩
    · exact ⟨fun _ => ⟨h2.1, h2.2.1⟩, fun h => absurd h (by decide)⟩
    · exact ⟨fun _ => ⟨h2.1, h2.2.1⟩, fun h => absurd h (by decide)⟩
    · exact ⟨fun _ => ⟨h2.1, h2.2.1⟩, fun h => absurd h (by decide)⟩
    · exact ⟨fun h => absurd rfl h, fun _ => ⟨h2.2.2, .inl ⟨h2.1, h2.2.1⟩⟩⟩

/-- C40, what holds: if insertions and erasures do not overlap, that is, the container is used in phases in which any
number of threads insert, or any number of threads erase, then after every phase no key is stored twice, `valid()`
holds, and every history of further operations has the results of the finite map of the stored elements (in particular
an erase of a stored key returns 1). -/
theorem C40_phases_partial [DecidableEq V] (hl : KeyLaws P) (h0 : 0 < bc) (h1 : bc < 2 ^ 63) (hr : PReachable P bc ec t) :
    (contents t).Pairwise (fun v w => P.keyEq (P.keyOf v) (P.keyOf w) = false) ∧
    (∀ ord : Nat → List Nat, (∀ n, (ord n).Perm (List.range n)) → valid P ord t = .ok true) ∧
    ∀ (ops : List (UOp K V)) (ords : Nat → Nat → List Nat), (∀ j n, (ords j n).Perm (List.range n)) →
    ∃ outs t' m, execAll P ords t ops = .ok (outs, t') ∧ mapRun P (contents t) ops outs = some m ∧ m.Perm (contents t') := by
  obtain ⟨⟨chain, free, hR⟩, -, -⟩ := preachable_rep hl h0 h1 hr
  refine ⟨Unordered.contents_uniq hR hl, fun ord ho => valid_eq hR hl ho, fun ops ords ho => ?_⟩
  obtain ⟨outs, t', m, e1, e2, h, -⟩ := execAll_refines hl ops _ (contents t) ords ho ⟨⟨_, _, hR⟩, List.Perm.refl _⟩
  exact ⟨outs, t', m, e1, e2, h.perm⟩

/-- A phase of racing insertions followed by a phase of racing erasures on a map whose keys all collide. -/
example : ∃ t, PReachable exC 1 3 t ∧ contents t = [(1, 10), (2, 20)] := by
  have h : PReachable exC 1 3 (raceIns 200).shared.tab := by
    unfold raceIns
    refine .inserts (ord := List.range) (exTab_reachable _ _ _ _) _ _ ?_ ?_ ?_
    · intro p hp k hk
      simp only [List.mem_cons, List.not_mem_nil, or_false] at hp
      rcases hp with rfl | rfl | rfl <;> simp at hk
    · unfold UFinished; decide +kernel
    · decide +kernel
  refine ⟨(uexec exC (raceIns 200).shared.tab [[.erase 3], [.erase 3]]
    (List.replicate 12 0 ++ List.replicate 60 1 ++ List.replicate 60 0)).shared.tab, .erases h _ _ ?_ ?_, by decide +kernel⟩
  · intro p hp k hk
    simp only [List.mem_cons, List.not_mem_nil, or_false] at hp
    rcases hp with rfl | rfl <;> simp at hk
  · unfold UFinished; decide +kernel

end Stdgpu.Props
