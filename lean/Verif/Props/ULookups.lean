import Verif.Proof.UFindBound2
import Verif.Props.UMixed
import Verif.Props.UFairness
/-!
C79: lookups are non-blocking. A lookup takes no lock and returns after a bounded number of its own steps, whatever the
other threads do, and also if they are stopped in the middle of an operation while they hold locks (compare C69: an
insertion waits for a stopped lock holder).

`(uexec P t progs sched).threads[i]? = some th` is thread `i` after `sched`, `th.done` are the operations it has finished,
`progs[i]` its program, so `p[th.done.length]?` is the operation it is executing or will execute next.
-/
namespace Stdgpu.Spec
open Stdgpu.UnorderedConc
variable {K V : Type}

/-- Number of `erase` calls in the programs. -/
def numErases (progs : List (List (Op K V))) : Nat :=
  progs.flatten.countP (fun op => match op with | .erase _ => true | _ => false)

end Stdgpu.Spec

namespace Stdgpu.Props
open Stdgpu.Unordered Stdgpu.UnorderedConc Stdgpu.Spec Stdgpu.Conc

variable {K V : Type} {P : Params K V} {bc ec : Nat} {t : Tab V} {progs : List (List (Op K V))}

theorem looks_of {sched : List Nat} {i : Nat} {p : List (Op K V)} (hp : progs[i]? = some p) {th : Thread K V}
    (hth : (uexec P t progs sched).threads[i]? = some th) {k : K} (hk : p[th.done.length]? = some (.find k)) :
    (∃ W, th.cur = .fnd k W) ∨ ∃ rest, th.cur = .idle ∧ th.todo = .find k :: rest := by
  have h6 := congrArg (fun l => l[i]?) (progs_kept (P := P) (t := t) (progs := progs) sched)
  simp only [List.getElem?_map, hth, Option.map_some, hp, Option.some.injEq] at h6
  rw [← h6, progOf, List.append_assoc, List.getElem?_append_right (by simp)] at hk
  simp only [List.length_map, Nat.sub_self] at hk
  cases hcur : th.cur with
  | idle =>
    rw [hcur] at hk
    cases htodo : th.todo with
    | nil => rw [htodo] at hk; simp [Cur.ops] at hk
    | cons op rest =>
      rw [htodo] at hk
      simp [Cur.ops] at hk
      exact .inr ⟨rest, rfl, by rw [hk]⟩
  | fnd k' W =>
    rw [hcur] at hk
    simp [Cur.ops] at hk
    exact .inl ⟨W, by rw [hk]⟩
  | ins v pc => rw [hcur] at hk; simp [Cur.ops] at hk
  | era k' pc => rw [hcur] at hk; simp [Cur.ops] at hk

/-- C79, threads that insert and look up (any keys, in the same or in different buckets). With `ec` excess entries a lookup
returns after at most `4 * ec + 5` steps of its thread. -/
theorem C79_lookup_bounded_inserts (hl : KeyLaws P) (h0 : 0 < bc) (h1 : bc < 2 ^ 63) (hr : PReachable P bc ec t)
    (hne : NoErase progs) (sched sched' : List Nat) (i : Nat) (p : List (Op K V)) (hp : progs[i]? = some p)
    (th : Thread K V) (hth : (uexec P t progs sched).threads[i]? = some th) (k : K)
    (hk : p[th.done.length]? = some (.find k)) (hc : 4 * ec + 5 ≤ sched'.count i) :
    ∃ th', (uexec P t progs (sched ++ sched')).threads[i]? = some th' ∧ th.done.length < th'.done.length := by
  obtain ⟨⟨chain, free, h⟩, hb, ht⟩ := preachable_rep hl h0 h1 hr
  obtain ⟨c, x, hI⟩ := inv_run (mkStart h progs hne) hl sched
  have e1 : (mkStart h progs hne).t₀.total - (mkStart h progs hne).t₀.bc = ec := by
    show t.total - t.bc = ec; omega
  have e2 : (mkStart h progs hne).t₀.bc = bc := hb
  have hQ : InsQ (mkStart h progs hne) i (4 * ec + 4) (uexec P t progs sched) := by
    refine ⟨c, x, hI, th, hth, ?_⟩
    rcases looks_of hp hth hk with ⟨W, hW⟩ | ⟨rest, h2, h3⟩
    · left
      refine ⟨k, W, hW, ?_⟩
      have hkn := hI.knows th (List.mem_of_getElem? hth)
      rw [hW] at hkn
      simp only [Knows] at hkn
      rw [hI.bc] at hkn
      have hb' : bkt P (mkStart h progs hne).t₀.bc k < (mkStart h progs hne).t₀.bc := by
        have := bkt_lt P _ k hI.g.bc_pos hI.g.bc_lt
        rw [hI.bc] at this; exact this
      have hsp : ∃ l1 l2, bkt P (mkStart h progs hne).t₀.bc k :: c (bkt P (mkStart h progs hne).t₀.bc k) = l1 ++ W.pos :: l2 := by
        cases W with
        | val w => obtain ⟨⟨l1, l2, e, -⟩, -⟩ := hkn.2; exact ⟨l1, l2, e⟩
        | occ w => obtain ⟨l1, l2, e, -⟩ := hkn.2; exact ⟨l1, l2, e⟩
        | off1 w => obtain ⟨l1, l2, e, -⟩ := hkn.2; exact ⟨l1, l2, e⟩
        | off2 w => obtain ⟨l1, l2, e, -⟩ := hkn.2; exact ⟨l1, l2, e⟩
      obtain ⟨l1, l2, e⟩ := hsp
      refine ⟨l1, l2, e, ?_⟩
      rw [e1]
      cases W <;> simp only [insRank] <;> (try split) <;> omega
    · exact .inr ⟨k, rest, h2, h3, by rw [e1]; omega⟩
  unfold uexec
  rw [run_append]
  exact bound_run i (InsQ (mkStart h progs hne) i) (fun n s t hq => insQ_own hl hq) (fun n s j t hj hq => insQ_other hl hj hq)
    (fun s t hs l => run_done s hs l) sched' _ _ _ hQ hth (by omega)

/-- C79, threads that erase and look up. -/
theorem C79_lookup_bounded_erases (hl : KeyLaws P) (h0 : 0 < bc) (h1 : bc < 2 ^ 63) (hr : PReachable P bc ec t)
    (hni : NoInsert progs) (sched sched' : List Nat) (i : Nat) (p : List (Op K V)) (hp : progs[i]? = some p)
    (th : Thread K V) (hth : (uexec P t progs sched).threads[i]? = some th) (k : K)
    (hk : p[th.done.length]? = some (.find k)) (hc : 4 * ec + 5 ≤ sched'.count i) :
    ∃ th', (uexec P t progs (sched ++ sched')).threads[i]? = some th' ∧ th.done.length < th'.done.length := by
  obtain ⟨⟨chain, free, h⟩, hb, ht⟩ := preachable_rep hl h0 h1 hr
  obtain ⟨c, x, hI⟩ := Er.inv_run (Er.mkStart h progs hni) hl sched
  have e1 : (Er.mkStart h progs hni).t₀.total - (Er.mkStart h progs hni).t₀.bc = ec := by
    show t.total - t.bc = ec; omega
  have hQ : Er.EraQ (Er.mkStart h progs hni) i (4 * ec + 4) (uexec P t progs sched) := by
    refine ⟨c, x, hI, th, hth, ?_⟩
    rcases looks_of hp hth hk with ⟨W, hW⟩ | ⟨rest, h2, h3⟩
    · left
      refine ⟨k, W, hW, ?_⟩
      have hkn := hI.knows th (List.mem_of_getElem? hth)
      rw [hW] at hkn
      have := Er.path_len' hI.g ((Er.mkStart h progs hni).bkt_lt k) hkn.2.node
      rw [e1] at this
      refine (Er.eraRank_le_all _ W).trans ?_
      omega
    · exact .inr ⟨k, rest, h2, h3, by rw [e1]; omega⟩
  unfold uexec
  rw [run_append]
  exact bound_run i (Er.EraQ (Er.mkStart h progs hni) i) (fun n s t hq => Er.eraQ_own hl hq) (fun n s j t hj hq => Er.eraQ_other hl hj hq)
    (fun s t hs l => run_done s hs l) sched' _ _ _ hQ hth (by omega)

/-- C79, threads that insert, erase and look up separated keys (the setting of C75; with arbitrary keys a lookup may never
return, see C40). A lookup starts over in its bucket only if an entry of the bucket has been unlinked, so it returns after
at most `4 * e + 8` steps of its thread, if the programs contain `e` calls of `erase`. -/
theorem C79_lookup_bounded_mixed (hl : KeyLaws P) (h0 : 0 < bc) (h1 : bc < 2 ^ 63) (hr : PReachable P bc ec t)
    (hs : Separated P t progs) (sched sched' : List Nat) (i : Nat) (p : List (Op K V)) (hp : progs[i]? = some p)
    (th : Thread K V) (hth : (uexec P t progs sched).threads[i]? = some th) (k : K)
    (hk : p[th.done.length]? = some (.find k)) (hc : 4 * numErases progs + 8 ≤ sched'.count i) :
    ∃ th', (uexec P t progs (sched ++ sched')).threads[i]? = some th' ∧ th.done.length < th'.done.length := by
  obtain ⟨⟨chain, free, h⟩, hb, ht⟩ := preachable_rep hl h0 h1 hr
  obtain ⟨x, hI⟩ := Mx.inv_run (Mx.mkStart h progs hs) hl sched
  have hz : Mx.sZ (uexec P t progs sched) ≤ numErases progs := by
    have e1 := Mx.sZ_run (E := Mx.mkStart h progs hs) hl sched
    have e2 := Mx.sZ_init t progs
    have e3 : numErases progs = progs.flatten.countP Mx.isEra := by
      unfold numErases; rfl
    rw [e3, ← e2]; exact e1
  have hQ : Mx.MixQ (Mx.mkStart h progs hs) i (4 * numErases progs + 7) (uexec P t progs sched) := by
    refine ⟨x, hI, th, hth, ?_⟩
    rcases looks_of hp hth hk with ⟨W, hW⟩ | ⟨rest, h2, h3⟩
    · left
      refine ⟨k, W, hW, ?_⟩
      have := Mx.mixRank_le (uexec P t progs sched).shared.tab (bkt P (Mx.mkStart h progs hs).t₀.bc k) W
      show 4 * Mx.sZ _ + Mx.mixRank _ _ W ≤ _
      omega
    · exact .inr ⟨k, rest, h2, h3, by omega⟩
  unfold uexec
  rw [run_append]
  exact bound_run i (Mx.MixQ (Mx.mkStart h progs hs) i) (fun n s t hq => Mx.mixQ_own hl hq) (fun n s j t hj hq => Mx.mixQ_other hl hj hq)
    (fun s t hs l => run_done s hs l) sched' _ _ _ hQ hth (by omega)

/-! ### Concrete executions -/

/-- The container of C69: thread 0 is stopped in the middle of the insertion of key 2 while it holds a lock, and is not
scheduled again; the insertion of thread 1 never returns, and the lookup of thread 2 does. -/
def stopProgs : List (List (Op Nat (Nat × Nat))) := [[.insert (2, 20)], [.insert (3, 30)], [.find 1, .find 2]]

/-- Where thread `i` is in its program. -/
theorem done_at {P : Params Nat (Nat × Nat)} {t : Tab (Nat × Nat)} {progs : List (List (Op Nat (Nat × Nat)))} {sched : List Nat}
    {i n : Nat} (h : (uexec P t progs sched).threads[i]?.map (·.done.length) = some n) :
    ∃ th, (uexec P t progs sched).threads[i]? = some th ∧ th.done.length = n := by
  simpa using h

/-- The hypotheses of `C79_lookup_bounded_inserts` are met: thread 2 is in the middle of its first lookup. -/
example : ∃ th', (uexec exC (exTab exC 1 3 [.insert (1, 10)]) stopProgs
      (List.replicate 13 0 ++ List.replicate 40 1 ++ [2] ++ List.replicate 17 2)).threads[2]? = some th' ∧ 0 < th'.done.length := by
  obtain ⟨th, h1, h2⟩ := done_at (P := exC) (t := exTab exC 1 3 [.insert (1, 10)]) (progs := stopProgs)
    (sched := List.replicate 13 0 ++ List.replicate 40 1 ++ [2]) (i := 2) (n := 0) (by decide +kernel)
  have := C79_lookup_bounded_inserts (ec := 3) exC_laws (by decide) (by decide) (exTab_reachable _ _ _ _) (by simp [NoErase, stopProgs])
    _ (List.replicate 17 2) 2 _ rfl th h1 1 (by rw [h2]; rfl) (by decide)
  rw [h2] at this
  exact this

example : uresults (uexec exC (exTab exC 1 3 [.insert (1, 10)]) stopProgs
      (List.replicate 13 0 ++ List.replicate 40 1 ++ List.replicate 17 2)) = [(.find 1, .found 0), (.find 2, .notFound)] := by
  decide +kernel

/-- The hypotheses of `C79_lookup_bounded_erases` are met: thread 0 is stopped in the middle of the erasure of key 2, with
two locks held; thread 1 has not started. -/
example : ∃ th', (uexec exC (exTab exC 1 3 [.insert (1, 10), .insert (2, 20)]) [[.erase 2], [.find 2, .find 1]]
      (List.replicate 22 0 ++ List.replicate 17 1)).threads[1]? = some th' ∧ 0 < th'.done.length := by
  obtain ⟨th, h1, h2⟩ := done_at (P := exC) (t := exTab exC 1 3 [.insert (1, 10), .insert (2, 20)])
    (progs := [[.erase 2], [.find 2, .find 1]]) (sched := List.replicate 22 0) (i := 1) (n := 0) (by decide +kernel)
  have := C79_lookup_bounded_erases (ec := 3) exC_laws (by decide) (by decide) (exTab_reachable _ _ _ _) (by simp [NoInsert])
    _ (List.replicate 17 1) 1 _ rfl th h1 2 (by rw [h2]; rfl) (by decide)
  rw [h2] at this
  exact this

example : (uexec exC (exTab exC 1 3 [.insert (1, 10), .insert (2, 20)]) [[.erase 2], [.find 2, .find 1]]
    (List.replicate 22 0)).shared.tab.locks 3 = true := by decide +kernel

/-- The hypotheses of `C79_lookup_bounded_mixed` are met by the execution of C75 in the middle of the second lookup of
thread 2, which then runs alone. -/
example : ∃ th', (uexec exP mixTab mixProgs (mixSched.take 60 ++ List.replicate 20 2)).threads[2]? = some th' ∧
    1 < th'.done.length := by
  obtain ⟨th, h1, h2⟩ := done_at (P := exP) (t := mixTab) (progs := mixProgs) (sched := mixSched.take 60) (i := 2) (n := 1)
    (by decide +kernel)
  have := C79_lookup_bounded_mixed exP_laws (by decide) (by decide) (exTab_reachable _ _ _ _) mix_separated
    _ (List.replicate 20 2) 2 _ rfl th h1 0 (by rw [h2]; rfl) (by decide)
  rw [h2] at this
  exact this

end Stdgpu.Props
