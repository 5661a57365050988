import Verif.Proof.UFairEra2
import Verif.Props.UnorderedConc
/-!
C69: concurrent operations on the unordered containers return under every fair schedule.

The operations lock entries with `try_lock` and start again when they do not get a lock. `upTo σ n` are the first `n`
steps of the infinite schedule `σ`.
-/
namespace Stdgpu.Props
open Stdgpu.Unordered Stdgpu.UnorderedConc Stdgpu.Spec Stdgpu.Conc

variable {K V : Type} {P : Params K V} {bc ec : Nat} {t : Tab V} {progs : List (List (Op K V))}

theorem clean_exinit (b : Bool) (t : Tab V) (progs : List (List (Op K V))) :
    SlotConc.Clean b (exSys (UnorderedConc.init t progs)) := by
  constructor
  · intro x hx p r hpc
    simp only [exSys, UnorderedConc.init, List.map_map, List.mem_map] at hx
    obtain ⟨_, -, rfl⟩ := hx
    simp at hpc
  · intro x hx p hpc
    simp only [exSys, UnorderedConc.init, List.map_map, List.mem_map] at hx
    obtain ⟨_, -, rfl⟩ := hx
    simp at hpc

/-- Nothing changes when all threads have finished. -/
theorem finished_stays {s : Sys (Shared V) (Thread K V)} (h : UFinished s) (sched : List Nat) :
    run (UnorderedConc.step P) s sched = s := by
  induction sched with
  | nil => rfl
  | cons i l ih =>
    have : stepAt (UnorderedConc.step P) s i = s := by
      unfold stepAt
      split
      · rfl
      · rename_i t ht
        obtain ⟨h1, h2⟩ := h t (List.mem_of_getElem? ht)
        have e : UnorderedConc.step P s.shared t = (s.shared, t) := by simp only [UnorderedConc.step, h2, h1]
        simp only [e]
        have : s.threads.set i t = s.threads := by
          apply List.ext_getElem?
          intro j
          rw [List.getElem?_set]
          split
          · subst_vars
            split
            · exact ht.symm
            · rename_i hlt; exact absurd (List.getElem?_eq_some_iff.1 ht).1 hlt
          · rfl
        rw [this]
    show run (UnorderedConc.step P) (stepAt (UnorderedConc.step P) s i) l = s
    rw [this]; exact ih

theorem finished_from {σ : Nat → Nat} {n m : Nat} (h : UFinished (uexec P t progs (upTo σ n))) (hm : n ≤ m) :
    uexec P t progs (upTo σ m) = uexec P t progs (upTo σ n) := by
  obtain ⟨k, rfl⟩ := Nat.exists_eq_add_of_le hm
  unfold uexec at h ⊢
  rw [Stdgpu.Spec.upTo_add, run_append]
  exact finished_stays h _

/-- The operations of a thread: returned, current, not started. -/
def progOf (t : Thread K V) : List (Op K V) := t.done.map (·.1) ++ t.cur.ops ++ t.todo

theorem progOf_step (m : Shared V) (t : Thread K V) : progOf (UnorderedConc.step P m t).2 = progOf t := by
  obtain ⟨todo, cur, ex, done⟩ := t
  cases cur with
  | idle =>
    cases todo with
    | nil => rfl
    | cons op rest => cases op <;> simp [UnorderedConc.step, begin, progOf, Cur.ops]
  | ins v pc =>
    simp only [UnorderedConc.step]
    split <;> simp [progOf, Cur.ops]
  | era k pc =>
    simp only [UnorderedConc.step]
    split <;> simp [progOf, Cur.ops]
  | fnd k w =>
    simp only [UnorderedConc.step]
    split <;> simp [progOf, Cur.ops]

theorem progs_kept (sched : List Nat) : (uexec P t progs sched).threads.map progOf = progs := by
  refine run_inv (f := UnorderedConc.step P) (fun s => s.threads.map progOf = progs) ?_ _ ?_ sched
  · intro s i u hs hu
    show (s.threads.set i _).map progOf = progs
    rw [List.map_set, progOf_step, ← hs]
    apply List.ext_getElem?
    intro j
    rw [List.getElem?_set]
    split
    · subst_vars
      rw [List.getElem?_map, hu, if_pos (by simpa using (List.getElem?_eq_some_iff.1 hu).1)]; rfl
    · rfl
  · simp only [UnorderedConc.init, List.map_map]
    exact (List.map_congr_left (fun p _ => by simp [progOf, Cur.ops])).trans (List.map_id _)

theorem uresults_all {sched : List Nat} (h : UFinished (uexec P t progs sched)) :
    (uresults (uexec P t progs sched)).map (·.1) = progs.flatten := by
  refine Eq.trans ?_ (congrArg List.flatten (progs_kept (P := P) (t := t) (progs := progs) sched))
  rw [uresults, List.map_flatMap, List.flatMap_def]
  congr 1
  refine List.map_congr_left fun u hu => ?_
  obtain ⟨h1, h2⟩ := h u hu
  simp [progOf, h1, h2, Cur.ops]

/-- C69. Any number of threads insert and look up (any number of keys, also equal ones, in the same or in different
buckets, in a container with or without room for them). If the schedule goes on giving steps to every thread, then from
some moment on all operations of all threads have returned. -/
theorem C69_inserts_fair (hl : KeyLaws P) (h0 : 0 < bc) (h1 : bc < 2 ^ 63) (hr : PReachable P bc ec t) (hp : NoErase progs)
    (σ : Nat → Nat) (hf : Fair progs.length σ) : ∃ N, ∀ n, N ≤ n → UFinished (uexec P t progs (upTo σ n)) := by
  obtain ⟨I, c, x, -, -, -, h⟩ := ins_inv hl h0 h1 hr hp []
  obtain ⟨N, hN⟩ := ins_fair h (clean_exinit false t progs) (by simpa [uexec, run, UnorderedConc.init] using hf)
  replace hN : UFinished (uexec P t progs (upTo σ N)) := hN
  exact ⟨N, fun n hn => by rw [finished_from hN hn]; exact hN⟩

/-- C69. The same for threads that erase and look up. An erase of an entry that is not the first one of its chain locks
two entries; if it does not get the second lock, it gives the first one back. -/
theorem C69_erases_fair (hl : KeyLaws P) (h0 : 0 < bc) (h1 : bc < 2 ^ 63) (hr : PReachable P bc ec t) (hp : NoInsert progs)
    (σ : Nat → Nat) (hf : Fair progs.length σ) : ∃ N, ∀ n, N ≤ n → UFinished (uexec P t progs (upTo σ n)) := by
  obtain ⟨E, c, x, -, -, h, -⟩ := era_inv hl h0 h1 hr hp []
  obtain ⟨N, hN⟩ := Er.era_fair h (clean_exinit true t progs) (by simpa [uexec, run, UnorderedConc.init] using hf)
  replace hN : UFinished (uexec P t progs (upTo σ N)) := hN
  exact ⟨N, fun n hn => by rw [finished_from hN hn]; exact hN⟩

/-- C69, together with C38: under every fair schedule a moment comes after which every call has returned, the container
holds what it held before and the values of the successful insertions, and every key is found exactly if it is stored. -/
theorem C69_inserts_complete (hl : KeyLaws P) (h0 : 0 < bc) (h1 : bc < 2 ^ 63) (hr : PReachable P bc ec t)
    (hp : NoErase progs) (σ : Nat → Nat) (hf : Fair progs.length σ) : ∃ N, ∀ n, N ≤ n →
      (uresults (uexec P t progs (upTo σ n))).map (·.1) = progs.flatten ∧
      (contents (uexec P t progs (upTo σ n)).shared.tab).Perm
        (contents t ++ insertedVals (uexec P t progs (upTo σ n))) ∧
      size (uexec P t progs (upTo σ n)).shared.tab = (contents (uexec P t progs (upTo σ n)).shared.tab).length := by
  obtain ⟨N, hN⟩ := C69_inserts_fair hl h0 h1 hr hp σ hf
  refine ⟨N, fun n hn => ?_⟩
  have hfin := C38_final hl h0 h1 hr hp (upTo σ n) (hN n hn)
  exact ⟨uresults_all (hN n hn), hfin.1, hfin.2.1⟩

/-- C69, together with C39: under every fair schedule a moment comes after which every call has returned and exactly the
elements are left whose key no thread has erased. -/
theorem C69_erases_complete (hl : KeyLaws P) (h0 : 0 < bc) (h1 : bc < 2 ^ 63) (hr : PReachable P bc ec t)
    (hp : NoInsert progs) (σ : Nat → Nat) (hf : Fair progs.length σ) : ∃ N, ∀ n, N ≤ n →
      (uresults (uexec P t progs (upTo σ n))).map (·.1) = progs.flatten ∧
      contents (uexec P t progs (upTo σ n)).shared.tab = (contents t).filter (fun v => !erases P progs (P.keyOf v)) ∧
      size (uexec P t progs (upTo σ n)).shared.tab = (contents (uexec P t progs (upTo σ n)).shared.tab).length := by
  obtain ⟨N, hN⟩ := C69_erases_fair hl h0 h1 hr hp σ hf
  refine ⟨N, fun n hn => ?_⟩
  have hfin := C39_final hl h0 h1 hr hp (upTo σ n) (hN n hn)
  exact ⟨uresults_all (hN n hn), hfin.1, hfin.2.1⟩

/-! ### The hypotheses are met, and fairness is needed -/

/-- The schedule that gives steps to `k` threads in turn is fair. -/
theorem fair_mod (k : Nat) : Fair k (fun n => n % k) := by
  intro i hi n
  refine ⟨k * n + i, ?_, ?_⟩
  · have := Nat.le_mul_of_pos_left n (show 0 < k by omega); omega
  · simp [Nat.mul_add_mod, Nat.mod_eq_of_lt hi]

/-- Hypotheses of C69 for insertions: three threads in turn, two of them insert the same key, all keys in one bucket. -/
example : PReachable exC 1 3 (exTab exC 1 3 [.insert (1, 10), .insert (2, 20)]) ∧
    NoErase [[.insert (3, 30)], [.insert (3, 31)], [.find 3, (.find 3 : Op Nat (Nat × Nat))]] ∧ Fair 3 (fun n => n % 3) :=
  ⟨exTab_reachable _ _ _ _, by simp [NoErase], fair_mod 3⟩

/-- Its conclusion for `N = 150`. -/
example : uresults (uexec exC (exTab exC 1 3 [.insert (1, 10), .insert (2, 20)])
    [[.insert (3, 30)], [.insert (3, 31)], [.find 3, .find 3]] (upTo (fun n => n % 3) 150)) =
    [(.insert (3, 30), .inserted 2), (.insert (3, 31), .notInserted), (.find 3, .notFound), (.find 3, .notFound)] := by
  decide +kernel

/-- Hypotheses of C69 for erasures: neighbours in one chain are erased at the same time. -/
example : PReachable exC 1 4 (exTab exC 1 4 [.insert (1, 10), .insert (2, 20), .insert (3, 30), .insert (4, 40)]) ∧
    NoInsert [[.erase 2], [.erase 3], [.erase 4], [.erase 3, (.find 3 : Op Nat (Nat × Nat))]] ∧ Fair 4 (fun n => n % 4) :=
  ⟨exTab_reachable _ _ _ _, by simp [NoInsert], fair_mod 4⟩

/-- Its conclusion for `N = 400`. -/
example : uresults (uexec exC (exTab exC 1 4 [.insert (1, 10), .insert (2, 20), .insert (3, 30), .insert (4, 40)])
    [[.erase 2], [.erase 3], [.erase 4], [.erase 3, .find 3]] (upTo (fun n => n % 4) 400)) =
    [(.erase 2, .erased), (.erase 3, .notErased), (.erase 4, .erased), (.erase 3, .erased), (.find 3, .notFound)] := by
  decide +kernel

/-- The state of the next counterexample: entry 0, the only one of its chain, is locked. -/
def Blk (t : Tab (Nat × Nat)) : Prop :=
  bucket exC t 3 = 0 ∧ t.locks 0 = true ∧ t.occ 0 = true ∧ t.val 0 = some (1, 10) ∧ t.off 0 = 0 ∧ full t = false ∧
    Vector.empty t.excess = false

/-- A thread that waits for the lock. -/
def Waits (th : Thread Nat (Nat × Nat)) : Prop :=
  th.done = [] ∧ ((th.todo = [.insert (3, 30)] ∧ th.cur = .idle) ∨
    ∃ pc ∈ [IPC.full, .exc, .c1 (.occ 0), .c1 (.val 0), .c1 (.off1 0), .occ1, .e1 (.off1 0), .lockE 0], th.cur = .ins (3, 30) pc)

theorem waits_step {m : Shared (Nat × Nat)} {th : Thread Nat (Nat × Nat)} (hb : Blk m.tab) (h : Waits th) :
    (step exC m th).1.tab = m.tab ∧ Waits (step exC m th).2 := by
  obtain ⟨todo, cur, ex, done⟩ := th
  obtain ⟨c1, c2, c3, c4, c5, c6, c7⟩ := hb
  obtain ⟨hd, hl⟩ := h
  dsimp only at hd hl
  subst hd
  have ck : exC.keyOf (3, 30) = 3 := rfl
  rcases hl with ⟨rfl, rfl⟩ | ⟨pc, hpc, rfl⟩
  · exact ⟨rfl, rfl, .inr ⟨.full, by simp, rfl⟩⟩
  · simp only [List.mem_cons, List.not_mem_nil, or_false] at hpc
    rcases hpc with rfl | rfl | rfl | rfl | rfl | rfl | rfl | rfl
    · simp [step, insStep, c6, Waits]
    · simp [step, insStep, c7, Waits, c1, ck]
    · simp [step, insStep, findStep, c3, Waits]
    · simp [step, insStep, findStep, c4, Waits, exC]
    · simp [step, insStep, findStep, c5, Waits]
    · simp [step, insStep, Waits, c1, c3, ck]
    · simp [step, insStep, endStep, c5, Waits]
    · simp [step, insStep, c2, Waits]

theorem waits_forever (n : Nat) {t0 : Thread Nat (Nat × Nat)} (d0 : t0.done = []) : ∀ (m : Shared (Nat × Nat))
    (t1 : Thread Nat (Nat × Nat)), Blk m.tab → Waits t1 →
    uresults (run (step exC) ⟨m, [t0, t1]⟩ (List.replicate n 1)) = [] := by
  induction n with
  | zero => intro m t1 hb hw; simp [run, uresults, d0, hw.1]
  | succ n ih =>
    intro m t1 hb hw
    obtain ⟨h1, h2⟩ := waits_step hb hw
    exact ih _ _ (by rw [h1]; exact hb) h2

/-- C69: fairness is needed. If the thread that has locked an entry is not scheduled any more, an insertion of another key
that needs this lock never returns, however many steps it is given. The container has one bucket and room for three more
elements, thread 0 is stopped in the middle of the insertion of key 2, thread 1 inserts key 3. -/
theorem C69_counterexample_unfair :
    ∃ (t : Tab (Nat × Nat)) (k : Nat), PReachable exC 1 3 t ∧ ∀ n,
      uresults (uexec exC t [[.insert (2, 20)], [.insert (3, 30)]] (List.replicate k 0 ++ List.replicate n 1)) = [] := by
  refine ⟨exTab exC 1 3 [.insert (1, 10)], 13, exTab_reachable _ _ _ _, fun n => ?_⟩
  have h0 : (uexec exC (exTab exC 1 3 [.insert (1, 10)]) [[.insert (2, 20)], [.insert (3, 30)]]
      (List.replicate 13 0)).threads.map (fun th => (th.todo, th.cur, th.done.length)) =
      [([], .ins (2, 20) (.pop 0), 0), ([.insert (3, 30)], .idle, 0)] := by decide +kernel
  have hb : Blk (uexec exC (exTab exC 1 3 [.insert (1, 10)]) [[.insert (2, 20)], [.insert (3, 30)]]
      (List.replicate 13 0)).shared.tab :=
    ⟨by decide +kernel, by decide +kernel, by decide +kernel, by decide +kernel, by decide +kernel, by decide +kernel,
      by decide +kernel⟩
  unfold uexec at h0 hb ⊢
  rw [run_append]
  generalize run (step exC) (init (exTab exC 1 3 [.insert (1, 10)]) [[.insert (2, 20)], [.insert (3, 30)]])
    (List.replicate 13 0) = s at h0 hb
  obtain ⟨m, ths⟩ := s
  replace h0 : ths.map (fun th => (th.todo, th.cur, th.done.length)) = _ := h0
  replace hb : Blk m.tab := hb
  rcases ths with _ | ⟨t0, _ | ⟨t1, _ | ⟨t2, ths⟩⟩⟩ <;> simp at h0
  obtain ⟨⟨-, -, d0⟩, e1, e2, d1⟩ := h0
  exact waits_forever n d0 m t1 hb ⟨d1, .inl ⟨e1, e2⟩⟩

/-- C69: with insertions and erasures at the same time a lookup may never return although every thread is given
infinitely many steps (the corrupted chain of C40). -/
theorem C69_counterexample_mixed :
    ∃ (t : Tab (Nat × Nat)) (σ : Nat → Nat), PReachable exP 2 5 t ∧ Fair mixedProgs.length σ ∧ ∀ n,
      ¬ UFinished (uexec exP t mixedProgs (upTo σ n)) ∧
      (Op.find 8, Res.notFound) ∉ uresults (uexec exP t mixedProgs (upTo σ n)) := by
  obtain ⟨t, sched, hr, -, -, -, h⟩ := C40_counterexample_find_hangs
  let σ : Nat → Nat := fun n => if n < sched.length then sched.getD n 0 else n % 5
  have hσ : upTo σ sched.length = sched := by
    apply List.ext_getElem?
    intro i
    by_cases hi : i < sched.length
    · simp [upTo, σ, hi]
    · rw [List.getElem?_eq_none (by simp [upTo]; omega), List.getElem?_eq_none (by omega)]
  have hd : ∀ n (th : Thread Nat (Nat × Nat)), (uexec exP t mixedProgs (upTo σ n)).threads[4]? = some th → th.done = [] := by
    intro n th ht
    obtain ⟨t', h1, h2⟩ := run_done (P := exP) _ ht (upTo (fun j => σ (n + j)) sched.length)
    unfold uexec at h1
    rw [← run_append, ← Stdgpu.Spec.upTo_add, Nat.add_comm, Stdgpu.Spec.upTo_add, hσ] at h1
    rw [h _ _ h1, List.prefix_nil] at h2
    exact h2
  have hlen : ∀ n, (uexec exP t mixedProgs (upTo σ n)).threads.length = 5 := by
    intro n
    have := congrArg List.length (progs_kept (P := exP) (t := t) (progs := mixedProgs) (upTo σ n))
    simpa [mixedProgs] using this
  refine ⟨t, σ, hr, ?_, fun n => ⟨fun hf => ?_, fun hm => ?_⟩⟩
  · intro i hi n
    obtain ⟨m, hm, e⟩ := fair_mod 5 i hi (n + sched.length)
    refine ⟨m, by omega, ?_⟩
    show (if _ then _ else _) = _
    rw [if_neg (by omega)]; exact e
  · have h5 := hlen n
    obtain ⟨th, ht⟩ : ∃ th, (uexec exP t mixedProgs (upTo σ n)).threads[4]? = some th :=
      ⟨_, List.getElem?_eq_getElem (by omega)⟩
    have h6 := congrArg (fun l => l[4]?) (progs_kept (P := exP) (t := t) (progs := mixedProgs) (upTo σ n))
    obtain ⟨h7, h8⟩ := hf th (List.mem_of_getElem? ht)
    simp only [List.getElem?_map, ht, Option.map_some] at h6
    simp [progOf, hd n th ht, h7, h8, Cur.ops, mixedProgs] at h6
  · simp only [uresults, List.mem_flatMap] at hm
    obtain ⟨th, ht, hx⟩ := hm
    obtain ⟨i, hi⟩ := List.mem_iff_getElem?.1 ht
    by_cases e : i = 4
    · subst e; rw [hd n th hi] at hx; simp at hx
    · have h6 := congrArg (fun l => l[i]?) (progs_kept (P := exP) (t := t) (progs := mixedProgs) (upTo σ n))
      have hm : Op.find 8 ∈ progOf th := by
        simp only [progOf, List.mem_append, List.mem_map]
        exact .inl (.inl ⟨_, hx, rfl⟩)
      simp only [List.getElem?_map, hi, Option.map_some] at h6
      have hi5 : i < 5 := by rw [← hlen n]; exact (List.getElem?_eq_some_iff.1 hi).1
      have : i = 0 ∨ i = 1 ∨ i = 2 ∨ i = 3 := by omega
      rcases this with rfl | rfl | rfl | rfl <;> (simp [mixedProgs] at h6; rw [h6] at hm; simp at hm)

end Stdgpu.Props
