import Verif.Proof.UHistories
import Verif.Props.UMixProgress
import Verif.Props.UnorderedConc
/-
C93: the whole history of an unordered container.
-/
namespace Stdgpu.Props
open Stdgpu.Unordered Stdgpu.UnorderedConc Stdgpu.Spec Stdgpu.Conc

variable {K V : Type} {P : Params K V} {bc ec : Nat}

theorem ureached_preachable {t : Tab V} {tr : List (UObs K V)} (h : UReached P bc ec t tr) : PReachable P bc ec t := by
  induction h with
  | create => exact .create
  | host _ ho e ih => exact .op ih ho e
  | inserts _ progs sched hp s hs hf hv ih => subst hs; exact .inserts ih progs sched hp hf hv
  | erases _ progs sched hp s hs hf ih => subst hs; exact .erases ih progs sched hp hf
  | mixed _ progs sched hp hroom s hs hf ih => subst hs; exact .mixed ih progs sched hp hroom hf

theorem entries_fst_nodup (t : Tab V) : ((entries t).map (·.1)).Nodup := by
  rw [List.Nodup, List.pairwise_map]
  refine (entries_nodup t).imp_of_mem ?_
  rintro ⟨p, v⟩ ⟨q, w⟩ h1 h2 hne rfl
  rw [mem_entries] at h1 h2
  apply hne
  have := h1.2.2.symm.trans h2.2.2
  simp only [Option.some.injEq] at this
  rw [this]

theorem explains_kernel [DecidableEq V] {t : Tab V} {progs : List (List (Op K V))} {sched : List Nat} {tr : List (UObs K V)}
    {strict : Bool} (h : UExplains P tr (entries t)) (hf : UFinished (uexec P t progs sched))
    (hlin : ∃ L m, Linearization P strict t progs sched L m ∧
      (UFinished (uexec P t progs sched) → ∀ e, e ∈ m ↔ e ∈ entries (uexec P t progs sched).shared.tab)) :
    UExplains P (tr ++ [.kernel strict ((uexec P t progs sched).threads.map (·.done))]) (entries (uexec P t progs sched).shared.tab) := by
  obtain ⟨L, m, hL, hm⟩ := hlin
  refine .reorder (.kernel h (interleaves_of_linearization hL hf) hL.legal) ?_
  have hn := seqRun_nodup _ _ (entries_fst_nodup t) _ hL.legal
  exact (List.perm_ext_iff_of_nodup (hn.of_map _) (entries_nodup _)).2 (hm hf)

/-- **C93**. After any sequence of host operations and kernels one finite map, whose elements have fixed positions, explains
everything that has been observed: the results of the host operations, and all results of all threads of the kernels; its
elements are those that are stored, at their positions. The container is valid, no key is stored twice, and `size()` is the
number of elements. -/
theorem C93_history [DecidableEq V] (hl : KeyLaws P) (h0 : 0 < bc) (h1 : bc < 2 ^ 63) {t : Tab V} {tr : List (UObs K V)}
    (h : UReached P bc ec t tr) :
    UExplains P tr (entries t) ∧ (∀ ord : Nat → List Nat, (∀ n, (ord n).Perm (List.range n)) → valid P ord t = .ok true) ∧
    (entries t).Pairwise (fun a b => a.1 ≠ b.1 ∧ P.keyEq (P.keyOf a.2) (P.keyOf b.2) = false) ∧ size t = (entries t).length := by
  have hP := ureached_preachable h
  refine ⟨?_, (C40_phases_partial hl h0 h1 hP).2.1, ?_, ?_⟩
  · induction h with
    | create =>
      have : entries (create bc ec : Tab V) = [] := by
        rw [← List.map_eq_nil_iff (f := Prod.snd)]
        exact (entries_snd _).trans (contents_nil_of_occ _ (fun _ _ => rfl))
      rw [this]
      exact .start
    | @host t t' tr ord op out h ho e ih =>
      obtain ⟨⟨chain, free, hR⟩, -, -⟩ := preachable_rep hl h0 h1 (ureached_preachable h)
      obtain ⟨m', e1, e2, e3⟩ := host_step hl hR ho e
      exact .reorder (.host (ih (ureached_preachable h)) e1 e2) e3
    | @inserts t tr ord h progs sched hp s hs hf hv ih =>
      subst hs
      have hr := ureached_preachable h
      refine explains_kernel (ih hr) hf ?_
      cases hroom : hasRoom (uexec P t progs sched).shared.tab with
      | false => exact C64_insert_linearizable hl h0 h1 hr hp sched
      | true =>
        simp only [hasRoom, Bool.and_eq_true, Bool.not_eq_true', decide_eq_true_eq] at hroom
        exact C64_insert_linearizable_strict hl h0 h1 hr hp sched hroom.1 hroom.2
    | @erases t tr h progs sched hp s hs hf ih =>
      subst hs
      have hr := ureached_preachable h
      exact explains_kernel (ih hr) hf (C64_erase_linearizable hl h0 h1 hr hp sched)
    | @mixed t tr h progs sched hp hroom s hs hf ih =>
      subst hs
      have hr := ureached_preachable h
      exact explains_kernel (ih hr) hf (C75_mixed_linearizable_strict hl h0 h1 hr hp hroom sched)
  · have h2 := (C40_phases_partial hl h0 h1 hP).1
    rw [← entries_snd, List.pairwise_map] at h2
    have h3 := entries_fst_nodup t
    rw [List.Nodup, List.pairwise_map] at h3
    exact h3.and h2
  · obtain ⟨⟨chain, free, hR⟩, -, -⟩ := preachable_rep hl h0 h1 hP
    rw [← List.length_map (f := Prod.snd)]
    show t.count = _
    rw [hR.count, ← length_contents hR]
    congr 2
    exact (entries_snd t).symm

theorem seqRun_stays {strict : Bool} {p : Nat} {v : V} (L : List (Op K V × Res)) : ∀ (m : List (Nat × V)), (p, v) ∈ m → ∀ m',
    seqRun P strict m L = some m' → (∀ e ∈ L, ∀ k, e.1 = .erase k → P.keyEq (P.keyOf v) k = false) → (p, v) ∈ m' := by
  induction L with
  | nil =>
    intro m hm m' e _
    simp only [seqRun, Option.some.injEq] at e
    exact e ▸ hm
  | cons x L ih =>
    intro m hm m' e hk
    simp only [seqRun, Option.bind_eq_some_iff] at e
    obtain ⟨m1, e1, e2⟩ := e
    refine ih m1 ?_ m' e2 (fun e he => hk e (List.mem_cons_of_mem _ he))
    unfold seqStep at e1
    split at e1
    all_goals first
      | (simp at e1; done)
      | (split at e1
         all_goals first
           | (simp at e1; done)
           | (simp only [Option.some.injEq] at e1; subst e1; exact hm)
           | (simp only [Option.some.injEq] at e1; subst e1; exact List.mem_cons_of_mem _ hm)
           | (simp only [Option.some.injEq] at e1
              subst e1
              rw [List.mem_filter]
              exact ⟨hm, by simp [hk _ (List.mem_cons_self ..) _ rfl]⟩))

theorem linearization_stays {strict : Bool} {t : Tab V} {progs : List (List (Op K V))} {sched : List Nat}
    {L : List (OpId × Op K V × Res)} {m : List (Nat × V)} (hL : Linearization P strict t progs sched L m) {p : Nat} {v : V}
    (hm : (p, v) ∈ entries t) (hn : erases P progs (P.keyOf v) = false) : (p, v) ∈ m := by
  refine seqRun_stays _ _ hm _ hL.legal ?_
  intro e he k hk
  rw [List.mem_map] at he
  obtain ⟨⟨x, f⟩, hx, rfl⟩ := he
  have := (hL.called x f hx).2
  simp only [opAt, Option.bind_eq_some_iff] at this
  obtain ⟨q, h1, h2⟩ := this
  dsimp only at hk
  rw [hk] at h2
  simp only [erases, List.any_eq_false] at hn
  have := hn (.erase k) (List.mem_flatten.2 ⟨q, List.mem_of_getElem? h1, List.mem_of_getElem? h2⟩)
  simpa using this

/-- **C93**: elements do not move. During a kernel, at every moment, an element for whose key no thread calls `erase` is stored
at the position at which it was when the kernel started. -/
theorem C93_kernel_keeps_positions (hl : KeyLaws P) (h0 : 0 < bc) (h1 : bc < 2 ^ 63) {t : Tab V} {tr : List (UObs K V)}
    (h : UReached P bc ec t tr) (progs : List (List (Op K V))) (hp : NoErase progs ∨ NoInsert progs ∨ Separated P t progs)
    (sched : List Nat) {p : Nat} {v : V} (hm : (p, v) ∈ entries t) (hn : erases P progs (P.keyOf v) = false) :
    (p, v) ∈ entries (uexec P t progs sched).shared.tab := by
  obtain ⟨⟨chain, free, hR⟩, -, -⟩ := preachable_rep hl h0 h1 (ureached_preachable h)
  have hpt := (mem_entries.1 hm).1
  rcases hp with hp | hp | hp
  · obtain ⟨L, m, hL, c, x, hI, hm'⟩ := ins_linearizable (mkStart hR progs hp) hl sched false (by simp)
    obtain ⟨-, g2, g3⟩ := (hm' p v).1 (linearization_stays hL hm hn)
    have htot : (uexec P t progs sched).shared.tab.total = t.total := hI.total
    exact mem_entries.2 ⟨by rw [htot]; exact hpt, g2, g3⟩
  · obtain ⟨L, m, hL, c, x, hI, hm'⟩ := Er.era_linearizable (Er.mkStart hR progs hp) hl sched true
    obtain ⟨-, g2, g3⟩ := (hm' p v).1 (linearization_stays hL hm hn)
    have htot : (uexec P t progs sched).shared.tab.total = t.total := hI.g.total
    exact mem_entries.2 ⟨by rw [htot]; exact hpt, g2, g3⟩
  · obtain ⟨L, m, hL, -, hm'⟩ := Mx.mixed_linearizable (E := Mx.mkStart hR progs hp) hl false sched (by simp)
    obtain ⟨xp, hI⟩ := Mx.inv_run (Mx.mkStart hR progs hp) hl sched
    have hi := (hm' p v).1 (linearization_stays hL hm hn)
    obtain ⟨-, g1, g2, -⟩ := hi.home hI.g
    have htot : (uexec P t progs sched).shared.tab.total = t.total := hI.g.total
    exact mem_entries.2 ⟨by rw [htot]; exact hpt, g2, hi.1⟩

/-- **C93**: the same for an operation of the host. -/
theorem C93_host_keeps_positions [DecidableEq V] (hl : KeyLaws P) (h0 : 0 < bc) (h1 : bc < 2 ^ 63) {t t' : Tab V} {tr : List (UObs K V)}
    (h : UReached P bc ec t tr) {ord : Nat → List Nat} (ho : ∀ n, (ord n).Perm (List.range n)) {op : UOp K V} {out : UOut V}
    (e : exec P ord t op = .ok (out, t')) {p : Nat} {v : V} (hm : (p, v) ∈ entries t) (hc : op ≠ .clear)
    (hn : ∀ k, op = .erase k → P.keyEq (P.keyOf v) k = false) : (p, v) ∈ entries t' := by
  obtain ⟨⟨chain, free, hR⟩, -, -⟩ := preachable_rep hl h0 h1 (ureached_preachable h)
  obtain ⟨m', -, hM, hp⟩ := host_step hl hR ho e
  rw [← hp.mem_iff]
  cases hM with
  | inserted v p hp => exact List.mem_cons_of_mem _ hm
  | erased k =>
    rw [List.mem_filter]
    exact ⟨hm, by simp [hn k rfl]⟩
  | clear => exact absurd rfl hc
  | same _ _ _ _ => exact hm

/-- **C93**: such a history can always be continued. Every host operation returns, without undefined behaviour, and so do kernels:
nothing undefined happens in them, and whatever has happened so far there is a continuation in which every operation returns. -/
theorem C93_continues [DecidableEq V] (hl : KeyLaws P) (h0 : 0 < bc) (h1 : bc < 2 ^ 63) {t : Tab V} {tr : List (UObs K V)}
    (h : UReached P bc ec t tr) :
    (∀ (op : UOp K V) (ord : Nat → List Nat), (∀ n, (ord n).Perm (List.range n)) →
      ∃ out t', exec P ord t op = .ok (out, t') ∧ UReached P bc ec t' (tr ++ [.host op out])) ∧
    (∀ progs : List (List (Op K V)), NoErase progs ∨ NoInsert progs ∨ Separated P t progs → ∀ sched,
      (uexec P t progs sched).shared.ub = false ∧ (uexec P t progs sched).shared.tab.excess.slots.err = false ∧
      ∃ sched', UFinished (uexec P t progs (sched ++ sched'))) := by
  have hP := ureached_preachable h
  refine ⟨fun op ord ho => ?_, fun progs hp sched => ?_⟩
  · obtain ⟨hR, -, -⟩ := preachable_rep hl h0 h1 hP
    obtain ⟨out, t', m', e, -⟩ := exec_refines hl ho op ⟨hR, List.Perm.refl (contents t)⟩
    exact ⟨out, t', e, .host h ho e⟩
  · rcases hp with hp | hp | hp
    · have := C38_safe hl h0 h1 hP hp sched
      exact ⟨this.1, this.2.2, C56_inserts_no_deadlock hl h0 h1 hP hp sched⟩
    · obtain ⟨a, b⟩ := C39_safe hl h0 h1 hP hp sched
      exact ⟨a, b, C56_erases_no_deadlock hl h0 h1 hP hp sched⟩
    · obtain ⟨a, b⟩ := C75_mixed_defined hl h0 h1 hP hp sched
      exact ⟨a, b, C78_mixed_no_deadlock hl h0 h1 hP hp sched⟩

/-- Operations of the host one after another. -/
theorem ureached_execAll (ops : List (UOp K V)) : ∀ {t t' : Tab V} {tr : List (UObs K V)} {ords : Nat → Nat → List Nat}
    {outs : List (UOut V)}, UReached P bc ec t tr → (∀ j n, (ords j n).Perm (List.range n)) →
    execAll P ords t ops = .ok (outs, t') → UReached P bc ec t' (tr ++ List.zipWith .host ops outs) := by
  induction ops with
  | nil =>
    intro t t' tr ords outs h _ e
    simp only [execAll, Except.ok.injEq, Prod.mk.injEq] at e
    obtain ⟨rfl, rfl⟩ := e
    simpa using h
  | cons op ops ih =>
    intro t t' tr ords outs h ho e
    simp only [execAll, bind, Except.bind, pure, Except.pure] at e
    split at e
    · simp at e
    · next r h1 =>
      split at e
      · simp at e
      · next q h2 =>
        simp only [Except.ok.injEq, Prod.mk.injEq] at e
        obtain ⟨rfl, rfl⟩ := e
        have := ih (.host h (ho 0) h1) (fun j => ho (j + 1)) h2
        simpa using this

/-- The operations of the host that have led to `mixTab`, a kernel of insertions, erasures and lookups, and a lookup of the host:
the second lookup of a thread finds nothing, as another thread has erased the key. -/
example : ∃ t, UReached exP 4 4 t [.host (.insert (0, 0)) (.inserted (some (0, 0)) true),
    .host (.insert (2, 20)) (.inserted (some (2, 20)) true), .host (.erase 0) (.num 1),
    .host (.insert (1, 10)) (.inserted (some (1, 10)) true),
    .kernel true [[(.insert (4, 40), .inserted 1), (.erase 2, .notErased)], [(.erase 2, .erased), (.insert (2, 21), .inserted 0)],
      [(.find 2, .found 7), (.find 0, .notFound), (.find 2, .notFound)], [(.insert (1, 11), .notInserted), (.erase 1, .erased)]],
    .host (.find 2) (.found (some (2, 21)))] := by
  have e1 : (match execAll exP (fun _ n => List.range n) (create 4 4) [.insert (0, 0), .insert (2, 20), .erase 0, .insert (1, 10)] with
      | .ok (outs, _) => some outs | .error _ => none) =
      some [.inserted (some (0, 0)) true, .inserted (some (2, 20)) true, .num 1, .inserted (some (1, 10)) true] := by decide +kernel
  have e2 : mixTab = (match execAll exP (fun _ n => List.range n) (create 4 4) [.insert (0, 0), .insert (2, 20), .erase 0, .insert (1, 10)] with
      | .ok (_, t) => t | .error _ => create 4 4) := rfl
  split at e1
  · next outs t h1 =>
    rw [h1] at e2
    dsimp only at e2
    subst e2
    simp only [Option.some.injEq] at e1
    subst e1
    have h4 := UReached.mixed (ureached_execAll _ .create (fun _ _ => .refl _) h1) mixProgs mixSched mix_separated mix_room _ rfl
      mix_finished
    have h5 : (uexec exP mixTab mixProgs mixSched).threads.map (·.done) =
        [[(.insert (4, 40), .inserted 1), (.erase 2, .notErased)], [(.erase 2, .erased), (.insert (2, 21), .inserted 0)],
          [(.find 2, .found 7), (.find 0, .notFound), (.find 2, .notFound)], [(.insert (1, 11), .notInserted), (.erase 1, .erased)]] := by
      decide +kernel
    rw [h5] at h4
    have e3 : (match exec exP List.range (uexec exP mixTab mixProgs mixSched).shared.tab (.find 2) with
        | .ok (out, _) => some out | .error _ => none) = some (.found (some (2, 21))) := by decide +kernel
    split at e3
    · next out t' h6 =>
      simp only [Option.some.injEq] at e3
      subst e3
      exact ⟨_, .host (ord := List.range) h4 (fun _ => .refl _) h6⟩
    · simp at e3
  · simp at e1

end Stdgpu.Props
