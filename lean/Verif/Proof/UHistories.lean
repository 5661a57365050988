import Verif.Spec.UHistories
import Verif.Proof.ULinTimes
import Verif.Proof.Unordered3
/-! Lemmas for C93. -/
namespace Stdgpu.Unordered
open Stdgpu.Spec Stdgpu.SlotConc

variable {K V : Type} {P : Params K V}

theorem construct_frame {t t1 : Tab V} {p : Nat} {v : V} (e : construct t p v = .ok t1) :
    p < t.total ∧ t.live p = false ∧ t1.total = t.total ∧ t1.occ = t.occ ∧ t1.val = upd t.val p (some v) := by
  unfold construct at e
  split at e
  · simp at e
  · split at e
    · simp at e
    · next h1 h2 =>
      simp only [Except.ok.injEq] at e
      subst e
      exact ⟨by omega, by simpa using h2, rfl, rfl, rfl⟩

theorem tryInsert_frame {t t' : Tab V} {v : V} {it : Option Nat} {st : Status}
    (e : tryInsert P t v = .ok ((it, st), t')) :
    t'.total = t.total ∧ ((st ≠ .success ∧ t'.occ = t.occ ∧ t'.val = t.val ∧ t'.live = t.live) ∨
      ∃ p, it = some p ∧ st = .success ∧ p < t.total ∧ t.live p = false ∧ t'.occ = upd t.occ p true ∧ t'.val = upd t.val p (some v)) := by
  simp only [tryInsert, bind, Except.bind, pure, Except.pure] at e
  repeat' split at e
  all_goals first
    | (simp at e; done)
    | skip
  all_goals
    simp only [Except.ok.injEq, Prod.mk.injEq] at e
    obtain ⟨⟨rfl, rfl⟩, rfl⟩ := e
  all_goals first
    | (simp; done)
    | (obtain ⟨c1, c2, c3, c4, c5⟩ := construct_frame ‹construct _ _ _ = _›
       exact ⟨c3, .inr ⟨_, rfl, rfl, c1, c2, by simp only [c4], c5⟩⟩)

theorem insertLoop_frame {v : V} : ∀ (fuel : Nat) {t t' : Tab V} {it : Option Nat} {b : Bool},
    insertLoop P v fuel t = .ok ((it, b), t') →
    t'.total = t.total ∧ ((b = false ∧ t'.occ = t.occ ∧ t'.val = t.val) ∨
      ∃ p, it = some p ∧ b = true ∧ p < t.total ∧ t.live p = false ∧ t'.occ = upd t.occ p true ∧ t'.val = upd t.val p (some v)) := by
  intro fuel
  induction fuel with
  | zero =>
    intro t t' it b e
    unfold insertLoop at e
    simp only [bind, Except.bind, pure, Except.pure] at e
    repeat' split at e
    all_goals first
      | (simp at e; done)
      | skip
    · next hx hst =>
      simp only [Except.ok.injEq, Prod.mk.injEq] at e
      obtain ⟨⟨rfl, rfl⟩, rfl⟩ := e
      obtain ⟨f1, f2⟩ := tryInsert_frame hx
      refine ⟨f1, ?_⟩
      rcases f2 with ⟨g1, g2, g3, -⟩ | ⟨p, g1, g2, g3⟩
      · exact .inl ⟨by simpa using g1, g2, g3⟩
      · exact .inr ⟨p, g1, by simp [g2], g3⟩
    · simp only [Except.ok.injEq, Prod.mk.injEq] at e
      obtain ⟨⟨rfl, rfl⟩, rfl⟩ := e
      exact ⟨rfl, .inl ⟨rfl, rfl, rfl⟩⟩
  | succ fuel ih =>
    intro t t' it b e
    unfold insertLoop at e
    simp only [bind, Except.bind, pure, Except.pure] at e
    repeat' split at e
    all_goals first
      | (simp at e; done)
      | skip
    · next hx hst =>
      obtain ⟨f1, f2⟩ := tryInsert_frame hx
      obtain ⟨k1, k2⟩ := ih e
      refine ⟨k1.trans f1, ?_⟩
      rcases f2 with ⟨-, g2, g3, g4⟩ | ⟨p, -, g2, -⟩
      · rw [g2, g3, g4, f1] at k2; exact k2
      · rw [hst] at g2; simp at g2
    · next hx hst =>
      simp only [Except.ok.injEq, Prod.mk.injEq] at e
      obtain ⟨⟨rfl, rfl⟩, rfl⟩ := e
      obtain ⟨f1, f2⟩ := tryInsert_frame hx
      refine ⟨f1, ?_⟩
      rcases f2 with ⟨g1, g2, g3, -⟩ | ⟨p, g1, g2, g3⟩
      · exact .inl ⟨by simpa using g1, g2, g3⟩
      · exact .inr ⟨p, g1, by simp [g2], g3⟩
    · simp only [Except.ok.injEq, Prod.mk.injEq] at e
      obtain ⟨⟨rfl, rfl⟩, rfl⟩ := e
      exact ⟨rfl, .inl ⟨rfl, rfl, rfl⟩⟩

theorem destroy_frame {t t1 : Tab V} {p : Nat} (e : destroy t p = .ok t1) : t1.total = t.total ∧ t1.occ = t.occ ∧ t1.val = t.val := by
  unfold destroy at e
  repeat' split at e
  all_goals first
    | (simp at e; done)
    | skip
  simp only [Except.ok.injEq] at e
  subst e
  exact ⟨rfl, rfl, rfl⟩

theorem tryErase_frame {t t' : Tab V} {k : K} {st : Status} (e : tryErase P t k = .ok (st, t')) :
    t'.total = t.total ∧ t'.val = t.val ∧ (st ≠ .success ∧ t'.occ = t.occ ∨
      st = .success ∧ ∃ p, find P t k = .ok (some p) ∧ t'.occ = upd t.occ p false) := by
  simp only [tryErase, bind, Except.bind, pure, Except.pure] at e
  repeat' split at e
  all_goals first
    | (simp at e; done)
    | skip
  all_goals
    simp only [Except.ok.injEq, Prod.mk.injEq] at e
    obtain ⟨rfl, rfl⟩ := e
  all_goals first
    | (simp; done)
    | (obtain ⟨c1, c2, c3⟩ := destroy_frame ‹destroy _ _ = _›
       (repeat' split at c1) <;> (repeat' split at c2) <;> (repeat' split at c3) <;>
       exact ⟨c1, c3, .inr ⟨rfl, _, ‹_›, c2⟩⟩)

theorem erase_frame {t t' : Tab V} {k : K} {n : Nat} (e : erase P t k = .ok (n, t')) :
    t'.total = t.total ∧ t'.val = t.val ∧ (n = 0 ∧ t'.occ = t.occ ∨ n = 1 ∧ ∃ p, find P t k = .ok (some p) ∧ t'.occ = upd t.occ p false) := by
  simp only [erase, bind, Except.bind, pure, Except.pure] at e
  repeat' split at e
  all_goals first
    | (simp at e; done)
    | skip
  all_goals
    next hx _ _ =>
    simp only [Except.ok.injEq, Prod.mk.injEq] at e
    obtain ⟨rfl, rfl⟩ := e
    obtain ⟨f1, f2, f3⟩ := tryErase_frame hx
    refine ⟨f1, f2, ?_⟩
    simp_all

theorem entries_nodup (t : Tab V) : (entries t).Nodup := by
  unfold entries
  refine List.Nodup.filterMap ?_ List.nodup_range
  intro a a' b h1 h2
  split at h1
  · split at h2
    · simp only [Option.mem_def, Option.map_eq_some_iff] at h1 h2
      obtain ⟨v, -, rfl⟩ := h1
      obtain ⟨w, -, e⟩ := h2
      simpa using (congrArg Prod.fst e).symm
    · simp at h2
  · simp at h1

theorem entries_snd (t : Tab V) : (entries t).map (·.2) = Spec.contents t := by
  unfold entries Spec.contents
  rw [List.map_filterMap]
  congr 1
  funext p
  split
  · cases t.val p <;> rfl
  · rfl

theorem perm_entries {t : Tab V} {m : List (Nat × V)} (hn : m.Nodup)
    (h : ∀ p v, (p, v) ∈ m ↔ p < t.total ∧ t.occ p = true ∧ t.val p = some v) : m.Perm (entries t) := by
  rw [List.perm_ext_iff_of_nodup hn (entries_nodup t)]
  rintro ⟨p, v⟩
  rw [h, UnorderedConc.mem_entries]

/-- An operation of the host. -/
theorem host_step [DecidableEq V] (hl : KeyLaws P) {t t' : Tab V} {chain : Nat → List Nat} {free : List Nat} (h : Rep P t chain free)
    {ord : Nat → List Nat} (ho : ∀ n, (ord n).Perm (List.range n)) {op : UOp K V} {out : UOut V}
    (e : exec P ord t op = .ok (out, t')) :
    ∃ m', mapStep P ((entries t).map (·.2)) op out = some (m'.map (·.2)) ∧ Moves P (entries t) op out m' ∧ m'.Perm (entries t') := by
  obtain ⟨out', t'', m'', e1, e2, e3, -, e4⟩ := exec_refines hl ho op (m := (entries t).map (·.2)) ⟨⟨chain, free, h⟩, by rw [entries_snd]⟩
  rw [e] at e1
  simp only [Except.ok.injEq, Prod.mk.injEq] at e1
  obtain ⟨rfl, rfl⟩ := e1
  have same : t' = t → m'' = (entries t).map (·.2) → op ≠ .clear → (∀ it, out ≠ .inserted it true) →
      (∀ k, op = .erase k → out ≠ .num 1) →
      ∃ m', mapStep P ((entries t).map (·.2)) op out = some (m'.map (·.2)) ∧ Moves P (entries t) op out m' ∧ m'.Perm (entries t') := by
    rintro rfl rfl h1 h2 h3
    exact ⟨entries t', e2, .same _ _ h1 h2 h3, .refl _⟩
  cases op with
  | insert v =>
    simp only [exec, bind, Except.bind, pure, Except.pure] at e
    split at e
    · simp at e
    · next r hx =>
      obtain ⟨⟨it, b⟩, t1⟩ := r
      dsimp only at e
      split at e
      · simp at e
      · next d hd =>
        simp only [Except.ok.injEq, Prod.mk.injEq] at e
        obtain ⟨rfl, rfl⟩ := e
        obtain ⟨f1, f2⟩ := insertLoop_frame _ hx
        rcases f2 with ⟨rfl, g1, g2⟩ | ⟨p, rfl, rfl, g1, g2, g3, g4⟩
        · simp only [mapStep, Bool.false_eq_true, if_false] at e2
          split at e2
          · refine ⟨entries t, ?_, .same _ _ (by simp) (by simp) (by simp), ?_⟩
            · simp [mapStep, *]
            · refine perm_entries (entries_nodup t) (fun q w => ?_)
              rw [UnorderedConc.mem_entries, f1, g1, g2]
          · simp at e2
        · simp only [mapStep, if_true] at e2
          split at e2
          · next hc =>
            obtain ⟨hc1, rfl⟩ := hc
            have hpocc : t.occ p = false := by rw [← h.live p g1]; exact g2
            have hfresh : ∀ e ∈ entries t, e.1 ≠ p := by
              rintro ⟨q, w⟩ hq rfl
              rw [UnorderedConc.mem_entries] at hq
              dsimp only at hq hpocc
              rw [hpocc] at hq
              simp at hq
            refine ⟨(p, v) :: entries t, ?_, .inserted v p hfresh, ?_⟩
            · simp [mapStep, hc1]
            · refine perm_entries (List.nodup_cons.2 ⟨fun hm => hfresh _ hm rfl, entries_nodup t⟩) (fun q w => ?_)
              rw [List.mem_cons, UnorderedConc.mem_entries, f1, g3, g4]
              by_cases hq : q = p
              · subst hq
                simp [upd, g1, hpocc, eq_comm]
              · simp [upd, hq]
          · simp at e2
  | erase k =>
    simp only [exec, bind, Except.bind, pure, Except.pure] at e
    split at e
    · simp at e
    · next r hx =>
      obtain ⟨n, t1⟩ := r
      simp only [Except.ok.injEq, Prod.mk.injEq] at e
      obtain ⟨rfl, rfl⟩ := e
      obtain ⟨f1, f2, f3⟩ := erase_frame hx
      rcases f3 with ⟨rfl, g1⟩ | ⟨rfl, p, g1, g2⟩
      · refine ⟨entries t, ?_, .same _ _ (by simp) (by simp) (by simp), ?_⟩
        · simp only [mapStep] at e2 ⊢
          split at e2
          · simp at e2
          · simp
        · refine perm_entries (entries_nodup t) (fun q w => ?_)
          rw [UnorderedConc.mem_entries, f1, f2, g1]
      · refine ⟨(entries t).filter (fun e => !P.keyEq (P.keyOf e.2) k), ?_, .erased k, ?_⟩
        · simp only [mapStep] at e2 ⊢
          split at e2
          · simp [List.filter_map, Function.comp_def]
          · simp at e2
        · rw [h.find_eq] at g1
          simp only [Except.ok.injEq] at g1
          obtain ⟨p1, p2, v, p3, p4, -⟩ := h.pos_some g1
          refine perm_entries ((entries_nodup t).filter _) (fun q w => ?_)
          rw [List.mem_filter, UnorderedConc.mem_entries, f1, f2, g2]
          by_cases hq : q = p
          · subst hq
            rw [p3]
            simp only [upd, if_true]
            constructor
            · rintro ⟨⟨-, -, hw⟩, hk⟩
              simp only [Option.some.injEq] at hw
              subst hw
              simp [p4] at hk
            · simp
          · simp only [upd, hq, if_false]
            constructor
            · rintro ⟨hw, -⟩; exact hw
            · rintro ⟨q1, q2, q3⟩
              refine ⟨⟨q1, q2, q3⟩, ?_⟩
              by_contra hk
              have hk' : P.keyEq (P.keyOf w) k = true := by simpa using hk
              have := h.pos_of_stored hl q1 q2 q3 hk'
              rw [g1] at this
              simp only [Option.some.injEq] at this
              exact hq this.symm
  | clear =>
    obtain ⟨t1, c1, c2, c3, -⟩ := clear_eq h ho
    simp only [exec, c1, bind, Except.bind, pure, Except.pure, Except.ok.injEq, Prod.mk.injEq] at e
    obtain ⟨rfl, rfl⟩ := e
    refine ⟨[], rfl, .clear, ?_⟩
    have : (entries t1).map (·.2) = [] := by rw [entries_snd, c3]
    rw [List.map_eq_nil_iff] at this
    rw [this]
  | find k =>
    simp only [exec, bind, Except.bind, pure, Except.pure] at e
    repeat' split at e
    all_goals first
      | (simp at e; done)
      | skip
    simp only [Except.ok.injEq, Prod.mk.injEq] at e
    obtain ⟨rfl, rfl⟩ := e
    simp only [mapStep, Option.ite_none_right_eq_some, Option.some.injEq] at e2
    exact same rfl e2.2.symm (by simp) (by simp) (by simp)
  | contains k =>
    simp only [exec, bind, Except.bind, pure, Except.pure] at e
    repeat' split at e
    all_goals first
      | (simp at e; done)
      | skip
    simp only [Except.ok.injEq, Prod.mk.injEq] at e
    obtain ⟨rfl, rfl⟩ := e
    simp only [mapStep, Option.ite_none_right_eq_some, Option.some.injEq] at e2
    exact same rfl e2.2.symm (by simp) (by simp) (by simp)
  | count k =>
    simp only [exec, bind, Except.bind, pure, Except.pure] at e
    repeat' split at e
    all_goals first
      | (simp at e; done)
      | skip
    simp only [Except.ok.injEq, Prod.mk.injEq] at e
    obtain ⟨rfl, rfl⟩ := e
    simp only [mapStep, Option.ite_none_right_eq_some, Option.some.injEq] at e2
    exact same rfl e2.2.symm (by simp) (by simp) (by simp)
  | size =>
    simp only [exec, Except.ok.injEq, Prod.mk.injEq] at e
    obtain ⟨rfl, rfl⟩ := e
    simp only [mapStep, Option.ite_none_right_eq_some, Option.some.injEq] at e2
    exact same rfl e2.2.symm (by simp) (by simp) (by simp)
  | empty =>
    simp only [exec, Except.ok.injEq, Prod.mk.injEq] at e
    obtain ⟨rfl, rfl⟩ := e
    simp only [mapStep, Option.ite_none_right_eq_some, Option.some.injEq] at e2
    exact same rfl e2.2.symm (by simp) (by simp) (by simp)
  | valid =>
    simp only [exec, bind, Except.bind, pure, Except.pure] at e
    repeat' split at e
    all_goals first
      | (simp at e; done)
      | skip
    simp only [Except.ok.injEq, Prod.mk.injEq] at e
    obtain ⟨rfl, rfl⟩ := e
    simp only [mapStep, Option.ite_none_right_eq_some, Option.some.injEq] at e2
    exact same rfl e2.2.symm (by simp) (by simp) (by simp)

end Stdgpu.Unordered

namespace Stdgpu.UnorderedConc
open Stdgpu.Spec Stdgpu.Conc Stdgpu.Unordered

variable {K V : Type} {P : Params K V} {t₀ : Tab V} {progs : List (List (Op K V))}

theorem numCalled_idle {t : Thread K V} (h : t.cur = .idle) : numCalled t = t.done.length := by
  unfold numCalled; rw [h]; rfl

theorem numCalled_step (m : Shared V) (t : Thread K V) (h : numCalled t < numCalled (step P m t).2) :
    t.cur = .idle ∧ numCalled (step P m t).2 ≤ numCalled t + 1 := by
  by_cases hc : t.cur = .idle
  · refine ⟨hc, ?_⟩
    rw [numCalled_idle hc]
    cases htd : t.todo with
    | nil =>
      have e : step P m t = (m, t) := by simp only [step, hc, htd]
      rw [e, numCalled_idle hc]; omega
    | cons op rest =>
      have e : step P m t = (m, { t with todo := rest, cur := begin P m.tab op }) := by simp only [step, hc, htd]
      rw [e]
      unfold numCalled
      dsimp only
      split <;> omega
  · exfalso
    have h1 : numCalled t = t.done.length + 1 := by
      unfold numCalled
      split
      · next hc' => exact absurd hc' hc
      · rfl
    rcases ctl (P := P) m t hc with ⟨h2, -⟩ | ⟨e, h2, -, h3, -⟩
    · have : numCalled (step P m t).2 ≤ (step P m t).2.done.length + 1 := by
        unfold numCalled
        split <;> omega
      rw [h2] at this
      omega
    · rw [numCalled_idle h3, h2, h1] at h
      simp at h

/-- The operations of one thread are in the order of its program. -/
theorem before_of_lt {i a b : Nat} (hab : a < b) (sched : List Nat) (hc : Called (uexec P t₀ progs sched) (i, b)) :
    Before P t₀ progs sched (i, a) (i, b) := by
  induction sched using List.reverseRecOn with
  | nil =>
    obtain ⟨t, ht, hb⟩ := hc
    simp only [uexec, run, init, List.foldl_nil] at ht
    rw [List.getElem?_map, Option.map_eq_some_iff] at ht
    obtain ⟨q, -, rfl⟩ := ht
    simp [numCalled] at hb
  | append_singleton σ j ih =>
    by_cases hσ : Called (uexec P t₀ progs σ) (i, b)
    · obtain ⟨n, h1, h2⟩ := ih hσ
      by_cases hn : n ≤ σ.length
      · exact ⟨n, by rwa [List.take_append_of_le_length hn], by rwa [List.take_append_of_le_length hn]⟩
      · rw [List.take_of_length_le (by omega)] at h2
        exact absurd hσ h2
    · refine ⟨σ.length, ?_, ?_⟩
      · rw [List.take_left]
        obtain ⟨t', ht', hb⟩ := hc
        rw [uexec_append] at ht'
        change (stepAt (step P) (uexec P t₀ progs σ) j).threads[i]? = some t' at ht'
        cases hj : (uexec P t₀ progs σ).threads[j]? with
        | none =>
          simp only [stepAt, hj] at ht'
          exact absurd ⟨t', ht', hb⟩ hσ
        | some u =>
          have hlt : j < (uexec P t₀ progs σ).threads.length := (List.getElem?_eq_some_iff.1 hj).1
          simp only [stepAt, hj] at ht'
          by_cases hij : i = j
          · subst hij
            simp only [List.getElem?_set, hlt, if_true, Option.some.injEq] at ht'
            subst ht'
            have hnb : numCalled u ≤ b := by
              by_contra hx
              exact hσ ⟨u, hj, by show b < numCalled u; omega⟩
            change b < numCalled _ at hb
            obtain ⟨c1, c2⟩ := numCalled_step (P := P) (uexec P t₀ progs σ).shared u (by omega)
            rw [numCalled_idle c1] at c2
            have : a < u.done.length := by omega
            simp [resAt, hj, this]
          · rw [List.getElem?_set_ne (Ne.symm hij)] at ht'
            exact absurd ⟨t', ht', hb⟩ hσ
      · rw [List.take_left]; exact hσ

theorem interleaves_of_linearization {strict : Bool} {sched : List Nat} {L : List (OpId × Op K V × Res)} {m : List (Nat × V)}
    (h : Linearization P strict t₀ progs sched L m) (hf : UFinished (uexec P t₀ progs sched)) :
    Interleaves ((uexec P t₀ progs sched).threads.map (·.done)) L := by
  have hres : ∀ x : OpId, ((((uexec P t₀ progs sched).threads.map (·.done))[x.1]?).bind (·[x.2]?)) = resAt (uexec P t₀ progs sched) x := by
    intro x
    simp only [resAt, List.getElem?_map, Option.bind_map]
    rfl
  refine ⟨h.nodup, fun x e => ?_, ?_⟩
  · rw [hres]
    refine ⟨fun hm => ?_, fun hr => h.returned x e hr⟩
    obtain ⟨⟨t, ht, hx⟩, -⟩ := h.called x e hm
    rw [numCalled_idle (hf t (List.mem_of_getElem? ht)).2] at hx
    have hr : resAt (uexec P t₀ progs sched) x = some t.done[x.2] := by simp [resAt, ht, hx]
    have hm' := h.returned x _ hr
    rw [hr]
    have := List.inj_on_of_nodup_map h.nodup hm hm' rfl
    simpa using (congrArg Prod.snd this).symm
  · have hn : L.Pairwise (fun a b => a.1 ≠ b.1) := by
      have := h.nodup
      rw [List.Nodup, List.pairwise_map] at this
      exact this
    refine (h.order.and hn).imp_of_mem ?_
    rintro ⟨⟨i, a⟩, e⟩ ⟨⟨j, b⟩, f⟩ ha hb ⟨h1, h2⟩ hij
    dsimp only at h1 h2 hij ⊢
    subst hij
    rcases Nat.lt_trichotomy a b with hab | rfl | hab
    · exact hab
    · exact absurd rfl h2
    · exact absurd (before_of_lt hab sched (h.called _ _ ha).1) h1

theorem seqRun_nodup {strict : Bool} (L : List (Op K V × Res)) : ∀ (m : List (Nat × V)), (m.map (·.1)).Nodup → ∀ m',
    seqRun P strict m L = some m' → (m'.map (·.1)).Nodup := by
  induction L with
  | nil =>
    intro m hm m' e
    simp only [seqRun, Option.some.injEq] at e
    exact e ▸ hm
  | cons x L ih =>
    intro m hm m' e
    simp only [seqRun, Option.bind_eq_some_iff] at e
    obtain ⟨m1, e1, e2⟩ := e
    refine ih m1 ?_ m' e2
    unfold seqStep at e1
    split at e1
    · split at e1
      · simp at e1
      · next hc =>
        simp only [Option.some.injEq] at e1
        subst e1
        simp only [Bool.or_eq_true, not_or, Bool.not_eq_true, List.any_eq_false] at hc
        simp only [List.map_cons, List.nodup_cons]
        refine ⟨?_, hm⟩
        intro hmem
        rw [List.mem_map] at hmem
        obtain ⟨e, he, hp⟩ := hmem
        have := hc.2 e he
        simp [hp] at this
    all_goals first
      | (split at e1 <;> first | (simp at e1; done) | (simp only [Option.some.injEq] at e1; subst e1; exact hm) |
          (simp only [Option.some.injEq] at e1; subst e1; exact hm.sublist (List.filter_sublist.map _)))
      | (simp at e1; done)

end Stdgpu.UnorderedConc
