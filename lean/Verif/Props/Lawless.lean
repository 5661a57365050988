import Verif.Proof.Lawless
import Verif.Props.UnorderedConc
import Verif.Props.UFairness
import Verif.Props.RandomSched
import Verif.Props.Hash
/-!
C97: an unordered container whose key comparison and hash violate all requirements.

`P : Params K V` consists of arbitrary functions: no theorem of this file assumes `KeyLaws`. `LReachable P bc ec t` says that `t`
has been made by any history of single operations and of concurrent phases; `BagStep` (Spec/Lawless.lean) says what an operation
may return and do, for a bag of elements.
-/
namespace Stdgpu.Props
open Stdgpu.Unordered Stdgpu.UnorderedConc Stdgpu.Spec Stdgpu.Conc

variable {K V : Type} {P : Params K V} {bc ec : Nat} {t : Tab V} {progs : List (List (Op K V))}

section
variable (h0 : 0 < bc) (h1 : bc < 2 ^ 63) (hr : LReachable P bc ec t)
include h0 h1 hr

/-- C97. Every operation returns, without undefined behaviour, an admissible result for the bag of the stored elements, and
leaves the bag it should; whatever the comparison and the hash are. -/
theorem C97_operation {ord : Nat → List Nat} (ho : ∀ n, (ord n).Perm (List.range n)) (op : UOp K V) :
    ∃ out t', exec P ord t op = .ok (out, t') ∧ BagStep P (contents t) op out (contents t') ∧ LReachable P bc ec t' := by
  obtain ⟨⟨chain, free, h⟩, -, -⟩ := lreachable_rep h0 h1 hr
  obtain ⟨o, t', e, hb, -⟩ := exec_bag ho op h
  exact ⟨o, t', e, hb, hr.op ho e⟩

/-- C97. The same for whole histories. -/
theorem C97_history (ops : List (UOp K V)) (ords : Nat → Nat → List Nat) (ho : ∀ j n, (ords j n).Perm (List.range n)) :
    ∃ outs t', execAll P ords t ops = .ok (outs, t') ∧ BagRun P (contents t) ops outs (contents t') ∧
      LReachable P bc ec t' := by
  induction ops generalizing t ords with
  | nil => exact ⟨[], t, rfl, rfl, hr⟩
  | cons op ops ih =>
    obtain ⟨o, t1, e1, b1, r1⟩ := C97_operation h0 h1 hr (ho 0) op
    obtain ⟨os, t2, e2, b2, r2⟩ := ih r1 (fun j => ords (j + 1)) (fun j => ho (j + 1))
    exact ⟨o :: os, t2, by simp [execAll, e1, e2, bind, Except.bind, pure, Except.pure], ⟨_, b1, b2⟩, r2⟩

/-- C97. An insertion that fails does so because a stored element matches, or because no excess entry is unused. -/
theorem C97_insert_failure {ord : Nat → List Nat} {v : V} {it : Option V} {t' : Tab V}
    (e : exec P ord t (.insert v) = .ok (.inserted it false, t')) :
    (∃ w ∈ contents t, Matches P w (P.keyOf v)) ∨ freeList t = [] := by
  obtain ⟨⟨chain, free, h⟩, -, -⟩ := lreachable_rep h0 h1 hr
  rw [freeList_eq h]
  obtain ⟨i1, i2⟩ := insert_eq h v
  by_cases hc : Rep.pos P t chain (P.keyOf v) = none ∧ free ≠ []
  · obtain ⟨p, t2, e2, p1, p2, p3, -⟩ := i1 hc
    simp [exec, e2, deref, p1, p2, p3, bind, Except.bind, pure, Except.pure] at e
  · cases hp : Rep.pos P t chain (P.keyOf v) with
    | none => exact .inr (by by_contra hf; exact hc ⟨hp, hf⟩)
    | some p => exact .inl (h.some_matches hp)

/-- C97. No two stored elements with the same hash match each other in both directions. -/
theorem C97_apart : (contents t).Pairwise (fun v w => P.hash (P.keyOf v) = P.hash (P.keyOf w) →
    ¬ (Matches P v (P.keyOf w) ∧ Matches P w (P.keyOf v))) := by
  obtain ⟨⟨chain, free, h⟩, -, -⟩ := lreachable_rep h0 h1 hr
  exact contents_apart h

/-- C97. `valid()` returns, and it tells whether the keys of the stored elements behave: it is true only if every stored element
matches its own key; and it is false only if some stored element does not, or a stored element is matched by another one. -/
theorem C97_valid {ord : Nat → List Nat} (ho : ∀ n, (ord n).Perm (List.range n)) :
    ∃ b, valid P ord t = .ok b ∧ (b = true → ∀ v ∈ contents t, Matches P v (P.keyOf v)) ∧
      (b = false → (∃ v ∈ contents t, ¬ Matches P v (P.keyOf v)) ∨
        ∃ v w l, (contents t).Perm (v :: w :: l) ∧ Matches P w (P.keyOf v)) := by
  obtain ⟨⟨chain, free, h⟩, -, -⟩ := lreachable_rep h0 h1 hr
  obtain ⟨b, e, hb⟩ := valid_any h ho
  refine ⟨b, e, ?_, ?_⟩
  · intro hbt v hv
    obtain ⟨p, p1, p2, p3⟩ := mem_contents.1 hv
    obtain ⟨-, -, w, q3, q4, -⟩ := h.pos_some (hb.1 hbt p v p1 p2 p3)
    rw [p3] at q3
    cases q3
    exact q4
  · intro hbf
    by_contra hc
    push Not at hc
    obtain ⟨hc1, hc2⟩ := hc
    have : b = true := by
      refine hb.2 (fun p v p1 p2 p3 => ?_)
      have hself := hc1 v (mem_contents.2 ⟨p, p1, p2, p3⟩)
      cases hq : Rep.pos P t chain (P.keyOf v) with
      | none => exact absurd hself (h.none_matches hq v (mem_contents.2 ⟨p, p1, p2, p3⟩) rfl)
      | some q =>
        obtain ⟨q1, q2, w, q3, q4, -⟩ := h.pos_some hq
        by_cases hpq : q = p
        · rw [hpq]
        · exfalso
          have a1 := contents_unput t p v p1 p2 p3
          have b2 : (unput t p).occ q = true := by simp [unput, SlotConc.upd, hpq, q2]
          have a2 := contents_unput (unput t p) q w q1 b2 q3
          exact hc2 v w _ (a1.trans (List.Perm.cons v a2)) q4
    rw [hbf] at this
    cases this

end

section
variable (h0 : 0 < bc) (h1 : bc < 2 ^ 63) (hr : LReachable P bc ec t) (sched : List Nat)
include h0 h1 hr

/-- C97. Concurrent insertions and lookups, by any number of threads: at every moment nothing undefined has happened, the elements
that were stored and all successfully inserted ones are stored, every insertion that has succeeded has stored its own value where
its iterator points, and every lookup that has found an element has found one that matches. (An insertion that fails: a match, an
empty free list, or a full container.) -/
theorem C97_inserts (hp : NoErase progs) :
    let s := uexec P t progs sched
    Defined s ∧ (contents t ++ insertedVals s).Subperm (contents s.shared.tab) ∧
    (∀ v p, (Op.insert v, Res.inserted p) ∈ uresults s → deref s.shared.tab (some p) = .ok (some v)) ∧
    (∀ v, (Op.insert v, Res.notInserted) ∈ uresults s → (∃ w ∈ contents s.shared.tab, Matches P w (P.keyOf v)) ∨
      s.shared.tab.excess.ctr ≤ 0 ∨ (s.shared.tab.total : Int) ≤ size s.shared.tab) ∧
    (∀ k p, (Op.find k, Res.found p) ∈ uresults s → ∃ w, deref s.shared.tab (some p) = .ok (some w) ∧
      w ∈ contents s.shared.tab ∧ Matches P w k) := by
  intro s
  obtain ⟨⟨chain, free, hR⟩, -, -⟩ := lreachable_rep h0 h1 hr
  obtain ⟨c, x, h⟩ := inv_run0 (UnorderedConc.mkStart hR progs hp) sched
  replace h : UnorderedConc.Inv (UnorderedConc.mkStart hR progs hp) c x s := h
  have hb := fun k => bkt_lt P s.shared.tab.bc k h.g.bc_pos h.g.bc_lt
  refine ⟨h.defined, h.subperm, ?_, ?_, ?_⟩
  · intro v p he
    obtain ⟨g1, g2, g3⟩ : StoredAt P s.shared.tab c v p := h.res_mem he
    have hlt := h.g.lt (hb _) g1
    simp [deref, hlt, (h.g.live p hlt g2).1, g3]
  · intro v he
    rcases (h.res_mem he : (∃ u, KeyAt P s.shared.tab c (P.keyOf v) u) ∨ _ ∨ _) with ⟨u, w, g1, g2, g3, g4⟩ | g
    · exact .inl ⟨w, mem_contents.2 ⟨u, h.g.lt (hb _) g1, g2, g3⟩, g4⟩
    · exact .inr g
  · intro k p he
    obtain ⟨w, g1, g2, g3, g4⟩ : KeyAt P s.shared.tab c k p := h.res_mem he
    have hlt := h.g.lt (hb _) g1
    exact ⟨w, by simp [deref, hlt, (h.g.live p hlt g2).1, g3], mem_contents.2 ⟨p, hlt, g2, g3⟩, g4⟩

/-- C97. When the threads have finished, the container holds exactly what it held before and the successfully inserted elements,
and `size` is right. If there was room for all insertions, an insertion has failed only because an element matches, and the
container can be used on. -/
theorem C97_inserts_final (hp : NoErase progs) (hf : UFinished (uexec P t progs sched)) :
    let s := uexec P t progs sched
    (contents s.shared.tab).Perm (contents t ++ insertedVals s) ∧ size s.shared.tab = (contents s.shared.tab).length ∧
    (numInserts progs ≤ (freeList t).length → LReachable P bc ec s.shared.tab ∧
      ∀ v, (Op.insert v, Res.notInserted) ∈ uresults s → ∃ w ∈ contents s.shared.tab, Matches P w (P.keyOf v)) := by
  intro s
  obtain ⟨⟨chain, free, hR⟩, -, -⟩ := lreachable_rep h0 h1 hr
  obtain ⟨c, x, h⟩ := inv_run0 (UnorderedConc.mkStart hR progs hp) sched
  replace h : UnorderedConc.Inv (UnorderedConc.mkStart hR progs hp) c x s := h
  refine ⟨h.final_contents hf, ?_, ?_⟩
  · have hR' := h.final_rep0 hf
    have h2 := hR'.count
    have h3 := length_contents hR'
    have h4 : contents (fixExcess s.shared.tab) = contents s.shared.tab := rfl
    rw [h4] at h3
    have h5 : (fixExcess s.shared.tab).count = size s.shared.tab := rfl
    rw [← h5, h2, h3]
  · intro hroom
    refine ⟨hr.inserts progs sched hp hroom hf, ?_⟩
    intro v he
    rw [freeList_eq hR] at hroom
    obtain ⟨c', x', h', hpot⟩ := room_run0 (UnorderedConc.mkStart hR progs hp) hroom sched
    replace h' : UnorderedConc.Inv (UnorderedConc.mkStart hR progs hp) c' x' s := h'
    replace hpot : ((s.threads.map pot).sum : Int) ≤ s.shared.tab.excess.ctr := hpot
    have hpos := notIns_pot he rfl
    rcases (C97_inserts h0 h1 hr sched hp).2.2.2.1 v he with g | g | g
    · exact g
    · exfalso
      replace g : s.shared.tab.excess.ctr ≤ 0 := g
      omega
    · exfalso
      have := h'.final_full0 hf g
      omega

/-- C97. Concurrent erases and lookups, by any number of threads: at every moment nothing undefined has happened (apart from reads
of elements while they are erased, C39), no element appears, every erase that has returned 1 and every lookup that has found
something has met an element that was stored before and matches. -/
theorem C97_erases (hp : NoInsert progs) :
    let s := uexec P t progs sched
    s.shared.ub = false ∧ s.shared.tab.excess.slots.err = false ∧ (contents s.shared.tab).Sublist (contents t) ∧
    (∀ k, (Op.erase k, Res.erased) ∈ uresults s → ∃ w ∈ contents t, Matches P w k) ∧
    (∀ k p, (Op.find k, Res.found p) ∈ uresults s → ∃ w ∈ contents t, Matches P w k) := by
  intro s
  obtain ⟨⟨chain, free, hR⟩, -, -⟩ := lreachable_rep h0 h1 hr
  obtain ⟨c, x, h⟩ := Er.inv_run0 (Er.mkStart hR progs hp) sched
  replace h : Er.Inv (Er.mkStart hR progs hp) c x s := h
  have hm : ∀ {k p}, Er.Home (Er.mkStart hR progs hp) k p → ∃ w ∈ contents t, Matches P w k := by
    intro k p hH
    have hlt := hH.lt
    obtain ⟨v, -, g2, g3, g4⟩ := hH
    exact ⟨v, mem_contents.2 ⟨p, hlt, g2, g3⟩, g4⟩
  refine ⟨h.ub, h.excess.v.err, ?_, ?_, ?_⟩
  · have e1 : s.shared.tab.total = t.total := h.g.total
    have e2 : s.shared.tab.val = t.val := h.g.val
    unfold contents
    rw [e1, e2]
    induction List.range t.total with
    | nil => exact List.Sublist.refl _
    | cons p l ih =>
      have h3 := h.g.occM p
      replace h3 : s.shared.tab.occ p = true → t.occ p = true := h3
      rw [List.filterMap_cons, List.filterMap_cons]
      cases ho : s.shared.tab.occ p with
      | true =>
        rw [h3 ho]
        cases t.val p <;> simp [ih]
      | false =>
        cases t.occ p <;> cases t.val p <;> simp [ih, List.Sublist.cons]
  · intro k he
    obtain ⟨p, hH, -⟩ : ∃ p, Er.Home (Er.mkStart hR progs hp) k p ∧ _ := h.res_mem he
    exact hm hH
  · intro k p he
    exact hm (h.res_mem he : Er.Home (Er.mkStart hR progs hp) k p)

/-- C97. When the threads have finished, exactly as many elements are gone as erases have returned 1, `size` is right, and the
container can be used on. -/
theorem C97_erases_final (hp : NoInsert progs) (hf : UFinished (uexec P t progs sched)) :
    let s := uexec P t progs sched
    (contents s.shared.tab).length + (erasedKeys s).length = (contents t).length ∧
    size s.shared.tab = (contents s.shared.tab).length ∧ LReachable P bc ec s.shared.tab := by
  intro s
  obtain ⟨⟨chain, free, hR⟩, -, -⟩ := lreachable_rep h0 h1 hr
  obtain ⟨c, x, h⟩ := Er.inv_run0 (Er.mkStart hR progs hp) sched
  replace h : Er.Inv (Er.mkStart hR progs hp) c x s := h
  obtain ⟨free', hR'⟩ := h.final_rep hf
  refine ⟨?_, ?_, hr.erases progs sched hp hf⟩
  · have e := h.num
    have e1 : s.shared.tab.total = t.total := h.g.total
    rw [length_contents hR', length_contents hR, e1]
    refine Eq.trans ?_ e.symm
    show _ = Vector.countBits t.total s.shared.tab.occ + _
    congr 1
    unfold erasedKeys uresults
    have hfx : ∀ th ∈ s.threads, th.cur = .idle := fun th hth => (hf th hth).2
    generalize s.threads = l at hfx
    induction l with
    | nil => rfl
    | cons a l ih =>
      rw [List.flatMap_cons, List.filterMap_append, List.length_append, ih (fun th hth => hfx th (List.mem_cons_of_mem _ hth)),
        List.map_cons, List.sum_cons]
      simp [Er.eraL, hfx a (by simp), Er.erasing]
  · have := hR'.count
    rw [length_contents hR', ← this]
    rfl

end

/-- C97. Concurrent insertions and lookups, and concurrent erases and lookups, end: if the schedule goes on giving steps to every
thread, a moment comes after which all calls have returned. -/
theorem C97_fair (h0 : 0 < bc) (h1 : bc < 2 ^ 63) (hr : LReachable P bc ec t) (hp : NoErase progs ∨ NoInsert progs)
    (σ : Nat → Nat) (hf : Fair progs.length σ) : ∃ N, ∀ n, N ≤ n → UFinished (uexec P t progs (upTo σ n)) := by
  obtain ⟨⟨chain, free, hR⟩, -, -⟩ := lreachable_rep h0 h1 hr
  obtain ⟨N, hN⟩ : ∃ N, UFinished (uexec P t progs (upTo σ N)) := by
    rcases hp with hp | hp
    · obtain ⟨c, x, h⟩ := inv_run0 (UnorderedConc.mkStart hR progs hp) []
      exact ins_fair h (clean_exinit false t progs) (by simpa [run, UnorderedConc.init, UnorderedConc.mkStart] using hf)
    · obtain ⟨c, x, h⟩ := Er.inv_run0 (Er.mkStart hR progs hp) []
      exact Er.era_fair h (clean_exinit true t progs) (by simpa [run, UnorderedConc.init, Er.mkStart] using hf)
  exact ⟨N, fun n hn => by rw [finished_from hN hn]; exact hN⟩

/-- C97. Concurrent insertions and lookups, and concurrent erases and lookups, end almost surely under a scheduler that gives
every step to a uniformly random thread: whatever happened in the first `past` steps, the probability that a call is still running
after `L` more falls below every `ε`. -/
theorem C97_random (h0 : 0 < bc) (h1 : bc < 2 ^ 63) (hr : LReachable P bc ec t) (hp : NoErase progs ∨ NoInsert progs)
    (hn : progs ≠ []) (past : List Nat) (ε : Rat) (hε : 0 < ε) :
    ∃ L₀, ∀ L, L₀ ≤ L →
      unfinishedProbability (fun sched => UFinished (uexec P t progs (past ++ sched))) progs.length L < ε :=
  urandom_of_fair hn past (fun σ hσ => C97_fair h0 h1 hr hp σ hσ) ε hε

/-! ### Keys that match nothing -/

section
variable (h0 : 0 < bc) (h1 : bc < 2 ^ 63) (hr : LReachable P bc ec t) {v : V}
  (hn : ∀ w, ¬ Matches P w (P.keyOf v)) (hn' : ∀ k, ¬ Matches P v k)
include h0 h1 hr

include hn in
/-- C97. A key that matches nothing (a NaN): an insertion of it always succeeds as long as an excess entry is unused, also when
it is stored already, and it is never found. -/
theorem C97_unmatched_insert {ord : Nat → List Nat} (ho : ∀ n, (ord n).Perm (List.range n)) (hroom : freeList t ≠ []) :
    (∃ t', exec P ord t (.insert v) = .ok (.inserted (some v) true, t') ∧ (contents t').Perm (v :: contents t)) ∧
    exec P ord t (.find (P.keyOf v)) = .ok (.found none, t) ∧ exec P ord t (.erase (P.keyOf v)) = .ok (.num 0, t) ∧
    exec P ord t (.contains (P.keyOf v)) = .ok (.bool false, t) := by
  obtain ⟨⟨chain, free, h⟩, -, -⟩ := lreachable_rep h0 h1 hr
  rw [freeList_eq h] at hroom
  have hp : Rep.pos P t chain (P.keyOf v) = none := by
    cases hp : Rep.pos P t chain (P.keyOf v) with
    | none => rfl
    | some p => obtain ⟨w, -, hw⟩ := h.some_matches hp; exact absurd hw (hn w)
  refine ⟨?_, ?_, ?_, ?_⟩
  · obtain ⟨p, t', e, p1, p2, p3, -, hperm, -⟩ := (insert_eq h v).1 ⟨hp, hroom⟩
    exact ⟨t', by simp [exec, e, deref, p1, p2, p3, bind, Except.bind, pure, Except.pure], hperm⟩
  · simp [exec, h.find_eq, hp, deref, bind, Except.bind, pure, Except.pure]
  · simp [exec, (erase_eq h _).1 hp, bind, Except.bind, pure, Except.pure]
  · simp [exec, h.contains_eq, hp, bind, Except.bind, pure, Except.pure]

include hn' in
/-- C97. An element whose key matches nothing is removed by nothing but `clear`, and while it is stored `valid()` is false. -/
theorem C97_unmatched_stays [DecidableEq V] {ord : Nat → List Nat} (ho : ∀ n, (ord n).Perm (List.range n)) :
    (v ∈ contents t → valid P ord t = .ok false) ∧
    ∀ op out t', op ≠ .clear → exec P ord t op = .ok (out, t') → (contents t).count v ≤ (contents t').count v := by
  constructor
  · intro hv
    obtain ⟨b, e, hb, -⟩ := C97_valid h0 h1 hr ho
    cases b with
    | false => exact e
    | true => exact absurd (hb rfl v hv) (hn' _)
  · intro op out t' hop e
    obtain ⟨out', t2, e2, hb, -⟩ := C97_operation h0 h1 hr ho op
    rw [e] at e2
    simp only [Except.ok.injEq, Prod.mk.injEq] at e2
    obtain ⟨rfl, rfl⟩ := e2
    have same : ∀ {m m' : List V}, m'.Perm m → m.count v ≤ m'.count v := fun hp => by rw [hp.count_eq]
    cases op with
    | insert u =>
      cases out <;> simp only [BagStep] at hb
      rename_i it b
      cases b with
      | true => rw [hb.2.2.count_eq]; exact List.count_le_count_cons
      | false => exact same hb.2
    | erase k =>
      cases out <;> simp only [BagStep] at hb
      rcases hb with ⟨-, w, hw, hp⟩ | ⟨-, -, hp⟩
      · have hne : w ≠ v := by rintro rfl; exact hn' _ hw
        rw [hp.count_eq, List.count_cons_of_ne hne]
      · exact same hp
    | clear => exact absurd rfl hop
    | find k =>
      cases out <;> simp only [BagStep] at hb
      rename_i r
      cases r with
      | none => exact same hb.2
      | some w => exact same hb.2.2
    | contains k => cases out <;> simp only [BagStep] at hb; exact same hb.2
    | count k => cases out <;> simp only [BagStep] at hb; exact same hb.2
    | size => cases out <;> simp only [BagStep] at hb; exact same hb.2
    | empty => cases out <;> simp only [BagStep] at hb; exact same hb.2
    | valid => cases out <;> simp only [BagStep] at hb; exact same hb

end

/-- C97. The case of `float`: a NaN matches nothing and is matched by nothing. -/
theorem C97_nan {x : BitVec 32} (hx : IsNaN 8 23 x.toNat) :
    (∀ w, ¬ Matches floatSet w (floatSet.keyOf x)) ∧ ∀ k, ¬ Matches floatSet x k := by
  refine ⟨fun w hw => ?_, fun k hw => ?_⟩
  · exact ((floatEqB_iff _ _).1 hw).2.1 hx
  · exact ((floatEqB_iff _ _).1 hw).1 hx

/-- C97. What happens with a `unordered_set<float>`: a NaN is inserted twice, it is stored twice and not found, it cannot be
erased, `valid()` reports an invalid container, and only `clear` helps. The requirements on keys are not met, as C97 says. -/
theorem C97_counterexample_nan :
    IsNaN 8 23 (0x7FC00000#32).toNat ∧ ¬ KeyLaws floatSet ∧
    (execAll floatSet (fun _ => List.range) (create 4 2)
      [.insert 0x7FC00000#32, .insert 0x7FC00000#32, .contains 0x7FC00000#32, .erase 0x7FC00000#32, .size, .valid, .clear,
        .valid]).toOption.map (·.1) =
      some [.inserted (some 0x7FC00000#32) true, .inserted (some 0x7FC00000#32) true, .bool false, .num 0, .num 2, .bool false,
        .unit, .bool true] := by
  refine ⟨by unfold IsNaN expField fracField; decide, ?_, by decide +kernel⟩
  intro h
  have := h.refl 0x7FC00000#32
  revert this
  decide

/-- Hypotheses of C97 with functions that obey no law: a comparison that is always true, with a hash that separates keys. -/
example : ∃ t, LReachable (⟨id, fun k => k, fun _ _ => true⟩ : Params (BitVec 64) (BitVec 64)) 4 2 t ∧
    contents t = [2#64, 1#64] ∧ freeList t ≠ [] := by
  let P : Params (BitVec 64) (BitVec 64) := ⟨id, fun k => k, fun _ _ => true⟩
  obtain ⟨outs, t, e, -, r⟩ := C97_history (P := P) (bc := 4) (ec := 2) (by decide) (by decide) .create
    [.insert 1#64, .insert 2#64] (fun _ => List.range) (fun _ n => List.Perm.refl _)
  have k : ((execAll P (fun _ => List.range) (create 4 2) [.insert 1#64, .insert 2#64]).toOption.map
      (fun r => (contents r.2, freeList r.2))) = some ([2#64, 1#64], [4, 5]) := by decide +kernel
  rw [e] at k
  simp only [Except.toOption, Option.map_some, Option.some.injEq, Prod.mk.injEq] at k
  exact ⟨t, r, k.1, by rw [k.2]; simp⟩

/-- Two threads insert a NaN each. -/
def nanRun : Sys (Shared (BitVec 32)) (Thread (BitVec 32) (BitVec 32)) :=
  uexec floatSet (create 4 2) [[.insert 0x7FC00000#32], [.insert 0x7FC00000#32]] ((List.range 120).map (· % 2))

/-- Hypotheses of the concurrent theorems of C97: both insertions finish, and succeed. -/
example : LReachable floatSet 4 2 nanRun.shared.tab ∧ contents nanRun.shared.tab = [0x7FC00000#32, 0x7FC00000#32] := by
  have hf : UFinished nanRun := by unfold UFinished; decide +kernel
  have hp : NoErase ([[.insert 0x7FC00000#32], [.insert 0x7FC00000#32]] : List (List (Op (BitVec 32) (BitVec 32)))) := by
    intro p hp k hk
    simp only [List.mem_cons, List.not_mem_nil, or_false] at hp
    rcases hp with rfl | rfl <;> simp at hk
  have hroom : numInserts ([[.insert 0x7FC00000#32], [.insert 0x7FC00000#32]] : List (List (Op (BitVec 32) (BitVec 32)))) ≤
      (freeList (create 4 2 : Tab (BitVec 32))).length := by decide +kernel
  unfold nanRun at hf
  have h := LReachable.inserts (LReachable.create (P := floatSet) (bc := 4) (ec := 2)) _ _ hp hroom hf
  refine ⟨?_, by decide +kernel⟩
  unfold nanRun
  exact h

/-- Hypotheses of the erase phases: after that, two threads try to erase the NaN. -/
example : UFinished (uexec floatSet nanRun.shared.tab [[.erase 0x7FC00000#32], [.erase 0x7FC00000#32]]
    ((List.range 40).map (· % 2))) := by
  unfold UFinished
  decide +kernel

/-- Hypotheses of `C97_fair`: two threads insert a NaN each and take turns. -/
example : ∃ N, ∀ n, N ≤ n → UFinished (uexec floatSet (create 4 2)
    [[.insert 0x7FC00000#32], [.insert 0x7FC00000#32]] (upTo (fun n => n % 2) n)) := by
  refine C97_fair (by decide) (by decide) LReachable.create (.inl ?_) _ ?_
  · intro p hp k hk
    simp only [List.mem_cons, List.not_mem_nil, or_false] at hp
    rcases hp with rfl | rfl <;> simp at hk
  · intro i hi n
    simp only [List.length_cons, List.length_nil] at hi
    exact ⟨2 * n + i, by omega, by show (2 * n + i) % 2 = i; omega⟩

/-- Hypotheses of `C97_random`: the same threads, after some steps, under a random scheduler. -/
example (ε : Rat) (hε : 0 < ε) : ∃ L₀, ∀ L, L₀ ≤ L →
    unfinishedProbability (fun sched => UFinished (uexec floatSet (create 4 2)
      [[.insert 0x7FC00000#32], [.insert 0x7FC00000#32]] ([0, 1, 1, 0, 0] ++ sched))) 2 L < ε := by
  refine C97_random (by decide) (by decide) LReachable.create (.inl ?_) (by simp) _ ε hε
  intro p hp k hk
  simp only [List.mem_cons, List.not_mem_nil, or_false] at hp
  rcases hp with rfl | rfl <;> simp at hk

end Stdgpu.Props
