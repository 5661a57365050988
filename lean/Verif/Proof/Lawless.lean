import Verif.Proof.UReach
import Verif.Spec.Lawless
/-! The unordered containers without any law of keys. -/
namespace Stdgpu.Unordered
open Stdgpu.Spec
open Stdgpu.Vector (OrdOK)
variable {K V : Type} {P : Params K V} {t : Tab V} {chain : Nat → List Nat} {free : List Nat}

theorem bucket_hash (t : Tab V) {a b : K} (h : P.hash a = P.hash b) : bucket P t a = bucket P t b := by
  unfold bucket FibHash.bucket
  rw [h]

theorem Rep.none_matches (h : Rep P t chain free) {k : K} (hp : Rep.pos P t chain k = none) :
    NoneMatches P (contents t) k := by
  intro w hw hh hm
  obtain ⟨p, h1, h2, h3⟩ := mem_contents.1 hw
  have := h.pos_none0 hp h1 h2 h3 (bucket_hash t hh)
  rw [Matches, this] at hm
  simp at hm

theorem Rep.some_matches (h : Rep P t chain free) {k : K} {p : Nat} (hp : Rep.pos P t chain k = some p) :
    ∃ w ∈ contents t, Matches P w k := by
  obtain ⟨h1, h2, w, h3, h4, -⟩ := h.pos_some hp
  exact ⟨w, mem_contents.2 ⟨p, h1, h2, h3⟩, h4⟩

theorem allM_ok (f : Nat → Except Vector.Fault Bool) (l : List Nat) (h : ∀ i ∈ l, ∃ b, f i = .ok b) :
    ∃ b, allM f l = .ok b := by
  induction l with
  | nil => exact ⟨true, rfl⟩
  | cons a l ih =>
    obtain ⟨b, hb⟩ := h a (by simp)
    obtain ⟨c, hc⟩ := ih (fun i hi => h i (List.mem_cons_of_mem _ hi))
    cases b with
    | false => exact ⟨false, by simp [allM, hb, hc, bind, Except.bind, pure, Except.pure]⟩
    | true => exact ⟨c, by simp [allM, hb, hc, bind, Except.bind, pure, Except.pure]⟩

theorem allM_all (f : Nat → Except Vector.Fault Bool) (l : List Nat) (h : allM f l = .ok true) :
    ∀ i ∈ l, f i = .ok true := by
  induction l with
  | nil => simp
  | cons a l ih =>
    unfold allM at h
    cases e : f a with
    | error x => simp [e, bind, Except.bind] at h
    | ok b =>
      cases e2 : allM f l with
      | error x => simp [e, e2, bind, Except.bind] at h
      | ok c =>
        simp only [e, e2, bind, Except.bind, pure, Except.pure, Except.ok.injEq, Bool.and_eq_true] at h
        obtain ⟨rfl, rfl⟩ : b = true ∧ c = true := by cases b <;> cases c <;> simp_all
        intro i hi
        rcases List.mem_cons.1 hi with rfl | hi
        · exact e
        · exact ih e2 i hi

/-- `valid()` returns, and it returns true exactly if every stored element is the element that is found for its key. -/
theorem valid_any (h : Rep P t chain free) {ord : Nat → List Nat} (ho : OrdOK ord) :
    ∃ b, valid P ord t = .ok b ∧ (b = true ↔ ∀ p v, p < t.total → t.occ p = true → t.val p = some v →
      Rep.pos P t chain (P.keyOf v) = some p) := by
  have hne : t.total ≠ 0 := by have := h.bc_pos; have := h.bc_le; omega
  have h1 : (List.range t.total).all (offsetInsideRange t) = true := by
    simp only [List.all_eq_true, List.mem_range, offsetInsideRange, Bool.and_eq_true, decide_eq_true_eq]
    exact h.offs
  have e3 : ∀ i, i < t.total → ∃ b, valueReachable P t i = .ok b ∧
      (b = true ↔ ∀ v, t.occ i = true → t.val i = some v → (Rep.pos P t chain (P.keyOf v)).isSome = true) := by
    intro i hi
    unfold valueReachable
    cases hoc : t.occ i with
    | false => exact ⟨true, by simp⟩
    | true =>
      obtain ⟨v, hv⟩ := Option.isSome_iff_exists.1 (h.val i hi hoc)
      exact ⟨(Rep.pos P t chain (P.keyOf v)).isSome, by simp [hv, h.contains_eq], by simp [hv]⟩
  have e4 : ∀ i, i < t.total → ∃ b, valueUnique P t i = .ok b ∧
      (b = true ↔ ∀ v, t.occ i = true → t.val i = some v → Rep.pos P t chain (P.keyOf v) = some i) := by
    intro i hi
    unfold valueUnique
    cases hoc : t.occ i with
    | false => exact ⟨true, by simp⟩
    | true =>
      obtain ⟨v, hv⟩ := Option.isSome_iff_exists.1 (h.val i hi hoc)
      exact ⟨Rep.pos P t chain (P.keyOf v) == some i, by simp [hv, h.find_eq, bind, Except.bind, pure, Except.pure], by simp [hv]⟩
  obtain ⟨c, hc⟩ := allM_ok (valueReachable P t) (List.range t.total)
    (fun i hi => let ⟨b, hb, _⟩ := e3 i (List.mem_range.1 hi); ⟨b, hb⟩)
  obtain ⟨d, hd⟩ := allM_ok (valueUnique P t) (List.range t.total)
    (fun i hi => let ⟨b, hb, _⟩ := e4 i (List.mem_range.1 hi); ⟨b, hb⟩)
  refine ⟨c && d, ?_, ?_⟩
  · unfold valid
    cases c <;> cases d <;>
    simp [hne, h1, loopFree_eq h ho, hc, hd, bind, Except.bind, pure, Except.pure, size, h.count,
      Vector.countBits_zero _ _ h.locks, Vector.valid_of_holds h.excess]
  · rw [Bool.and_eq_true]
    constructor
    · rintro ⟨-, rfl⟩ p v hp hoc hv
      obtain ⟨b, hb, hx⟩ := e4 p hp
      have := allM_all _ _ hd p (List.mem_range.2 hp)
      rw [this] at hb
      simp only [Except.ok.injEq] at hb
      exact hx.1 hb.symm v hoc hv
    · intro hall
      have k3 : allM (valueReachable P t) (List.range t.total) = .ok true := by
        refine allM_true _ _ (fun i hi => ?_)
        obtain ⟨b, hb, hx⟩ := e3 i (List.mem_range.1 hi)
        rw [hb, hx.2 (fun v a1 a2 => by rw [hall i v (List.mem_range.1 hi) a1 a2]; rfl)]
      have k4 : allM (valueUnique P t) (List.range t.total) = .ok true := by
        refine allM_true _ _ (fun i hi => ?_)
        obtain ⟨b, hb, hx⟩ := e4 i (List.mem_range.1 hi)
        rw [hb, hx.2 (fun v a1 a2 => hall i v (List.mem_range.1 hi) a1 a2)]
      rw [hc] at k3
      rw [hd] at k4
      simp only [Except.ok.injEq] at k3 k4
      exact ⟨k3, k4⟩

/-- Every operation on a represented table returns, does what a bag does, and leaves a represented table. -/
theorem exec_bag {ord : Nat → List Nat} (ho : OrdOK ord) (op : UOp K V) (hr : Rep P t chain free) :
    ∃ o t', exec P ord t op = .ok (o, t') ∧ BagStep P (contents t) op o (contents t') ∧
      (∃ chain' free', Rep P t' chain' free') ∧ t'.bc = t.bc ∧ t'.total = t.total := by
  have hH : ∃ chain' free', Rep P t chain' free' := ⟨chain, free, hr⟩
  have hlen : ((contents t).length : Int) = t.count := by rw [hr.count, ← length_contents hr]
  cases op with
  | insert v =>
    obtain ⟨i1, i2⟩ := insert_eq hr v
    by_cases hc : Rep.pos P t chain (P.keyOf v) = none ∧ free ≠ []
    · obtain ⟨p, t', e, p1, p2, p3, hr', hp, hb, ht⟩ := i1 hc
      refine ⟨.inserted (some v) true, t', ?_, ⟨rfl, hr.none_matches hc.1, hp⟩, hr', hb, ht⟩
      simp [exec, e, deref, p1, p2, p3, bind, Except.bind, pure, Except.pure]
    · exact ⟨.inserted none false, t, by simp [exec, i2 hc, deref, bind, Except.bind, pure, Except.pure],
        ⟨rfl, List.Perm.refl _⟩, hH, rfl, rfl⟩
  | erase k =>
    obtain ⟨i1, i2⟩ := erase_eq hr k
    cases hp : Rep.pos P t chain k with
    | none =>
      exact ⟨.num 0, t, by simp [exec, i1 hp, bind, Except.bind, pure, Except.pure],
        .inr ⟨rfl, hr.none_matches hp, List.Perm.refl _⟩, hH, rfl, rfl⟩
    | some p =>
      obtain ⟨v, t', hv, e, hr', hperm, hb, ht, -⟩ := i2 p hp
      obtain ⟨-, -, v', hv', hk, -⟩ := hr.pos_some hp
      rw [hv] at hv'; simp at hv'; subst hv'
      exact ⟨.num 1, t', by simp [exec, e, bind, Except.bind, pure, Except.pure], .inl ⟨rfl, v, hk, hperm⟩, hr', hb, ht⟩
  | clear =>
    obtain ⟨t', e, hr', hc, hb, ht, -⟩ := clear_eq hr ho
    exact ⟨.unit, t', by simp [exec, e, bind, Except.bind, pure, Except.pure], hc, hr', hb, ht⟩
  | find k =>
    cases hp : Rep.pos P t chain k with
    | none =>
      exact ⟨.found none, t, by simp [exec, hr.find_eq, hp, deref, bind, Except.bind, pure, Except.pure],
        ⟨hr.none_matches hp, List.Perm.refl _⟩, hH, rfl, rfl⟩
    | some p =>
      obtain ⟨g1, g2, w, g3, g4, -⟩ := hr.pos_some hp
      exact ⟨.found (some w), t, by
          simp [exec, hr.find_eq, hp, deref, g1, g3, (hr.stored_ok g1 g2).1, bind, Except.bind, pure, Except.pure],
        ⟨mem_contents.2 ⟨p, g1, g2, g3⟩, g4, List.Perm.refl _⟩, hH, rfl, rfl⟩
  | contains k =>
    refine ⟨.bool (Rep.pos P t chain k).isSome, t, by
      simp [exec, hr.contains_eq, bind, Except.bind, pure, Except.pure], ⟨?_, List.Perm.refl _⟩, hH, rfl, rfl⟩
    cases hp : Rep.pos P t chain k with
    | none => exact hr.none_matches hp
    | some p => exact hr.some_matches hp
  | count k =>
    cases hp : Rep.pos P t chain k with
    | none =>
      exact ⟨.num 0, t, by simp [exec, count, hr.contains_eq, hp, bind, Except.bind, pure, Except.pure],
        ⟨.inr ⟨rfl, hr.none_matches hp⟩, List.Perm.refl _⟩, hH, rfl, rfl⟩
    | some p =>
      exact ⟨.num 1, t, by simp [exec, count, hr.contains_eq, hp, bind, Except.bind, pure, Except.pure],
        ⟨.inl ⟨rfl, hr.some_matches hp⟩, List.Perm.refl _⟩, hH, rfl, rfl⟩
  | size => exact ⟨.num (contents t).length, t, by simp [exec, size, hlen], ⟨rfl, List.Perm.refl _⟩, hH, rfl, rfl⟩
  | empty =>
    refine ⟨.bool ((contents t).length == 0), t, ?_, ⟨by simp, List.Perm.refl _⟩, hH, rfl, rfl⟩
    simp only [exec, empty, size, ← hlen]
    congr 3
    rw [Bool.eq_iff_iff]; simp
  | valid =>
    obtain ⟨b, hb, -⟩ := valid_any hr ho
    exact ⟨.bool b, t, by simp [exec, hb, bind, Except.bind, pure, Except.pure], List.Perm.refl _, hH, rfl, rfl⟩

theorem contents_apart (h : Rep P t chain free) : (contents t).Pairwise (fun v w => P.hash (P.keyOf v) = P.hash (P.keyOf w) →
    ¬ (Matches P v (P.keyOf w) ∧ Matches P w (P.keyOf v))) := by
  rw [contents_eq, List.pairwise_filterMap]
  refine List.nodup_range.pairwise_of_forall_ne ?_
  intro p hp q hq hpq v hv w hw hh ⟨h1, h2⟩
  have hp := List.mem_range.1 hp
  have hq := List.mem_range.1 hq
  obtain ⟨v1, v2⟩ := (stored_some h hp).1 hv
  obtain ⟨w1, w2⟩ := (stored_some h hq).1 hw
  exact hpq (h.uniq0 p q v w hp hq v1 w1 v2 w2 (bucket_hash t hh) h1 h2)

end Stdgpu.Unordered

namespace Stdgpu.UnorderedConc
open Stdgpu.Conc Stdgpu.Unordered Stdgpu.Spec
variable {K V : Type} {P : Params K V}

theorem room_ctr {t : Tab V} {chain : Nat → List Nat} {free : List Nat} (h : Rep P t chain free)
    {progs : List (List (Op K V))} (hp : NoErase progs) (hroom : numInserts progs ≤ free.length) (sched : List Nat) :
    0 ≤ (uexec P t progs sched).shared.tab.excess.ctr := by
  obtain ⟨c, x, -, h2⟩ := room_run0 (mkStart h progs hp) hroom sched
  exact le_trans (by omega) h2

theorem lreachable_rep {bc ec : Nat} (h0 : 0 < bc) (h1 : bc < 2 ^ 63) {t : Tab V} (h : LReachable P bc ec t) :
    (∃ chain free, Rep P t chain free) ∧ t.bc = bc ∧ t.total = bc + ec := by
  induction h with
  | create => exact ⟨⟨_, _, rep_create P bc ec h0 h1⟩, rfl, rfl⟩
  | @op t t' ord o out h ho e ih =>
    obtain ⟨⟨chain, free, hr⟩, hb, ht⟩ := ih
    obtain ⟨o', t2, e1, -, h2, h3, h4⟩ := exec_bag (P := P) ho o hr
    rw [e] at e1
    simp only [Except.ok.injEq, Prod.mk.injEq] at e1
    obtain ⟨-, rfl⟩ := e1
    exact ⟨h2, h3.trans hb, h4.trans ht⟩
  | @inserts t h progs sched hp hroom hf ih =>
    obtain ⟨⟨chain, free, hr⟩, hb, ht⟩ := ih
    rw [freeList_eq hr] at hroom
    obtain ⟨chain', xp, hI⟩ := inv_run0 (mkStart hr progs hp) sched
    have hR : Rep P (fixExcess (uexec P t progs sched).shared.tab) chain' _ := hI.final_rep0 hf
    have e : fixExcess (uexec P t progs sched).shared.tab = _ := fixExcess_eq (room_ctr hr hp hroom sched)
    rw [e] at hR
    exact ⟨⟨_, _, hR⟩, hI.bc.trans hb, hI.total.trans ht⟩
  | @erases t h progs sched hp hf ih =>
    obtain ⟨⟨chain, free, hr⟩, hb, ht⟩ := ih
    obtain ⟨path, xp, hI⟩ := Er.inv_run0 (Er.mkStart hr progs hp) sched
    replace hI : Er.Inv (Er.mkStart hr progs hp) path xp (uexec P t progs sched) := hI
    obtain ⟨free', hR⟩ := hI.final_rep hf
    exact ⟨⟨_, _, hR⟩, hI.g.bc.trans hb, hI.g.total.trans ht⟩

end Stdgpu.UnorderedConc
