import Verif.Proof.LoopFree2
/-! The result of `valid()` for every state of the memory. -/
namespace Stdgpu.LoopFree
open Stdgpu.Conc Stdgpu.Unordered Stdgpu.Spec
open Stdgpu.Vector (Fault countBits)
variable {K V : Type} {P : Params K V} {t : Tab V}

theorem allM_ok {f : Nat → Except Fault Bool} {l : List Nat} (h : ∀ i ∈ l, ∃ x, f i = .ok x) :
    ∃ y, allM f l = .ok y ∧ (y = true ↔ ∀ i ∈ l, f i = .ok true) := by
  induction l with
  | nil => exact ⟨true, rfl, by simp⟩
  | cons a l ih =>
    obtain ⟨x, hx⟩ := h a (by simp)
    obtain ⟨y, hy, hiff⟩ := ih (fun i hi => h i (List.mem_cons_of_mem _ hi))
    refine ⟨x && y, by simp [allM, hx, hy, bind, Except.bind, pure, Except.pure], ?_⟩
    rw [Bool.and_eq_true, hiff]
    simp [hx]

theorem linked_rng (hin : OffsetsInside t) {l : List Nat} : ∀ {p : Nat}, p < t.total → Linked t.off p l → ∀ x ∈ p :: l, x < t.total := by
  induction l with
  | nil => intro p hp _ x hx; obtain rfl : x = p := by simpa using hx
           exact hp
  | cons q l ih =>
    intro p hp h x hx
    rcases List.mem_cons.1 hx with rfl | hx
    · exact hp
    · refine ih ?_ h.2.2 x hx
      have := hin p hp
      have := h.2.1
      omega

theorem leads_linked {off : Nat → Int} {p : Nat} {l : List Nat} (h : Leads off p l) : Linked off p l := by
  induction h with
  | last h => exact h
  | more h0 h _ ih => exact ⟨h0, h, ih⟩

/-- The part of `valid()` after the check of the chains. -/
def rest (P : Params K V) (t : Tab V) : Except Fault Bool := do
  let c ← allM (valueReachable P t) (List.range t.total)
  if !c then return false
  let d ← allM (valueUnique P t) (List.range t.total)
  return d && (size t == (countBits t.total t.occ : Int)) && (countBits t.total t.locks == 0) && Vector.valid t.excess

theorem find_ok (h0 : 0 < t.bc) (h1 : t.bc < 2 ^ 63) (hb : t.bc ≤ t.total) (hin : OffsetsInside t) (hr : Readable t)
    (hl : ∀ b, b < t.bc → Linked t.off b (chainOf t.off b) ∧ (b :: chainOf t.off b).Nodup) (k : K) :
    find P t k = .ok ((bucket P t k :: chainOf t.off (bucket P t k)).find? (matchB t (fun v => P.keyEq (P.keyOf v) k))) := by
  have hlt := bucket_lt P t k h0 h1
  obtain ⟨l1, l2⟩ := hl _ hlt
  have hrng := linked_rng hin (show bucket P t k < t.total by omega) l1
  have hlen := nodup_len l2 hrng
  unfold find findImpl
  exact findFrom_eq _ _ _ _ l1 (by simp only [List.length_cons] at hlen; omega) hrng (fun x hx => hr x (hrng x hx))

theorem rest_ok (h0 : 0 < t.bc) (h1 : t.bc < 2 ^ 63) (hb : t.bc ≤ t.total) (hin : OffsetsInside t) (hr : Readable t)
    (hl : ∀ b, b < t.bc → Linked t.off b (chainOf t.off b) ∧ (b :: chainOf t.off b).Nodup) : ∃ r, rest P t = .ok r ∧
    ((∀ i, i < t.total → valueReachable P t i = .ok true) → (∀ i, i < t.total → valueUnique P t i = .ok true) →
      size t = (countBits t.total t.occ : Int) → countBits t.total t.locks = 0 → Vector.valid t.excess = true → r = true) := by
  have r1 : ∀ i ∈ List.range t.total, ∃ x, valueReachable P t i = .ok x := by
    intro i hi
    unfold valueReachable
    cases ho : t.occ i with
    | false => exact ⟨true, by simp⟩
    | true =>
      obtain ⟨-, h2⟩ := hr i (List.mem_range.1 hi) ho
      obtain ⟨v, hv⟩ := Option.isSome_iff_exists.1 h2
      exact ⟨_, by simp [hv, contains, find_ok h0 h1 hb hin hr hl, bind, Except.bind, pure, Except.pure]; rfl⟩
  have r2 : ∀ i ∈ List.range t.total, ∃ x, valueUnique P t i = .ok x := by
    intro i hi
    unfold valueUnique
    cases ho : t.occ i with
    | false => exact ⟨true, by simp⟩
    | true =>
      obtain ⟨-, h2⟩ := hr i (List.mem_range.1 hi) ho
      obtain ⟨v, hv⟩ := Option.isSome_iff_exists.1 h2
      exact ⟨_, by simp [hv, find_ok h0 h1 hb hin hr hl, bind, Except.bind, pure, Except.pure]; rfl⟩
  obtain ⟨c, hc, ic⟩ := allM_ok r1
  obtain ⟨d, hd, id'⟩ := allM_ok r2
  refine ⟨c && (d && (size t == (countBits t.total t.occ : Int)) && (countBits t.total t.locks == 0) && Vector.valid t.excess), ?_, ?_⟩
  · unfold rest
    cases c <;> simp [hc, hd, bind, Except.bind, pure, Except.pure]
  · intro g1 g2 g3 g4 g5
    have e1 : c = true := ic.2 (fun i hi => g1 i (List.mem_range.1 hi))
    have e2 : d = true := id'.2 (fun i hi => g2 i (List.mem_range.1 hi))
    simp [e1, e2, g3, g4, g5]

theorem seq_valid (hn : t.total ≠ 0) (hin : OffsetsInside t) {ord : Nat → List Nat} {b : Bool} (h : Unordered.loopFree ord t = .ok b) :
    Unordered.valid P ord t = if b then rest P t else .ok false := by
  have ha : (List.range t.total).all (offsetInsideRange t) = true := by
    rw [List.all_eq_true]
    intro i hi
    have := hin i (List.mem_range.1 hi)
    simp [offsetInsideRange, this.1, this.2]
  unfold Unordered.valid
  rw [if_neg hn]
  cases b <;> simp only [ha, h, bind, Except.bind, pure, Except.pure, Bool.not_true, Bool.not_false, Bool.false_eq_true, if_false, if_true] <;> rfl

theorem conc_valid (hn : t.total ≠ 0) (hin : OffsetsInside t) (sched : List Nat) :
    valid P t sched = (loopFree t sched).map (fun b => if b then rest P t else .ok false) := by
  have ha : (List.range t.total).all (offsetInsideRange t) = true := by
    rw [List.all_eq_true]
    intro i hi
    have := hin i (List.mem_range.1 hi)
    simp [offsetInsideRange, this.1, this.2]
  unfold valid
  rw [if_neg hn, ha]
  simp only [Bool.not_true, Bool.false_eq_true, if_false]
  congr 1
  funext b
  cases b <;> rfl

theorem not_inside (h : ¬ OffsetsInside t) : (List.range t.total).all (offsetInsideRange t) = false := by
  rw [Bool.eq_false_iff]
  intro hc
  refine h fun i hi => ?_
  have := List.all_eq_true.1 hc i (List.mem_range.2 hi)
  simpa [offsetInsideRange] using this

/-- The answer of `valid()`. -/
theorem valid_det (P : Params K V) (h0 : 0 < t.bc) (h1 : t.bc < 2 ^ 63) (hb : t.bc ≤ t.total) (hr : Readable t) :
    ∃ b, (∀ sched r, valid P t sched = some r → r = .ok b) ∧
      (∀ ord : Nat → List Nat, (∀ n, (ord n).Perm (List.range n)) → Unordered.valid P ord t = .ok b) ∧
      (KeyLaws P → (b = true ↔ Wellformed P t)) := by
  have hn : t.total ≠ 0 := by omega
  have sound : ∀ b, Unordered.valid P List.range t = .ok b → KeyLaws P → b = true → Wellformed P t := by
    intro b hv hl hbt
    subst hbt
    exact valid_sound hl h0 h1 hb (ord := List.range) (fun n => List.Perm.refl _) hv
  by_cases hin : OffsetsInside t
  · obtain ⟨sched0, b0, e0, e0'⟩ := seq_sched (t := t) hin hb (ord := List.range) (fun n => List.Perm.refl _)
    have hiff := loopFree_iff hin hb e0
    have conc : ∀ sched b, loopFree t sched = some b → b = b0 := by
      intro sched b h
      have := loopFree_iff hin hb h
      rw [← hiff] at this
      cases b <;> cases b0 <;> simp_all
    have seq : ∀ ord : Nat → List Nat, (∀ n, (ord n).Perm (List.range n)) → Unordered.loopFree ord t = .ok b0 := by
      intro ord ho
      obtain ⟨s, b, k1, k2⟩ := seq_sched (t := t) hin hb ho
      rw [k2, conc s b k1]
    cases b0 with
    | false =>
      refine ⟨false, ?_, fun ord ho => by rw [seq_valid hn hin (seq ord ho)]; rfl, ?_⟩
      · intro sched r h
        rw [conc_valid hn hin] at h
        obtain ⟨b, hb', rfl⟩ := Option.map_eq_some_iff.1 h
        rw [conc sched b hb']; rfl
      · intro _
        refine ⟨by simp, fun w => ?_⟩
        obtain ⟨chain, c1, c2, -⟩ := w.chains
        refine absurd (hiff.2 ?_) (by simp)
        intro b b' n n' p hb1 hb2 hs hs'
        have key : ∀ {b n p}, b < t.bc → Steps t.off b n p → ∃ hk : n < (b :: chain b).length, (b :: chain b)[n] = p := by
          intro b n p hbb hs
          have hL := leads_linked (c1 b hbb)
          clear hs'
          have : ∀ (l : List Nat) (a m : Nat), Linked t.off a l → ∀ p, Steps t.off a m p → ∃ hk : m < (a :: l).length, (a :: l)[m] = p := by
            intro l a m hl p hs
            induction hs with
            | zero => exact ⟨by simp, rfl⟩
            | @succ n p q hs k0 kq ih =>
              obtain ⟨i1, i2⟩ := ih
              have gen : ∀ (l : List Nat) (a n : Nat) (h : n < (a :: l).length), Linked t.off a l → t.off (a :: l)[n] ≠ 0 →
                  ∃ hk : n + 1 < (a :: l).length, ((a :: l)[n + 1] : Int) = (a :: l)[n] + t.off (a :: l)[n] := by
                intro l
                induction l with
                | nil =>
                  intro a n h hl h0
                  obtain rfl : n = 0 := by simpa using h
                  exact absurd hl h0
                | cons c l ih =>
                  intro a n h hl h0
                  cases n with
                  | zero => exact ⟨by simp, by have := hl.2.1; simp only [List.getElem_cons_zero, List.getElem_cons_succ]; omega⟩
                  | succ n =>
                    obtain ⟨g1, g2⟩ := ih c n (by simpa using h) hl.2.2 (by simpa using h0)
                    exact ⟨by simpa using g1, by simpa using g2⟩
              obtain ⟨j1, j2⟩ := gen l a n i1 hl (by rw [i2]; exact k0)
              refine ⟨j1, ?_⟩
              rw [i2] at j2
              omega
          exact this _ b n hL p hs
        obtain ⟨a1, a2⟩ := key hb1 hs
        obtain ⟨d1, d2⟩ := key hb2 hs'
        rw [List.nodup_flatMap] at c2
        obtain ⟨n1, n2⟩ := c2
        by_cases e : b = b'
        · subst e
          exact ⟨rfl, (List.Nodup.getElem_inj_iff (n1 b (List.mem_range.2 hb1))).1 (a2.trans d2.symm)⟩
        · exfalso
          have m1 : p ∈ b :: chain b := by rw [← a2]; exact List.getElem_mem _
          have m2 : p ∈ b' :: chain b' := by rw [← d2]; exact List.getElem_mem _
          rw [List.pairwise_iff_getElem] at n2
          rcases Nat.lt_or_gt_of_ne e with hlt | hlt
          · have := n2 b b' (by simpa using hb1) (by simpa using hb2) hlt
            simp only [List.getElem_range, Function.onFun] at this
            exact this m1 m2
          · have := n2 b' b (by simpa using hb2) (by simpa using hb1) hlt
            simp only [List.getElem_range, Function.onFun] at this
            exact this m2 m1
    | true =>
      obtain ⟨l1, l2⟩ := loopFree_sound (ord := List.range) (fun n => List.Perm.refl _) hb e0'
      have hl : ∀ b, b < t.bc → Linked t.off b (chainOf t.off b) ∧ (b :: chainOf t.off b).Nodup := fun b hbb =>
        ⟨l1 b hbb, (List.nodup_flatMap.1 l2).1 b (List.mem_range.2 hbb)⟩
      obtain ⟨r, hrr, htrue⟩ := rest_ok (P := P) h0 h1 hb hin hr hl
      have hseq : ∀ ord : Nat → List Nat, (∀ n, (ord n).Perm (List.range n)) → Unordered.valid P ord t = .ok r := fun ord ho => by
        rw [seq_valid hn hin (seq ord ho), if_pos rfl, hrr]
      refine ⟨r, ?_, hseq, ?_⟩
      · intro sched x h
        rw [conc_valid hn hin] at h
        obtain ⟨b, hb', rfl⟩ := Option.map_eq_some_iff.1 h
        rw [conc sched b hb', if_pos rfl, hrr]
      · intro hk
        refine ⟨sound r (hseq _ (fun n => List.Perm.refl _)) hk, fun w => ?_⟩
        have hfind : ∀ i v, i < t.total → t.occ i = true → t.val i = some v → find P t (P.keyOf v) = .ok (some i) := by
          intro i v hi ho hv
          rw [find_ok h0 h1 hb hin hr hl]
          congr 1
          obtain ⟨chain, c1, c2, c3⟩ := w.chains
          have hblt := bucket_lt P t (P.keyOf v) h0 h1
          have hm := c3 i v hi ho hv
          rw [linked_unique (leads_linked (c1 _ hblt)) (l1 _ hblt)] at hm
          have hmi : matchB t (fun x => P.keyEq (P.keyOf x) (P.keyOf v)) i = true := by
            simp [matchB, ho, hv, hk.refl]
          cases hf : (bucket P t (P.keyOf v) :: chainOf t.off (bucket P t (P.keyOf v))).find?
              (matchB t (fun x => P.keyEq (P.keyOf x) (P.keyOf v))) with
          | none => exact absurd hmi (List.find?_eq_none.1 hf i hm)
          | some j =>
            have hj1 := List.mem_of_find?_eq_some hf
            have hj2 := List.find?_some hf
            have hjlt := linked_rng hin (show bucket P t (P.keyOf v) < t.total by omega) (l1 _ hblt) j hj1
            unfold matchB at hj2
            cases hoj : t.occ j with
            | false => simp [hoj] at hj2
            | true =>
              obtain ⟨x, hx⟩ := w.vals j hjlt hoj
              simp [hoj, hx] at hj2
              rw [w.unique j i x v hjlt hi hoj ho hx hv hj2]
        refine htrue ?_ ?_ ?_ ?_ ?_
        · intro i hi
          unfold valueReachable
          cases ho : t.occ i with
          | false => simp
          | true =>
            obtain ⟨v, hv⟩ := w.vals i hi ho
            simp [hv, contains, hfind i v hi ho hv, bind, Except.bind, pure, Except.pure]
        · intro i hi
          unfold valueUnique
          cases ho : t.occ i with
          | false => simp
          | true =>
            obtain ⟨v, hv⟩ := w.vals i hi ho
            simp [hv, hfind i v hi ho hv, bind, Except.bind, pure, Except.pure]
        · rw [countBits_eq_length]; exact w.size
        · exact (countBits_eq_zero_iff _ _).2 w.locks
        · exact (slotsOK_vector _).2 w.excess
  · have ha := not_inside hin
    refine ⟨false, ?_, ?_, ?_⟩
    · intro sched r h
      unfold valid at h
      rw [if_neg hn, ha] at h
      simpa using h.symm
    · intro ord _
      unfold Unordered.valid
      rw [if_neg hn, ha]
      rfl
    · intro _
      exact ⟨by simp, fun w => absurd w.offs hin⟩

/-- It answers after a bounded number of steps. -/
theorem valid_some (P : Params K V) (hb : t.bc ≤ t.total) {sched : List Nat}
    (hs : ∀ i, i < t.bc → 4 * t.total + 2 ≤ sched.count i) : ∃ r, valid P t sched = some r := by
  by_cases hn : t.total = 0
  · exact ⟨.ok true, by unfold valid; rw [if_pos hn]⟩
  by_cases hin : OffsetsInside t
  · rw [conc_valid hn hin]
    obtain ⟨vs, h, h2⟩ := visits_inv hin hb sched
    have hd : (visits t sched).threads.all (fun pc => decide (pc = .done)) = true := by
      rw [List.all_eq_true]
      intro pc hpc
      obtain ⟨i, hi⟩ := List.mem_iff_getElem?.1 hpc
      have hlt : i < (visits t sched).threads.length := (List.getElem?_eq_some_iff.1 hi).1
      obtain ⟨x, hv⟩ : ∃ x, vs[i]? = some x := ⟨_, List.getElem?_eq_getElem (by rw [h.len]; exact hlt)⟩
      rcases h2 i pc _ hi hv with rfl | h3
      · rfl
      · have := hs i (by rw [← h.bc]; exact hlt)
        have hz : mu t x pc = 0 := by omega
        cases pc <;> simp [mu] at hz
        rfl
    unfold loopFree
    rw [if_pos hd]
    exact ⟨_, rfl⟩
  · exact ⟨.ok false, by unfold valid; rw [if_neg hn, not_inside hin]; rfl⟩

end Stdgpu.LoopFree
