import Verif.Proof.Unordered2
/-! clear, create, valid, bucket sizes and device ranges of the unordered containers; refinement of whole histories. -/
namespace Stdgpu.Unordered
open Stdgpu.SlotConc (upd)
open Stdgpu.Vector (Fault countBits OrdOK)
open Stdgpu.Spec

variable {K V : Type}
variable {P : Params K V} {t : Tab V} {chain : Nat → List Nat} {free : List Nat} {m : List V}

/-! ### Clear and create -/

theorem destroyValues_loop (order : List Nat) (hnd : order.Nodup) : ∀ (t : Tab V),
    (∀ p ∈ order, p < t.total ∧ (t.occ p = true → t.live p = true)) →
    order.foldlM destroyValue t =
      .ok { t with live := fun q => if q ∈ order ∧ t.occ q = true then false else t.live q } := by
  induction order with
  | nil => intro t _; simp [pure, Except.pure]
  | cons p order ih =>
    intro t h
    obtain ⟨h1, h2⟩ := List.nodup_cons.1 hnd
    obtain ⟨hp, hl⟩ := h p (by simp)
    rw [List.foldlM_cons]
    cases ho : t.occ p with
    | false =>
      have e : destroyValue t p = .ok t := by simp [destroyValue, ho]
      rw [e]
      simp only [bind, Except.bind]
      rw [ih h2 t (fun q hq => h q (List.mem_cons_of_mem _ hq))]
      congr 2
      funext q
      by_cases hq : q = p
      · subst hq; simp [h1, ho]
      · simp [hq]
    | true =>
      have e : destroyValue t p = .ok { t with live := upd t.live p false } := by
        simp [destroyValue, destroy, ho, hl ho, Nat.not_le.2 hp]
      rw [e]
      simp only [bind, Except.bind]
      rw [ih h2 _ (by
        intro q hq
        obtain ⟨g1, g2⟩ := h q (List.mem_cons_of_mem _ hq)
        have : q ≠ p := by rintro rfl; exact h1 hq
        exact ⟨g1, fun ho' => by show upd t.live p false q = true; rw [upd_ne _ _ this]; exact g2 ho'⟩)]
      congr 2
      funext q
      by_cases hq : q = p
      · subst hq; simp [h1, ho, upd]
      · simp [hq, upd]

theorem clearIota_holds (v : Vector.Vec Nat) (b : Nat) (hlk : ∀ p, p < Vector.cap v → v.slots.locks p = false)
    (he : v.slots.err = false) :
    Vector.Holds (Vector.clearIota v b) (List.range' b (Vector.cap v)) := by
  refine ⟨?_, ?_, ?_, ?_, ?_, ?_⟩
  · simp [Vector.clearIota, Vector.cap]
  · simp [Vector.clearIota]
  · exact hlk
  · intro p hp
    have hp : p < Vector.cap v := hp
    simp [Vector.clearIota, hp]
  · exact he
  · intro p hp
    have hp : p < Vector.cap v := hp
    simp [Vector.clearIota, hp, List.getElem?_range']

/-- An empty table with all excess entries unused. -/
theorem rep_empty (P : Params K V) (t : Tab V) (h0 : 0 < t.bc) (h1 : t.bc < 2 ^ 63) (h2 : t.bc ≤ t.total)
    (ho : t.occ = fun _ => false) (hc : t.count = 0) (hf : t.off = fun _ => 0)
    (hlive : ∀ p, p < t.total → t.live p = false) (hlk : ∀ p, p < t.total → t.locks p = false)
    (hex : Vector.Holds t.excess (List.range' t.bc (t.total - t.bc)))
    (hcap : Vector.cap t.excess = t.total - t.bc) :
    Rep P t (fun _ => []) (List.range' t.bc (t.total - t.bc)) := by
  refine ⟨h0, h1, h2, ?_, ?_, ?_, ?_, ?_, List.nodup_range', ?_, ?_, ?_, ?_, ?_, ?_, ?_, ?_, ?_, hlk, ?_, hex, hcap⟩
  · intro b _; simp [Linked, hf]
  · intro b _ p hp; simp at hp
  · intro b _; simp
  · intro b c _ _ _ p hp; simp at hp
  · intro b _ p hp; simp at hp
  · intro p hp; rw [List.mem_range'_1] at hp; omega
  · intro p hp1 hp2
    simp only [List.mem_range'_1, List.not_mem_nil, not_false_eq_true, implies_true, iff_true]; omega
  · intro p hp; rw [ho]
  · intro p hp; rw [hlive p hp, ho]
  · intro p hp hop; rw [ho] at hop; simp at hop
  · intro p v hp hop; rw [ho] at hop; simp at hop
  · intro b p v _ hp; simp at hp
  · intro p q v w _ _ hop; rw [ho] at hop; simp at hop
  · rw [hc, Vector.countBits_zero _ _ (by intro p _; rw [ho])]; rfl
  · intro p hp; rw [hf]; simp; omega

theorem rep_create (P : Params K V) (bc ec : Nat) (h0 : 0 < bc) (h1 : bc < 2 ^ 63) :
    Rep P (create bc ec : Tab V) (fun _ => []) (List.range' bc ec) := by
  have hc : Vector.cap (Vector.create ec : Vector.Vec Nat) = ec := rfl
  have := rep_empty P (create bc ec : Tab V) h0 h1 (by simp [create]) rfl rfl rfl (fun _ _ => rfl) (fun _ _ => rfl)
  simp only [create, Nat.add_sub_cancel_left] at this
  refine this ?_ ?_
  · have := clearIota_holds (Vector.create ec) bc (fun _ _ => rfl) rfl
    rwa [hc] at this
  · rfl

theorem contents_nil_of_occ (t : Tab V) (h : ∀ p, p < t.total → t.occ p = false) : contents t = [] := by
  rw [contents, List.filterMap_eq_nil_iff]
  intro p hp
  simp [h p (List.mem_range.1 hp)]

theorem clear_eq (h : Rep P t chain free) {ord : Nat → List Nat} (ho : OrdOK ord) :
    ∃ t', clear ord t = .ok t' ∧ (∃ chain' free', Rep P t' chain' free') ∧ contents t' = [] ∧ t'.bc = t.bc ∧
      t'.total = t.total ∧ (∀ p, p < t.total → t'.live p = false) ∧ (t.count ≠ 0 →
        freeList t' = List.range' t.bc (t.total - t.bc)) := by
  cases hem : empty t with
  | true =>
    have hz : t.count = 0 := by simpa [empty, size] using hem
    have hc : contents t = [] := by
      have := length_contents h
      rw [h.count] at hz
      exact List.length_eq_zero_iff.1 (by omega)
    refine ⟨t, by simp [clear, hem], ⟨chain, free, h⟩, hc, rfl, rfl, ?_, fun hx => absurd hz hx⟩
    intro p hp
    rw [h.live p hp]
    by_contra hx
    rw [Bool.not_eq_false] at hx
    obtain ⟨v, hv⟩ := Option.isSome_iff_exists.1 (h.val p hp hx)
    have : v ∈ contents t := mem_contents.2 ⟨p, hp, hx, hv⟩
    rw [hc] at this; simp at this
  | false =>
    have hloop := destroyValues_loop (ord t.total) (ho.nodup _) t (by
      intro p hp
      have := (ho.mem _ _).1 hp
      exact ⟨this, fun hx => (h.stored_ok this hx).1⟩)
    have hlv : ∀ p, p < t.total → (if p ∈ ord t.total ∧ t.occ p = true then false else t.live p) = false := by
      intro p hp
      split
      · rfl
      · next hc =>
        rw [ho.mem] at hc
        rw [h.live p hp]
        by_contra hx
        rw [Bool.not_eq_false] at hx
        exact hc ⟨hp, hx⟩
    have hh : Vector.Holds (Vector.clearIota t.excess t.bc) (List.range' t.bc (t.total - t.bc)) := by
      rw [← h.excessCap]
      exact clearIota_holds t.excess t.bc h.excess.locks h.excess.err
    refine ⟨{ t with live := fun q => if q ∈ ord t.total ∧ t.occ q = true then false else t.live q, off := fun _ => 0,
                     occ := fun _ => false, count := 0, excess := Vector.clearIota t.excess t.bc },
      by simp only [clear, hem, hloop, bind, Except.bind, pure, Except.pure]; rfl, ⟨_, _, rep_empty P _ h.bc_pos
      h.bc_lt h.bc_le rfl rfl rfl hlv h.locks hh h.excessCap⟩, contents_nil_of_occ _ (fun _ _ => rfl), rfl, rfl, hlv,
      ?_⟩
    intro _
    simp only [freeList]
    rw [Vector.deviceRange_holds hh]
    simp

/-! ### valid() -/

theorem allM_true (f : Nat → Except Fault Bool) (l : List Nat) (h : ∀ i ∈ l, f i = .ok true) : allM f l = .ok true := by
  induction l with
  | nil => rfl
  | cons i l ih =>
    simp [allM, h i (by simp), ih (fun j hj => h j (List.mem_cons_of_mem _ hj)), bind, Except.bind, pure, Except.pure]

theorem visits_loop (h : Rep P t chain free) (l : List Nat) : ∀ (flags : Nat → Nat), l.Nodup →
    (∀ b ∈ l, b < t.bc) → (∀ b ∈ l, ∀ q ∈ b :: chain b, flags q = 0) → (∀ q, flags q ≤ 1) →
    ∃ flags', l.foldlM (fun flags i => visitFrom t t.total i (upd flags i (flags i + 1))) flags = .ok flags' ∧
      ∀ q, flags' q ≤ 1 := by
  induction l with
  | nil => intro flags _ _ _ h1; exact ⟨flags, rfl, h1⟩
  | cons b l ih =>
    intro flags hnd hr h0 h1
    obtain ⟨hbl, hnd'⟩ := List.nodup_cons.1 hnd
    have hb := hr b (by simp)
    have hbc : b ∉ chain b := (List.nodup_cons.1 (h.nodup_cons hb)).1
    have hv := visitFrom_eq (chain b) t.total b (upd flags b (flags b + 1)) (h.linked b hb)
      (by have := h.chain_length hb; omega) (fun x hx => (h.rng b hb x hx).2) (h.nodup b hb) (by
        intro x hx
        rw [upd_ne _ _ (by rintro rfl; exact hbc hx)]
        exact h0 b (by simp) x (List.mem_cons_of_mem _ hx))
    rw [List.foldlM_cons, hv]
    simp only [bind, Except.bind]
    refine ih _ hnd' (fun c hc => hr c (List.mem_cons_of_mem _ hc)) ?_ ?_
    · intro c hc q hq
      have hcb : c ≠ b := by rintro rfl; exact hbl hc
      have hcr := hr c (List.mem_cons_of_mem _ hc)
      have hq1 : q ∉ chain b := by
        intro hx
        rcases List.mem_cons.1 hq with hy | hy
        · have := (h.rng b hb q hx).1
          omega
        · exact h.disj c b hcr hb hcb q hy hx
      have hq2 : q ≠ b := by
        rintro rfl
        rcases List.mem_cons.1 hq with hy | hy
        · exact hcb hy.symm
        · have := (h.rng c hcr q hy).1
          omega
      rw [if_neg hq1, upd_ne _ _ hq2]
      exact h0 c (List.mem_cons_of_mem _ hc) q hq
    · intro q
      split
      · omega
      · by_cases hq : q = b
        · rw [hq, upd_same, h0 b (by simp) b (by simp)]
        · rw [upd_ne _ _ hq]; exact h1 q

theorem loopFree_eq (h : Rep P t chain free) {ord : Nat → List Nat} (ho : OrdOK ord) : loopFree ord t = .ok true := by
  obtain ⟨flags, e, hf⟩ := visits_loop h (ord t.bc) (fun _ => 0) (ho.nodup _) (fun b hb => (ho.mem _ _).1 hb)
    (fun _ _ _ _ => rfl) (fun _ => by omega)
  simp only [loopFree, e, bind, Except.bind, pure, Except.pure]
  simp [hf]

theorem valid_eq (h : Rep P t chain free) (hl : KeyLaws P) {ord : Nat → List Nat} (ho : OrdOK ord) :
    valid P ord t = .ok true := by
  have hne : t.total ≠ 0 := by have := h.bc_pos; have := h.bc_le; omega
  have h1 : (List.range t.total).all (offsetInsideRange t) = true := by
    simp only [List.all_eq_true, List.mem_range, offsetInsideRange, Bool.and_eq_true, decide_eq_true_eq]
    exact h.offs
  have h3 : allM (valueReachable P t) (List.range t.total) = .ok true := by
    refine allM_true _ _ (fun i hi => ?_)
    have hi := List.mem_range.1 hi
    unfold valueReachable
    cases hoc : t.occ i with
    | false => simp
    | true =>
      obtain ⟨v, hv⟩ := Option.isSome_iff_exists.1 (h.val i hi hoc)
      simp [hv, h.contains_eq, h.pos_of_stored hl hi hoc hv (hl.refl _)]
  have h4 : allM (valueUnique P t) (List.range t.total) = .ok true := by
    refine allM_true _ _ (fun i hi => ?_)
    have hi := List.mem_range.1 hi
    unfold valueUnique
    cases hoc : t.occ i with
    | false => simp
    | true =>
      obtain ⟨v, hv⟩ := Option.isSome_iff_exists.1 (h.val i hi hoc)
      simp [hv, h.find_eq, h.pos_of_stored hl hi hoc hv (hl.refl _), bind, Except.bind, pure, Except.pure]
  unfold valid
  simp [hne, h1, loopFree_eq h ho, h3, h4, bind, Except.bind, pure, Except.pure, size, h.count,
    Vector.countBits_zero _ _ h.locks, Vector.valid_of_holds h.excess]

/-! ### bucket sizes, ranges -/

theorem bucketSize_eq (h : Rep P t chain free) {b : Nat} (hb : b < t.bc) :
    bucketSize t b = .ok ((b :: chain b).countP t.occ) :=
  bucketSizeFrom_eq (chain b) t.total b (h.linked b hb) (by have := h.chain_length hb; omega)
    (fun x hx => (h.rng b hb x hx).2)

/-- The entries are the buckets, the chain entries and the free entries. -/
theorem entries_perm (h : Rep P t chain free) :
    (List.range t.total).Perm ((List.range t.bc).flatMap (fun b => b :: chain b) ++ free) := by
  refine (List.perm_ext_iff_of_nodup List.nodup_range ?_).2 ?_
  · rw [List.nodup_append, List.nodup_flatMap]
    refine ⟨⟨fun b hb => h.nodup_cons (List.mem_range.1 hb), ?_⟩, h.free_nodup, ?_⟩
    · refine List.nodup_range.pairwise_of_forall_ne ?_
      intro b hb c hc hbc x hx hy
      have hb := List.mem_range.1 hb
      have hc := List.mem_range.1 hc
      rcases List.mem_cons.1 hx with hx | hx <;> rcases List.mem_cons.1 hy with hy | hy
      · exact hbc (hx.symm.trans hy)
      · have := (h.rng c hc x hy).1; omega
      · have := (h.rng b hb x hx).1; omega
      · exact h.disj b c hb hc hbc x hx hy
    · intro x hx y hy hxy
      subst hxy
      obtain ⟨b, hb, hx⟩ := List.mem_flatMap.1 hx
      have hb := List.mem_range.1 hb
      obtain ⟨g1, g2⟩ := h.free_rng x hy
      rcases List.mem_cons.1 hx with hx | hx
      · omega
      · exact (h.cover x g1 g2).1 hy b hb hx
  · intro x
    rw [List.mem_range, List.mem_append, List.mem_flatMap]
    constructor
    · intro hx
      by_cases hxb : x < t.bc
      · exact Or.inl ⟨x, List.mem_range.2 hxb, by simp⟩
      · by_cases hf : x ∈ free
        · exact Or.inr hf
        · have := mt (h.cover x (by omega) hx).2 hf
          push Not at this
          obtain ⟨b, hb, hm⟩ := this
          exact Or.inl ⟨b, List.mem_range.2 hb, by simp [hm]⟩
    · rintro (⟨b, hb, hx⟩ | hx)
      · exact h.lt_of_mem (List.mem_range.1 hb) x hx
      · exact (h.free_rng x hx).2

theorem countP_flatMap' (l : List Nat) (f : Nat → List Nat) (p : Nat → Bool) :
    (l.flatMap f).countP p = (l.map (fun b => (f b).countP p)).sum := by
  induction l with
  | nil => rfl
  | cons a l ih => simp [List.flatMap_cons, List.countP_append, ih]

theorem bucketSize_sum (h : Rep P t chain free) :
    ((List.range t.bc).map (fun b => (b :: chain b).countP t.occ)).sum = countBits t.total t.occ := by
  unfold countBits
  rw [(entries_perm h).countP_eq, List.countP_append, countP_flatMap']
  have : free.countP t.occ = 0 := by
    rw [List.countP_eq_zero]
    intro x hx
    rw [h.occF x hx]; simp
  omega

theorem deviceRange_perm {ord : Nat → List Nat} (ho : OrdOK ord) (t : Tab V) :
    ((deviceRange ord t).filterMap t.val).Perm (contents t) := by
  unfold deviceRange contents
  rw [← List.filterMap_eq_filter, List.filterMap_filterMap]
  refine ((ho t.total).filterMap _).trans (List.Perm.of_eq ?_)
  apply List.filterMap_congr
  intro x _
  cases hx : t.occ x <;> simp [hx, Option.guard]

theorem freeList_eq (h : Rep P t chain free) : freeList t = free := by
  simp only [freeList]
  rw [Vector.deviceRange_holds h.excess]
  simp

/-- The excess entries in use hold values. -/
theorem excess_used (h : Rep P t chain free) : t.total - t.bc ≤ countBits t.total t.occ + free.length := by
  have hsum := bucketSize_sum h
  have hlen := (entries_perm h).length_eq
  rw [List.length_append, List.length_flatMap, List.length_range] at hlen
  have : ∀ l : List Nat, (∀ b ∈ l, b < t.bc) → (l.map (fun b => (b :: chain b).length)).sum ≤
      l.length + (l.map (fun b => (b :: chain b).countP t.occ)).sum := by
    intro l
    induction l with
    | nil => intro _; simp
    | cons b l ih =>
      intro hl
      have ih := ih (fun c hc => hl c (List.mem_cons_of_mem _ hc))
      have : (chain b).countP t.occ = (chain b).length := by
        rw [List.countP_eq_length]; exact h.occC b (hl b (by simp))
      simp only [List.map_cons, List.sum_cons, List.length_cons, List.countP_cons] at ih ⊢
      omega
  have := this (List.range t.bc) (fun b hb => List.mem_range.1 hb)
  rw [List.length_range] at this
  omega

theorem bucketCount_eq (h : Rep P t chain free) {b : Nat} (hb : b < t.bc) :
    (b :: chain b).countP t.occ = (contents t).countP (fun v => bucket P t (P.keyOf v) == b) := by
  have e1 : (contents t).countP (fun v => bucket P t (P.keyOf v) == b) =
      (List.range t.total).countP (fun p => (stored t p).any (fun v => bucket P t (P.keyOf v) == b)) := by
    rw [contents_eq]
    generalize List.range t.total = l
    induction l with
    | nil => rfl
    | cons a l ih =>
      rw [List.countP_cons, List.filterMap_cons]
      cases stored t a with
      | none => simp [ih]
      | some v => simp [List.countP_cons, ih]
  rw [e1, List.countP_eq_length_filter, List.countP_eq_length_filter]
  apply List.Perm.length_eq
  refine (List.perm_ext_iff_of_nodup ((h.nodup_cons hb).filter _) (List.nodup_range.filter _)).2 (fun p => ?_)
  rw [List.mem_filter, List.mem_filter, List.mem_range]
  constructor
  · rintro ⟨hm, ho⟩
    have hp := h.lt_of_mem hb p hm
    obtain ⟨v, hv⟩ := Option.isSome_iff_exists.1 (h.val p hp ho)
    refine ⟨hp, ?_⟩
    rw [(stored_some h hp).2 ⟨ho, hv⟩]
    simp only [Option.any_some, beq_iff_eq]
    rcases List.mem_cons.1 hm with hx | hx
    · subst hx; exact h.homeB p v hb ho hv
    · exact h.homeC b p v hb hx hv
  · rintro ⟨hp, ha⟩
    cases hs : stored t p with
    | none => rw [hs] at ha; simp at ha
    | some v =>
      rw [hs] at ha
      simp only [Option.any_some, beq_iff_eq] at ha
      obtain ⟨ho, hv⟩ := (stored_some h hp).1 hs
      have := h.home hp ho hv
      rw [ha] at this
      exact ⟨this, ho⟩

/-! ### Histories -/

/-- Different stored values have different keys. -/
theorem contents_uniq (h : Rep P t chain free) (hl : KeyLaws P) : (contents t).Pairwise
    (fun v w => P.keyEq (P.keyOf v) (P.keyOf w) = false) := by
  rw [contents_eq, List.pairwise_filterMap]
  refine List.nodup_range.pairwise_of_forall_ne ?_
  intro p hp q hq hpq v hv w hw
  have hp := List.mem_range.1 hp
  have hq := List.mem_range.1 hq
  rw [stored_some h hp] at hv
  rw [stored_some h hq] at hw
  by_contra hc
  rw [Bool.not_eq_false] at hc
  exact hpq (h.uniq hl p q v w hp hq hv.1 hw.1 hv.2 hw.2 hc)

theorem filter_erase (h : Rep P t chain free) (hl : KeyLaws P) {l : List V} {k : K} {v : V}
    (hp : (contents t).Perm (v :: l)) (hk : P.keyEq (P.keyOf v) k = true) :
    ((contents t).filter (fun w => !P.keyEq (P.keyOf w) k)).Perm l := by
  have hu := contents_uniq h hl
  have hu' : (v :: l).Pairwise (fun v w => P.keyEq (P.keyOf v) (P.keyOf w) = false) :=
    (hp.pairwise_iff (fun {a b} hab => by
      by_contra hc
      rw [Bool.not_eq_false] at hc
      rw [hl.symm _ _ hc] at hab; simp at hab)).1 hu
  refine (hp.filter _).trans ?_
  rw [List.filter_cons_of_neg (by simp [hk]), List.filter_eq_self.2]
  intro w hw
  have := (List.pairwise_cons.1 hu').1 w hw
  by_contra hc
  simp only [Bool.not_eq_true, Bool.not_eq_false'] at hc
  rw [hl.trans _ _ _ hk (hl.symm _ _ hc)] at this
  simp at this

theorem exec_refines [DecidableEq V] (hl : KeyLaws P) {ord : Nat → List Nat} (ho : OrdOK ord) (op : UOp K V)
    (h : HoldsMap P t m) :
    ∃ o t' m', exec P ord t op = .ok (o, t') ∧ mapStep P m op o = some m' ∧ HoldsMap P t' m' ∧ t'.bc = t.bc ∧
      t'.total = t.total := by
  obtain ⟨⟨chain, free, hr⟩, hm⟩ := h
  have hH : HoldsMap P t m := ⟨⟨chain, free, hr⟩, hm⟩
  have hlen : (m.length : Int) = t.count := by rw [hr.count, ← length_contents hr, hm.length_eq]
  cases op with
  | insert v =>
    obtain ⟨i1, i2⟩ := insert_eq hr v
    by_cases hc : Rep.pos P t chain (P.keyOf v) = none ∧ free ≠ []
    · obtain ⟨p, t', e, p1, p2, p3, hr', hp, hb, ht⟩ := i1 hc
      refine ⟨.inserted (some v) true, t', v :: m, ?_, ?_, ⟨hr', ?_⟩, hb, ht⟩
      · simp [exec, e, deref, p1, p2, p3, bind, Except.bind, pure, Except.pure]
      · have : lookup P m (P.keyOf v) = none := by rw [lookup_eq hr hl hm, hc.1]; rfl
        simp [mapStep, this]
      · exact (List.Perm.cons v hm).trans hp.symm
    · exact ⟨.inserted none false, t, m, by simp [exec, i2 hc, deref, bind, Except.bind, pure, Except.pure],
        by simp [mapStep], hH, rfl, rfl⟩
  | erase k =>
    obtain ⟨i1, i2⟩ := erase_eq hr k
    cases hp : Rep.pos P t chain k with
    | none =>
      refine ⟨.num 0, t, m, by simp [exec, i1 hp, bind, Except.bind, pure, Except.pure], ?_, hH, rfl, rfl⟩
      have : lookup P m k = none := by rw [lookup_eq hr hl hm, hp]; rfl
      simp [mapStep, this]
    | some p =>
      obtain ⟨v, t', hv, e, hr', hperm, hb, ht, -⟩ := i2 p hp
      have : lookup P m k = some v := by rw [lookup_eq hr hl hm, hp]; exact hv
      refine ⟨.num 1, t', m.filter (fun v => !P.keyEq (P.keyOf v) k),
        by simp [exec, e, bind, Except.bind, pure, Except.pure], by simp [mapStep, this], ⟨hr', ?_⟩, hb, ht⟩
      obtain ⟨-, -, v', hv', hk, -⟩ := hr.pos_some hp
      rw [hv] at hv'; simp at hv'; subst hv'
      exact (hm.filter _).trans (filter_erase hr hl hperm hk)
  | clear =>
    obtain ⟨t', e, hr', hc, hb, ht, -⟩ := clear_eq hr ho
    exact ⟨.unit, t', [], by simp [exec, e, bind, Except.bind, pure, Except.pure], rfl, ⟨hr', by rw [hc]⟩, hb, ht⟩
  | find k =>
    refine ⟨.found (lookup P m k), t, m, ?_, by simp [mapStep], hH, rfl, rfl⟩
    rw [lookup_eq hr hl hm]
    simp only [exec, hr.find_eq, bind, Except.bind, pure, Except.pure]
    cases hp : Rep.pos P t chain k with
    | none => simp [deref]
    | some p =>
      obtain ⟨g1, g2, -⟩ := hr.pos_some hp
      simp [deref, g1, (hr.stored_ok g1 g2).1]
  | contains k =>
    refine ⟨.bool (lookup P m k).isSome, t, m, ?_, by simp [mapStep], hH, rfl, rfl⟩
    simp [exec, hr.contains_eq, bind, Except.bind, pure, Except.pure, lookup_isSome hr hl hm]
  | count k =>
    refine ⟨.num (if (lookup P m k).isSome then 1 else 0), t, m, ?_, by simp [mapStep], hH, rfl, rfl⟩
    rw [lookup_isSome hr hl hm]
    simp only [exec, count, hr.contains_eq, bind, Except.bind, pure, Except.pure]
    cases (Rep.pos P t chain k).isSome <;> rfl
  | size => exact ⟨.num m.length, t, m, by simp [exec, size, hlen], by simp [mapStep], hH, rfl, rfl⟩
  | empty =>
    refine ⟨.bool (m.length == 0), t, m, ?_, by simp [mapStep], hH, rfl, rfl⟩
    simp only [exec, empty, size, ← hlen]
    congr 3
    rw [Bool.eq_iff_iff]; simp
  | valid => exact ⟨.bool true, t, m, by simp [exec, valid_eq hr hl ho, bind, Except.bind, pure, Except.pure],
      by simp [mapStep], hH, rfl, rfl⟩

theorem execAll_refines [DecidableEq V] (hl : KeyLaws P) (ops : List (UOp K V)) :
    ∀ (t : Tab V) (m : List V) (ords : Nat → Nat → List Nat), (∀ j, OrdOK (ords j)) → HoldsMap P t m →
    ∃ outs t' m', execAll P ords t ops = .ok (outs, t') ∧ mapRun P m ops outs = some m' ∧ HoldsMap P t' m' ∧
      t'.bc = t.bc ∧ t'.total = t.total := by
  induction ops with
  | nil => intro t m ords _ h; exact ⟨[], t, m, rfl, rfl, h, rfl, rfl⟩
  | cons op ops ih =>
    intro t m ords ho h
    obtain ⟨o, t1, m1, e1, e2, h1, b1, c1⟩ := exec_refines hl (ho 0) op h
    obtain ⟨os, t2, m2, f1, f2, h2, b2, c2⟩ := ih t1 m1 (fun k => ords (k + 1)) (fun j => ho (j + 1)) h1
    refine ⟨o :: os, t2, m2, ?_, ?_, h2, b2.trans b1, c2.trans c1⟩
    · simp [execAll, e1, f1, bind, Except.bind, pure, Except.pure]
    · simp [mapRun, e2, f2]

theorem holdsMap_create (P : Params K V) (bc ec : Nat) (h0 : 0 < bc) (h1 : bc < 2 ^ 63) :
    HoldsMap P (create bc ec) [] :=
  ⟨⟨_, _, rep_create P bc ec h0 h1⟩, by rw [contents_nil_of_occ _ (fun _ _ => rfl)]⟩

theorem reachable_rep (hl : KeyLaws P) {bc ec : Nat} (h0 : 0 < bc) (h1 : bc < 2 ^ 63) (h : Reachable P bc ec t) :
    (∃ chain free, Rep P t chain free) ∧ t.bc = bc ∧ t.total = bc + ec := by
  classical
  obtain ⟨ops, ords, outs, ho, e⟩ := h
  obtain ⟨outs', t', m', e', -, h', hb, ht⟩ := execAll_refines hl ops (create bc ec) [] ords ho
    (holdsMap_create P bc ec h0 h1)
  rw [e] at e'
  simp only [Except.ok.injEq, Prod.mk.injEq] at e'
  obtain ⟨-, rfl⟩ := e'
  exact ⟨h'.rep, hb, ht⟩

end Stdgpu.Unordered
