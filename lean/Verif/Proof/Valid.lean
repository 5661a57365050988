import Verif.Spec.Valid
import Verif.Spec.Maps
import Verif.Proof.Unordered3
/-! `valid()` is sound. -/
namespace Stdgpu.Unordered
open Stdgpu.SlotConc (upd)
open Stdgpu.Vector (Fault countBits)
open Stdgpu.Spec
variable {K V : Type} {P : Params K V} {t : Tab V}

theorem countBits_eq_length (cap : Nat) (f : Nat → Bool) : countBits cap f = ((List.range cap).filter f).length := by
  rw [countBits, List.countP_eq_length_filter]

theorem countBits_eq_zero_iff (cap : Nat) (f : Nat → Bool) : countBits cap f = 0 ↔ ∀ p, p < cap → f p = false := by
  unfold countBits
  rw [List.countP_eq_zero]
  simp

theorem linked_leads {off : Nat → Int} {p : Nat} {l : List Nat} (h : Linked off p l) : Leads off p l := by
  induction l generalizing p with
  | nil => exact .last h
  | cons q l ih => exact .more h.1 h.2.1 (ih h.2.2)

theorem next_some {p q : Nat} (h : next t p = .ok (some q)) : t.off p ≠ 0 ∧ (p : Int) + t.off p = q ∧ q < t.total := by
  unfold next at h
  split at h
  · simp at h
  · dsimp only at h
    split at h
    · simp only [Except.ok.injEq, Option.some.injEq] at h
      exact ⟨by assumption, by omega, by omega⟩
    · simp at h

theorem next_none {p : Nat} (h : next t p = .ok none) : t.off p = 0 := by
  unfold next at h
  split at h
  · assumption
  · dsimp only at h
    split at h <;> simp at h

theorem visitFrom_sound : ∀ (fuel p : Nat) (flags flags' : Nat → Nat), visitFrom t fuel p flags = .ok flags' →
    (∀ q, flags q ≤ flags' q) ∧
    ((∃ l, Linked t.off p l ∧ (∀ x ∈ l, x < t.total) ∧ ∀ q, flags' q = flags q + l.count q) ∨ ∃ q, q < t.total ∧ 1 < flags' q) := by
  intro fuel
  induction fuel with
  | zero =>
    intro p flags flags' h
    unfold visitFrom at h
    cases hn : next t p with
    | error e => rw [hn] at h; simp [bind, Except.bind] at h
    | ok o =>
      rw [hn] at h
      cases o with
      | none =>
        simp only [bind, Except.bind, pure, Except.pure, Except.ok.injEq] at h
        subst h
        exact ⟨fun q => le_refl _, .inl ⟨[], next_none hn, by simp, by simp⟩⟩
      | some q =>
        simp only [bind, Except.bind, pure, Except.pure] at h
        split at h
        · next hgt =>
          simp only [Except.ok.injEq] at h
          subst h
          refine ⟨fun x => ?_, .inr ⟨q, (next_some hn).2.2, hgt⟩⟩
          unfold upd; split
          · next e => subst e; omega
          · exact le_refl _
        · simp at h
  | succ fuel ih =>
    intro p flags flags' h
    unfold visitFrom at h
    cases hn : next t p with
    | error e => rw [hn] at h; simp [bind, Except.bind] at h
    | ok o =>
      rw [hn] at h
      cases o with
      | none =>
        simp only [bind, Except.bind, pure, Except.pure, Except.ok.injEq] at h
        subst h
        exact ⟨fun q => le_refl _, .inl ⟨[], next_none hn, by simp, by simp⟩⟩
      | some q =>
        have hle : ∀ x, flags x ≤ upd flags q (flags q + 1) x := by
          intro x
          unfold upd; split
          · next e => subst e; omega
          · exact le_refl _
        obtain ⟨n1, n2, n3⟩ := next_some hn
        simp only [bind, Except.bind, pure, Except.pure] at h
        split at h
        · next hgt =>
          simp only [Except.ok.injEq] at h
          subst h
          exact ⟨hle, .inr ⟨q, n3, hgt⟩⟩
        · obtain ⟨h1, h2⟩ := ih q _ _ h
          refine ⟨fun x => (hle x).trans (h1 x), ?_⟩
          rcases h2 with ⟨l, hl, hr, hc⟩ | h2
          · left
            refine ⟨q :: l, ⟨n1, n2, hl⟩, by simpa using ⟨n3, hr⟩, fun x => ?_⟩
            rw [hc x, List.count_cons]
            unfold upd
            by_cases e : x = q
            · subst e; simp; omega
            · rw [if_neg e, if_neg (by simpa using fun h => e h.symm)]; omega
          · exact .inr h2

open Classical in
/-- The chain of an entry. -/
noncomputable def chainOf (off : Nat → Int) (b : Nat) : List Nat := if h : ∃ l, Linked off b l then Classical.choose h else []

theorem chainOf_eq {off : Nat → Int} {b : Nat} {l : List Nat} (h : Linked off b l) : chainOf off b = l := by
  unfold chainOf
  have he : ∃ l, Linked off b l := ⟨l, h⟩
  rw [dif_pos he]
  exact linked_unique (Classical.choose_spec he) h

theorem visits_sound (l : List Nat) : ∀ (flags flags' : Nat → Nat),
    l.foldlM (fun flags i => visitFrom t t.total i (upd flags i (flags i + 1))) flags = .ok flags' →
    (∀ q, flags q ≤ flags' q) ∧ ((∀ q, q < t.total → flags' q ≤ 1) →
      (∀ b ∈ l, Linked t.off b (chainOf t.off b) ∧ ∀ x ∈ chainOf t.off b, x < t.total) ∧
      ∀ q, flags' q = flags q + (l.flatMap (fun b => b :: chainOf t.off b)).count q) := by
  induction l with
  | nil =>
    intro flags flags' h
    simp only [List.foldlM_nil, pure, Except.pure, Except.ok.injEq] at h
    subst h
    exact ⟨fun _ => le_refl _, fun _ => ⟨by simp, by simp⟩⟩
  | cons b l ih =>
    intro flags flags' h
    simp only [List.foldlM_cons, bind, Except.bind] at h
    split at h
    · simp at h
    · next f1 h1 =>
      obtain ⟨v1, v2⟩ := visitFrom_sound _ _ _ _ h1
      obtain ⟨i1, i2⟩ := ih _ _ h
      have hle : ∀ x, flags x ≤ upd flags b (flags b + 1) x := by
        intro x
        unfold upd; split
        · next e => subst e; omega
        · exact le_refl _
      refine ⟨fun q => (hle q).trans ((v1 q).trans (i1 q)), fun hq => ?_⟩
      obtain ⟨j1, j2⟩ := i2 hq
      rcases v2 with ⟨c, hc, hr, hcount⟩ | ⟨q, hq1, hq2⟩
      · have e := chainOf_eq hc
        refine ⟨?_, fun q => ?_⟩
        · intro x hx
          rcases List.mem_cons.1 hx with rfl | hx
          · rw [e]; exact ⟨hc, hr⟩
          · exact j1 x hx
        · rw [j2 q, hcount q, List.flatMap_cons, List.count_append, List.count_cons, e]
          unfold upd
          by_cases e : q = b
          · subst e; simp; omega
          · rw [if_neg e, if_neg (by simpa using fun h => e h.symm)]; omega
      · have := hq q hq1
        have := i1 q
        omega

theorem loopFree_sound {ord : Nat → List Nat} (ho : ∀ n, (ord n).Perm (List.range n)) (hb : t.bc ≤ t.total)
    (h : loopFree ord t = .ok true) :
    (∀ b, b < t.bc → Linked t.off b (chainOf t.off b)) ∧
    ((List.range t.bc).flatMap (fun b => b :: chainOf t.off b)).Nodup := by
  unfold loopFree at h
  simp only [bind, Except.bind] at h
  split at h
  · simp at h
  · next flags hf =>
    simp only [pure, Except.pure, Except.ok.injEq, List.all_eq_true, List.mem_range, decide_eq_true_eq] at h
    obtain ⟨-, h2⟩ := visits_sound (ord t.bc) _ _ hf
    obtain ⟨h3, h4⟩ := h2 h
    have hm : ∀ b, b ∈ ord t.bc ↔ b < t.bc := fun b => by rw [(ho t.bc).mem_iff, List.mem_range]
    refine ⟨fun b hb => (h3 b ((hm b).2 hb)).1, ?_⟩
    rw [← ((ho t.bc).flatMap_right _).nodup_iff, List.nodup_iff_count_le_one]
    intro q
    by_cases hq : q ∈ (ord t.bc).flatMap (fun b => b :: chainOf t.off b)
    · have hlt : q < t.total := by
        obtain ⟨b, hb1, hb2⟩ := List.mem_flatMap.1 hq
        have := (hm b).1 hb1
        rcases List.mem_cons.1 hb2 with rfl | hb2
        · omega
        · exact (h3 b hb1).2 q hb2
      have := h q hlt
      have := h4 q
      omega
    · rw [List.count_eq_zero_of_not_mem hq]; omega

theorem allM_sound {f : Nat → Except Fault Bool} {l : List Nat} (h : allM f l = .ok true) : ∀ i ∈ l, f i = .ok true := by
  induction l with
  | nil => simp
  | cons a l ih =>
    simp only [allM, bind, Except.bind] at h
    split at h
    · simp at h
    · next x hx =>
      split at h
      · simp at h
      · next y hy =>
        simp only [pure, Except.pure, Except.ok.injEq, Bool.and_eq_true] at h
        intro i hi
        rcases List.mem_cons.1 hi with rfl | hi
        · rw [hx, h.1]
        · exact ih (by rw [hy, h.2]) i hi

/-- An entry that a lookup returns is on the way. -/
theorem findFrom_mem {eq : V → Bool} : ∀ (fuel p i : Nat) (l : List Nat), Linked t.off p l →
    findFrom t eq fuel p = .ok (some i) → i ∈ p :: l := by
  intro fuel
  induction fuel with
  | zero =>
    intro p i l hl h
    unfold findFrom at h
    simp only [bind, Except.bind, pure, Except.pure] at h
    split at h
    · simp at h
    · split at h
      · simp only [Except.ok.injEq, Option.some.injEq] at h; simp [h]
      · split at h
        · simp at h
        · split at h <;> simp at h
  | succ fuel ih =>
    intro p i l hl h
    unfold findFrom at h
    simp only [bind, Except.bind, pure, Except.pure] at h
    split at h
    · simp at h
    · split at h
      · simp only [Except.ok.injEq, Option.some.injEq] at h; simp [h]
      · split at h
        · simp at h
        · next o hn =>
          split at h
          · simp at h
          · next q =>
            obtain ⟨n1, n2, n3⟩ := next_some hn
            cases l with
            | nil => exact absurd hl n1
            | cons q' l =>
              obtain ⟨g1, g2, g3⟩ := hl
              have : q = q' := by omega
              subst this
              exact List.mem_cons_of_mem _ (ih q i l g3 h)

theorem find_congr (hl : KeyLaws P) {a b : K} (h : P.keyEq a b = true) : find P t a = find P t b := by
  unfold find
  have e : (fun v => P.keyEq (P.keyOf v) a) = (fun v => P.keyEq (P.keyOf v) b) := by
    funext v
    cases h1 : P.keyEq (P.keyOf v) a with
    | true => rw [hl.trans _ _ _ h1 h]
    | false =>
      cases h2 : P.keyEq (P.keyOf v) b with
      | true => rw [hl.trans _ _ _ h2 (hl.symm _ _ h)] at h1; exact h1.symm
      | false => rfl
  rw [e]
  unfold bucket FibHash.bucket
  rw [hl.hash _ _ h]

theorem slots_iff (cap : Nat) (hc : cap ≠ 0) (ctr : Int) (occ locks : Nat → Bool) :
    ((decide (0 ≤ ctr) && decide (ctr ≤ cap)) && (Vector.clampSize cap ctr == (countBits cap occ : Int)) &&
      (countBits cap locks == 0)) = true ↔ SlotsOK cap ctr occ locks := by
  unfold SlotsOK Vector.clampSize
  simp only [Bool.and_eq_true, decide_eq_true_eq, beq_iff_eq, countBits_eq_zero_iff, hc, false_or]
  rw [countBits_eq_length]
  constructor
  · rintro ⟨⟨⟨h1, h2⟩, h3⟩, h4⟩
    refine ⟨h1, h2, ?_, h4⟩
    rw [← h3]
    split <;> first | omega | (split <;> omega)
  · rintro ⟨h1, h2, h3, h4⟩
    refine ⟨⟨⟨h1, h2⟩, ?_⟩, h4⟩
    rw [← h3]
    split <;> first | omega | (split <;> omega)

theorem slotsOK_vector {α : Type} (v : Vector.Vec α) :
    Vector.valid v = true ↔ SlotsOK v.slots.cap v.ctr v.slots.occ v.slots.locks := by
  unfold Vector.valid
  split
  · next h => exact ⟨fun _ => .inl h, fun _ => rfl⟩
  · next h => exact slots_iff _ h _ _ _

theorem slotsOK_deque {α : Type} (d : Deque.Deq α) :
    Deque.valid d = true ↔ SlotsOK d.slots.cap d.ctr.size d.slots.occ d.slots.locks := by
  unfold Deque.valid
  split
  · next h => exact ⟨fun _ => .inl h, fun _ => rfl⟩
  · next h => exact slots_iff _ h _ _ _

theorem valid_sound (hl : KeyLaws P) (h0 : 0 < t.bc) (h1 : t.bc < 2 ^ 63) (hb : t.bc ≤ t.total) {ord : Nat → List Nat}
    (ho : ∀ n, (ord n).Perm (List.range n)) (h : valid P ord t = .ok true) : Wellformed P t := by
  unfold valid at h
  rw [if_neg (by omega)] at h
  cases ha : (List.range t.total).all (offsetInsideRange t) with
  | false => rw [ha] at h; simp [pure, Except.pure] at h
  | true =>
    rw [ha] at h
    simp only [Bool.not_true, Bool.false_eq_true, if_false, bind, Except.bind, pure, Except.pure] at h
    split at h
    · simp at h
    · next b hlf =>
      cases b with
      | false => simp at h
      | true =>
        simp only [Bool.not_true, Bool.false_eq_true, if_false] at h
        split at h
        · simp at h
        · next c hc =>
          cases c with
          | false => simp at h
          | true =>
            simp only [Bool.not_true, Bool.false_eq_true, if_false] at h
            split at h
            · simp at h
            · next d hd =>
              simp only [Except.ok.injEq, Bool.and_eq_true, beq_iff_eq] at h
              obtain ⟨⟨⟨rfl, hs⟩, hk⟩, hx⟩ := h
              have hv : ∀ i, i < t.total → t.occ i = true → ∃ v, t.val i = some v ∧ find P t (P.keyOf v) = .ok (some i) := by
                intro i hi hoc
                have := allM_sound hd i (List.mem_range.2 hi)
                unfold valueUnique at this
                rw [hoc, if_pos rfl] at this
                split at this
                · next v hv =>
                  simp only [bind, Except.bind, pure, Except.pure] at this
                  split at this
                  · simp at this
                  · next o ho' =>
                    simp only [Except.ok.injEq, beq_iff_eq] at this
                    exact ⟨v, hv, by rw [ho', this]⟩
                · simp at this
              obtain ⟨l1, l2⟩ := loopFree_sound ho hb hlf
              refine ⟨?_, ⟨chainOf t.off, fun b hb => linked_leads (l1 b hb), l2, ?_⟩, ?_, ?_, ?_, ?_, ?_⟩
              · intro i hi
                have := List.all_eq_true.1 ha i (List.mem_range.2 hi)
                simpa [offsetInsideRange] using this
              · intro i v hi hoc hvi
                obtain ⟨v', e1, e2⟩ := hv i hi hoc
                rw [hvi] at e1; cases e1
                exact findFrom_mem _ _ _ _ (l1 _ (bucket_lt P t _ h0 h1)) e2
              · intro i hi hoc
                obtain ⟨v, e, -⟩ := hv i hi hoc
                exact ⟨v, e⟩
              · intro i j v w hi hj hoi hoj hvi hvj hk
                obtain ⟨v', e1, e2⟩ := hv i hi hoi
                obtain ⟨w', g1, g2⟩ := hv j hj hoj
                rw [hvi] at e1; cases e1
                rw [hvj] at g1; cases g1
                rw [find_congr hl hk, g2] at e2
                simpa using e2.symm
              · rw [← countBits_eq_length]; exact hs
              · exact (countBits_eq_zero_iff _ _).1 hk
              · exact (slotsOK_vector _).1 hx

end Stdgpu.Unordered
