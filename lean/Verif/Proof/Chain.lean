import Verif.Model.Unordered
/-! Chains of entries linked by relative offsets. -/
namespace Stdgpu.Unordered
open Stdgpu.SlotConc (upd)
open Stdgpu.Vector (Fault)

/-- `l` are the entries after `p` in the chain described by `off`. -/
def Linked (off : Nat → Int) : Nat → List Nat → Prop
  | p, [] => off p = 0
  | p, q :: l => off p ≠ 0 ∧ (p : Int) + off p = q ∧ Linked off q l

def lastOf : Nat → List Nat → Nat
  | p, [] => p
  | _, q :: l => lastOf q l

theorem lastOf_mem (p : Nat) (l : List Nat) : lastOf p l ∈ p :: l := by
  induction l generalizing p with
  | nil => simp [lastOf]
  | cons q l ih => simp only [lastOf]; exact List.mem_cons_of_mem _ (ih q)

theorem lastOf_append (p : Nat) (l : List Nat) (x : Nat) : lastOf p (l ++ [x]) = x := by
  induction l generalizing p with
  | nil => rfl
  | cons q l ih => exact ih q

theorem linked_unique {off : Nat → Int} {p : Nat} {l l' : List Nat} (h : Linked off p l) (h' : Linked off p l') :
    l = l' := by
  induction l generalizing p l' with
  | nil =>
    cases l' with
    | nil => rfl
    | cons q l' => exact absurd h h'.1
  | cons q l ih =>
    cases l' with
    | nil => exact absurd h' h.1
    | cons q' l' =>
      obtain ⟨h1, h2, h3⟩ := h
      obtain ⟨g1, g2, g3⟩ := h'
      have : q = q' := by omega
      subst this
      rw [ih h3 g3]

theorem linked_congr {off off' : Nat → Int} {p : Nat} {l : List Nat} (h : Linked off p l)
    (he : ∀ x ∈ p :: l, off' x = off x) : Linked off' p l := by
  induction l generalizing p with
  | nil => simp only [Linked] at *; rw [he p (by simp)]; exact h
  | cons q l ih =>
    obtain ⟨h1, h2, h3⟩ := h
    have hp := he p (by simp)
    exact ⟨by rw [hp]; exact h1, by rw [hp]; exact h2, ih h3 (fun x hx => he x (List.mem_cons_of_mem _ hx))⟩

theorem linked_last {off : Nat → Int} {p : Nat} {l : List Nat} (h : Linked off p l) : off (lastOf p l) = 0 := by
  induction l generalizing p with
  | nil => exact h
  | cons q l ih => exact ih h.2.2

theorem linked_snoc {off off' : Nat → Int} {p : Nat} {l : List Nat} {n : Nat} (h : Linked off p l)
    (hnd : (p :: l).Nodup) (hn : n ∉ p :: l) (h0 : off' n = 0)
    (hl : off' (lastOf p l) = (n : Int) - lastOf p l) (he : ∀ x ∈ p :: l, x ≠ lastOf p l → off' x = off x) :
    Linked off' p (l ++ [n]) := by
  induction l generalizing p with
  | nil =>
    simp only [lastOf] at hl
    simp only [List.mem_singleton] at hn
    refine ⟨by rw [hl]; omega, by rw [hl]; omega, h0⟩
  | cons q l ih =>
    obtain ⟨h1, h2, h3⟩ := h
    simp only [lastOf] at hl he
    have hp : off' p = off p := he p (by simp) (by
      intro e
      have := lastOf_mem q l
      rw [← e] at this
      exact (List.nodup_cons.1 hnd).1 this)
    exact ⟨by rw [hp]; exact h1, by rw [hp]; exact h2,
      ih h3 (List.nodup_cons.1 hnd).2 (fun hx => hn (List.mem_cons_of_mem _ hx)) hl
        (fun x hx => he x (List.mem_cons_of_mem _ hx))⟩

theorem linked_split {off : Nat → Int} {p x : Nat} {l1 l2 : List Nat} (h : Linked off p (l1 ++ x :: l2)) :
    off (lastOf p l1) ≠ 0 ∧ ((lastOf p l1 : Nat) : Int) + off (lastOf p l1) = x ∧ Linked off x l2 := by
  induction l1 generalizing p with
  | nil => exact h
  | cons q l1 ih => exact ih h.2.2

theorem linked_remove {off off' : Nat → Int} {p x : Nat} {l1 l2 : List Nat} (h : Linked off p (l1 ++ x :: l2))
    (hnd : (p :: (l1 ++ x :: l2)).Nodup)
    (hl : off' (lastOf p l1) = if off x = 0 then 0 else off (lastOf p l1) + off x)
    (he : ∀ y ∈ p :: (l1 ++ l2), y ≠ lastOf p l1 → off' y = off y) :
    Linked off' p (l1 ++ l2) := by
  induction l1 generalizing p with
  | nil =>
    obtain ⟨h1, h2, h3⟩ := h
    simp only [lastOf] at hl he
    simp only [List.nil_append] at hnd he ⊢
    cases l2 with
    | nil =>
      simp only [Linked] at h3 ⊢
      rw [hl, if_pos h3]
    | cons y l2 =>
      obtain ⟨g1, g2, g3⟩ := h3
      rw [if_neg g1] at hl
      have hne : p ≠ y := by intro e; subst e; simp at hnd
      refine ⟨?_, by omega, linked_congr g3 (fun z hz => he z (List.mem_cons_of_mem _ hz) ?_)⟩
      · intro e; omega
      · rintro rfl
        have := (List.nodup_cons.1 hnd).1
        exact this (List.mem_cons_of_mem _ hz)
  | cons q l1 ih =>
    obtain ⟨h1, h2, h3⟩ := h
    simp only [lastOf] at hl he
    have hp : off' p = off p := he p (by simp) (by
      intro e
      have := lastOf_mem q l1
      rw [← e] at this
      refine (List.nodup_cons.1 hnd).1 ?_
      simp only [List.cons_append, List.mem_cons, List.mem_append] at this ⊢
      rcases this with h | h
      · exact Or.inl h
      · exact Or.inr (Or.inl h))
    exact ⟨by rw [hp]; exact h1, by rw [hp]; exact h2,
      ih h3 (List.nodup_cons.1 hnd).2 hl (fun y hy => he y (List.mem_cons_of_mem _ hy))⟩

/-! ### The walks on linked chains -/

variable {V : Type}

theorem next_nil {t : Tab V} {p : Nat} (h : Linked t.off p []) : next t p = .ok none := by
  simp only [Linked] at h
  simp [next, h]

theorem next_cons {t : Tab V} {p q : Nat} {l : List Nat} (h : Linked t.off p (q :: l)) (hq : q < t.total) :
    next t p = .ok (some q) := by
  obtain ⟨h1, h2, -⟩ := h
  simp only [next, if_neg h1]
  rw [if_pos (by omega)]
  congr 2
  omega

/-- Entry `p` is stored and matches. -/
def matchB (t : Tab V) (eq : V → Bool) (p : Nat) : Bool := t.occ p && (t.val p).any eq

theorem entryMatches_eq {t : Tab V} (eq : V → Bool) {p : Nat} (hp : p < t.total)
    (ho : t.occ p = true → t.live p = true ∧ (t.val p).isSome = true) :
    entryMatches t eq p = .ok (matchB t eq p) := by
  unfold entryMatches matchB
  rw [if_neg (by omega)]
  cases h : t.occ p with
  | false => simp
  | true =>
    obtain ⟨h1, h2⟩ := ho h
    rw [Option.isSome_iff_exists] at h2
    obtain ⟨v, h2⟩ := h2
    simp [h1, h2]

theorem findFrom_eq {t : Tab V} (eq : V → Bool) (l : List Nat) : ∀ (fuel p : Nat), Linked t.off p l →
    l.length ≤ fuel → (∀ x ∈ p :: l, x < t.total) →
    (∀ x ∈ p :: l, t.occ x = true → t.live x = true ∧ (t.val x).isSome = true) →
    findFrom t eq fuel p = .ok ((p :: l).find? (matchB t eq)) := by
  induction l with
  | nil =>
    intro fuel p h hf hr ho
    unfold findFrom
    rw [entryMatches_eq eq (hr p (by simp)) (ho p (by simp)), next_nil h]
    cases hm : matchB t eq p <;> simp [hm, bind, Except.bind, pure, Except.pure]
  | cons q l ih =>
    intro fuel p h hf hr ho
    have hq := hr q (by simp)
    unfold findFrom
    rw [entryMatches_eq eq (hr p (by simp)) (ho p (by simp)), next_cons h hq]
    cases hm : matchB t eq p with
    | true => simp [hm, bind, Except.bind, pure, Except.pure]
    | false =>
      cases fuel with
      | zero => simp at hf
      | succ fuel =>
        have := ih fuel q h.2.2 (by simpa using hf) (fun x hx => hr x (List.mem_cons_of_mem _ hx))
          (fun x hx => ho x (List.mem_cons_of_mem _ hx))
        simp only [bind, Except.bind, Bool.false_eq_true, if_false, this]
        rw [List.find?_cons_of_neg (a := p) (by simp [hm])]

theorem listEnd_eq {t : Tab V} (l : List Nat) : ∀ (fuel p : Nat), Linked t.off p l →
    l.length ≤ fuel → (∀ x ∈ l, x < t.total) → listEnd t fuel p = .ok (lastOf p l) := by
  induction l with
  | nil =>
    intro fuel p h hf hr
    unfold listEnd
    simp [next_nil h, bind, Except.bind, pure, Except.pure, lastOf]
  | cons q l ih =>
    intro fuel p h hf hr
    unfold listEnd
    rw [next_cons h (hr q (by simp))]
    cases fuel with
    | zero => simp at hf
    | succ fuel =>
      exact ih fuel q h.2.2 (by simpa using hf) (fun x hx => hr x (List.mem_cons_of_mem _ hx))

theorem prevFrom_eq {t : Tab V} (x : Nat) (l2 : List Nat) (l1 : List Nat) : ∀ (fuel p : Nat),
    Linked t.off p (l1 ++ x :: l2) → l1.length ≤ fuel → (∀ y ∈ l1 ++ x :: l2, y < t.total) → x ∉ l1 →
    prevFrom t x fuel p = .ok (lastOf p l1) := by
  induction l1 with
  | nil =>
    intro fuel p h hf hr hx
    unfold prevFrom
    rw [next_cons h (hr x (by simp))]
    simp [bind, Except.bind, pure, Except.pure, lastOf]
  | cons q l1 ih =>
    intro fuel p h hf hr hx
    unfold prevFrom
    rw [List.cons_append] at h
    rw [next_cons h (hr q (by simp))]
    have hne : q ≠ x := by rintro rfl; simp at hx
    cases fuel with
    | zero => simp at hf
    | succ fuel =>
      simp only [bind, Except.bind, if_neg hne]
      exact ih fuel q h.2.2 (by simpa using hf) (fun y hy => hr y (List.mem_cons_of_mem _ hy))
        (fun hy => hx (List.mem_cons_of_mem _ hy))

theorem bucketSizeFrom_eq {t : Tab V} (l : List Nat) : ∀ (fuel p : Nat), Linked t.off p l →
    l.length ≤ fuel → (∀ x ∈ l, x < t.total) → bucketSizeFrom t fuel p = .ok ((p :: l).countP t.occ) := by
  induction l with
  | nil =>
    intro fuel p h hf hr
    unfold bucketSizeFrom
    simp [next_nil h, bind, Except.bind, pure, Except.pure, List.countP_cons]
  | cons q l ih =>
    intro fuel p h hf hr
    unfold bucketSizeFrom
    rw [next_cons h (hr q (by simp))]
    cases fuel with
    | zero => simp at hf
    | succ fuel =>
      have := ih fuel q h.2.2 (by simpa using hf) (fun x hx => hr x (List.mem_cons_of_mem _ hx))
      simp only [bind, Except.bind, this, pure, Except.pure]
      rw [List.countP_cons (a := p), Nat.add_comm]

theorem visitFrom_eq {t : Tab V} (l : List Nat) : ∀ (fuel p : Nat) (flags : Nat → Nat), Linked t.off p l →
    l.length ≤ fuel → (∀ x ∈ l, x < t.total) → l.Nodup → (∀ x ∈ l, flags x = 0) →
    visitFrom t fuel p flags = .ok (fun q => if q ∈ l then 1 else flags q) := by
  induction l with
  | nil =>
    intro fuel p flags h hf hr hnd h0
    unfold visitFrom
    simp [next_nil h, bind, Except.bind, pure, Except.pure]
  | cons q l ih =>
    intro fuel p flags h hf hr hnd h0
    unfold visitFrom
    rw [next_cons h (hr q (by simp))]
    obtain ⟨hq, hnd'⟩ := List.nodup_cons.1 hnd
    cases fuel with
    | zero => simp at hf
    | succ fuel =>
      have e : upd flags q (flags q + 1) q = 1 := by simp [upd, h0 q (by simp)]
      have := ih fuel q (upd flags q (flags q + 1)) h.2.2 (by simpa using hf)
        (fun x hx => hr x (List.mem_cons_of_mem _ hx)) hnd' (by
          intro x hx
          have : x ≠ q := by rintro rfl; exact hq hx
          simp [upd, this, h0 x (List.mem_cons_of_mem _ hx)])
      simp only [bind, Except.bind, e, this]
      rw [if_neg (by omega)]
      congr 1
      funext y
      by_cases hy : y ∈ l
      · simp [hy]
      · by_cases hyq : y = q
        · subst hyq; simp [hy, upd, h0 y (by simp)]
        · simp [hy, hyq, upd]

end Stdgpu.Unordered
