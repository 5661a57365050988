import Verif.Spec.Lists
import Verif.Proof.SlotConc
import Mathlib.Data.List.Perm.Basic
/-! Refinement of the sequential vector to lists. -/
namespace Stdgpu.Vector
open Stdgpu.SlotConc Stdgpu.Spec

variable {α : Type}

theorem size_eq {v : Vec α} {l : List α} (h : Holds v l) : size v = l.length := by
  have h1 := h.len
  have h2 := h.ctr
  unfold size clampSize
  rw [if_neg (by omega), if_neg (by omega), h2]

theorem countBits_lt (cap n : Nat) (h : n ≤ cap) (f : Nat → Bool) (hf : ∀ p, p < cap → f p = decide (p < n)) :
    countBits cap f = n := by
  unfold countBits
  have : (List.range cap).countP f = (List.range cap).countP (fun p => decide (p < n)) := by
    apply List.countP_congr
    intro p hp
    rw [hf p (List.mem_range.1 hp)]
  rw [this]
  clear this hf
  induction cap with
  | zero => simp; omega
  | succ k ih =>
    rw [List.range_succ, List.countP_append]
    by_cases hk : n ≤ k
    · rw [ih hk]; simp; omega
    · have : n = k + 1 := by omega
      subst this
      have : (List.range k).countP (fun p => decide (p < k + 1)) = k := by
        rw [List.countP_eq_length.2]
        · simp
        · intro a ha; have := List.mem_range.1 ha; simp; omega
      rw [this]; simp

theorem countBits_zero (cap : Nat) (f : Nat → Bool) (hf : ∀ p, p < cap → f p = false) : countBits cap f = 0 :=
  countBits_lt cap 0 (by omega) f (by intro p hp; simp [hf p hp])

theorem valid_of_holds {v : Vec α} {l : List α} (h : Holds v l) : valid v = true := by
  unfold valid
  split
  · rfl
  · rw [countBits_lt _ _ h.len _ h.occ, countBits_zero _ _ h.locks, size_eq h]
    have := h.len
    have := h.ctr
    simp; omega

theorem create_holds (c : Nat) : Holds (create c : Vec α) [] := by
  constructor <;> simp [create]

theorem push_holds {v : Vec α} {l : List α} (h : Holds v l) (x : α) :
    ∃ v', pushBack v x = .ok ((if l.length < cap v then true else false), v') ∧ cap v' = cap v ∧
      Holds v' (if l.length < cap v then l ++ [x] else l) := by
  have hs := size_eq h
  by_cases hl : l.length < cap v
  · simp only [if_pos hl]
    have hf : full v = false := by simp only [full, hs]; simp; omega
    have hc := h.ctr
    have hpos : 0 ≤ v.ctr ∧ v.ctr < cap v := by omega
    have htn : v.ctr.toNat = l.length := by omega
    refine ⟨{ slots := { v.slots with data := upd v.slots.data l.length (some x), occ := upd v.slots.occ l.length true }, ctr := v.ctr + 1 }, ?_, ?_, ?_⟩
    · simp only [pushBack, hf, Bool.false_eq_true, if_false, if_pos hpos, slotPush, htn]
      have a1 := h.locks l.length hl
      have a2 := h.occ l.length hl
      have a3 := h.data l.length hl
      have a4 : ¬ v.slots.cap ≤ l.length := by simp only [cap] at hl; omega
      simp only [a1, a2, a3, a4]
      simp
    · rfl
    · refine ⟨?_, ?_, ?_, ?_, h.err, ?_⟩
      · simp [cap] at hl ⊢; omega
      · simp [hc]
      · intro p hp; exact h.locks p hp
      · intro p hp
        simp only [upd]
        by_cases hp' : p = l.length
        · simp [hp']
        · simp only [hp', if_false]
          rw [h.occ p hp]; simp; omega
      · intro p hp
        simp only [upd]
        by_cases hp' : p = l.length
        · simp [hp']
        · simp only [hp', if_false]
          rw [h.data p hp]
          by_cases hlt : p < l.length
          · rw [List.getElem?_append_left hlt]
          · rw [List.getElem?_eq_none (by omega), List.getElem?_eq_none (by simp; omega)]
  · simp only [if_neg hl]
    have hle := h.len
    have hf : full v = true := by simp only [full, hs]; simp; omega
    exact ⟨v, by simp [pushBack, hf], rfl, h⟩

theorem pop_holds {v : Vec α} {l : List α} (h : Holds v l) :
    ∃ v', popBack v = .ok (l.getLast?, v') ∧ cap v' = cap v ∧ Holds v' l.dropLast := by
  have hs := size_eq h
  rcases List.eq_nil_or_concat l with rfl | ⟨l0, x, rfl⟩
  · have he : empty v = true := by simp only [empty, hs]; simp
    exact ⟨v, by simp [popBack, he], rfl, h⟩
  · have hlen := h.len
    simp only [List.concat_eq_append] at *
    simp only [List.length_append, List.length_singleton] at hlen hs
    have he : empty v = false := by simp only [empty, hs]; simp; omega
    have hc := h.ctr
    simp only [List.length_append, List.length_singleton] at hc
    have hpos : 0 ≤ v.ctr - 1 ∧ v.ctr - 1 < cap v := by omega
    have htn : (v.ctr - 1).toNat = l0.length := by omega
    have hlt : l0.length < cap v := by omega
    refine ⟨{ slots := { v.slots with data := upd v.slots.data l0.length none, occ := upd v.slots.occ l0.length false }, ctr := v.ctr - 1 }, ?_, ?_, ?_⟩
    · simp only [popBack, he, Bool.false_eq_true, if_false, if_pos hpos, slotPop, htn]
      have a1 := h.locks l0.length hlt
      have a2 := h.occ l0.length hlt
      have a3 := h.data l0.length hlt
      have a4 : ¬ v.slots.cap ≤ l0.length := by simp only [cap] at hlt; omega
      simp only [a1, a2, a3, a4]
      simp
    · rfl
    · simp only [List.dropLast_concat]
      refine ⟨?_, ?_, ?_, ?_, h.err, ?_⟩
      · simp only [cap] at hlt ⊢; omega
      · simp only; omega
      · intro p hp; exact h.locks p hp
      · intro p hp
        simp only [upd]
        by_cases hp' : p = l0.length
        · simp [hp']
        · simp only [hp', if_false]
          rw [h.occ p hp]; simp; omega
      · intro p hp
        simp only [upd]
        by_cases hp' : p = l0.length
        · simp [hp']
        · simp only [hp', if_false]
          rw [h.data p hp]
          by_cases hlt : p < l0.length
          · rw [List.getElem?_append_left hlt]
          · rw [List.getElem?_eq_none (by simp; omega), List.getElem?_eq_none (by omega)]

theorem insert_loop (xs : List α) (b : Nat) (order : List Nat) (hnd : order.Nodup) :
    ∀ (s : Slots α), (∀ i ∈ order, i < xs.length ∧ b + i < s.cap ∧ s.data (b + i) = none) →
    ∃ s', order.foldlM (fun s i => insertAt s (b : Int) xs i) s = .ok s' ∧ s'.cap = s.cap ∧ s'.locks = s.locks ∧ s'.err = s.err ∧
      ∀ q, (s'.data q = if b ≤ q ∧ q - b ∈ order then xs[q - b]? else s.data q) ∧
        (s'.occ q = if b ≤ q ∧ q - b ∈ order then true else s.occ q) := by
  induction order with
  | nil => intro s _; exact ⟨s, rfl, rfl, rfl, rfl, by simp⟩
  | cons i order ih =>
    intro s hs
    obtain ⟨h1, h2, h3⟩ := hs i (by simp)
    have hnd' := List.nodup_cons.1 hnd
    have e1 : insertAt s (b : Int) xs i = .ok { s with data := upd s.data (b + i) (some xs[i]), occ := upd s.occ (b + i) true } := by
      have hx : xs[i]? = some xs[i] := List.getElem?_eq_getElem h1
      have hq : ((b : Int) + (i : Int)).toNat = b + i := by omega
      have hb : ¬ ((b : Int) + (i : Int) < 0 ∨ (s.cap : Int) ≤ (b : Int) + (i : Int)) := by omega
      simp only [insertAt, hx, hq, hb, h3]; rfl
    obtain ⟨s', f1, f2, f3, fe, f4⟩ := ih hnd'.2
      { s with data := upd s.data (b + i) (some xs[i]), occ := upd s.occ (b + i) true } (by
        intro j hj
        obtain ⟨g1, g2, g3⟩ := hs j (by simp [hj])
        refine ⟨g1, g2, ?_⟩
        have : ¬ (b + j = b + i) := fun e => hnd'.1 ((by omega : j = i) ▸ hj)
        simp only [upd, if_neg this, g3])
    refine ⟨s', ?_, f2, f3, fe, ?_⟩
    · rw [List.foldlM_cons, e1]; exact f1
    · intro q
      obtain ⟨k1, k2⟩ := f4 q
      rw [k1, k2]
      by_cases hc : b ≤ q ∧ q - b ∈ order
      · have : b ≤ q ∧ q - b ∈ i :: order := ⟨hc.1, by simp [hc.2]⟩
        simp [hc, this]
      · simp only [hc, if_false, upd]
        by_cases hq : q = b + i
        · subst hq
          have hx : xs[i]? = some xs[i] := List.getElem?_eq_getElem h1
          simp [hx]
        · have hn : ¬ (b ≤ q ∧ q - b ∈ i :: order) := by
            rintro ⟨x1, x2⟩
            rcases List.mem_cons.1 x2 with x2 | x2
            · exact hq (by omega)
            · exact hc ⟨x1, x2⟩
          simp only [if_neg hq, if_neg hn, and_self]

theorem erase_loop (b : Nat) (order : List Nat) (hnd : order.Nodup) :
    ∀ (s : Slots α), (∀ i ∈ order, b + i < s.cap ∧ (s.data (b + i)).isSome) →
    ∃ s', order.foldlM (fun s i => eraseAt s (b : Int) i) s = .ok s' ∧ s'.cap = s.cap ∧ s'.locks = s.locks ∧ s'.err = s.err ∧
      ∀ q, (s'.data q = if b ≤ q ∧ q - b ∈ order then none else s.data q) ∧
        (s'.occ q = if b ≤ q ∧ q - b ∈ order then false else s.occ q) := by
  induction order with
  | nil => intro s _; exact ⟨s, rfl, rfl, rfl, rfl, by simp⟩
  | cons i order ih =>
    intro s hs
    obtain ⟨h2, h3⟩ := hs i (by simp)
    have hnd' := List.nodup_cons.1 hnd
    have e1 : eraseAt s (b : Int) i = .ok { s with data := upd s.data (b + i) none, occ := upd s.occ (b + i) false } := by
      have hq : ((b : Int) + (i : Int)).toNat = b + i := by omega
      have hb : ¬ ((b : Int) + (i : Int) < 0 ∨ (s.cap : Int) ≤ (b : Int) + (i : Int)) := by omega
      have h3' : (s.data (b + i)).isNone = false := by
        cases hd : s.data (b + i) with
        | none => rw [hd] at h3; simp at h3
        | some v => rfl
      simp only [eraseAt, hq, hb, h3']; rfl
    obtain ⟨s', f1, f2, f3, fe, f4⟩ := ih hnd'.2
      { s with data := upd s.data (b + i) none, occ := upd s.occ (b + i) false } (by
        intro j hj
        obtain ⟨g2, g3⟩ := hs j (by simp [hj])
        refine ⟨g2, ?_⟩
        have : ¬ (b + j = b + i) := fun e => hnd'.1 ((by omega : j = i) ▸ hj)
        simp only [upd, if_neg this, g3])
    refine ⟨s', ?_, f2, f3, fe, ?_⟩
    · rw [List.foldlM_cons, e1]; exact f1
    · intro q
      obtain ⟨k1, k2⟩ := f4 q
      rw [k1, k2]
      by_cases hc : b ≤ q ∧ q - b ∈ order
      · have : b ≤ q ∧ q - b ∈ i :: order := ⟨hc.1, by simp [hc.2]⟩
        simp [hc, this]
      · simp only [hc, if_false, upd]
        by_cases hq : q = b + i
        · subst hq; simp
        · have hn : ¬ (b ≤ q ∧ q - b ∈ i :: order) := by
            rintro ⟨x1, x2⟩
            rcases List.mem_cons.1 x2 with x2 | x2
            · exact hq (by omega)
            · exact hc ⟨x1, x2⟩
          simp only [if_neg hq, if_neg hn, and_self]

theorem destroy_loop (b : Nat) (order : List Nat) (hnd : order.Nodup) :
    ∀ (s : Slots α), (∀ i ∈ order, b + i < s.cap ∧ (s.data (b + i)).isSome) →
    ∃ s', order.foldlM (fun s i => destroyAt s (b : Int) i) s = .ok s' ∧ s'.cap = s.cap ∧ s'.locks = s.locks ∧
      s'.occ = s.occ ∧ s'.err = s.err ∧
      ∀ q, (s'.data q = if b ≤ q ∧ q - b ∈ order then none else s.data q) := by
  induction order with
  | nil => intro s _; exact ⟨s, rfl, rfl, rfl, rfl, rfl, by simp⟩
  | cons i order ih =>
    intro s hs
    obtain ⟨h2, h3⟩ := hs i (by simp)
    have hnd' := List.nodup_cons.1 hnd
    have e1 : destroyAt s (b : Int) i = .ok { s with data := upd s.data (b + i) none } := by
      have hq : ((b : Int) + (i : Int)).toNat = b + i := by omega
      have hb : ¬ ((b : Int) + (i : Int) < 0 ∨ (s.cap : Int) ≤ (b : Int) + (i : Int)) := by omega
      have h3' : (s.data (b + i)).isNone = false := by
        cases hd : s.data (b + i) with
        | none => rw [hd] at h3; simp at h3
        | some v => rfl
      simp only [destroyAt, hq, hb, h3']; rfl
    obtain ⟨s', f1, f2, f3, f4, f5, f6⟩ := ih hnd'.2
      { s with data := upd s.data (b + i) none } (by
        intro j hj
        obtain ⟨g2, g3⟩ := hs j (by simp [hj])
        refine ⟨g2, ?_⟩
        have : ¬ (b + j = b + i) := fun e => hnd'.1 ((by omega : j = i) ▸ hj)
        simp only [upd, if_neg this, g3])
    refine ⟨s', ?_, f2, f3, f4, f5, ?_⟩
    · rw [List.foldlM_cons, e1]; exact f1
    · intro q
      rw [f6 q]
      by_cases hc : b ≤ q ∧ q - b ∈ order
      · have : b ≤ q ∧ q - b ∈ i :: order := ⟨hc.1, by simp [hc.2]⟩
        simp [hc, this]
      · simp only [hc, if_false, upd]
        by_cases hq : q = b + i
        · subst hq; simp
        · have hn : ¬ (b ≤ q ∧ q - b ∈ i :: order) := by
            rintro ⟨x1, x2⟩
            rcases List.mem_cons.1 x2 with x2 | x2
            · exact hq (by omega)
            · exact hc ⟨x1, x2⟩
          simp only [if_neg hq, if_neg hn, and_self]

def OrdOK (ord : Nat → List Nat) : Prop := ∀ n, (ord n).Perm (List.range n)

theorem OrdOK.mem {ord : Nat → List Nat} (h : OrdOK ord) (n i : Nat) : i ∈ ord n ↔ i < n := by
  rw [(h n).mem_iff, List.mem_range]

theorem OrdOK.nodup {ord : Nat → List Nat} (h : OrdOK ord) (n : Nat) : (ord n).Nodup :=
  (h n).nodup_iff.2 List.nodup_range

theorem insert_holds {v : Vec α} {l : List α} (h : Holds v l) {ord : Nat → List Nat} (ho : OrdOK ord)
    (pos : Int) (xs : List α) :
    ∃ v', insertRange (ord xs.length) v pos xs = .ok v' ∧ cap v' = cap v ∧
      Holds v' (if pos = l.length ∧ l.length + xs.length ≤ cap v then l ++ xs else l) := by
  have hs := size_eq h
  by_cases hp : pos = l.length
  · by_cases hc : l.length + xs.length ≤ cap v
    · have hn : ¬ ((l.length : Int) + xs.length > cap v) := by omega
      obtain ⟨s', f1, f2, f3, fe, f4⟩ := insert_loop xs l.length (ord xs.length) (ho.nodup _) v.slots (by
        intro i hi
        have := (ho.mem _ _).1 hi
        refine ⟨this, by simp only [cap] at hc; omega, ?_⟩
        rw [h.data _ (by omega)]; simp)
      refine ⟨{ slots := s', ctr := l.length + xs.length }, ?_, by simp [cap, f2], ?_⟩
      · simp only [insertRange, hs, hp, ne_eq, not_true, if_false, hn, f1]; rfl
      · rw [if_pos ⟨hp, hc⟩]
        refine ⟨?_, ?_, ?_, ?_, by simp only [fe]; exact h.err, ?_⟩
        · simp [cap, f2] at *; omega
        · simp
        · intro p hp; simp only [f3]; exact h.locks p (by simpa [cap, f2] using hp)
        · intro p hp'
          have hp : p < cap v := by simpa [cap, f2] using hp'
          simp only [(f4 p).2, ho.mem, h.occ p hp]
          by_cases hh : l.length ≤ p ∧ p - l.length < xs.length
          · simp only [hh]; simp; omega
          · simp only [hh, if_false]
            simp; omega
        · intro p hp'
          have hp : p < cap v := by simpa [cap, f2] using hp'
          simp only [(f4 p).1, ho.mem, h.data p hp]
          by_cases hh : l.length ≤ p ∧ p - l.length < xs.length
          · rw [if_pos hh, List.getElem?_append_right hh.1]
          · rw [if_neg hh]
            by_cases hlt : p < l.length
            · rw [List.getElem?_append_left hlt]
            · rw [List.getElem?_eq_none (by omega), List.getElem?_eq_none (by simp; omega)]
    · have hn : ((l.length : Int) + xs.length > cap v) := by omega
      refine ⟨v, ?_, rfl, ?_⟩
      · simp only [insertRange, hs, hp, ne_eq, not_true, if_false, hn, if_true]
      · rw [if_neg (fun hh => hc hh.2)]; exact h
  · refine ⟨v, ?_, rfl, ?_⟩
    · simp only [insertRange, hs, ne_eq, hp, not_false_eq_true, if_true]
    · rw [if_neg (fun hh => hp hh.1)]; exact h

theorem erase_holds {v : Vec α} {l : List α} (h : Holds v l) {ord : Nat → List Nat} (ho : OrdOK ord)
    (b e : Int) (hbe : b ≤ e) :
    ∃ v', eraseRange (ord (e - b).toNat) v b e = .ok v' ∧ cap v' = cap v ∧
      Holds v' (if e = l.length ∧ 0 ≤ b then l.take b.toNat else l) := by
  have hs := size_eq h
  by_cases he : e = l.length
  · by_cases hb : 0 ≤ b
    · have hN : (l.length : Int) - (e - b) = (b.toNat : Int) := by omega
      have hn : ¬ ((b.toNat : Int) < 0) := by omega
      have hlen := h.len
      obtain ⟨s', f1, f2, f3, fe, f4⟩ := erase_loop b.toNat (ord (e - b).toNat) (ho.nodup _) v.slots (by
        intro i hi
        have := (ho.mem _ _).1 hi
        have hlt : b.toNat + i < cap v := by omega
        refine ⟨hlt, ?_⟩
        rw [h.data _ hlt, List.getElem?_eq_getElem (by omega)]; simp)
      refine ⟨{ slots := s', ctr := b.toNat }, ?_, by simp [cap, f2], ?_⟩
      · simp only [eraseRange, hs, ne_eq, ← he, not_true, if_false]
        rw [he, show (l.length : Int) - (l.length - b) = (b.toNat : Int) by omega, if_neg hn]
        rw [he] at f1
        simp only [f1]; rfl
      · rw [if_pos ⟨he, hb⟩]
        refine ⟨?_, ?_, ?_, ?_, by simp only [fe]; exact h.err, ?_⟩
        · simp [cap, f2] at *; omega
        · simp; omega
        · intro p hp; simp only [f3]; exact h.locks p (by simpa [cap, f2] using hp)
        · intro p hp'
          have hp : p < cap v := by simpa [cap, f2] using hp'
          simp only [(f4 p).2, ho.mem, h.occ p hp]
          by_cases hh : b.toNat ≤ p ∧ p - b.toNat < (e - b).toNat
          · simp only [hh]; simp; omega
          · simp only [hh, if_false]
            simp; omega
        · intro p hp'
          have hp : p < cap v := by simpa [cap, f2] using hp'
          simp only [(f4 p).1, ho.mem, h.data p hp]
          by_cases hh : b.toNat ≤ p ∧ p - b.toNat < (e - b).toNat
          · rw [if_pos hh, List.getElem?_eq_none (by simp; omega)]
          · rw [if_neg hh]
            by_cases hlt : p < b.toNat
            · rw [List.getElem?_take_of_lt hlt]
            · rw [List.getElem?_eq_none (by omega), List.getElem?_eq_none (by simp; omega)]
    · refine ⟨v, ?_, rfl, ?_⟩
      · have hn : (l.length : Int) - (e - b) < 0 := by omega
        simp only [eraseRange, hs, ne_eq, he, not_true, if_false]
        rw [if_pos (by omega)]
      · rw [if_neg (fun hh => hb hh.2)]; exact h
  · refine ⟨v, ?_, rfl, ?_⟩
    · simp only [eraseRange, hs, ne_eq, he, not_false_eq_true, if_true]
    · rw [if_neg (fun hh => he hh.1)]; exact h

theorem clear_holds {v : Vec α} {l : List α} (h : Holds v l) {ord : Nat → List Nat} (ho : OrdOK ord) :
    ∃ v', clear (ord (size v).toNat) v = .ok v' ∧ cap v' = cap v ∧ Holds v' [] := by
  have hs := size_eq h
  by_cases hl : l = []
  · subst hl
    refine ⟨v, by simp [clear, empty, hs], rfl, h⟩
  · have he : empty v = false := by
      simp only [empty, hs]; simp [hl]
    have hlen := h.len
    obtain ⟨s', f1, f2, f3, f4, f5, f6⟩ := destroy_loop 0 (ord (size v).toNat) (ho.nodup _) v.slots (by
        intro i hi
        have := (ho.mem _ _).1 hi
        rw [hs] at this
        have hlt : i < cap v := by omega
        refine ⟨by rw [Nat.zero_add]; exact hlt, ?_⟩
        rw [Nat.zero_add, h.data _ hlt, List.getElem?_eq_getElem (by omega)]; simp)
    refine ⟨{ slots := { s' with occ := fun _ => false }, ctr := 0 }, ?_, by simp [cap, f2], ?_⟩
    · simp only [clear, he, Bool.false_eq_true, if_false]
      have f1' : (ord (size v).toNat).foldlM (fun s i => destroyAt s 0 i) v.slots = .ok s' := f1
      rw [f1']; rfl
    · refine ⟨by simp, by simp, ?_, by simp, by simp only [f5]; exact h.err, ?_⟩
      · intro p hp; simp only [f3]; exact h.locks p (by simpa [cap, f2] using hp)
      · intro p hp'
        have hp : p < cap v := by simpa [cap, f2] using hp'
        simp only [f6 p, ho.mem, h.data p hp, hs]
        by_cases hh : p < l.length
        · simp [hh]
        · rw [List.getElem?_eq_none (by omega)]; simp

theorem get_holds {v : Vec α} {l : List α} (h : Holds v l) (n : Nat) (hn : n < l.length) :
    get v n = l[n]? := by
  have := h.len
  simp only [get]
  rw [if_pos (by omega)]
  simpa using h.data n (by omega)

theorem deviceRange_holds {v : Vec α} {l : List α} (h : Holds v l) : deviceRange v = l.map some := by
  have hlen := h.len
  unfold deviceRange
  rw [size_eq h]
  apply List.ext_getElem?
  intro i
  simp only [Int.toNat_natCast, List.getElem?_map, List.getElem?_range]
  by_cases hi : i < l.length
  · simp [hi, List.getElem?_range, h.data i (by omega)]
  · rw [List.getElem?_eq_none (by simp; omega), List.getElem?_eq_none (by omega)]; rfl

theorem exec_refines {v : Vec α} {l : List α} (h : Holds v l) {ord : Nat → List Nat} (ho : OrdOK ord)
    (op : VOp α) (o : Out α) (l' : List α) (hs : vecExec (cap v) l op = some (o, l')) :
    ∃ v', exec ord v op = .ok (o, v') ∧ cap v' = cap v ∧ Holds v' l' := by
  have hsz := size_eq h
  cases op with
  | push x =>
    obtain ⟨v', e1, e2, e3⟩ := push_holds h x
    refine ⟨v', ?_, e2, ?_⟩
    · simp only [exec, e1]
      simp only [vecExec] at hs
      split at hs <;> simp at hs <;> obtain ⟨rfl, rfl⟩ := hs <;> simp_all <;> rfl
    · simp only [vecExec] at hs
      split at hs <;> simp at hs <;> obtain ⟨rfl, rfl⟩ := hs <;> simp_all
  | pop =>
    obtain ⟨v', e1, e2, e3⟩ := pop_holds h
    simp [vecExec] at hs
    obtain ⟨rfl, rfl⟩ := hs
    exact ⟨v', by simp only [exec, e1]; rfl, e2, e3⟩
  | insert pos xs =>
    obtain ⟨v', e1, e2, e3⟩ := insert_holds h ho pos xs
    refine ⟨v', ?_, e2, ?_⟩
    · simp only [exec, e1]
      simp only [vecExec] at hs
      split at hs <;> simp at hs <;> obtain ⟨rfl, rfl⟩ := hs <;> rfl
    · simp only [vecExec] at hs
      split at hs <;> simp at hs <;> obtain ⟨rfl, rfl⟩ := hs <;> simp_all
  | erase b e =>
    simp only [vecExec] at hs
    split at hs
    · simp at hs
    · obtain ⟨v', e1, e2, e3⟩ := erase_holds h ho b e (by omega)
      refine ⟨v', ?_, e2, ?_⟩
      · simp only [exec, e1]
        split at hs <;> simp at hs <;> obtain ⟨rfl, rfl⟩ := hs <;> rfl
      · split at hs <;> simp at hs <;> obtain ⟨rfl, rfl⟩ := hs <;> simp_all
  | clear =>
    obtain ⟨v', e1, e2, e3⟩ := clear_holds h ho
    simp [vecExec] at hs
    obtain ⟨rfl, rfl⟩ := hs
    exact ⟨v', by simp only [exec, e1]; rfl, e2, e3⟩
  | size =>
    simp [vecExec] at hs
    obtain ⟨rfl, rfl⟩ := hs
    exact ⟨v, by simp only [exec, hsz], rfl, h⟩
  | empty =>
    simp [vecExec] at hs
    obtain ⟨rfl, rfl⟩ := hs
    refine ⟨v, ?_, rfl, h⟩
    simp only [exec, empty, hsz]
    congr 3
    rw [Bool.eq_iff_iff]; simp
  | full =>
    simp [vecExec] at hs
    obtain ⟨rfl, rfl⟩ := hs
    refine ⟨v, ?_, rfl, h⟩
    simp only [exec, full, hsz]
    congr 3
    rw [Bool.eq_iff_iff]; simp only [beq_iff_eq]; omega
  | valid =>
    simp [vecExec] at hs
    obtain ⟨rfl, rfl⟩ := hs
    exact ⟨v, by simp only [exec, valid_of_holds h], rfl, h⟩
  | front =>
    simp only [vecExec, Option.map_eq_some_iff] at hs
    obtain ⟨x, hx, hs⟩ := hs
    simp at hs
    obtain ⟨rfl, rfl⟩ := hs
    have hl : 0 < l.length := by cases l <;> simp at hx ⊢
    have hg := get_holds h 0 hl
    refine ⟨v, ?_, rfl, h⟩
    have : front v = some x := by
      unfold front; rw [show (0 : Int) = ((0 : Nat) : Int) from rfl, hg, ← hx, List.head?_eq_getElem?]
    simp [exec, this, needVal]
  | back =>
    simp only [vecExec, Option.map_eq_some_iff] at hs
    obtain ⟨x, hx, hs⟩ := hs
    simp at hs
    obtain ⟨rfl, rfl⟩ := hs
    have hl : 0 < l.length := by cases l <;> simp at hx ⊢
    have hg := get_holds h (l.length - 1) (by omega)
    refine ⟨v, ?_, rfl, h⟩
    have : back v = some x := by
      unfold back
      rw [hsz, show ((l.length : Int) - 1) = ((l.length - 1 : Nat) : Int) by omega, hg, ← hx,
        List.getLast?_eq_getElem?]
    simp [exec, this, needVal]
  | get n =>
    simp only [vecExec] at hs
    split at hs
    · simp at hs
    · simp only [Option.map_eq_some_iff] at hs
      obtain ⟨x, hx, hs⟩ := hs
      simp at hs
      obtain ⟨rfl, rfl⟩ := hs
      have hl := (List.getElem?_eq_some_iff.1 hx).1
      have hg := get_holds h n.toNat hl
      refine ⟨v, ?_, rfl, h⟩
      have : get v n = some x := by
        rw [← hx, ← hg]; congr 1; omega
      simp [exec, this, needVal]
  | deviceRange =>
    simp [vecExec] at hs
    obtain ⟨rfl, rfl⟩ := hs
    refine ⟨v, ?_, rfl, h⟩
    simp [exec, needVals, deviceRange_holds h]

end Stdgpu.Vector
