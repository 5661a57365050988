import Verif.Spec.Deques
import Verif.Proof.Vector
import Mathlib.Data.List.Perm.Basic
/-! Refinement of the sequential deque to lists. -/
namespace Stdgpu.Deque
open Stdgpu.SlotConc Stdgpu.Spec
open Stdgpu.Vector (Fault clampSize slotPush slotPop destroyAt countBits Out)
open Stdgpu.Atomic (fetchIncMod fetchDecMod backendIncMod backendDecMod)

variable {α : Type}

theorem fetchIncMod_eq (v cap : Nat) (hv : v < cap) : fetchIncMod v cap = (v, if v + 1 = cap then 0 else v + 1) := by
  simp only [fetchIncMod, backendIncMod, Prod.mk.injEq, true_and]
  split <;> split <;> omega

theorem fetchDecMod_eq (v cap : Nat) (hv : v < cap) : fetchDecMod v cap = (v, if v = 0 then cap - 1 else v - 1) := by
  simp only [fetchDecMod, backendDecMod, Prod.mk.injEq, true_and]
  split <;> split <;> omega

theorem wrap_eq (b n cap : Nat) (hb : b < cap) (hn : n ≤ cap) :
    (b + n) % cap = if b + n < cap then b + n else b + n - cap := by
  split
  · exact Nat.mod_eq_of_lt (by omega)
  · rw [Nat.mod_eq_sub_mod (by omega), Nat.mod_eq_of_lt (by omega)]

theorem size_eq {d : Deq α} {l : List α} (h : Holds d l) : size d = l.length := by
  have h1 := h.len
  have h2 := h.size
  unfold size clampSize
  rw [if_neg (by omega), if_neg (by omega), h2]

theorem ringIdx_lt {cap b q : Nat} (hb : b < cap) (hq : q < cap) : ringIdx cap b q < cap := by
  unfold ringIdx; split <;> omega

/-- Slots in ring order. -/
theorem ringIdx_perm {cap b : Nat} (hb : b < cap) :
    ((List.range cap).map (ringIdx cap b)).Perm (List.range cap) := by
  have hnd : ((List.range cap).map (ringIdx cap b)).Nodup := by
    rw [List.nodup_map_iff_inj_on List.nodup_range]
    intro x hx y hy e
    have := List.mem_range.1 hx
    have := List.mem_range.1 hy
    unfold ringIdx at e
    split at e <;> split at e <;> omega
  have hsub : ((List.range cap).map (ringIdx cap b)) ⊆ List.range cap := by
    intro x hx
    rw [List.mem_map] at hx
    obtain ⟨q, hq, rfl⟩ := hx
    exact List.mem_range.2 (ringIdx_lt hb (List.mem_range.1 hq))
  exact (List.subperm_of_subset hnd hsub).perm_of_length_le (by simp)

theorem countBits_ring (cap b n : Nat) (hb : b < cap) (hn : n ≤ cap) (f : Nat → Bool)
    (hf : ∀ q, q < cap → f q = decide (ringIdx cap b q < n)) : countBits cap f = n := by
  have h1 : countBits cap f = ((List.range cap).map (ringIdx cap b)).countP (fun i => decide (i < n)) := by
    rw [List.countP_map]
    unfold countBits
    apply List.countP_congr
    intro q hq
    rw [hf q (List.mem_range.1 hq)]
    rfl
  rw [h1, (ringIdx_perm hb).countP_eq]
  exact Vector.countBits_lt cap n hn _ (fun p _ => rfl)

theorem valid_of_holds {d : Deq α} {l : List α} (h : Holds d l) : valid d = true := by
  have := h.pos
  unfold valid
  rw [if_neg (by omega)]
  rw [countBits_ring _ _ _ h.begin h.len _ h.occ, Vector.countBits_zero _ _ h.locks, size_eq h]
  have := h.len
  have := h.size
  simp; omega

theorem create_holds (c : Nat) (hc : 0 < c) : Holds (create c : Deq α) [] := by
  constructor <;> simp [create, cap, hc]

theorem holds_of (c b e : Nat) (sz : Int) (locks occ : Nat → Bool) (data : Nat → Option α) (err : Bool) (l : List α)
    (h1 : 0 < c) (h2 : l.length ≤ c) (h3 : sz = l.length) (h4 : b < c)
    (h5 : e = if b + l.length < c then b + l.length else b + l.length - c)
    (h6 : ∀ q, q < c → locks q = false) (h7 : ∀ q, q < c → occ q = decide (ringIdx c b q < l.length))
    (h8 : err = false) (h9 : ∀ q, q < c → data q = l[ringIdx c b q]?) :
    Holds ({ slots := { cap := c, locks := locks, occ := occ, data := data, err := err },
             ctr := { size := sz, begin := b, endd := e } } : Deq α) l :=
  ⟨h1, h2, h3, h4, by show e = (b + l.length) % c; rw [wrap_eq _ _ _ h4 h2]; exact h5, h6, h7, h8, h9⟩

theorem push_holds {d : Deq α} {l : List α} (h : Holds d l) (side : Side) (x : α) :
    ∃ d', push side d x = .ok (decide (l.length < cap d), d') ∧ cap d' = cap d ∧
      Holds d' (if l.length < cap d then (match side with | .back => l ++ [x] | .front => x :: l) else l) := by
  have hs := size_eq h
  have hb := h.begin
  have hsz := h.size
  have hpos := h.pos
  have hend := h.endd
  rw [wrap_eq _ _ _ hb h.len] at hend
  have hlen := h.len
  by_cases hl : l.length < cap d
  · simp only [hl, if_true, decide_true]
    have hf : full d = false := by simp only [full, hs]; simp; omega
    have hcur : d.ctr.size < cap d := by omega
    cases side with
    | back =>
      have hel : d.ctr.endd < cap d := by split at hend <;> omega
      have hidx : ringIdx (cap d) d.ctr.begin d.ctr.endd = l.length := by
        unfold ringIdx; split at hend <;> split <;> omega
      have a1 := h.locks _ hel
      have a2 := h.occ _ hel
      have a3 := h.data _ hel
      rw [hidx] at a2 a3
      have a4 : ¬ d.slots.cap ≤ d.ctr.endd := by simp only [cap] at hel; omega
      refine ⟨{ slots := { d.slots with data := upd d.slots.data d.ctr.endd (some x),
                                        occ := upd d.slots.occ d.ctr.endd true },
                ctr := { size := d.ctr.size + 1, begin := d.ctr.begin,
                         endd := if d.ctr.endd + 1 = cap d then 0 else d.ctr.endd + 1 } }, ?_, rfl, ?_⟩
      · simp only [push, hf, Bool.false_eq_true, if_false, if_pos hcur, position, if_true]
        rw [fetchIncMod_eq _ _ hel]
        simp [slotPush, a1, a2, a3, a4]
      · refine holds_of (cap d) _ _ _ _ _ _ _ _ hpos ?_ ?_ hb ?_ h.locks ?_ h.err ?_
        · simp; omega
        · simp [hsz]
        · simp only [List.length_append, List.length_singleton]
          split at hend <;> split <;> split <;> omega
        · intro q hq
          simp only [upd]
          by_cases hq' : q = d.ctr.endd
          · subst hq'
            have : ringIdx (cap d) d.ctr.begin d.ctr.endd < (l ++ [x]).length := by simp [hidx]
            simp only [if_true]
            exact (decide_eq_true this).symm
          · have hne : ringIdx (cap d) d.ctr.begin q ≠ l.length := by
              unfold ringIdx; split at hend <;> split <;> omega
            simp only [hq', if_false, h.occ q hq, List.length_append, List.length_singleton, decide_eq_decide]
            omega
        · intro q hq
          simp only [upd]
          by_cases hq' : q = d.ctr.endd
          · subst hq'
            simp only [if_true]
            rw [hidx]; simp
          · have hne : ringIdx (cap d) d.ctr.begin q ≠ l.length := by
              unfold ringIdx; split at hend <;> split <;> omega
            simp only [hq', if_false, h.data q hq]
            by_cases hlt : ringIdx (cap d) d.ctr.begin q < l.length
            · rw [List.getElem?_append_left hlt]
            · rw [List.getElem?_eq_none (by omega), List.getElem?_eq_none (by simp; omega)]
    | front =>
      obtain ⟨p, hp⟩ : ∃ p, p = if d.ctr.begin = 0 then cap d - 1 else d.ctr.begin - 1 := ⟨_, rfl⟩
      have hel : p < cap d := by split at hp <;> omega
      have hidx : ringIdx (cap d) d.ctr.begin p = cap d - 1 := by
        unfold ringIdx; split at hp <;> split <;> omega
      have a1 := h.locks _ hel
      have a2 := h.occ _ hel
      have a3 := h.data _ hel
      rw [hidx] at a2 a3
      rw [List.getElem?_eq_none (by omega)] at a3
      have a2' : d.slots.occ p = false := by rw [a2]; simp; omega
      have a4 : ¬ d.slots.cap ≤ p := by simp only [cap] at hel; omega
      have hidx' : ∀ q, q < cap d → ringIdx (cap d) p q = if q = p then 0 else ringIdx (cap d) d.ctr.begin q + 1 := by
        intro q hq; unfold ringIdx; split at hp <;> split <;> split <;> (try split) <;> omega
      refine ⟨{ slots := { d.slots with data := upd d.slots.data p (some x),
                                        occ := upd d.slots.occ p true },
                ctr := { size := d.ctr.size + 1, begin := p, endd := d.ctr.endd } }, ?_, rfl, ?_⟩
      · simp only [push, hf, Bool.false_eq_true, if_false, if_pos hcur, position, if_true]
        rw [fetchDecMod_eq _ _ hb]
        simp only [← hp]
        simp [slotPush, a1, a2', a3, a4]
      · refine holds_of (cap d) _ _ _ _ _ _ _ _ hpos ?_ ?_ hel ?_ h.locks ?_ h.err ?_
        · simp; omega
        · simp [hsz]
        · simp only [List.length_cons]
          split at hend <;> split at hp <;> split <;> omega
        · intro q hq
          simp only [upd, hidx' q hq]
          by_cases hq' : q = p
          · simp [hq']
          · simp [hq', h.occ q hq]
        · intro q hq
          simp only [upd, hidx' q hq]
          by_cases hq' : q = p
          · simp [hq']
          · simp [hq', h.data q hq]
  · simp only [hl, if_false, decide_false]
    have hf : full d = true := by simp only [full, hs]; simp; omega
    exact ⟨d, by simp [push, hf], rfl, h⟩

theorem pop_holds {d : Deq α} {l : List α} (h : Holds d l) (side : Side) :
    ∃ d', pop side d = .ok ((match side with | .back => l.getLast? | .front => l.head?), d') ∧ cap d' = cap d ∧
      Holds d' (match side with | .back => l.dropLast | .front => l.tail) := by
  have hs := size_eq h
  have hb := h.begin
  have hsz := h.size
  have hpos := h.pos
  have hend := h.endd
  rw [wrap_eq _ _ _ hb h.len] at hend
  have hlen := h.len
  by_cases hl : l = []
  · subst hl
    have he : empty d = true := by simp only [empty, hs]; simp
    cases side <;> exact ⟨d, by simp [pop, he], rfl, h⟩
  · have hl0 : 0 < l.length := List.length_pos_iff.2 hl
    have he : empty d = false := by simp only [empty, hs]; simp [hl]
    have hcur : d.ctr.size > 0 := by omega
    cases side with
    | back =>
      obtain ⟨p, hp⟩ : ∃ p, p = if d.ctr.endd = 0 then cap d - 1 else d.ctr.endd - 1 := ⟨_, rfl⟩
      have hed : d.ctr.endd < cap d := by split at hend <;> omega
      have hel : p < cap d := by split at hp <;> omega
      have hidx : ringIdx (cap d) d.ctr.begin p = l.length - 1 := by
        unfold ringIdx; split at hend <;> split at hp <;> split <;> omega
      have a1 := h.locks _ hel
      have a2 := h.occ _ hel
      have a3 := h.data _ hel
      rw [hidx] at a2 a3
      have a2' : d.slots.occ p = true := by rw [a2]; simp; omega
      have a4 : ¬ d.slots.cap ≤ p := by simp only [cap] at hel; omega
      have a3' : d.slots.data p = some (l.getLast hl) := by
        rw [a3, ← List.getLast?_eq_getElem?, List.getLast?_eq_some_getLast hl]
      refine ⟨{ slots := { d.slots with data := upd d.slots.data p none,
                                        occ := upd d.slots.occ p false },
                ctr := { size := d.ctr.size - 1, begin := d.ctr.begin, endd := p } }, ?_, rfl, ?_⟩
      · simp only [pop, he, Bool.false_eq_true, if_false, if_pos hcur, position]
        rw [fetchDecMod_eq _ _ hed]
        simp only [← hp]
        simp [slotPop, a1, a2', a3', a4, List.getLast?_eq_some_getLast hl]
      · have hne : ∀ q, q < cap d → q ≠ p → ringIdx (cap d) d.ctr.begin q ≠ l.length - 1 := by
          intro q hq hqp
          unfold ringIdx at hidx ⊢; split at hidx <;> split <;> omega
        refine holds_of (cap d) _ _ _ _ _ _ _ _ hpos ?_ ?_ hb ?_ h.locks ?_ h.err ?_
        · simp; omega
        · simp [hsz]; omega
        · simp only [List.length_dropLast]
          split at hend <;> split at hp <;> split <;> omega
        · intro q hq
          simp only [upd]
          by_cases hq' : q = p
          · subst hq'; simp [hidx]
          · have := hne q hq hq'
            simp only [hq', if_false, h.occ q hq, List.length_dropLast, decide_eq_decide]
            omega
        · intro q hq
          simp only [upd]
          by_cases hq' : q = p
          · subst hq'; simp [hidx]
          · have := hne q hq hq'
            simp only [hq', if_false, h.data q hq]
            rw [List.getElem?_dropLast]
            by_cases hlt : ringIdx (cap d) d.ctr.begin q < l.length - 1
            · rw [if_pos hlt]
            · rw [if_neg hlt, List.getElem?_eq_none (by omega)]
    | front =>
      obtain ⟨y, l0, rfl⟩ := List.exists_cons_of_ne_nil hl
      simp only [List.length_cons] at *
      have hidx : ringIdx (cap d) d.ctr.begin d.ctr.begin = 0 := by simp [ringIdx]
      have a1 := h.locks _ hb
      have a2 := h.occ _ hb
      have a3 := h.data _ hb
      rw [hidx] at a2 a3
      have a2' : d.slots.occ d.ctr.begin = true := by rw [a2]; simp
      have a3' : d.slots.data d.ctr.begin = some y := by rw [a3]; simp
      have a4 : ¬ d.slots.cap ≤ d.ctr.begin := by simp only [cap] at hb; omega
      obtain ⟨p, hp⟩ : ∃ p, p = if d.ctr.begin + 1 = cap d then 0 else d.ctr.begin + 1 := ⟨_, rfl⟩
      have hel : p < cap d := by split at hp <;> omega
      have hidx' : ∀ q, q < cap d → (q = d.ctr.begin ∧ ringIdx (cap d) p q = cap d - 1) ∨
          (q ≠ d.ctr.begin ∧ ringIdx (cap d) d.ctr.begin q = ringIdx (cap d) p q + 1) := by
        intro q hq; unfold ringIdx; split at hp <;> split <;> (try split) <;> omega
      refine ⟨{ slots := { d.slots with data := upd d.slots.data d.ctr.begin none,
                                        occ := upd d.slots.occ d.ctr.begin false },
                ctr := { size := d.ctr.size - 1, begin := p, endd := d.ctr.endd } }, ?_, rfl, ?_⟩
      · simp only [pop, he, Bool.false_eq_true, if_false, if_pos hcur, position]
        rw [fetchIncMod_eq _ _ hb]
        simp only [← hp]
        simp [slotPop, a1, a2', a3', a4]
      · simp only [List.tail_cons]
        refine holds_of (cap d) _ _ _ _ _ _ _ _ hpos ?_ ?_ hel ?_ h.locks ?_ h.err ?_
        · omega
        · omega
        · split at hend <;> split at hp <;> split <;> omega
        · intro q hq
          have ho := h.occ q hq
          rcases hidx' q hq with ⟨e1, e2⟩ | ⟨e1, e2⟩
          · simp only [upd, e1, if_true]
            rw [← e1, e2]; simp; omega
          · simp only [upd, e1, if_false]
            rw [ho, e2]; simp
        · intro q hq
          have ho := h.data q hq
          rcases hidx' q hq with ⟨e1, e2⟩ | ⟨e1, e2⟩
          · simp only [upd, e1, if_true]
            rw [← e1, e2, List.getElem?_eq_none (by omega)]
          · simp only [upd, e1, if_false]
            rw [ho, e2]; simp

theorem get_holds {d : Deq α} {l : List α} (h : Holds d l) (n : Nat) (hn : n < l.length) : get d n = l[n]? := by
  have hb := h.begin
  have hlen := h.len
  have e : (((d.ctr.begin : Int) + (n : Int)).tmod (cap d : Int)) = (((d.ctr.begin + n) % cap d : Nat) : Int) := by
    rw [← Int.natCast_add, Int.ofNat_tmod]
  simp only [get, e]
  have hlt : (d.ctr.begin + n) % cap d < cap d := Nat.mod_lt _ h.pos
  rw [if_pos (by omega)]
  have : ringIdx (cap d) d.ctr.begin ((d.ctr.begin + n) % cap d) = n := by
    rw [wrap_eq _ _ _ hb (by omega)]; unfold ringIdx; split <;> split <;> omega
  rw [Int.toNat_natCast, h.data _ hlt, this]

/-! ### `clear` and `device_range` -/

/-- Every parallel loop of one operation enumerates its indices in some order. -/
def OrdOK (ord : Nat → Nat → List Nat) : Prop := ∀ k n, (ord k n).Perm (List.range n)

theorem OrdOK.mem {ord : Nat → Nat → List Nat} (h : OrdOK ord) (k n i : Nat) : i ∈ ord k n ↔ i < n := by
  rw [(h k n).mem_iff, List.mem_range]

theorem OrdOK.nodup {ord : Nat → Nat → List Nat} (h : OrdOK ord) (k n : Nat) : (ord k n).Nodup :=
  (h k n).nodup_iff.2 List.nodup_range

def inBlock (b : Nat × Nat) (q : Nat) : Prop := b.1 ≤ q ∧ q < b.1 + b.2

theorem blocks_loop {ord : Nat → Nat → List Nat} (ho : OrdOK ord) (bs : List ((Nat × Nat) × Nat))
    (hd : bs.Pairwise (fun a b => ∀ q, ¬ (inBlock a.1 q ∧ inBlock b.1 q))) : ∀ (s : Slots α),
    (∀ b ∈ bs, ∀ q, inBlock b.1 q → q < s.cap ∧ (s.data q).isSome) →
    ∃ s', bs.foldlM (fun s (b : (Nat × Nat) × Nat) =>
        (ord b.2 b.1.2).foldlM (fun s i => destroyAt s (b.1.1 : Int) i) s) s = .ok s' ∧
      s'.cap = s.cap ∧ s'.locks = s.locks ∧ s'.err = s.err ∧
      ∀ q, ((∃ b ∈ bs, inBlock b.1 q) → s'.data q = none) ∧ ((¬ ∃ b ∈ bs, inBlock b.1 q) → s'.data q = s.data q) := by
  induction bs with
  | nil => intro s _; exact ⟨s, rfl, rfl, rfl, rfl, by simp⟩
  | cons b bs ih =>
    intro s hs
    have hd' := List.pairwise_cons.1 hd
    obtain ⟨s1, e1, e2, e3, e4, e5, e6⟩ := Vector.destroy_loop b.1.1 (ord b.2 b.1.2) (ho.nodup _ _) s (by
      intro i hi
      have := (ho.mem _ _ _).1 hi
      exact hs b (by simp) _ ⟨by omega, by omega⟩)
    have e6' : ∀ q, (inBlock b.1 q → s1.data q = none) ∧ (¬ inBlock b.1 q → s1.data q = s.data q) := by
      intro q
      rw [e6 q]
      simp only [ho.mem]
      constructor
      · intro ⟨h1, h2⟩; rw [if_pos ⟨h1, by omega⟩]
      · intro hn; rw [if_neg]; intro ⟨h1, h2⟩; exact hn ⟨h1, by omega⟩
    obtain ⟨s2, f1, f2, f3, f4, f5⟩ := ih hd'.2 s1 (by
      intro b' hb' q hq
      obtain ⟨g1, g2⟩ := hs b' (by simp [hb']) q hq
      refine ⟨by rw [e2]; exact g1, ?_⟩
      rw [(e6' q).2 (fun hc => hd'.1 b' hb' q ⟨hc, hq⟩)]; exact g2)
    refine ⟨s2, ?_, by rw [f2, e2], by rw [f3, e3], by rw [f4, e5], ?_⟩
    · simp only [List.foldlM_cons, e1]; exact f1
    · intro q
      constructor
      · intro ⟨b', hb', hq⟩
        by_cases hc : ∃ b ∈ bs, inBlock b.1 q
        · exact (f5 q).1 hc
        · rw [(f5 q).2 hc]
          rcases List.mem_cons.1 hb' with rfl | hb'
          · exact (e6' q).1 hq
          · exact absurd ⟨b', hb', hq⟩ hc
      · intro hn
        rw [(f5 q).2 (fun ⟨b', hb', hq⟩ => hn ⟨b', by simp [hb'], hq⟩), (e6' q).2 (fun hq => hn ⟨b, by simp, hq⟩)]

theorem blocks_mem {d : Deq α} {l : List α} (h : Holds d l) (q : Nat) :
    (∃ b ∈ blocks d, inBlock b q) ↔ q < cap d ∧ ringIdx (cap d) d.ctr.begin q < l.length := by
  have hb := h.begin
  have hlen := h.len
  have hend := h.endd
  rw [wrap_eq _ _ _ hb hlen] at hend
  have hs := size_eq h
  unfold blocks
  by_cases hf : full d = true
  · have hl : l.length = cap d := by simp only [full, hs] at hf; simp at hf; omega
    simp only [hf, if_true, List.mem_singleton, exists_eq_left, inBlock]
    constructor
    · intro hq; exact ⟨by omega, by rw [hl]; exact ringIdx_lt hb (by omega)⟩
    · intro hq; omega
  · have hl : l.length < cap d := by
      simp only [full, hs] at hf; simp at hf; omega
    rw [if_neg hf]
    by_cases hw : d.ctr.begin ≤ d.ctr.endd
    · simp only [if_pos hw, List.mem_singleton, exists_eq_left, inBlock]
      unfold ringIdx
      split at hend <;> split <;> omega
    · simp only [if_neg hw, List.mem_cons, List.not_mem_nil, or_false, exists_eq_or_imp, exists_eq_left, inBlock]
      unfold ringIdx
      split at hend <;> split <;> omega

theorem blocks_disjoint {d : Deq α} {l : List α} (h : Holds d l) :
    (blocks d).zipIdx.Pairwise (fun a b => ∀ q, ¬ (inBlock a.1 q ∧ inBlock b.1 q)) := by
  unfold blocks
  split
  · simp
  · split
    · simp
    · simp [inBlock]; intro q; omega

theorem clear_holds {d : Deq α} {l : List α} (h : Holds d l) {ord : Nat → Nat → List Nat} (ho : OrdOK ord) :
    ∃ d', clear ord d = .ok d' ∧ cap d' = cap d ∧ Holds d' [] ∧
      (∀ q, q < cap d → d'.slots.data q = none) := by
  have hs := size_eq h
  by_cases hl : l = []
  · subst hl
    have he : empty d = true := by simp only [empty, hs]; simp
    refine ⟨d, by simp [clear, he], rfl, h, fun q hq => by rw [h.data q hq]; simp⟩
  · have he : empty d = false := by simp only [empty, hs]; simp [hl]
    have hmem : ∀ q, (∃ b ∈ (blocks d).zipIdx, inBlock b.1 q) ↔ ∃ b ∈ blocks d, inBlock b q := by
      intro q
      constructor
      · intro ⟨b, hb, hq⟩
        refine ⟨b.1, ?_, hq⟩
        have := List.mem_map_of_mem (f := Prod.fst) hb
        rwa [List.zipIdx_map_fst] at this
      · intro ⟨b, hb, hq⟩
        rw [← List.zipIdx_map_fst 0 (blocks d)] at hb
        obtain ⟨b', hb', rfl⟩ := List.mem_map.1 hb
        exact ⟨b', hb', hq⟩
    obtain ⟨s', f1, f2, f3, f4, f5⟩ := blocks_loop ho (blocks d).zipIdx (blocks_disjoint h) d.slots (by
      intro b hb q hq
      obtain ⟨g1, g2⟩ := (blocks_mem h q).1 ((hmem q).1 ⟨b, hb, hq⟩)
      refine ⟨g1, ?_⟩
      rw [h.data q g1, List.getElem?_eq_getElem g2]; rfl)
    have hdata : ∀ q, q < cap d → s'.data q = none := by
      intro q hq
      by_cases hc : ringIdx (cap d) d.ctr.begin q < l.length
      · exact (f5 q).1 ((hmem q).2 ((blocks_mem h q).2 ⟨hq, hc⟩))
      · rw [(f5 q).2 (fun hh => hc ((blocks_mem h q).1 ((hmem q).1 hh)).2), h.data q hq,
          List.getElem?_eq_none (by omega)]
    refine ⟨{ slots := { s' with occ := fun _ => false }, ctr := { size := 0, begin := 0, endd := 0 } }, ?_, f2, ?_,
      hdata⟩
    · simp only [clear, he, Bool.false_eq_true, if_false]
      rw [f1]; rfl
    · have hc : s'.cap = cap d := f2
      refine holds_of s'.cap _ _ _ _ _ _ _ _ (by rw [hc]; exact h.pos) (by simp) (by simp) (by rw [hc]; exact h.pos)
        (by simp) ?_ (by simp) (by rw [f4]; exact h.err) ?_
      · intro q hq; rw [f3]; exact h.locks q (by omega)
      · intro q hq; rw [hdata q (by omega)]; simp

theorem rangeIndices_perm {d : Deq α} {l : List α} (h : Holds d l) :
    (rangeIndices d).Perm ((List.range l.length).map (fun i => (d.ctr.begin + i) % cap d)) := by
  have hb := h.begin
  have hlen := h.len
  have hpos := h.pos
  have hmem : ∀ q, q ∈ rangeIndices d ↔ ∃ b ∈ blocks d, inBlock b q := by
    intro q
    simp only [rangeIndices, List.mem_flatMap, List.mem_range'_1, inBlock]
  refine (List.perm_ext_iff_of_nodup ?_ ?_).2 ?_
  · unfold rangeIndices blocks
    split
    · simp [List.nodup_range']
    · split
      · simp [List.nodup_range']
      · simp only [List.flatMap_cons, List.flatMap_nil, List.append_nil]
        refine List.nodup_append.2 ⟨List.nodup_range', List.nodup_range', ?_⟩
        intro a ha b hb'
        rw [List.mem_range'_1] at ha hb'
        omega
  · rw [List.nodup_map_iff_inj_on List.nodup_range]
    intro x hx y hy e
    have := List.mem_range.1 hx
    have := List.mem_range.1 hy
    rw [wrap_eq _ _ _ hb (by omega), wrap_eq _ _ _ hb (by omega)] at e
    split at e <;> split at e <;> omega
  · intro q
    rw [hmem, blocks_mem h q, List.mem_map]
    constructor
    · intro ⟨h1, h2⟩
      refine ⟨_, List.mem_range.2 h2, ?_⟩
      have := ringIdx_lt hb h1
      rw [wrap_eq _ _ _ hb (by omega)]
      clear hmem
      unfold ringIdx at *; split at h2 <;> rename_i hh <;> simp only [hh, if_true, if_false] <;> split <;> omega
    · intro ⟨i, hi, e⟩
      have := List.mem_range.1 hi
      have hq : q < cap d := by rw [← e]; exact Nat.mod_lt _ hpos
      refine ⟨hq, ?_⟩
      rw [wrap_eq _ _ _ hb (by omega)] at e
      unfold ringIdx; split at e <;> split <;> omega

theorem data_ring {d : Deq α} {l : List α} (h : Holds d l) (i : Nat) (hi : i < l.length) :
    d.slots.data ((d.ctr.begin + i) % cap d) = l[i]? := by
  have hb := h.begin
  have hlen := h.len
  have hlt : (d.ctr.begin + i) % cap d < cap d := Nat.mod_lt _ h.pos
  rw [h.data _ hlt]
  congr 1
  rw [wrap_eq _ _ _ hb (by omega)]; unfold ringIdx; split <;> split <;> omega

theorem deviceRange_eq {d : Deq α} {l : List α} (h : Holds d l) :
    deviceRange d = (rangeIndices d).map d.slots.data := by
  have hl := (rangeIndices_perm h).length_eq
  simp only [List.length_map, List.length_range] at hl
  unfold deviceRange
  rw [size_eq h]
  apply List.ext_getElem?
  intro i
  simp only [List.getElem?_map, Int.toNat_natCast]
  by_cases hi : i < l.length
  · rw [List.getElem?_range hi]
    simp only [Option.map_some]
    rw [List.getElem?_eq_getElem (by omega)]
    simp
  · rw [List.getElem?_eq_none (by simp; omega), List.getElem?_eq_none (by omega)]; rfl

theorem map_range_some (l : List α) : (List.range l.length).map (fun i => l[i]?) = l.map some := by
  apply List.ext_getElem?
  intro i
  by_cases hi : i < l.length
  · simp [List.getElem?_range hi, hi]
  · rw [List.getElem?_eq_none (by simp; omega), List.getElem?_eq_none (by simp; omega)]

theorem deviceRange_perm {d : Deq α} {l : List α} (h : Holds d l) : (deviceRange d).Perm (l.map some) := by
  rw [deviceRange_eq h]
  refine ((rangeIndices_perm h).map _).trans ?_
  rw [List.map_map, ← map_range_some]
  refine List.Perm.of_eq (List.map_congr_left ?_)
  intro i hi
  exact data_ring h i (List.mem_range.1 hi)

theorem deviceRange_unwrapped {d : Deq α} {l : List α} (h : Holds d l) (hu : d.ctr.begin + l.length < cap d) :
    deviceRange d = l.map some := by
  rw [deviceRange_eq h, ← map_range_some]
  have hb := h.begin
  have hlen := h.len
  have hend := h.endd
  rw [wrap_eq _ _ _ hb hlen] at hend
  have hf : full d = false := by simp only [full, size_eq h]; simp; omega
  have : rangeIndices d = List.range' d.ctr.begin l.length := by
    unfold rangeIndices blocks
    rw [hf, if_neg (by simp), if_pos (by split at hend <;> omega)]
    simp
    split at hend <;> omega
  rw [this, List.range'_eq_map_range, List.map_map]
  apply List.map_congr_left
  intro i hi
  have hi := List.mem_range.1 hi
  have := data_ring h i hi
  rw [Nat.mod_eq_of_lt (by omega)] at this
  simpa using this

theorem exec_refines {d : Deq α} {l : List α} (h : Holds d l) {ord : Nat → Nat → List Nat} (ho : OrdOK ord)
    (op : DOp α) (o : Out α) (l' : List α) (hs : deqExec (cap d) l op = some (o, l')) :
    ∃ d', exec ord d op = .ok (o, d') ∧ cap d' = cap d ∧ Holds d' l' := by
  have hsz := size_eq h
  cases op with
  | push side x =>
    obtain ⟨d', e1, e2, e3⟩ := push_holds h side x
    refine ⟨d', ?_, e2, ?_⟩
    · simp only [exec, e1]
      cases side <;> simp only [deqExec] at hs <;>
        split at hs <;> simp at hs <;> obtain ⟨rfl, rfl⟩ := hs <;> simp_all <;> rfl
    · cases side <;> simp only [deqExec] at hs <;>
        split at hs <;> simp at hs <;> obtain ⟨rfl, rfl⟩ := hs <;> simp_all
  | pop side =>
    obtain ⟨d', e1, e2, e3⟩ := pop_holds h side
    refine ⟨d', ?_, e2, ?_⟩
    · simp only [exec, e1]
      cases side <;> simp [deqExec] at hs <;> obtain ⟨rfl, rfl⟩ := hs <;> rfl
    · cases side <;> simp [deqExec] at hs <;> obtain ⟨rfl, rfl⟩ := hs <;> exact e3
  | clear =>
    obtain ⟨d', e1, e2, e3, -⟩ := clear_holds h ho
    simp [deqExec] at hs
    obtain ⟨rfl, rfl⟩ := hs
    exact ⟨d', by simp only [exec, e1]; rfl, e2, e3⟩
  | size => simp [deqExec] at hs; obtain ⟨rfl, rfl⟩ := hs; exact ⟨d, by simp [exec, hsz], rfl, h⟩
  | empty =>
    simp [deqExec] at hs; obtain ⟨rfl, rfl⟩ := hs
    refine ⟨d, ?_, rfl, h⟩
    simp only [exec, empty, hsz]
    cases l <;> simp; omega
  | full =>
    simp [deqExec] at hs; obtain ⟨rfl, rfl⟩ := hs
    refine ⟨d, ?_, rfl, h⟩
    simp only [exec, full, hsz]
    by_cases e : l.length = cap d <;> simp [e]; omega
  | valid => simp [deqExec] at hs; obtain ⟨rfl, rfl⟩ := hs; exact ⟨d, by simp [exec, valid_of_holds h], rfl, h⟩
  | front =>
    simp only [deqExec, Option.map_eq_some_iff] at hs
    obtain ⟨x, hx, e⟩ := hs
    simp at e; obtain ⟨rfl, rfl⟩ := e
    have hl : 0 < l.length := by cases l <;> simp at hx ⊢
    have := get_holds h 0 hl
    simp only [List.head?_eq_getElem?] at hx
    rw [hx] at this
    refine ⟨d, ?_, rfl, h⟩
    simp only [exec, front]
    simp only [Int.natCast_zero] at this
    rw [this]
  | back =>
    simp only [deqExec, Option.map_eq_some_iff] at hs
    obtain ⟨x, hx, e⟩ := hs
    simp at e; obtain ⟨rfl, rfl⟩ := e
    have hl : 0 < l.length := by cases l <;> simp at hx ⊢
    have := get_holds h (l.length - 1) (by omega)
    rw [List.getLast?_eq_getElem?] at hx
    rw [hx] at this
    refine ⟨d, ?_, rfl, h⟩
    simp only [exec, back, hsz]
    rw [show (l.length : Int) - 1 = ((l.length - 1 : Nat) : Int) by omega, this]
  | get n =>
    simp only [deqExec] at hs
    split at hs
    · simp at hs
    · simp only [Option.map_eq_some_iff] at hs
      obtain ⟨x, hx, e⟩ := hs
      simp at e; obtain ⟨rfl, rfl⟩ := e
      have hl : n.toNat < l.length := by
        by_contra hc
        rw [List.getElem?_eq_none (by omega)] at hx; simp at hx
      have := get_holds h n.toNat hl
      rw [hx, show ((n.toNat : Nat) : Int) = n by omega] at this
      exact ⟨d, by simp only [exec, this], rfl, h⟩

end Stdgpu.Deque
