import Verif.Model.UnorderedConc
import Verif.Proof.VectorConc
import Verif.Proof.Unordered3
/-! Shared lemmas about the concurrent unordered containers. -/
namespace Stdgpu.Vector
open Stdgpu.SlotConc Stdgpu.Conc
variable {α : Type}

/-- An idle thread calls an operation of the vector: the invariants hold with a longer program. -/
theorem sinv_call {C K F : Type} {fr : Front C K F} {cap : Nat} {c₀ : Multiset α} {programs : List (List (Op K α))}
    {tick : Nat → Int} {s : Sys (Mem C α) (Thread K F α)} (h : SInv fr cap c₀ programs tick s)
    (i : Nat) (t : Thread K F α) (ht : s.threads[i]? = some t) (hi : t.todo = []) (op : Op K α) :
    SInv fr cap c₀ (programs.set i (t.done.map (·.1) ++ [op])) tick ⟨s.shared, s.threads.set i { t with todo := [op] }⟩ := by
  have hmem := List.mem_of_getElem? ht
  have hpc := (h.shape t hmem).2.1 hi
  have hlt : i < s.threads.length := (List.getElem?_eq_some_iff.1 ht).1
  have hsum : ∀ {M : Type} [AddCommMonoid M] [IsCancelAdd M] (g : Thread K F α → M), g { t with todo := [op] } = g t →
      ((s.threads.set i { t with todo := [op] }).map g).sum = (s.threads.map g).sum := by
    intro M _ _ g hg
    have := sum_map_set g s.threads i t { t with todo := [op] } ht
    rw [hg] at this
    exact add_right_cancel this
  refine ⟨h.hcap, h.err, ?_, by simpa using h.len, ?_, ?_, ?_, ?_, ?_, ?_⟩
  · intro j x hj
    rcases getElem?_set_cases _ _ _ _ _ hj with ⟨rfl, rfl⟩ | ⟨hne, hj'⟩
    · rw [List.getElem?_set_self (by rw [← h.len]; exact hlt)]
    · rw [List.getElem?_set_ne (Ne.symm hne)]; exact h.prog j x hj'
  · intro x hx
    rcases mem_set_cases _ _ _ _ hx with rfl | ⟨j, -, hj⟩
    · refine ⟨?_, by simp, (h.shape t hmem).2.2⟩
      intro p sp e
      simp only [hpc] at e
      simp at e
    · exact h.shape x (List.mem_of_getElem? hj)
  · intro x hx
    rcases mem_set_cases _ _ _ _ hx with rfl | ⟨j, -, hj⟩
    · simp [Knows, hpc]
    · exact h.knows x (List.mem_of_getElem? hj)
  · intro p hp
    rw [hsum (holdsN p) (by simp [holdsN])]; exact h.locks p hp
  · intro p hp
    rw [hsum (pendN true p) (by simp [pendN, hpc]), hsum (pendN false p) (by simp [pendN, hpc])]
    exact h.ticks p hp
  · intro p hp
    rw [hsum (extraN p) (by simp [extraN])]; exact h.live p hp
  · rw [hsum inM (by simp [inM, hpc]), hsum outM (by simp [outM])]; exact h.cons

theorem popInv_call {cap : Nat} {l : List α} {programs : List (List (Op Unit α))} {s : VSys α}
    (h : PopInv cap l programs s) (i : Nat) (t : VThread α) (ht : s.threads[i]? = some t) (hi : t.todo = []) (op : Op Unit α) :
    PopInv cap l (programs.set i (t.done.map (·.1) ++ [op])) ⟨s.shared, s.threads.set i { t with todo := [op] }⟩ := by
  have hmem := List.mem_of_getElem? ht
  refine ⟨sinv_call h.v i t ht hi op, h.le, ?_, h.old, ?_⟩
  · intro x hx
    rcases mem_set_cases _ _ _ _ hx with rfl | ⟨j, -, hj⟩
    · exact h.pos t hmem
    · exact h.pos x (List.mem_of_getElem? hj)
  · intro x hx
    rcases mem_set_cases _ _ _ _ hx with rfl | ⟨j, -, hj⟩
    · exact h.failed t hmem
    · exact h.failed x (List.mem_of_getElem? hj)

end Stdgpu.Vector

namespace Stdgpu.Unordered

theorem linked_at {off : Nat → Int} {b w : Nat} {ch l1 l2 : List Nat} (h : Linked off b ch) (e : b :: ch = l1 ++ w :: l2) :
    Linked off w l2 := by
  cases l1 with
  | nil => simp at e; rw [← e.1, ← e.2]; exact h
  | cons x l1 =>
    simp at e
    rw [e.2] at h
    exact (linked_split h).2.2

theorem lastOf_split {b w : Nat} {ch l1 : List Nat} (e : b :: ch = l1 ++ [w]) : lastOf b ch = w := by
  cases l1 with
  | nil => simp at e; rw [e.2]; exact e.1
  | cons x l1 =>
    simp at e
    rw [e.2]; exact lastOf_append b l1 w

end Stdgpu.Unordered

namespace Stdgpu.UnorderedConc
open Stdgpu.Conc
open Stdgpu.SlotConc (upd)
open Stdgpu.Unordered
open Stdgpu.Vector (FPC vfront)
open Stdgpu.Spec (KeyLaws)
variable {K V : Type}

/-- The bucket of a key, as a function of the bucket count. -/
def bkt (P : Params K V) (bc : Nat) (k : K) : Nat := (FibHash.bucket P.hash bc k).toNat

theorem bucket_eq (P : Params K V) (t : Tab V) (k : K) : bucket P t k = bkt P t.bc k := rfl

theorem bkt_lt (P : Params K V) (bc : Nat) (k : K) (h0 : 0 < bc) (h1 : bc < 2 ^ 63) : bkt P bc k < bc :=
  bucket_lt P { (create bc 0 : Tab V) with bc := bc } k h0 h1

theorem bkt_congr {P : Params K V} (hl : KeyLaws P) (bc : Nat) {a b : K} (h : P.keyEq a b = true) :
    bkt P bc a = bkt P bc b := by
  unfold bkt FibHash.bucket; rw [hl.hash a b h]

/-- A walker at an entry of the list `b :: ch`; `Q` holds for the entries it has passed. -/
def WalkOK (Q : Nat → Prop) (occ : Nat → Bool) (b : Nat) (ch : List Nat) : Walk → Prop
  | .occ w => ∃ l1 l2, b :: ch = l1 ++ w :: l2 ∧ ∀ u ∈ l1, Q u
  | .val w => (∃ l1 l2, b :: ch = l1 ++ w :: l2 ∧ ∀ u ∈ l1, Q u) ∧ occ w = true
  | .off1 w | .off2 w => ∃ l1 l2, b :: ch = l1 ++ w :: l2 ∧ (∀ u ∈ l1, Q u) ∧ Q w

def HopOK (b : Nat) (ch : List Nat) : Hop → Prop
  | .off1 w | .off2 w => w ∈ b :: ch

theorem hop_next {t : Tab V} {w : Nat} {l2 : List Nat} (h : Linked t.off w l2) (hr : ∀ u ∈ w :: l2, u < t.total) :
    (l2 = [] ∧ t.off w = 0 ∧ hop t w = some w) ∨ (∃ q l3, l2 = q :: l3 ∧ t.off w ≠ 0 ∧ hop t w = some q) := by
  cases l2 with
  | nil =>
    left
    have h0 : t.off w = 0 := h
    have := hr w (by simp)
    refine ⟨rfl, h0, ?_⟩
    unfold hop
    rw [h0]
    rw [if_pos (by omega)]
    simp
  | cons q l3 =>
    right
    obtain ⟨h1, h2, -⟩ := h
    have := hr q (by simp)
    refine ⟨q, l3, rfl, h1, ?_⟩
    unfold hop
    rw [h2]
    rw [if_pos (by omega)]
    simp

/-- The value at `u` does not match. -/
def NoMatch (t : Tab V) (eq : V → Bool) (u : Nat) : Prop := ∃ x, t.val u = some x ∧ eq x = false

end Stdgpu.UnorderedConc
