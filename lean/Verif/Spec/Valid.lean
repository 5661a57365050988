import Verif.Model.Unordered
import Verif.Model.Deque
/-! What `valid()` is meant to check, without reference to how it does. -/
namespace Stdgpu.Spec
open Stdgpu.Unordered

/-- Following the offsets from entry `p` leads through the entries `l` and ends there. -/
inductive Leads (off : Nat → Int) : Nat → List Nat → Prop
  | last {p : Nat} (h : off p = 0) : Leads off p []
  | more {p q : Nat} {l : List Nat} (h0 : off p ≠ 0) (h : (p : Int) + off p = q) (hl : Leads off q l) : Leads off p (q :: l)

/-- Counter and flags of a vector or deque (or of the free list) agree and no slot is locked. -/
def SlotsOK (cap : Nat) (ctr : Int) (occ locks : Nat → Bool) : Prop :=
  cap = 0 ∨ (0 ≤ ctr ∧ ctr ≤ cap ∧ ctr = ((List.range cap).filter occ).length ∧ ∀ p, p < cap → locks p = false)

/-- Well-formed state of an unordered container. -/
structure Wellformed {K V : Type} (P : Params K V) (t : Tab V) : Prop where
  /-- offsets stay inside the table -/
  offs : ∀ i, i < t.total → 0 ≤ (i : Int) + t.off i ∧ (i : Int) + t.off i < t.total
  /-- from every bucket the offsets lead to an end, no entry is visited twice, and every stored value is on the way from
  its bucket -/
  chains : ∃ chain : Nat → List Nat, (∀ b, b < t.bc → Leads t.off b (chain b)) ∧
    ((List.range t.bc).flatMap (fun b => b :: chain b)).Nodup ∧
    ∀ i v, i < t.total → t.occ i = true → t.val i = some v → i ∈ bucket P t (P.keyOf v) :: chain (bucket P t (P.keyOf v))
  /-- occupied entries have a value, and no key is stored twice -/
  vals : ∀ i, i < t.total → t.occ i = true → ∃ v, t.val i = some v
  unique : ∀ i j v w, i < t.total → j < t.total → t.occ i = true → t.occ j = true → t.val i = some v → t.val j = some w →
    P.keyEq (P.keyOf v) (P.keyOf w) = true → i = j
  /-- `size()` is the number of stored values -/
  size : t.count = ((List.range t.total).filter t.occ).length
  locks : ∀ i, i < t.total → t.locks i = false
  excess : SlotsOK t.excess.slots.cap t.excess.ctr t.excess.slots.occ t.excess.slots.locks

end Stdgpu.Spec
