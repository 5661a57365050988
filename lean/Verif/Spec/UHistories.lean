import Verif.Spec.ULinear
import Verif.Spec.Maps
/-!
Histories of an unordered container that alternate between operations of the host thread and kernels, used to state C93: what
the user observes, and which observations a finite map explains. An element of the map has a position, the one to which iterators
and pointers to it point.
-/
namespace Stdgpu.Spec
open Stdgpu.UnorderedConc Stdgpu.Conc Stdgpu.Unordered

variable {K V : Type}

/-- What is observed of one phase: an operation of the host with its output, or the operations of a kernel with their results,
thread by thread. `room`: at the end of the kernel there was an unused excess entry, and the container was not full. -/
inductive UObs (K V : Type) where
  | host (op : UOp K V) (out : UOut V)
  | kernel (room : Bool) (rs : List (List (Op K V × Res)))

/-- `L` contains the operations of all threads once each, those of one thread in the order of its program. -/
structure Interleaves (rs : List (List (Op K V × Res))) (L : List (OpId × Op K V × Res)) : Prop where
  nodup : (L.map (·.1)).Nodup
  mem : ∀ x e, (x, e) ∈ L ↔ (rs[x.1]?).bind (·[x.2]?) = some e
  order : L.Pairwise (fun a b => a.1.1 = b.1.1 → a.1.2 < b.1.2)

/-- A successful insertion adds the value at a new position, an erasure removes the element with the key, `clear` all elements;
all other operations leave all elements where they are. -/
inductive Moves (P : Params K V) (m : List (Nat × V)) : UOp K V → UOut V → List (Nat × V) → Prop
  | inserted (v : V) (p : Nat) (hp : ∀ e ∈ m, e.1 ≠ p) : Moves P m (.insert v) (.inserted (some v) true) ((p, v) :: m)
  | erased (k : K) : Moves P m (.erase k) (.num 1) (m.filter (fun e => !P.keyEq (P.keyOf e.2) k))
  | clear : Moves P m .clear .unit []
  | same (op : UOp K V) (out : UOut V) (hc : op ≠ .clear) (h1 : ∀ it, out ≠ .inserted it true)
      (h2 : ∀ k, op = .erase k → out ≠ .num 1) : Moves P m op out m

/-- The observations are those of a map that is empty at first and is `m` at the end (the order of the list does not matter).
An operation of the host has the result that it has on the map. The operations of a kernel have the results that they have
when they are executed one after another, in some order that respects the programs of the threads. -/
inductive UExplains [DecidableEq V] (P : Params K V) : List (UObs K V) → List (Nat × V) → Prop
  | start : UExplains P [] []
  | reorder {tr : List (UObs K V)} {m m' : List (Nat × V)} (h : UExplains P tr m) (hp : m.Perm m') : UExplains P tr m'
  | host {tr : List (UObs K V)} {m m' : List (Nat × V)} {op : UOp K V} {out : UOut V} (h : UExplains P tr m)
      (hr : mapStep P (m.map (·.2)) op out = some (m'.map (·.2))) (hm : Moves P m op out m') :
      UExplains P (tr ++ [.host op out]) m'
  | kernel {tr : List (UObs K V)} {m m' : List (Nat × V)} {room : Bool} {rs : List (List (Op K V × Res))}
      {L : List (OpId × Op K V × Res)} (h : UExplains P tr m) (hi : Interleaves rs L)
      (hr : seqRun P room m (L.map (·.2)) = some m') : UExplains P (tr ++ [.kernel room rs]) m'

/-- There is an unused excess entry, and the container is not full. -/
def hasRoom (t : Tab V) : Bool := !Vector.empty t.excess && decide (size t < t.total)

/-- The containers that are reached from a new one with `bc` buckets and `ec` excess entries by operations of the host and
kernels, with what has been observed. Kernels: lookups with insertions only (after which `valid()` must hold, see C38) or with
erasures only, or all three with keys as in C75. -/
inductive UReached (P : Params K V) (bc ec : Nat) : Tab V → List (UObs K V) → Prop
  | create : UReached P bc ec (create bc ec) []
  | host {t t' : Tab V} {tr : List (UObs K V)} {ord : Nat → List Nat} {op : UOp K V} {out : UOut V} (h : UReached P bc ec t tr)
      (ho : ∀ n, (ord n).Perm (List.range n)) (e : exec P ord t op = .ok (out, t')) : UReached P bc ec t' (tr ++ [.host op out])
  | inserts {t : Tab V} {tr : List (UObs K V)} {ord : Nat → List Nat} (h : UReached P bc ec t tr) (progs : List (List (Op K V)))
      (sched : List Nat) (hp : NoErase progs) (s : Sys (Shared V) (Thread K V)) (hs : s = uexec P t progs sched) (hf : UFinished s)
      (hv : valid P ord s.shared.tab = .ok true) :
      UReached P bc ec s.shared.tab (tr ++ [.kernel (hasRoom s.shared.tab) (s.threads.map (·.done))])
  | erases {t : Tab V} {tr : List (UObs K V)} (h : UReached P bc ec t tr) (progs : List (List (Op K V)))
      (sched : List Nat) (hp : NoInsert progs) (s : Sys (Shared V) (Thread K V)) (hs : s = uexec P t progs sched) (hf : UFinished s) :
      UReached P bc ec s.shared.tab (tr ++ [.kernel true (s.threads.map (·.done))])
  | mixed {t : Tab V} {tr : List (UObs K V)} (h : UReached P bc ec t tr) (progs : List (List (Op K V)))
      (sched : List Nat) (hp : Separated P t progs) (hroom : numInserts progs ≤ (freeList t).length)
      (s : Sys (Shared V) (Thread K V)) (hs : s = uexec P t progs sched) (hf : UFinished s) :
      UReached P bc ec s.shared.tab (tr ++ [.kernel true (s.threads.map (·.done))])

end Stdgpu.Spec
