import Verif.Spec.Lists
import Verif.Spec.Deques
import Verif.Spec.SlotConc
import Verif.Model.Conc
/-!
Histories of a vector or a deque that alternate between operations of the host thread and kernels in which many threads push and
pop, used to state C92: what the user observes, and which observations a bounded list explains.
-/
namespace Stdgpu.Spec
open Stdgpu.SlotConc Stdgpu.Conc

variable {α K : Type}

/-- What is observed of one phase: an operation of the host with its output, or the programs of a kernel and the results of
all their operations. -/
inductive Obs (H K α : Type) where
  | host (op : H) (out : Vector.Out α)
  | kernel (programs : List (List (Op K α))) (results : List (Op K α × Res α))

/-- No operation of the kernel has failed. -/
def AllSucceed (rs : List (Op K α × Res α)) : Prop := ∀ e ∈ rs, e.2 ≠ .pushFailed ∧ e.2 ≠ .popFailed

/-- The observations are those of a list with at most `c` elements that is empty at first and is `l` at the end. `exec`: effect of a
host operation. A kernel adds the values of its pushes and removes the values that its pops have returned, in any order. -/
inductive Explains {H : Type} (exec : List α → H → Option (Vector.Out α × List α)) (c : Nat) : List (Obs H K α) → List α → Prop
  | start : Explains exec c [] []
  | host {tr : List (Obs H K α)} {l l' : List α} {op : H} {o : Vector.Out α} (h : Explains exec c tr l)
      (he : exec l op = some (o, l')) : Explains exec c (tr ++ [.host op o]) l'
  | kernel {tr : List (Obs H K α)} {l l' : List α} {programs : List (List (Op K α))} {rs : List (Op K α × Res α)}
      (h : Explains exec c tr l) (hops : rs.map (·.1) = programs.flatten)
      (hp : (l ++ rs.filterMap pushVal).Perm (l' ++ rs.filterMap popVal)) (hc : l'.length ≤ c) :
      Explains exec c (tr ++ [.kernel programs rs]) l'

/-- The host uses the vector as documented: it accesses existing elements only, and the range of `erase` is one. -/
def vAllowed (v : Vector.Vec α) : Vector.VOp α → Prop
  | .front | .back => 0 < Vector.size v
  | .get n => 0 ≤ n ∧ n < Vector.size v
  | .erase b e => b ≤ e
  | _ => True

/-- The host uses the deque as documented. -/
def dAllowed (d : Deque.Deq α) : Deque.DOp α → Prop
  | .front | .back => 0 < Deque.size d
  | .get n => 0 ≤ n ∧ n < Deque.size d
  | _ => True

/-- The vectors that are reached from a new one of capacity `c` by operations of the host and kernels all of whose operations
have returned and succeeded, with what has been observed. -/
inductive VReached (c : Nat) : Vector.Vec α → List (Obs (Vector.VOp α) Unit α) → Prop
  | create : VReached c (Vector.create c) []
  | host {v v' : Vector.Vec α} {tr : List (Obs (Vector.VOp α) Unit α)} {op : Vector.VOp α} {o : Vector.Out α} {ord : Nat → List Nat}
      (h : VReached c v tr) (ha : vAllowed v op) (ho : ∀ n, (ord n).Perm (List.range n))
      (he : Vector.exec ord v op = .ok (o, v')) : VReached c v' (tr ++ [.host op o])
  | kernel {v : Vector.Vec α} {tr : List (Obs (Vector.VOp α) Unit α)} (h : VReached c v tr) (programs : List (List (Op Unit α)))
      (sched : List Nat) (s : Sys (Vector.Vec α) (Thread Unit Vector.FPC α))
      (hs : s = run (step (Vector.vfront (Vector.cap v))) (init (Vector.vfront (Vector.cap v)) v programs) sched)
      (hf : Finished s) (hr : AllSucceed (results s)) : VReached c s.shared (tr ++ [.kernel programs (results s)])

/-- The same for a deque. -/
inductive DReached (c : Nat) : Deque.Deq α → List (Obs (Deque.DOp α) Deque.Side α) → Prop
  | create : DReached c (Deque.create c) []
  | host {d d' : Deque.Deq α} {tr : List (Obs (Deque.DOp α) Deque.Side α)} {op : Deque.DOp α} {o : Vector.Out α}
      {ord : Nat → Nat → List Nat} (h : DReached c d tr) (ha : dAllowed d op) (ho : ∀ k n, (ord k n).Perm (List.range n))
      (he : Deque.exec ord d op = .ok (o, d')) : DReached c d' (tr ++ [.host op o])
  | kernel {d : Deque.Deq α} {tr : List (Obs (Deque.DOp α) Deque.Side α)} (h : DReached c d tr)
      (programs : List (List (Op Deque.Side α))) (sched : List Nat) (s : Sys (Deque.Deq α) (Thread Deque.Side Deque.FPC α))
      (hs : s = run (step (Deque.dfront (Deque.cap d))) (init (Deque.dfront (Deque.cap d)) d programs) sched)
      (hf : Finished s) (hr : AllSucceed (results s)) : DReached c s.shared (tr ++ [.kernel programs (results s)])

end Stdgpu.Spec
