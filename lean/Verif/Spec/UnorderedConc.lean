import Verif.Model.UnorderedConc
import Verif.Spec.Maps
/-! Observations on concurrent executions of the unordered containers, used to state C38–C40. -/
namespace Stdgpu.Spec
open Stdgpu.UnorderedConc Stdgpu.Conc Stdgpu.Unordered

variable {K V : Type}

/-- A concurrent execution: the threads run their programs on the container `t`, interleaved as `sched` says. -/
def uexec (P : Params K V) (t : Tab V) (progs : List (List (Op K V))) (sched : List Nat) :
    Sys (Shared V) (Thread K V) := run (step P) (init t progs) sched

/-- All operations that have returned, with their results. -/
def uresults (s : Sys (Shared V) (Thread K V)) : List (Op K V × Res) := s.threads.flatMap (·.done)

/-- Every thread has finished its program. -/
def UFinished (s : Sys (Shared V) (Thread K V)) : Prop := ∀ t ∈ s.threads, t.todo = [] ∧ t.cur = .idle

/-- The value of an insertion that returned true. -/
def insertedVal : Op K V × Res → Option V
  | (.insert v, .inserted _) => some v
  | _ => none

/-- Values of the insertions that returned true. -/
def insertedVals (s : Sys (Shared V) (Thread K V)) : List V := (uresults s).filterMap insertedVal

/-- The key of an erase that returned 1. -/
def erasedKey : Op K V × Res → Option K
  | (.erase k, .erased) => some k
  | _ => none

/-- Keys of the erases that returned 1. -/
def erasedKeys (s : Sys (Shared V) (Thread K V)) : List K := (uresults s).filterMap erasedKey

/-- The programs contain no `erase`. -/
def NoErase (progs : List (List (Op K V))) : Prop := ∀ p ∈ progs, ∀ k, Op.erase k ∉ p

/-- The programs contain no `insert`. -/
def NoInsert (progs : List (List (Op K V))) : Prop := ∀ p ∈ progs, ∀ v, Op.insert v ∉ p

/-- Is there a call of `erase` for (a key equivalent to) `k`? -/
def erases (P : Params K V) (progs : List (List (Op K V))) (k : K) : Bool :=
  progs.flatten.any (fun op => match op with | .erase k' => P.keyEq k k' | _ => false)

/-- Number of `insert` calls. -/
def numInserts (progs : List (List (Op K V))) : Nat :=
  progs.flatten.countP (fun op => match op with | .insert _ => true | _ => false)

/-- Nothing undefined happened: no access outside the table, no read of storage that holds no object, no construction
over an object, no destruction of a dead one. -/
def Defined (s : Sys (Shared V) (Thread K V)) : Prop :=
  s.shared.ub = false ∧ s.shared.stale = false ∧ s.shared.tab.excess.slots.err = false

/-- `k` is the key of a stored value or of a value to be inserted. -/
def UsedKey (P : Params K V) (t : Tab V) (progs : List (List (Op K V))) (k : K) : Prop :=
  (∃ v ∈ contents t, k = P.keyOf v) ∨ ∃ p ∈ progs, ∃ v, Op.insert v ∈ p ∧ k = P.keyOf v

/-- No two different keys that are stored or to be inserted belong to the same bucket (`bucket(key)`). The keys that are
looked up or erased are arbitrary. -/
def Separated (P : Params K V) (t : Tab V) (progs : List (List (Op K V))) : Prop :=
  ∀ a b, UsedKey P t progs a → UsedKey P t progs b → bucket P t a = bucket P t b → P.keyEq a b = true

/-- `t` is a state of a container created with `bc` buckets and `ec` excess entries that has been used in phases: single
operations of one thread, phases in which any number of threads insert and look up concurrently, after which the
container has been found to be valid, phases in which any number of threads erase and look up concurrently, and phases in
which any number of threads insert, erase and look up concurrently, provided that different keys have different buckets
and that there are at least as many unused excess entries as insertions. -/
inductive PReachable (P : Params K V) (bc ec : Nat) : Tab V → Prop where
  | create : PReachable P bc ec (create bc ec)
  | op {t t' : Tab V} {ord : Nat → List Nat} {o : UOp K V} {out : UOut V} (h : PReachable P bc ec t)
      (ho : ∀ n, (ord n).Perm (List.range n)) (e : exec P ord t o = .ok (out, t')) : PReachable P bc ec t'
  | inserts {t : Tab V} {ord : Nat → List Nat} (h : PReachable P bc ec t) (progs : List (List (Op K V)))
      (sched : List Nat) (hp : NoErase progs) (hf : UFinished (uexec P t progs sched))
      (hv : valid P ord (uexec P t progs sched).shared.tab = .ok true) :
      PReachable P bc ec (uexec P t progs sched).shared.tab
  | erases {t : Tab V} (h : PReachable P bc ec t) (progs : List (List (Op K V))) (sched : List Nat) (hp : NoInsert progs)
      (hf : UFinished (uexec P t progs sched)) : PReachable P bc ec (uexec P t progs sched).shared.tab
  | mixed {t : Tab V} (h : PReachable P bc ec t) (progs : List (List (Op K V))) (sched : List Nat)
      (hs : Separated P t progs) (hroom : numInserts progs ≤ (freeList t).length)
      (hf : UFinished (uexec P t progs sched)) : PReachable P bc ec (uexec P t progs sched).shared.tab

end Stdgpu.Spec
