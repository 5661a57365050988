import Verif.Spec.UnorderedConc
/-! C97: unordered containers whose key comparison and hash are arbitrary functions. Nothing is assumed about them: the
comparison need not be reflexive (NaN), symmetric or transitive, and matching keys may have different hashes (+0 and -0).
The container is a bag of elements. -/
namespace Stdgpu.Spec
open Stdgpu.Unordered Stdgpu.UnorderedConc

variable {K V : Type}

/-- The stored element `w` matches the key `k`: the comparison the container makes. -/
def Matches (P : Params K V) (w : V) (k : K) : Prop := P.keyEq (P.keyOf w) k = true

/-- No element that has the same hash as `k` matches `k`. -/
def NoneMatches (P : Params K V) (m : List V) (k : K) : Prop :=
  ∀ w ∈ m, P.hash (P.keyOf w) = P.hash k → ¬ Matches P w k

/-- Is `out` an admissible result of `op` on the bag `m`, and `m'` the bag afterwards? -/
def BagStep (P : Params K V) (m : List V) : UOp K V → UOut V → List V → Prop
  | .insert v, .inserted it true, m' => it = some v ∧ NoneMatches P m (P.keyOf v) ∧ m'.Perm (v :: m)
  | .insert _, .inserted it false, m' => it = none ∧ m'.Perm m
  | .erase k, .num n, m' => (n = 1 ∧ ∃ w, Matches P w k ∧ m.Perm (w :: m')) ∨ (n = 0 ∧ NoneMatches P m k ∧ m'.Perm m)
  | .clear, .unit, m' => m' = []
  | .find k, .found (some w), m' => w ∈ m ∧ Matches P w k ∧ m'.Perm m
  | .find k, .found none, m' => NoneMatches P m k ∧ m'.Perm m
  | .contains k, .bool b, m' => (if b then ∃ w ∈ m, Matches P w k else NoneMatches P m k) ∧ m'.Perm m
  | .count k, .num n, m' => ((n = 1 ∧ ∃ w ∈ m, Matches P w k) ∨ (n = 0 ∧ NoneMatches P m k)) ∧ m'.Perm m
  | .size, .num n, m' => n = m.length ∧ m'.Perm m
  | .empty, .bool b, m' => (b = true ↔ m = []) ∧ m'.Perm m
  | .valid, .bool _, m' => m'.Perm m
  | _, _, _ => False

/-- A history of a bag. -/
def BagRun (P : Params K V) (m : List V) : List (UOp K V) → List (UOut V) → List V → Prop
  | [], [], m' => m' = m
  | op :: ops, o :: outs, m' => ∃ m₁, BagStep P m op o m₁ ∧ BagRun P m₁ ops outs m'
  | _, _, _ => False

/-- `t` is a state of a container that has been created with `bc` buckets and `ec` excess entries and used, by single
operations of one thread, by phases of concurrent insertions and lookups for which there was room, and by phases of
concurrent erases and lookups. -/
inductive LReachable (P : Params K V) (bc ec : Nat) : Tab V → Prop where
  | create : LReachable P bc ec (create bc ec)
  | op {t t' : Tab V} {ord : Nat → List Nat} {o : UOp K V} {out : UOut V} (h : LReachable P bc ec t)
      (ho : ∀ n, (ord n).Perm (List.range n)) (e : exec P ord t o = .ok (out, t')) : LReachable P bc ec t'
  | inserts {t : Tab V} (h : LReachable P bc ec t) (progs : List (List (Op K V))) (sched : List Nat) (hp : NoErase progs)
      (hroom : numInserts progs ≤ (freeList t).length) (hf : UFinished (uexec P t progs sched)) :
      LReachable P bc ec (uexec P t progs sched).shared.tab
  | erases {t : Tab V} (h : LReachable P bc ec t) (progs : List (List (Op K V))) (sched : List Nat) (hp : NoInsert progs)
      (hf : UFinished (uexec P t progs sched)) : LReachable P bc ec (uexec P t progs sched).shared.tab

end Stdgpu.Spec
