import Verif.Model.Vector
import Verif.Model.FibHash
/-
Model of `src/stdgpu/impl/unordered_base_detail.cuh`, the implementation of `unordered_map` and `unordered_set`
(impl/unordered_map_detail.cuh, impl/unordered_set_detail.cuh forward every member to it; they differ in
`key_from_value`, here `Params.keyOf`). The functions in this file are the ones executed by one thread / from the host,
without interference; the concurrent machine is in `Model/UnorderedConc.lean`.

Layout: `_values`, `_offsets`, `_occupied`, `_locks` have `total` entries, the first `bc` of them are the buckets, the
others the excess entries, which are linked to the buckets by relative offsets (`_offsets[i] = 0` ends a chain);
`_excess_list_positions` is a `vector<index_t>` of unused excess entries.

A slot of `_values` has bytes (`val`) and a lifetime (`live`): construction starts, destruction ends the lifetime;
constructing over a live object, destroying or reading a dead one is undefined behaviour (`Fault.ub`), as is an index
outside the table. A loop that never ends is `Fault.hang`; the chain walks get `total` steps, because a walk inside
the table that makes more steps has visited an entry twice and can only go on forever.

The printf diagnostics and the contract checks are not modelled. `_occupied_count` is an unbounded integer.
-/
namespace Stdgpu.Unordered
open Stdgpu.SlotConc (upd)
open Stdgpu.Vector (Vec Fault)

/-- Template parameters: `KeyFromValue`, `Hash`, `KeyEqual`. impl/unordered_base.cuh:56-57, 546-550. -/
structure Params (K V : Type) where
  keyOf : V → K
  hash : K → BitVec 64
  keyEq : K → K → Bool

/-- Members of `unordered_base` (impl/unordered_base.cuh). impl/unordered_base.cuh:526-544. -/
structure Tab (V : Type) where
  bc : Nat                    -- `_bucket_count`
  total : Nat                 -- `_occupied.size()`, the size of all arrays
  occ : Nat → Bool            -- `_occupied`
  count : Int                 -- `_occupied_count`
  off : Nat → Int             -- `_offsets`
  val : Nat → Option V        -- `_values`: last constructed object
  live : Nat → Bool           -- `_values`: its lifetime has not ended
  locks : Nat → Bool          -- `_locks`
  excess : Vec Nat            -- `_excess_list_positions`

/-- `operation_status` (impl/unordered_base.cuh). impl/unordered_base.cuh:40-45. -/
inductive Status where
  | failedCollision | failedNoActionRequired | success
  deriving DecidableEq

variable {K V : Type}

/-- impl/unordered_base_detail.cuh:547-564 `bucket`, `bucket_impl`. The result is never negative (C05). -/
def bucket (P : Params K V) (t : Tab V) (k : K) : Nat := (FibHash.bucket P.hash t.bc k).toNat

/-- Address of the next chain entry, `key_index += _offsets[key_index]`; `none` at the end of the chain
(`_offsets[key_index] == 0`). impl/unordered_base_detail.cuh:671, 924, 943. -/
def next (t : Tab V) (p : Nat) : Except Fault (Option Nat) :=
  if t.off p = 0 then .ok none
  else
    let q := (p : Int) + t.off p
    if 0 ≤ q ∧ q < t.total then .ok (some q.toNat) else .error .ub

/-- impl/unordered_base_detail.cuh:661, 673: `occupied(i) && _key_equal(_key_from_value(_values[i]), key)`; `eq` is the
comparison of a stored value with the key. -/
def entryMatches (t : Tab V) (eq : V → Bool) (p : Nat) : Except Fault Bool :=
  if t.total ≤ p then .error .ub
  else if t.occ p then
    if t.live p then
      match t.val p with
      | some v => .ok (eq v)
      | none => .error .ub
    else .error .ub
  else .ok false

/-- impl/unordered_base_detail.cuh:669-679: the loop of `find_impl`, entered at entry `p`. -/
def findFrom (t : Tab V) (eq : V → Bool) : Nat → Nat → Except Fault (Option Nat)
  | fuel, p => do
    if ← entryMatches t eq p then return some p
    else
      match ← next t p with
      | none => return none
      | some q => match fuel with
        | 0 => .error .hang
        | fuel + 1 => findFrom t eq fuel q

/-- impl/unordered_base_detail.cuh:655-682 `find_impl`: position of the entry, `none` for `end()`. `b` is the bucket of
the key, `eq` its comparison with stored values; with these as parameters it also is the lookup with a transparent
hash and comparison (`KeyLike`). -/
def findImpl (t : Tab V) (b : Nat) (eq : V → Bool) : Except Fault (Option Nat) := findFrom t eq t.total b

/-- impl/unordered_base_detail.cuh:619-632 `find`. -/
def find (P : Params K V) (t : Tab V) (k : K) : Except Fault (Option Nat) :=
  findImpl t (bucket P t k) (fun v => P.keyEq (P.keyOf v) k)

/-- impl/unordered_base_detail.cuh:634-651 `find(KeyLike)`: `hashL` is the transparent hash of the given key, `eqL` the
transparent comparison with stored keys. -/
def findLike (P : Params K V) (t : Tab V) (hashL : BitVec 64) (eqL : K → Bool) : Except Fault (Option Nat) :=
  findImpl t (FibHash.fibonacciHashing hashL t.bc).toNat (fun v => eqL (P.keyOf v))

/-- impl/unordered_base_detail.cuh:700-706 `contains_impl`. -/
def contains (P : Params K V) (t : Tab V) (k : K) : Except Fault Bool := do return (← find P t k).isSome

/-- impl/unordered_base_detail.cuh:611-617 `count_impl`. -/
def count (P : Params K V) (t : Tab V) (k : K) : Except Fault Nat := do return if ← contains P t k then 1 else 0

/-- impl/unordered_base_detail.cuh:915-928 `find_linked_list_end`. -/
def listEnd (t : Tab V) : Nat → Nat → Except Fault Nat
  | fuel, p => do
    match ← next t p with
    | none => return p
    | some q => match fuel with
      | 0 => .error .hang
      | fuel + 1 => listEnd t fuel q

/-- impl/unordered_base_detail.cuh:930-956 `find_previous_entry_position`, the loop entered with
`previous_position = key_index = p`. -/
def prevFrom (t : Tab V) (entry : Nat) : Nat → Nat → Except Fault Nat
  | fuel, p => do
    match ← next t p with
    | none => return p
    | some q =>
      if q = entry then return p
      else match fuel with
        | 0 => .error .hang
        | fuel + 1 => prevFrom t entry fuel q

/-- impl/unordered_base_detail.cuh:566-593 `bucket_size`. -/
def bucketSizeFrom (t : Tab V) : Nat → Nat → Except Fault Nat
  | fuel, p => do
    let self := if t.occ p then 1 else 0
    match ← next t p with
    | none => return self
    | some q => match fuel with
      | 0 => .error .hang
      | fuel + 1 => do return self + (← bucketSizeFrom t fuel q)

/-- impl/unordered_base_detail.cuh:566-593 `bucket_size`; the fuel is sufficient (C34). -/
def bucketSize (t : Tab V) (n : Nat) : Except Fault Nat := bucketSizeFrom t t.total n

/-- impl/unordered_base_detail.cuh:1110-1119 `size`. -/
def size (t : Tab V) : Int := t.count

/-- impl/unordered_base_detail.cuh:1078-1083 `empty`. -/
def empty (t : Tab V) : Bool := size t == 0

/-- impl/unordered_base_detail.cuh:1094-1099 `full`. -/
def full (t : Tab V) : Bool := size t == t.total

/-- `allocator_traits::construct` at `&_values[p]`. impl/unordered_base_detail.cuh:733, 777,
impl/memory_detail.h:600-606. -/
def construct (t : Tab V) (p : Nat) (v : V) : Except Fault (Tab V) :=
  if t.total ≤ p then .error .ub
  else if t.live p then .error .ub
  else .ok { t with val := upd t.val p (some v), live := upd t.live p true }

/-- `allocator_traits::destroy` of `_values[p]`. impl/unordered_base_detail.cuh:842, 887, impl/memory_detail.h:608-613. -/
def destroy (t : Tab V) (p : Nat) : Except Fault (Tab V) :=
  if t.total ≤ p then .error .ub
  else if t.live p then .ok { t with live := upd t.live p false }
  else .error .ub

/-- impl/unordered_base_detail.cuh:708-809 `try_insert`; position `none` is `end()`. -/
def tryInsert (P : Params K V) (t : Tab V) (v : V) : Except Fault ((Option Nat × Status) × Tab V) := do
  let block := P.keyOf v
  if !(← contains P t block) then
    let b := bucket P t block
    if !t.occ b then
      if t.locks b then return ((none, .failedCollision), t)                     -- try_lock fails
      else
        -- in the critical section the own lock is set; nothing below reads it
        if !(← contains P t block) && !t.occ b then
          let t1 ← construct t b v
          return ((some b, .success), { t1 with count := t1.count + 1, occ := upd t1.occ b true })
        else return ((none, .failedCollision), t)
    else
      let e ← listEnd t t.total b
      if t.locks e then return ((none, .failedCollision), t)
      else
        let e' ← listEnd t t.total b
        if !(← contains P t block) && e == e' then
          let (popped, ex) ← Vector.popBack t.excess
          let t1 : Tab V := { t with excess := ex }
          match popped with
          | none => return ((none, .failedCollision), t1)
          | some n =>
            let t2 ← construct t1 n v
            let t3 : Tab V := { t2 with off := upd t2.off n 0 }
            let t4 : Tab V := { t3 with count := t3.count + 1, occ := upd t3.occ n true }
            return ((some n, .success), { t4 with off := upd t4.off e ((n : Int) - e) })
        else return ((none, .failedCollision), t)
  else return ((none, .failedNoActionRequired), t)

/-- impl/unordered_base_detail.cuh:976-990: the loop of `insert`. Without interference an attempt that fails with
`failed_collision` leaves the table unchanged, or removes one from a counter of the free list that lies beyond its
capacity; so the number of different attempts is bounded (`insertFuel`) and one more means an endless loop. -/
def insertLoop (P : Params K V) (v : V) : Nat → Tab V → Except Fault ((Option Nat × Bool) × Tab V)
  | fuel, t => do
    if !full t && !Vector.empty t.excess then
      let ((it, st), t') ← tryInsert P t v
      if st = .failedCollision then
        match fuel with
        | 0 => .error .hang
        | fuel + 1 => insertLoop P v fuel t'
      else return ((it, st == .success), t')
    else return ((none, false), t)

/-- A bound for the iterations of the loop of impl/unordered_base_detail.cuh:967-994 in sequential executions; not part
of the code. -/
def insertFuel (t : Tab V) : Nat := (t.excess.ctr - Vector.cap t.excess).toNat + 1

/-- impl/unordered_base_detail.cuh:967-994 `insert`; `emplace` (958-965) constructs the value and calls it. -/
def insert (P : Params K V) (t : Tab V) (v : V) : Except Fault ((Option Nat × Bool) × Tab V) :=
  insertLoop P v (insertFuel t) t

/-- impl/unordered_base_detail.cuh:811-913 `try_erase`. -/
def tryErase (P : Params K V) (t : Tab V) (k : K) : Except Fault (Status × Tab V) := do
  match ← find P t k with
  | none => return (.failedNoActionRequired, t)
  | some p =>
    let b := bucket P t k
    if p = b then
      if t.locks p then return (.failedCollision, t)
      else
        if (← find P t k) == some p then
          let t1 : Tab V := { t with occ := upd t.occ p false, count := t.count - 1 }
          let t2 ← destroy t1 p
          return (.success, t2)
        else return (.failedCollision, t)
    else
      let prev ← prevFrom t p t.total b
      if t.locks p || t.locks prev || p == prev then return (.failedCollision, t) -- try_lock of both fails
      else
        let it' ← find P t k
        let prev' ← prevFrom t p t.total b
        if it' == some p && prev == prev' then
          let t1 : Tab V := if t.off p ≠ 0 then { t with off := upd t.off prev (t.off prev + t.off p) }
                            else { t with off := upd t.off prev 0 }
          let t2 : Tab V := { t1 with occ := upd t1.occ p false, count := t1.count - 1 }
          let t3 ← destroy t2 p
          let (_, ex) ← Vector.pushBack t3.excess p
          return (.success, { t3 with excess := ex })
        else return (.failedCollision, t)

/-- impl/unordered_base_detail.cuh:1019-1043 `erase`: a failed attempt changes nothing, so it is repeated forever. -/
def erase (P : Params K V) (t : Tab V) (k : K) : Except Fault (Nat × Tab V) := do
  let (st, t') ← tryErase P t k
  match st with
  | .failedCollision => .error .hang
  | .success => return (1, t')
  | .failedNoActionRequired => return (0, t')

/-- impl/unordered_base_detail.cuh:536-541 `destroy_values::operator()`. -/
def destroyValue (t : Tab V) (n : Nat) : Except Fault (Tab V) := if t.occ n then destroy t n else .ok t

/-- impl/unordered_base_detail.cuh:1227-1252 `clear`; `ord n` is the order in which a parallel loop over `n` indices
processes them. (For trivially destructible values the destruction is skipped, without observable effect.) -/
def clear (ord : Nat → List Nat) (t : Tab V) : Except Fault (Tab V) :=
  if empty t then .ok t
  else do
    let t1 ← (ord t.total).foldlM destroyValue t
    return { t1 with off := fun _ => 0, occ := fun _ => false, count := 0, excess := Vector.clearIota t1.excess t1.bc }

/-- impl/unordered_base_detail.cuh:1254-1308 `createDeviceObject`, given the bucket count and the excess count computed
there (their computation: C37). -/
def create (bucketCount excessCount : Nat) : Tab V :=
  { bc := bucketCount, total := bucketCount + excessCount, occ := fun _ => false, count := 0, off := fun _ => 0,
    val := fun _ => none, live := fun _ => false, locks := fun _ => false,
    excess := Vector.clearIota (Vector.create excessCount) bucketCount }

/-- impl/unordered_base_detail.cuh:137-183 `device_range`: entry `i`, when occupied, is written to the next free place
of `_range_indices`, in the order in which the parallel loop reaches the atomic increment. The result are the indices;
the values seen through the range are those at these positions. -/
def deviceRange (ord : Nat → List Nat) (t : Tab V) : List Nat := (ord t.total).filter t.occ

/-! ### `valid()` -/

/-- impl/unordered_base_detail.cuh:219-233 `offset_inside_range::operator()`. -/
def offsetInsideRange (t : Tab V) (i : Nat) : Bool :=
  decide (0 ≤ (i : Int) + t.off i) && decide ((i : Int) + t.off i < t.total)

/-- impl/unordered_base_detail.cuh:268-291 `count_visits::operator()`: the walk from entry `p`, whose visit has been
counted already. It is left as soon as an entry has been visited twice, so it makes at most `total` steps. -/
def visitFrom (t : Tab V) : Nat → Nat → (Nat → Nat) → Except Fault (Nat → Nat)
  | fuel, p, flags => do
    match ← next t p with
    | none => return flags
    | some q =>
      let flags' := upd flags q (flags q + 1)
      if flags' q > 1 then return flags'
      else match fuel with
        | 0 => .error .hang
        | fuel + 1 => visitFrom t fuel q flags'

/-- impl/unordered_base_detail.cuh:316-350 `loop_free`. -/
def loopFree (ord : Nat → List Nat) (t : Tab V) : Except Fault Bool := do
  let flags ← (ord t.bc).foldlM (fun flags i => visitFrom t t.total i (upd flags i (flags i + 1))) (fun _ => 0)
  return (List.range t.total).all (fun i => decide (flags i ≤ 1))

/-- impl/unordered_base_detail.cuh:361-375 `value_reachable::operator()`. -/
def valueReachable (P : Params K V) (t : Tab V) (i : Nat) : Except Fault Bool :=
  if t.occ i then
    match t.val i with
    | some v => contains P t (P.keyOf v)
    | none => .error .ub
  else .ok true

/-- impl/unordered_base_detail.cuh:409-429 `values_unique::operator()`. -/
def valueUnique (P : Params K V) (t : Tab V) (i : Nat) : Except Fault Bool :=
  if t.occ i then
    match t.val i with
    | some v => do return (← find P t (P.keyOf v)) == some i
    | none => .error .ub
  else .ok true

/-- A conjunction over the entries `l` (`transform_reduce_index` with `logical_and`; C46). -/
def allM (f : Nat → Except Fault Bool) : List Nat → Except Fault Bool
  | [] => .ok true
  | i :: l => do
    let x ← f i
    let y ← allM f l
    return x && y

/-- impl/unordered_base_detail.cuh:1199-1218 `valid`. -/
def valid (P : Params K V) (ord : Nat → List Nat) (t : Tab V) : Except Fault Bool :=
  if t.total = 0 then .ok true
  else do
    let a := (List.range t.total).all (offsetInsideRange t)
    if !a then return false
    let b ← loopFree ord t
    if !b then return false
    let c ← allM (valueReachable P t) (List.range t.total)
    if !c then return false
    let d ← allM (valueUnique P t) (List.range t.total)
    return d && (size t == (Vector.countBits t.total t.occ : Int)) && (Vector.countBits t.total t.locks == 0) &&
      Vector.valid t.excess

/-! ### Sequential histories -/

/-- impl/unordered_base_detail.cuh:595-706, 967-1252. -/
inductive UOp (K V : Type) where
  | insert (v : V) | erase (k : K) | clear
  | find (k : K) | contains (k : K) | count (k : K) | size | empty | valid

/-- impl/unordered_base_detail.cuh:595-706, 967-1252. -/
inductive UOut (V : Type) where
  | unit | bool (b : Bool) | num (n : Int)
  | found (v : Option V)          -- the value an iterator points to, `none` for `end()`
  | inserted (v : Option V) (b : Bool)
  deriving DecidableEq

/-- The object a returned iterator points to. `operator*` of the iterators returned by
impl/unordered_base_detail.cuh:619-682, 967-994. -/
def deref (t : Tab V) : Option Nat → Except Fault (Option V)
  | none => .ok none
  | some p => if p < t.total && t.live p then .ok (t.val p) else .error .ub

/-- One operation of a history. impl/unordered_base_detail.cuh:595-706, 967-1252. -/
def exec (P : Params K V) (ord : Nat → List Nat) (t : Tab V) : UOp K V → Except Fault (UOut V × Tab V)
  | .insert v => do
    let ((it, b), t') ← insert P t v
    return (.inserted (← deref t' it) b, t')
  | .erase k => do let (n, t') ← erase P t k; return (.num n, t')
  | .clear => do let t' ← clear ord t; return (.unit, t')
  | .find k => do let it ← find P t k; return (.found (← deref t it), t)
  | .contains k => do let b ← contains P t k; return (.bool b, t)
  | .count k => do let n ← count P t k; return (.num n, t)
  | .size => .ok (.num (size t), t)
  | .empty => .ok (.bool (empty t), t)
  | .valid => do let b ← valid P ord t; return (.bool b, t)

/-- Calls of impl/unordered_base_detail.cuh:595-706, 967-1252 one after another. -/
def execAll (P : Params K V) (ords : Nat → Nat → List Nat) (t : Tab V) :
    List (UOp K V) → Except Fault (List (UOut V) × Tab V)
  | [] => .ok ([], t)
  | op :: ops => do
    let (o, t1) ← exec P (ords 0) t op
    let (os, t2) ← execAll P (fun k => ords (k + 1)) t1 ops
    return (o :: os, t2)

end Stdgpu.Unordered
