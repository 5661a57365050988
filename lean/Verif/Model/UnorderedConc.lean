import Verif.Model.Unordered
/-
Model of `insert`, `erase` and `find` of `src/stdgpu/impl/unordered_base_detail.cuh` executed by any number of threads.
Every access to a shared variable (`_occupied`, `_values`, `_offsets`, `_locks`, `_occupied_count`, the variables of
the free list `_excess_list_positions`) is a separate step. The free list is the vector machine of `Model/SlotConc.lean`
with the front end of `Model/Vector.lean`.

An offset is read twice by the chain walks (`while (_offsets[i] != 0) i += _offsets[i]`), so it is read in two steps; a
compiler that merges the two reads gives the executions in which nothing happens in between.

Undefined behaviour is recorded in flags: `ub` for reading storage that never held an object, constructing over a live
object, destroying a dead one or leaving the table (the free list has its own flag); `stale` for reading a value whose
destructor has been called: the model continues with the old bytes then, as happens for trivially destructible values.

The mutexes and occupied bits are booleans, see `Model/SlotConc.lean`. The printf diagnostics are not modelled.
-/
namespace Stdgpu.UnorderedConc
open Stdgpu.Conc
open Stdgpu.SlotConc (upd)
open Stdgpu.Unordered
open Stdgpu.Vector (FPC vfront)

variable {K V : Type}

/-- impl/unordered_base.cuh:526-544, with ghost flags: undefined behaviour has happened; an object was read after its
destruction. -/
structure Shared (V : Type) where
  tab : Tab V
  ub : Bool
  stale : Bool

/-- `i += _offsets[i]`; `none` outside the table. impl/unordered_base_detail.cuh:671, 924, 943. -/
def hop (t : Tab V) (w : Nat) : Option Nat :=
  let q := (w : Int) + t.off w
  if 0 ≤ q ∧ q < t.total then some q.toNat else none

/-- Program points of `find_impl` at entry `w`: before reading the occupied bit, the value, the offset (twice).
impl/unordered_base_detail.cuh:655-682. -/
inductive Walk where
  | occ (w : Nat) | val (w : Nat) | off1 (w : Nat) | off2 (w : Nat)
  deriving DecidableEq

/-- impl/unordered_base_detail.cuh:655-682 `find_impl`; `eq` is the comparison of a stored value with the key. The result
is the position found, `none` for `end()`. -/
def findStep (m : Shared V) (eq : V → Bool) : Walk → Shared V × (Walk ⊕ Option Nat)
  | .occ w => (m, .inl (if m.tab.occ w then .val w else .off1 w))
  | .val w =>
    match m.tab.val w with
    | none => ({ m with ub := true }, .inl (.val w))
    | some v => ({ m with stale := m.stale || !m.tab.live w }, if eq v then .inr (some w) else .inl (.off1 w))
  | .off1 w => (m, if m.tab.off w = 0 then .inr none else .inl (.off2 w))
  | .off2 w =>
    match hop m.tab w with
    | none => ({ m with ub := true }, .inl (.off2 w))
    | some q => (m, .inl (.occ q))

/-- Program points of the two walks along the offsets. impl/unordered_base_detail.cuh:915-956. -/
inductive Hop where
  | off1 (w : Nat) | off2 (w : Nat)
  deriving DecidableEq

/-- impl/unordered_base_detail.cuh:915-928 `find_linked_list_end`. -/
def endStep (m : Shared V) : Hop → Shared V × (Hop ⊕ Nat)
  | .off1 w => (m, if m.tab.off w = 0 then .inr w else .inl (.off2 w))
  | .off2 w =>
    match hop m.tab w with
    | none => ({ m with ub := true }, .inl (.off2 w))
    | some q => (m, .inl (.off1 q))

/-- impl/unordered_base_detail.cuh:930-956 `find_previous_entry_position`; at the loop head `previous_position` equals
`key_index`. -/
def prevStep (m : Shared V) (entry : Nat) : Hop → Shared V × (Hop ⊕ Nat)
  | .off1 w => (m, if m.tab.off w = 0 then .inr w else .inl (.off2 w))
  | .off2 w =>
    match hop m.tab w with
    | none => ({ m with ub := true }, .inl (.off2 w))
    | some q => (m, if q = entry then .inr w else .inl (.off1 q))

/-- Calls on the free list: the state of the calling thread in the vector machine. impl/vector_detail.cuh:181-299. -/
abbrev Ex := SlotConc.Thread Unit FPC Nat

/-- One step of `_excess_list_positions.push_back` / `pop_back` (impl/vector_detail.cuh:181-299). -/
def exStep (m : Shared V) (ex : Ex) : Shared V × Ex :=
  let r := SlotConc.step (vfront (Vector.cap m.tab.excess)) m.tab.excess ex
  ({ m with tab := { m.tab with excess := r.1 } }, r.2)

/-- Program points of `insert`. impl/unordered_base_detail.cuh:967-994, 708-809. -/
inductive IPC where
  | full | exc                                  -- the condition of the loop (l.980-981)
  | c1 (w : Walk) | occ1                        -- first `contains`, `occupied(bucket_index)`
  | lockB | c2 (w : Walk) | occ2 | consB | cntB | setB
  | e1 (w : Hop) | lockE (e : Nat) | e2 (e : Nat) (w : Hop) | c3 (e e' : Nat) (w : Walk)
  | pop (e : Nat) | cons (e n : Nat) | off (e n : Nat) | cnt (e n : Nat) | set (e n : Nat) | link (e n : Nat)
  | unlock (p : Nat) (r : Option Nat)           -- `r`: the position of the inserted value
  deriving DecidableEq

/-- Construction of a value at `_values[p]`. impl/unordered_base_detail.cuh:733, 777. -/
def constructAt (m : Shared V) (p : Nat) (v : V) : Shared V :=
  { m with tab := { m.tab with val := upd m.tab.val p (some v), live := upd m.tab.live p true },
           ub := m.ub || m.tab.live p }

/-- Destruction of `_values[p]`. impl/unordered_base_detail.cuh:842, 887. -/
def destroyAt (m : Shared V) (p : Nat) : Shared V :=
  { m with tab := { m.tab with live := upd m.tab.live p false }, ub := m.ub || !m.tab.live p }

/-- `_occupied.set`, `_occupied.reset`: impl/unordered_base_detail.cuh:708-913. -/
def setOcc (m : Shared V) (p : Nat) (b : Bool) : Shared V := { m with tab := { m.tab with occ := upd m.tab.occ p b } }

/-- `_locks[p].try_lock()`, `_locks[p].unlock()`: impl/unordered_base_detail.cuh:708-913. -/
def setLock (m : Shared V) (p : Nat) (b : Bool) : Shared V := { m with tab := { m.tab with locks := upd m.tab.locks p b } }

/-- Assignments to `_offsets[p]`: impl/unordered_base_detail.cuh:708-913. -/
def setOff (m : Shared V) (p : Nat) (o : Int) : Shared V := { m with tab := { m.tab with off := upd m.tab.off p o } }

/-- `++_occupied_count`, `--_occupied_count`: impl/unordered_base_detail.cuh:708-913. -/
def addCount (m : Shared V) (d : Int) : Shared V := { m with tab := { m.tab with count := m.tab.count + d } }

/-- Outcome of a step of an operation: continue at a program point or return. impl/unordered_base_detail.cuh:655-682,
708-1043. -/
inductive Next (PC R : Type) where
  | go (pc : PC) | ret (r : R)

/-- impl/unordered_base_detail.cuh:967-994 `insert` with 708-809 `try_insert`. `b` is the bucket of the key of `v`,
`eq` the comparison with this key; the result is the position of the new value, `none` when nothing was inserted. -/
def insStep (m : Shared V) (v : V) (b : Nat) (eq : V → Bool) (ex : Ex) : IPC → Shared V × Ex × Next IPC (Option Nat)
  | .full => (m, ex, if full m.tab then .ret none else .go .exc)
  | .exc => (m, ex, if Vector.empty m.tab.excess then .ret none else .go (.c1 (.occ b)))
  | .c1 w =>
    match findStep m eq w with
    | (m', .inl w') => (m', ex, .go (.c1 w'))
    | (m', .inr (some _)) => (m', ex, .ret none)                               -- failed_no_action_required
    | (m', .inr none) => (m', ex, .go .occ1)
  | .occ1 => (m, ex, .go (if !m.tab.occ b then .lockB else .e1 (.off1 b)))
  | .lockB =>
    if m.tab.locks b then (m, ex, .go .full) else (setLock m b true, ex, .go (.c2 (.occ b)))
  | .c2 w =>
    match findStep m eq w with
    | (m', .inl w') => (m', ex, .go (.c2 w'))
    | (m', .inr (some _)) => (m', ex, .go (.unlock b none))
    | (m', .inr none) => (m', ex, .go .occ2)
  | .occ2 => (m, ex, .go (if !m.tab.occ b then .consB else .unlock b none))
  | .consB => (constructAt m b v, ex, .go .cntB)
  | .cntB => (addCount m 1, ex, .go .setB)
  | .setB => (setOcc m b true, ex, .go (.unlock b (some b)))
  | .e1 w =>
    match endStep m w with
    | (m', .inl w') => (m', ex, .go (.e1 w'))
    | (m', .inr e) => (m', ex, .go (.lockE e))
  | .lockE e =>
    if m.tab.locks e then (m, ex, .go .full) else (setLock m e true, ex, .go (.e2 e (.off1 b)))
  | .e2 e w =>
    match endStep m w with
    | (m', .inl w') => (m', ex, .go (.e2 e w'))
    | (m', .inr e') => (m', ex, .go (.c3 e e' (.occ b)))
  | .c3 e e' w =>
    match findStep m eq w with
    | (m', .inl w') => (m', ex, .go (.c3 e e' w'))
    | (m', .inr (some _)) => (m', ex, .go (.unlock e none))
    | (m', .inr none) =>
      if e = e' then (m', { ex with todo := [.pop ()] }, .go (.pop e)) else (m', ex, .go (.unlock e none))
  | .pop e =>
    let r := exStep m ex
    if r.2.todo = [] then
      match r.2.done.getLast? with
      | some (_, .popped n) => (r.1, r.2, .go (.cons e n))
      | _ => (r.1, r.2, .go (.unlock e none))
    else (r.1, r.2, .go (.pop e))
  | .cons e n => (constructAt m n v, ex, .go (.off e n))
  | .off e n => (setOff m n 0, ex, .go (.cnt e n))
  | .cnt e n => (addCount m 1, ex, .go (.set e n))
  | .set e n => (setOcc m n true, ex, .go (.link e n))
  | .link e n => (setOff m e ((n : Int) - e), ex, .go (.unlock e (some n)))
  | .unlock p r => (setLock m p false, ex, match r with | some n => .ret (some n) | none => .go .full)

/-- Program points of `erase`. impl/unordered_base_detail.cuh:1019-1043, 811-913. -/
inductive EPC where
  | f1 (w : Walk)
  | lockB (p : Nat) | f2 (p : Nat) (w : Walk) | resetB (p : Nat) | cntB (p : Nat) | desB (p : Nat)
  | unlockB (p : Nat) (ok : Bool)
  | p1 (p : Nat) (w : Hop) | lock1 (p q : Nat) | lock2 (p q : Nat) | undo1 (p : Nat)
  | f3 (p q : Nat) (w : Walk) | p2 (p q : Nat) (it : Option Nat) (w : Hop)
  | rd1 (p q : Nat) | rd2 (p q : Nat) | rd3 (p q : Nat) (o : Int) | wr (p q : Nat) (o : Int) | zero (p q : Nat)
  | reset (p q : Nat) | cnt (p q : Nat) | des (p q : Nat) | push (p q : Nat)
  | unlock1 (p q : Nat) (ok : Bool) | unlock2 (q : Nat) (ok : Bool)
  deriving DecidableEq

/-- impl/unordered_base_detail.cuh:1019-1043 `erase` with 811-913 `try_erase` and `try_lock` of two mutexes
(impl/mutex_detail.cuh:158-191). The result is the returned number of erased values. -/
def eraStep (m : Shared V) (b : Nat) (eq : V → Bool) (ex : Ex) : EPC → Shared V × Ex × Next EPC Bool
  | .f1 w =>
    match findStep m eq w with
    | (m', .inl w') => (m', ex, .go (.f1 w'))
    | (m', .inr none) => (m', ex, .ret false)                                  -- failed_no_action_required
    | (m', .inr (some p)) => (m', ex, .go (if p = b then .lockB p else .p1 p (.off1 b)))
  | .lockB p =>
    if m.tab.locks p then (m, ex, .go (.f1 (.occ b))) else (setLock m p true, ex, .go (.f2 p (.occ b)))
  | .f2 p w =>
    match findStep m eq w with
    | (m', .inl w') => (m', ex, .go (.f2 p w'))
    | (m', .inr r) => (m', ex, .go (if some p = r then .resetB p else .unlockB p false))
  | .resetB p => (setOcc m p false, ex, .go (.cntB p))
  | .cntB p => (addCount m (-1), ex, .go (.desB p))
  | .desB p => (destroyAt m p, ex, .go (.unlockB p true))
  | .unlockB p ok => (setLock m p false, ex, if ok then .ret true else .go (.f1 (.occ b)))
  | .p1 p w =>
    match prevStep m p w with
    | (m', .inl w') => (m', ex, .go (.p1 p w'))
    | (m', .inr q) => (m', ex, .go (.lock1 p q))
  | .lock1 p q =>
    if m.tab.locks p then (m, ex, .go (.f1 (.occ b))) else (setLock m p true, ex, .go (.lock2 p q))
  | .lock2 p q =>
    if m.tab.locks q then (m, ex, .go (.undo1 p)) else (setLock m q true, ex, .go (.f3 p q (.occ b)))
  | .undo1 p => (setLock m p false, ex, .go (.f1 (.occ b)))
  | .f3 p q w =>
    match findStep m eq w with
    | (m', .inl w') => (m', ex, .go (.f3 p q w'))
    | (m', .inr r) => (m', ex, .go (.p2 p q r (.off1 b)))
  | .p2 p q it w =>
    match prevStep m p w with
    | (m', .inl w') => (m', ex, .go (.p2 p q it w'))
    | (m', .inr q') => (m', ex, .go (if some p = it ∧ q = q' then .rd1 p q else .unlock1 p q false))
  | .rd1 p q => (m, ex, .go (if m.tab.off p ≠ 0 then .rd2 p q else .zero p q))
  | .rd2 p q => (m, ex, .go (.rd3 p q (m.tab.off p)))
  | .rd3 p q o => (m, ex, .go (.wr p q (m.tab.off q + o)))
  | .wr p q o => (setOff m q o, ex, .go (.reset p q))
  | .zero p q => (setOff m q 0, ex, .go (.reset p q))
  | .reset p q => (setOcc m p false, ex, .go (.cnt p q))
  | .cnt p q => (addCount m (-1), ex, .go (.des p q))
  | .des p q => (destroyAt m p, { ex with todo := [.push () p] }, .go (.push p q))
  | .push p q =>
    let r := exStep m ex
    (r.1, r.2, .go (if r.2.todo = [] then .unlock1 p q true else .push p q))
  | .unlock1 p q ok => (setLock m p false, ex, .go (.unlock2 q ok))
  | .unlock2 q ok => (setLock m q false, ex, if ok then .ret true else .go (.f1 (.occ b)))

/-- Operations of a thread. impl/unordered_base_detail.cuh:619-682, 967-1043. `contains` and `count` are `find`
(595-617, 684-706). -/
inductive Op (K V : Type) where
  | insert (v : V) | erase (k : K) | find (k : K)
  deriving DecidableEq

/-- Results: the position returned by `insert` / `find`, the flag returned by `insert` and the number by `erase`.
impl/unordered_base_detail.cuh:619-682, 967-1043. -/
inductive Res where
  | inserted (p : Nat) | notInserted | erased | notErased | found (p : Nat) | notFound
  deriving DecidableEq

/-- The current operation of a thread. impl/unordered_base_detail.cuh:655-682, 708-1043. -/
inductive Cur (K V : Type) where
  | idle | ins (v : V) (pc : IPC) | era (k : K) (pc : EPC) | fnd (k : K) (w : Walk)
  deriving DecidableEq

/-- A caller of impl/unordered_base_detail.cuh:619-682, 967-1043; `done` are the calls that have returned, with their
results. -/
structure Thread (K V : Type) where
  todo : List (Op K V)
  cur : Cur K V
  ex : Ex
  done : List (Op K V × Res)

/-- Start of an operation (no shared access). impl/unordered_base_detail.cuh:655-666, 967-979, 1019-1030. -/
def begin (P : Params K V) (t : Tab V) : Op K V → Cur K V
  | .insert v => .ins v .full
  | .erase k => .era k (.f1 (.occ (bucket P t k)))
  | .find k => .fnd k (.occ (bucket P t k))

/-- One step of a thread. impl/unordered_base_detail.cuh:655-682, 708-1043. -/
def step (P : Params K V) (m : Shared V) (t : Thread K V) : Shared V × Thread K V :=
  match t.cur with
  | .idle =>
    match t.todo with
    | [] => (m, t)
    | op :: rest => (m, { t with todo := rest, cur := begin P m.tab op })
  | .ins v pc =>
    match insStep m v (bucket P m.tab (P.keyOf v)) (fun w => P.keyEq (P.keyOf w) (P.keyOf v)) t.ex pc with
    | (m', ex', .go pc') => (m', { t with cur := .ins v pc', ex := ex' })
    | (m', ex', .ret (some p)) => (m', { t with cur := .idle, ex := ex', done := t.done ++ [(.insert v, .inserted p)] })
    | (m', ex', .ret none) => (m', { t with cur := .idle, ex := ex', done := t.done ++ [(.insert v, .notInserted)] })
  | .era k pc =>
    match eraStep m (bucket P m.tab k) (fun w => P.keyEq (P.keyOf w) k) t.ex pc with
    | (m', ex', .go pc') => (m', { t with cur := .era k pc', ex := ex' })
    | (m', ex', .ret ok) =>
      (m', { t with cur := .idle, ex := ex', done := t.done ++ [(.erase k, if ok then .erased else .notErased)] })
  | .fnd k w =>
    match findStep m (fun w => P.keyEq (P.keyOf w) k) w with
    | (m', .inl w') => (m', { t with cur := .fnd k w' })
    | (m', .inr (some p)) => (m', { t with cur := .idle, done := t.done ++ [(.find k, .found p)] })
    | (m', .inr none) => (m', { t with cur := .idle, done := t.done ++ [(.find k, .notFound)] })

/-- `programs` are the operations of the threads (one thread per index of a bulk `insert(begin, end)`).
impl/unordered_base_detail.cuh:996-1018, 1045-1066 and any number of threads that call 619-682, 967-1043
themselves. -/
def init (t : Tab V) (programs : List (List (Op K V))) : Sys (Shared V) (Thread K V) :=
  { shared := ⟨t, false, false⟩,
    threads := programs.map (fun p => { todo := p, cur := .idle, ex := ⟨[], .front .check, []⟩, done := [] }) }

end Stdgpu.UnorderedConc
