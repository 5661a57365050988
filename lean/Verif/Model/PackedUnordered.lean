import Verif.Model.Packed
import Verif.Model.UnorderedConc
/-
`insert`, `erase` and `find` of `src/stdgpu/impl/unordered_base_detail.cuh` executed by any number of threads, as in
Model/UnorderedConc.lean, on the real representation of `_occupied` and `_locks`: a `bitset` and a `mutex_array`, which
keep the bits of `w` neighbouring entries in one word; likewise for the free list `_excess_list_positions`
(Model/Packed.lean). A bit outside the words is undefined behaviour: the flag `ub` is set and the thread stays where it is.
-/
namespace Stdgpu.Packed
open Stdgpu.Conc
open Stdgpu.SlotConc (upd)
open Stdgpu.Unordered (Params)
open Stdgpu.UnorderedConc
open Stdgpu.Vector (FPC vfront clampSize)
open Stdgpu.Bitset (Bitset)

variable {w : Nat} {K V : Type}

/-- Members of `unordered_base` (impl/unordered_base.cuh), cf. `Unordered.Tab`. impl/unordered_base.cuh:526-544. -/
structure PTab (w : Nat) (V : Type) where
  bc : Nat
  total : Nat
  occ : Bitset w
  count : Int
  off : Nat → Int
  val : Nat → Option V
  live : Nat → Bool
  locks : Bitset w
  excess : PMem w Int Nat

/-- impl/unordered_base.cuh:526-544, with the two ghost flags of `UnorderedConc.Shared`. -/
structure PShared (w : Nat) (V : Type) where
  tab : PTab w V
  ub : Bool
  stale : Bool

/-- impl/unordered_base_detail.cuh:547-564 `bucket`, as `Unordered.bucket`. -/
def pbucket (P : Params K V) (t : PTab w V) (k : K) : Nat := (FibHash.bucket P.hash t.bc k).toNat

/-- `i += _offsets[i]`, as `UnorderedConc.hop`. impl/unordered_base_detail.cuh:671, 924, 943. -/
def phop (t : PTab w V) (p : Nat) : Option Nat :=
  let q := (p : Int) + t.off p
  if 0 ≤ q ∧ q < t.total then some q.toNat else none

/-- impl/unordered_base_detail.cuh:655-682 `find_impl`; `occupied(i)` (1068-1076) reads one bit of a word. -/
def pfindStep (m : PShared w V) (eq : V → Bool) : Walk → PShared w V × (Walk ⊕ Option Nat)
  | .occ p =>
    match Bitset.test m.tab.occ p with
    | none => ({ m with ub := true }, .inl (.occ p))
    | some o => (m, .inl (if o then .val p else .off1 p))
  | .val p =>
    match m.tab.val p with
    | none => ({ m with ub := true }, .inl (.val p))
    | some v => ({ m with stale := m.stale || !m.tab.live p }, if eq v then .inr (some p) else .inl (.off1 p))
  | .off1 p => (m, if m.tab.off p = 0 then .inr none else .inl (.off2 p))
  | .off2 p =>
    match phop m.tab p with
    | none => ({ m with ub := true }, .inl (.off2 p))
    | some q => (m, .inl (.occ q))

/-- impl/unordered_base_detail.cuh:915-928 `find_linked_list_end`. -/
def pendStep (m : PShared w V) : Hop → PShared w V × (Hop ⊕ Nat)
  | .off1 p => (m, if m.tab.off p = 0 then .inr p else .inl (.off2 p))
  | .off2 p =>
    match phop m.tab p with
    | none => ({ m with ub := true }, .inl (.off2 p))
    | some q => (m, .inl (.off1 q))

/-- impl/unordered_base_detail.cuh:930-956 `find_previous_entry_position`. -/
def pprevStep (m : PShared w V) (entry : Nat) : Hop → PShared w V × (Hop ⊕ Nat)
  | .off1 p => (m, if m.tab.off p = 0 then .inr p else .inl (.off2 p))
  | .off2 p =>
    match phop m.tab p with
    | none => ({ m with ub := true }, .inl (.off2 p))
    | some q => (m, if q = entry then .inr p else .inl (.off1 q))

/-- One step of a call on the free list (impl/vector_detail.cuh:181-299), see Model/Packed.lean. -/
def pexStep (m : PShared w V) (ex : Ex) : PShared w V × Ex :=
  let r := pstep (vfront m.tab.excess.slots.cap) m.tab.excess ex
  ({ m with tab := { m.tab with excess := r.1 } }, r.2)

/-- Construction of a value at `_values[p]`. impl/unordered_base_detail.cuh:733, 777. -/
def pconstructAt (m : PShared w V) (p : Nat) (v : V) : PShared w V :=
  { m with tab := { m.tab with val := upd m.tab.val p (some v), live := upd m.tab.live p true },
           ub := m.ub || m.tab.live p }

/-- Destruction of `_values[p]`. impl/unordered_base_detail.cuh:842, 887. -/
def pdestroyAt (m : PShared w V) (p : Nat) : PShared w V :=
  { m with tab := { m.tab with live := upd m.tab.live p false }, ub := m.ub || !m.tab.live p }

/-- impl/unordered_base_detail.cuh:708-913, assignments to `_offsets`. -/
def psetOff (m : PShared w V) (p : Nat) (o : Int) : PShared w V := { m with tab := { m.tab with off := upd m.tab.off p o } }

/-- impl/unordered_base_detail.cuh:708-913, `++_occupied_count` and `--_occupied_count`. -/
def paddCount (m : PShared w V) (d : Int) : PShared w V := { m with tab := { m.tab with count := m.tab.count + d } }

/-- `_locks[p].try_lock()`; `some r` tells whether the mutex has been locked. impl/unordered_base_detail.cuh:708-913. -/
def plock (m : PShared w V) (p : Nat) : PShared w V × Option Bool :=
  match Mutex.tryLock1 m.tab.locks p with
  | none => ({ m with ub := true }, none)
  | some (ok, b) => ({ m with tab := { m.tab with locks := b } }, some ok)

/-- `_locks[p].unlock()`. impl/unordered_base_detail.cuh:708-913. -/
def punlock (m : PShared w V) (p : Nat) : PShared w V × Option Unit :=
  match Mutex.unlock m.tab.locks p with
  | none => ({ m with ub := true }, none)
  | some b => ({ m with tab := { m.tab with locks := b } }, some ())

/-- `_occupied.set(p)` and `_occupied.reset(p)` (impl/unordered_base_detail.cuh:739, 782, 838, 883). -/
def psetOcc (m : PShared w V) (p : Nat) (x : Bool) : PShared w V × Option Unit :=
  match if x then Bitset.set m.tab.occ p true else Bitset.reset m.tab.occ p with
  | none => ({ m with ub := true }, none)
  | some (_, b) => ({ m with tab := { m.tab with occ := b } }, some ())

/-- impl/unordered_base_detail.cuh:967-994 `insert` with 708-809 `try_insert`. -/
def pinsStep (m : PShared w V) (v : V) (b : Nat) (eq : V → Bool) (ex : Ex) :
    IPC → PShared w V × Ex × Next IPC (Option Nat)
  | .full => (m, ex, if m.tab.count == m.tab.total then .ret none else .go .exc)
  | .exc =>
    (m, ex, if clampSize m.tab.excess.slots.cap m.tab.excess.ctr == 0 then .ret none else .go (.c1 (.occ b)))
  | .c1 x =>
    match pfindStep m eq x with
    | (m', .inl x') => (m', ex, .go (.c1 x'))
    | (m', .inr (some _)) => (m', ex, .ret none)
    | (m', .inr none) => (m', ex, .go .occ1)
  | .occ1 =>
    match Bitset.test m.tab.occ b with
    | none => ({ m with ub := true }, ex, .go .occ1)
    | some o => (m, ex, .go (if !o then .lockB else .e1 (.off1 b)))
  | .lockB =>
    match plock m b with
    | (m', none) => (m', ex, .go .lockB)
    | (m', some false) => (m', ex, .go .full)
    | (m', some true) => (m', ex, .go (.c2 (.occ b)))
  | .c2 x =>
    match pfindStep m eq x with
    | (m', .inl x') => (m', ex, .go (.c2 x'))
    | (m', .inr (some _)) => (m', ex, .go (.unlock b none))
    | (m', .inr none) => (m', ex, .go .occ2)
  | .occ2 =>
    match Bitset.test m.tab.occ b with
    | none => ({ m with ub := true }, ex, .go .occ2)
    | some o => (m, ex, .go (if !o then .consB else .unlock b none))
  | .consB => (pconstructAt m b v, ex, .go .cntB)
  | .cntB => (paddCount m 1, ex, .go .setB)
  | .setB =>
    match psetOcc m b true with
    | (m', none) => (m', ex, .go .setB)
    | (m', some _) => (m', ex, .go (.unlock b (some b)))
  | .e1 x =>
    match pendStep m x with
    | (m', .inl x') => (m', ex, .go (.e1 x'))
    | (m', .inr e) => (m', ex, .go (.lockE e))
  | .lockE e =>
    match plock m e with
    | (m', none) => (m', ex, .go (.lockE e))
    | (m', some false) => (m', ex, .go .full)
    | (m', some true) => (m', ex, .go (.e2 e (.off1 b)))
  | .e2 e x =>
    match pendStep m x with
    | (m', .inl x') => (m', ex, .go (.e2 e x'))
    | (m', .inr e') => (m', ex, .go (.c3 e e' (.occ b)))
  | .c3 e e' x =>
    match pfindStep m eq x with
    | (m', .inl x') => (m', ex, .go (.c3 e e' x'))
    | (m', .inr (some _)) => (m', ex, .go (.unlock e none))
    | (m', .inr none) =>
      if e = e' then (m', { ex with todo := [.pop ()] }, .go (.pop e)) else (m', ex, .go (.unlock e none))
  | .pop e =>
    let r := pexStep m ex
    if r.2.todo = [] then
      match r.2.done.getLast? with
      | some (_, .popped n) => (r.1, r.2, .go (.cons e n))
      | _ => (r.1, r.2, .go (.unlock e none))
    else (r.1, r.2, .go (.pop e))
  | .cons e n => (pconstructAt m n v, ex, .go (.off e n))
  | .off e n => (psetOff m n 0, ex, .go (.cnt e n))
  | .cnt e n => (paddCount m 1, ex, .go (.set e n))
  | .set e n =>
    match psetOcc m n true with
    | (m', none) => (m', ex, .go (.set e n))
    | (m', some _) => (m', ex, .go (.link e n))
  | .link e n => (psetOff m e ((n : Int) - e), ex, .go (.unlock e (some n)))
  | .unlock p r =>
    match punlock m p with
    | (m', none) => (m', ex, .go (.unlock p r))
    | (m', some _) => (m', ex, match r with | some n => .ret (some n) | none => .go .full)

/-- impl/unordered_base_detail.cuh:1019-1043 `erase` with 811-913 `try_erase` and `try_lock` of two mutexes
(impl/mutex_detail.cuh:158-191). -/
def peraStep (m : PShared w V) (b : Nat) (eq : V → Bool) (ex : Ex) : EPC → PShared w V × Ex × Next EPC Bool
  | .f1 x =>
    match pfindStep m eq x with
    | (m', .inl x') => (m', ex, .go (.f1 x'))
    | (m', .inr none) => (m', ex, .ret false)
    | (m', .inr (some p)) => (m', ex, .go (if p = b then .lockB p else .p1 p (.off1 b)))
  | .lockB p =>
    match plock m p with
    | (m', none) => (m', ex, .go (.lockB p))
    | (m', some false) => (m', ex, .go (.f1 (.occ b)))
    | (m', some true) => (m', ex, .go (.f2 p (.occ b)))
  | .f2 p x =>
    match pfindStep m eq x with
    | (m', .inl x') => (m', ex, .go (.f2 p x'))
    | (m', .inr r) => (m', ex, .go (if some p = r then .resetB p else .unlockB p false))
  | .resetB p =>
    match psetOcc m p false with
    | (m', none) => (m', ex, .go (.resetB p))
    | (m', some _) => (m', ex, .go (.cntB p))
  | .cntB p => (paddCount m (-1), ex, .go (.desB p))
  | .desB p => (pdestroyAt m p, ex, .go (.unlockB p true))
  | .unlockB p ok =>
    match punlock m p with
    | (m', none) => (m', ex, .go (.unlockB p ok))
    | (m', some _) => (m', ex, if ok then .ret true else .go (.f1 (.occ b)))
  | .p1 p x =>
    match pprevStep m p x with
    | (m', .inl x') => (m', ex, .go (.p1 p x'))
    | (m', .inr q) => (m', ex, .go (.lock1 p q))
  | .lock1 p q =>
    match plock m p with
    | (m', none) => (m', ex, .go (.lock1 p q))
    | (m', some false) => (m', ex, .go (.f1 (.occ b)))
    | (m', some true) => (m', ex, .go (.lock2 p q))
  | .lock2 p q =>
    match plock m q with
    | (m', none) => (m', ex, .go (.lock2 p q))
    | (m', some false) => (m', ex, .go (.undo1 p))
    | (m', some true) => (m', ex, .go (.f3 p q (.occ b)))
  | .undo1 p =>
    match punlock m p with
    | (m', none) => (m', ex, .go (.undo1 p))
    | (m', some _) => (m', ex, .go (.f1 (.occ b)))
  | .f3 p q x =>
    match pfindStep m eq x with
    | (m', .inl x') => (m', ex, .go (.f3 p q x'))
    | (m', .inr r) => (m', ex, .go (.p2 p q r (.off1 b)))
  | .p2 p q it x =>
    match pprevStep m p x with
    | (m', .inl x') => (m', ex, .go (.p2 p q it x'))
    | (m', .inr q') => (m', ex, .go (if some p = it ∧ q = q' then .rd1 p q else .unlock1 p q false))
  | .rd1 p q => (m, ex, .go (if m.tab.off p ≠ 0 then .rd2 p q else .zero p q))
  | .rd2 p q => (m, ex, .go (.rd3 p q (m.tab.off p)))
  | .rd3 p q o => (m, ex, .go (.wr p q (m.tab.off q + o)))
  | .wr p q o => (psetOff m q o, ex, .go (.reset p q))
  | .zero p q => (psetOff m q 0, ex, .go (.reset p q))
  | .reset p q =>
    match psetOcc m p false with
    | (m', none) => (m', ex, .go (.reset p q))
    | (m', some _) => (m', ex, .go (.cnt p q))
  | .cnt p q => (paddCount m (-1), ex, .go (.des p q))
  | .des p q => (pdestroyAt m p, { ex with todo := [.push () p] }, .go (.push p q))
  | .push p q =>
    let r := pexStep m ex
    (r.1, r.2, .go (if r.2.todo = [] then .unlock1 p q true else .push p q))
  | .unlock1 p q ok =>
    match punlock m p with
    | (m', none) => (m', ex, .go (.unlock1 p q ok))
    | (m', some _) => (m', ex, .go (.unlock2 q ok))
  | .unlock2 q ok =>
    match punlock m q with
    | (m', none) => (m', ex, .go (.unlock2 q ok))
    | (m', some _) => (m', ex, if ok then .ret true else .go (.f1 (.occ b)))

/-- Start of an operation, as `UnorderedConc.begin`. impl/unordered_base_detail.cuh:655-682, 967-994, 1019-1043. -/
def pbegin (P : Params K V) (t : PTab w V) : Op K V → Cur K V
  | .insert v => .ins v .full
  | .erase k => .era k (.f1 (.occ (pbucket P t k)))
  | .find k => .fnd k (.occ (pbucket P t k))

/-- One step of a thread, as `UnorderedConc.step`. impl/unordered_base_detail.cuh:655-682, 967-994, 1019-1043. -/
def pustep (P : Params K V) (m : PShared w V) (t : Thread K V) : PShared w V × Thread K V :=
  match t.cur with
  | .idle =>
    match t.todo with
    | [] => (m, t)
    | op :: rest => (m, { t with todo := rest, cur := pbegin P m.tab op })
  | .ins v pc =>
    match pinsStep m v (pbucket P m.tab (P.keyOf v)) (fun x => P.keyEq (P.keyOf x) (P.keyOf v)) t.ex pc with
    | (m', ex', .go pc') => (m', { t with cur := .ins v pc', ex := ex' })
    | (m', ex', .ret (some p)) => (m', { t with cur := .idle, ex := ex', done := t.done ++ [(.insert v, .inserted p)] })
    | (m', ex', .ret none) => (m', { t with cur := .idle, ex := ex', done := t.done ++ [(.insert v, .notInserted)] })
  | .era k pc =>
    match peraStep m (pbucket P m.tab k) (fun x => P.keyEq (P.keyOf x) k) t.ex pc with
    | (m', ex', .go pc') => (m', { t with cur := .era k pc', ex := ex' })
    | (m', ex', .ret ok) =>
      (m', { t with cur := .idle, ex := ex', done := t.done ++ [(.erase k, if ok then .erased else .notErased)] })
  | .fnd k x =>
    match pfindStep m (fun x => P.keyEq (P.keyOf x) k) x with
    | (m', .inl x') => (m', { t with cur := .fnd k x' })
    | (m', .inr (some p)) => (m', { t with cur := .idle, done := t.done ++ [(.find k, .found p)] })
    | (m', .inr none) => (m', { t with cur := .idle, done := t.done ++ [(.find k, .notFound)] })

/-- No code: any number of callers of impl/unordered_base_detail.cuh:655-682, 967-994, 1019-1043. -/
def puinit (t : PTab w V) (programs : List (List (Op K V))) : Sys (PShared w V) (Thread K V) :=
  { shared := ⟨t, false, false⟩,
    threads := programs.map (fun p => { todo := p, cur := .idle, ex := ⟨[], .front .check, []⟩, done := [] }) }

/-- impl/unordered_base_detail.cuh:1254-1308 `createDeviceObject` (cf. `Unordered.create`): the free list is filled with
the excess positions and all its occupied bits are set (`vector_clear_iota`, impl/vector_detail.cuh:361-368). -/
def pcreate (w bc ec : Nat) : PTab w V :=
  { bc := bc, total := bc + ec, occ := Bitset.create w (bc + ec), count := 0, off := fun _ => 0, val := fun _ => none,
    live := fun _ => false, locks := Bitset.create w (bc + ec),
    excess := { slots := { cap := ec, locks := Bitset.create w ec, occ := Bitset.setAll (Bitset.create w ec),
                           data := fun p => if p < ec then some (bc + p) else none, err := false },
                ctr := ec } }

end Stdgpu.Packed
