/-
Model of `detail::warp_convergent_execute` and of the wavefronts it is meant for.

cuda/execution.cuh:33-38 and openmp/execution.h:34-39 just call the body; hip/execution.h:34-54 elects one active lane
after the other. `body` is the spinlock-based part of `insert` / `erase` of the unordered containers
(impl/unordered_base_detail.cuh:975-990, 1026-1040) and of `push` / `pop` of vector and deque
(impl/vector_detail.cuh:199, 259, impl/deque_detail.cuh:222, 282, 350, 409).

A wavefront executes its lanes in lockstep. Where lanes diverge, the hardware chooses which of them it goes on with; nothing
is assumed about this choice (no forward progress per lane, as the comment in hip/execution.h:26-33 says), except that
the lanes that have reached the end of an `if` or of a loop wait there for the others. The lanes that are active at the call of
`warp_convergent_execute` are those that have not returned before (reconvergence at this call).

Simplifications: a lane is a state machine that is either outside of the body (`free`), inside of the part that is handed to
`warp_convergent_execute` (`crit`), or has returned (`ret`); the steps of the election loop itself are combined (evaluation
of the condition and the election, update of the mask), they access no shared memory.
-/
namespace Stdgpu.Execution

/-- The intrinsic `__ffsll`: the number of the least significant bit that is set, counted from 1, and 0 if there is
none. Used in hip/execution.h:48. -/
def ffsll (x : BitVec 64) : Nat :=
  match (List.range 64).find? (fun i => x.getLsbD i) with
  | some i => i + 1
  | none => 0

/-- hip/execution.h:46 `elected`; only used for a mask that is not 0. -/
def elected (active : BitVec 64) : Nat := ffsll active - 1

/-- hip/execution.h:51: the update of the mask. -/
def clearElected (active : BitVec 64) : BitVec 64 := active &&& ~~~((1#64) <<< elected active)

/-- The intrinsic `__activemask`: bit `i` is set exactly if lane `i` is active. Used in hip/execution.h:44. -/
def activemask (p : Nat → Bool) : Nat → BitVec 64
  | 0 => 0#64
  | n + 1 => activemask p n ||| (if p n then (1#64) <<< n else 0#64)

/-- hip/execution.h:38-42: the lane of a thread within its wavefront, in unsigned 32-bit arithmetic. -/
def laneId (x y z dimX dimY warpSize : BitVec 32) : BitVec 32 := ((z * dimY + y) * dimX + x) % warpSize

/-- What a lane does next. `free`: code outside `warp_convergent_execute`; `crit`: its body (hip/execution.h:49-52). -/
inductive Kind (R : Type) where
  | free | crit | ret (r : R)

/-- An operation as executed by one lane: its start, a step, and the classification of its states. The callers of
`warp_convergent_execute` (hip/execution.h:34-55), e.g. impl/unordered_base_detail.cuh:967-994,
impl/vector_detail.cuh:181-299. -/
structure LaneProg (σ O R β : Type) where
  start : O → β
  step : σ → β → σ × β
  kind : β → Kind R

/-- A lane that executes the current call: the operation, its state, the local variable `active`
(hip/execution.h:42), and whether it is in the branch of hip/execution.h:47-50. -/
structure Lane (O β : Type) where
  op : O
  st : β
  active : BitVec 64
  inside : Bool

/-- Where the wavefront is: before `warp_convergent_execute`, at the head of its loop, in the loop at the `if`.
hip/execution.h:34-55. -/
inductive Phase where
  | free | head | branch
  deriving DecidableEq

/-- A wavefront: the calls to come (for each lane the operation, `none` for an inactive lane), the lanes in the current
call, and what has returned (lane, operation, result), in this order. hip/execution.h:34-55. -/
structure Wave (O R β : Type) where
  calls : List (List (Option O))
  lanes : List (Option (Lane O β))
  phase : Phase
  done : List (Nat × O × R)

variable {σ O R β : Type}

/-- Lane `i`, if it executes the current call. A lane of the wavefront of hip/execution.h:34-55. -/
def laneAt (lanes : List (Option (Lane O β))) (i : Nat) : Option (Lane O β) := (lanes[i]?).join

/-- The lanes with a property. Lanes of the wavefront of hip/execution.h:34-55. -/
def lanesWith (lanes : List (Option (Lane O β))) (p : Lane O β → Bool) : List Nat :=
  (List.range lanes.length).filter (fun i => match laneAt lanes i with | some l => p l | none => false)

/-- The choice of the hardware between divergent lanes. No code: divergent lanes (hip/execution.h:26-33) are executed
in an order that the hardware chooses. -/
def choose (is : List Nat) (c : Nat) : Option Nat := is[c % is.length]?

/-- The lane is outside the body of hip/execution.h:49-52. -/
def isFree (L : LaneProg σ O R β) (l : Lane O β) : Bool := match L.kind l.st with | .free => true | _ => false

/-- The lane is in the body of hip/execution.h:49-52. -/
def isCrit (L : LaneProg σ O R β) (l : Lane O β) : Bool := match L.kind l.st with | .crit => true | _ => false

/-- One step of lane `i` of the wavefront. The caller of hip/execution.h:34-55. -/
def stepLane (L : LaneProg σ O R β) (m : σ) (w : Wave O R β) (i : Nat) : σ × Wave O R β :=
  match laneAt w.lanes i with
  | none => (m, w)
  | some l =>
    let r := L.step m l.st
    match L.kind r.2 with
    | .ret res =>
      (r.1, { w with lanes := w.lanes.set i (some { l with st := r.2, inside := false }), done := w.done ++ [(i, l.op, res)] })
    | _ => (r.1, { w with lanes := w.lanes.set i (some { l with st := r.2 }) })

/-- The call of `warp_convergent_execute` (hip/execution.h:42). -/
def converge (L : LaneProg σ O R β) (lanes : List (Option (Lane O β))) : List (Option (Lane O β)) :=
  let mask := activemask (fun i => match laneAt lanes i with | some l => isCrit L l | none => false) 64
  lanes.map (Option.map (fun l => if isCrit L l then { l with active := mask } else { l with active := 0#64 }))

/-- hip/execution.h:44-47: the condition of the loop and the election. Without election every lane executes the body. -/
def enter (elect : Bool) (lanes : List (Option (Lane O β))) : List (Option (Lane O β)) :=
  lanes.mapIdx (fun i o => o.map (fun l =>
    if l.active ≠ 0#64 ∧ (elect = true → i = elected l.active) then { l with inside := true } else l))

/-- hip/execution.h:51. Without election there is no loop. -/
def update (elect : Bool) (lanes : List (Option (Lane O β))) : List (Option (Lane O β)) :=
  lanes.map (Option.map (fun l =>
    if l.active = 0#64 then l else { l with active := if elect then clearElected l.active else 0#64 }))

/-- One step of a wavefront; `c` is the choice of the hardware between its lanes. `elect` is true for the HIP backend.
hip/execution.h:34-55; without election: cuda/execution.cuh, openmp/execution.h:32-37. -/
def waveStep (elect : Bool) (L : LaneProg σ O R β) (m : σ) (w : Wave O R β) (c : Nat) : σ × Wave O R β :=
  match w.phase with
  | .free =>
    match choose (lanesWith w.lanes (isFree L)) c with
    | some i => stepLane L m w i
    | none => (m, { w with lanes := converge L w.lanes, phase := .head })
  | .head =>
    if lanesWith w.lanes (fun l => l.active != 0#64) = [] then
      match w.calls with
      | [] => (m, w)
      | call :: calls =>
        (m, { w with calls := calls, phase := .free,
                     lanes := call.map (Option.map (fun op => ⟨op, L.start op, 0#64, false⟩)) })
    else (m, { w with lanes := enter elect w.lanes, phase := .branch })
  | .branch =>
    match choose (lanesWith w.lanes (fun l => l.inside)) c with
    | some i => stepLane L m w i
    | none => (m, { w with lanes := update elect w.lanes, phase := .head })

/-- Several wavefronts and the shared memory. No code: the wavefronts of a kernel that call hip/execution.h:34-55. -/
structure Waves (σ O R β : Type) where
  shared : σ
  waves : List (Wave O R β)

/-- A step of wavefront `a.1` with the choice `a.2` between its lanes. No code: the wavefronts of a kernel that call
hip/execution.h:34-55. -/
def wavesStep (elect : Bool) (L : LaneProg σ O R β) (s : Waves σ O R β) (a : Nat × Nat) : Waves σ O R β :=
  match s.waves[a.1]? with
  | none => s
  | some w => let r := waveStep elect L s.shared w a.2; ⟨r.1, s.waves.set a.1 r.2⟩

/-- The wavefronts with their calls. No code: the wavefronts of a kernel that call hip/execution.h:34-55. -/
def initWaves (m : σ) (progs : List (List (List (Option O)))) : Waves σ O R β :=
  ⟨m, progs.map (fun p => ⟨p, [], .head, []⟩)⟩

/-- The execution with the given steps. No code: the wavefronts of a kernel that call hip/execution.h:34-55. -/
def execWaves (elect : Bool) (L : LaneProg σ O R β) (m : σ) (progs : List (List (List (Option O)))) (sched : List (Nat × Nat)) :
    Waves σ O R β := sched.foldl (wavesStep elect L) (initWaves m progs)

end Stdgpu.Execution
