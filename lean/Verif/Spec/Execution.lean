import Verif.Model.Execution
/-! Specification of C72: infinite executions of wavefronts. -/
namespace Stdgpu.Execution

variable {σ O R β : Type}

/-- The first `n` steps of an infinite execution; `s n` is the wavefront that does step `n`, and the choice of the hardware
between its divergent lanes. -/
def firstSteps (s : Nat → Nat × Nat) (n : Nat) : List (Nat × Nat) := (List.range n).map s

/-- Every one of the wavefronts `0, …, k - 1` is given infinitely many steps. Nothing is assumed about the choices between
the lanes. -/
def WaveFair (k : Nat) (s : Nat → Nat × Nat) : Prop := ∀ i, i < k → ∀ n, ∃ m, n ≤ m ∧ (s m).1 = i

/-- All calls of the wavefront have returned. -/
def WaveOver (w : Wave O R β) : Prop := w.phase = .head ∧ w.calls = [] ∧ ∀ i l, laneAt w.lanes i = some l → l.active = 0#64

/-- All calls of all wavefronts have returned. -/
def AllReturned (s : Waves σ O R β) : Prop := ∀ w ∈ s.waves, WaveOver w

/-- The operations of a wavefront, in the order of the calls and, for each call, of the lanes. -/
def opsOf (p : List (List (Option O))) : List O := p.flatMap (fun c => c.filterMap id)

/-- The operations of lane `i` of a wavefront. -/
def laneOps (p : List (List (Option O))) (i : Nat) : List O := p.filterMap (fun c => (c[i]?).join)

/-- The operations of all lanes as programs of independent threads: lane `i` of wavefront `k` is thread `64 * k + i` (programs of
lanes that are never active are empty). -/
def laneProgs (progs : List (List (List (Option O)))) : List (List O) :=
  (List.range (64 * progs.length)).map (fun j => match progs[j / 64]? with | some p => laneOps p (j % 64) | none => [])

/-- The number of lanes that are active in a call. -/
def activeLanes (c : List (Option O)) : Nat := (c.filterMap id).length

/-- The number of steps that a schedule gives to wavefront `k`. -/
def waveSteps (sched : List (Nat × Nat)) (k : Nat) : Nat := (sched.map (·.1)).count k

/-- What the lanes of a wavefront have returned, in this order. -/
def returned (w : Wave O R β) : List (O × R) := w.done.map (·.2)

end Stdgpu.Execution
