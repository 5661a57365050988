/-
Interleaving semantics used by all concurrent models.

A system is a shared memory `σ` plus a list of threads with local states `τ`. `f` performs the next step (one
access to shared memory) of a thread. A schedule is any finite list of thread indices; picking an index that does
not exist, or a thread that is finished or blocked, leaves the system unchanged. Statements of the form
"for every schedule" therefore range over every interleaving of every number of threads. Executions are
sequentially consistent (see DESIGN.md, trusted base).
-/
namespace Stdgpu.Conc

/-- No code of the library: shared memory and threads of a kernel or of an OpenMP parallel region, as started by
`thrust::for_each` in impl/algorithm_detail.h:52-63 or by the user. -/
structure Sys (σ τ : Type) where
  shared : σ
  threads : List τ

/-- One step of thread `i`. No code of the library: the interleaving semantics described above (threads started as in
impl/algorithm_detail.h:52-63). -/
def stepAt {σ τ : Type} (f : σ → τ → σ × τ) (s : Sys σ τ) (i : Nat) : Sys σ τ :=
  match s.threads[i]? with
  | none => s
  | some t => let r := f s.shared t; ⟨r.1, s.threads.set i r.2⟩

/-- Run a schedule. No code of the library: the interleaving semantics described above (threads started as in
impl/algorithm_detail.h:52-63). -/
def run {σ τ : Type} (f : σ → τ → σ × τ) (s : Sys σ τ) (sched : List Nat) : Sys σ τ :=
  sched.foldl (stepAt f) s

end Stdgpu.Conc
