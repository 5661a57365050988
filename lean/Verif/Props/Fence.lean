import Verif.Proof.Fence
/-
C63: publication of data through an atomic. `Spec/Fence.lean` says what publisher and consumer do and what the consumer may
rely on; `Weak` are the executions in which each thread may perform its accesses out of order unless a fence is between
them.
-/
namespace Stdgpu.Props
open Stdgpu.Fence Stdgpu.Spec Stdgpu.Conc

variable {V : Type} {m : Nat → V} {progs : List (List (Instr V))} {D : Nat → Prop} {flag : Nat} {signal : V → Prop}
  {a b c : Nat} {W tail pre R : List (Instr V)} {s : Sys (Nat → V) (Thread V)}

/-- C63. Data written before a sequentially consistent store (the default order) is seen after a sequentially consistent
load that obtains the stored value. -/
theorem C63_store_load (v : V) (h : Publication m progs D flag signal a b W (storeI .seqCst flag v) tail pre
    (loadI .seqCst c flag) R) (hs : Weak m progs s) : Seen m D signal b W R c s :=
  publication (p2 := [.write flag v, .fence]) (c1 := [.fence, .read c flag]) h (k := .read c flag) (by simp) (by simp [ident]) rfl hs

/-- C63. The same if the flag is written, read or both by a read-modify-write operation (exchange, compare_exchange,
fetch_add, …) of order `acq_rel` or `seq_cst`. -/
theorem C63_rmw_rmw (o o' : Order) (ho : o = .acqRel ∨ o = .seqCst) (ho' : o' = .acqRel ∨ o' = .seqCst) (i : Nat) (f g : V → V)
    (h : Publication m progs D flag signal a b W (rmwI o i flag f) tail pre (rmwI o' c flag g) R) (hs : Weak m progs s) :
    Seen m D signal b W R c s := by
  have e1 : rmwI o i flag f = .fence :: [.rmw i flag f, .fence] := by rcases ho with rfl | rfl <;> rfl
  have e2 : rmwI o' c flag g = [.fence, .rmw c flag g] ++ [.fence] := by rcases ho' with rfl | rfl <;> rfl
  rw [e1, e2] at h
  exact publication h (k := .rmw c flag g) (by simp) (by simp [ident]) rfl hs

theorem C63_store_rmw (v : V) (o' : Order) (ho' : o' = .acqRel ∨ o' = .seqCst) (g : V → V)
    (h : Publication m progs D flag signal a b W (storeI .seqCst flag v) tail pre (rmwI o' c flag g) R) (hs : Weak m progs s) :
    Seen m D signal b W R c s := by
  have e2 : rmwI o' c flag g = [.fence, .rmw c flag g] ++ [.fence] := by rcases ho' with rfl | rfl <;> rfl
  rw [e2] at h
  exact publication (p2 := [.write flag v, .fence]) h (k := .rmw c flag g) (by simp) (by simp [ident]) rfl hs

theorem C63_rmw_load (o : Order) (ho : o = .acqRel ∨ o = .seqCst) (i : Nat) (f : V → V)
    (h : Publication m progs D flag signal a b W (rmwI o i flag f) tail pre (loadI .seqCst c flag) R) (hs : Weak m progs s) :
    Seen m D signal b W R c s := by
  have e1 : rmwI o i flag f = .fence :: [.rmw i flag f, .fence] := by rcases ho with rfl | rfl <;> rfl
  rw [e1] at h
  exact publication (c1 := [.fence, .read c flag]) h (k := .read c flag) (by simp) (by simp [ident]) rfl hs

/-- Publisher and consumer of location 0 with flag 1. -/
def mp (publish consume : List (Instr Nat)) : List (List (Instr Nat)) := [[.write 0 7] ++ publish, consume ++ [.read 5 0]]

/-- The situation of C63 with one publisher and one consumer; `publish` and `consume` as in the theorems. -/
theorem mp_publication (publish consume : List (Instr Nat)) (hp : ∀ i ∈ publish, i.loc = some 1 ∨ i.loc = none)
    (hc : ∀ i ∈ consume, (∃ id, i = .read id 1 ∧ id ≠ 5) ∨ i = .fence) (hn : (consume.flatMap ident).Nodup) :
    Publication (fun _ => 0) (mp publish consume) (fun x => x = 0) 1 (fun v => v = 1) 0 1 [.write 0 7] publish [] [] consume
      [.read 5 0] where
  ne := by decide
  pa := by simp [mp]
  pb := by simp [mp]
  flagD := by decide
  start := by decide
  prepW := by
    intro i hi
    simp only [List.mem_singleton] at hi
    subst hi
    constructor <;> intro <;> simp_all
  others := by
    intro j p hj hp i hi
    match j with
    | 0 => exact (hj rfl).elim
    | 1 =>
      simp only [mp, List.getElem?_cons_succ, List.getElem?_cons_zero, Option.some.injEq] at hp
      subst hp
      rcases List.mem_append.1 hi with hi | hi
      · rcases hc i hi with ⟨id, rfl, -⟩ | rfl <;> simp [Silent, Writes]
      · simp only [List.mem_singleton] at hi
        subst hi
        simp [Silent, Writes]
    | j + 2 => simp [mp] at hp
  after := by
    rintro i hi x rfl hw
    simp only [List.append_nil] at hi
    rcases hw with ⟨v, rfl⟩ | ⟨id, f, rfl⟩ <;> rcases hp _ hi with h | h <;> simp [Instr.loc] at h
  ids := by
    rw [List.nil_append, List.flatMap_append, List.nodup_append]
    refine ⟨hn, by simp [ident], ?_⟩
    intro x h1 y h2
    simp only [List.flatMap_cons, List.flatMap_nil, ident, List.append_nil, List.mem_singleton] at h2
    obtain ⟨i, hi, hx⟩ := List.mem_flatMap.1 h1
    rcases hc i hi with ⟨id, rfl, hne⟩ | rfl
    · simp only [ident, List.mem_singleton] at hx
      omega
    · simp [ident] at hx

/-- The hypotheses of `C63_store_load` can be met, and its conclusion is not vacuous: the consumer can see the flag and then
obtains 7. -/
example : Publication (fun _ => 0) (mp (storeI .seqCst 1 1) (loadI .seqCst 4 1)) (fun x => x = 0) 1 (fun v => v = 1) 0 1
    [.write 0 7] (storeI .seqCst 1 1) [] [] (loadI .seqCst 4 1) [.read 5 0] :=
  mp_publication _ _ (by simp [storeI, fenceIf, consistencyFence, storeFence, Instr.loc])
    (by simp [loadI, fenceIf, consistencyFence, loadFence]) (by simp [loadI, fenceIf, consistencyFence, loadFence, ident])

example : ((run step (init (fun _ => 0) (mp (storeI .seqCst 1 1) (loadI .seqCst 4 1))) [0, 0, 0, 0, 1, 1, 1, 1]).threads.map (·.log)) =
    [[], [(4, 1), (5, 7)]] := by decide

/-- C63: a store of order `release` does not publish: the fence is issued after the store. The consumer obtains the flag
with a sequentially consistent load and afterwards the old data. -/
theorem C63_counterexample_release : ∃ s, Weak (fun _ => 0) (mp (storeI .release 1 1) (loadI .seqCst 4 1)) s ∧
    s.threads.map (·.log) = [[], [(4, 1), (5, 0)]] := by
  refine ⟨run step (init (fun _ => 0) [[.write 1 1, .write 0 7, .fence], loadI .seqCst 4 1 ++ [.read 5 0]]) [0, 1, 1, 1, 1],
    ⟨_, _, ?_, ?_, rfl⟩, by decide⟩
  · rfl
  intro j p p' h h'
  match j with
  | 0 =>
    simp only [List.getElem?_cons_zero, Option.some.injEq, mp] at h h'
    subst h h'
    exact Reorder.swap (p := []) (q := [.fence]) (a := .write 0 7) (b := .write 1 1) .refl ⟨0, 1, rfl, rfl, by decide⟩
  | 1 =>
    simp only [List.getElem?_cons_zero, List.getElem?_cons_succ, Option.some.injEq, mp] at h h'
    subst h h'
    exact .refl
  | j + 2 => simp [mp] at h

/-- C63: a load of order `acquire` does not order later reads: the fence is issued before the load. The publisher uses a
sequentially consistent store. -/
theorem C63_counterexample_acquire : ∃ s, Weak (fun _ => 0) (mp (storeI .seqCst 1 1) (loadI .acquire 4 1)) s ∧
    s.threads.map (·.log) = [[], [(5, 0), (4, 1)]] := by
  refine ⟨run step (init (fun _ => 0) [[.write 0 7] ++ storeI .seqCst 1 1, [.fence, .read 5 0, .read 4 1]]) [1, 1, 0, 0, 0, 0, 1],
    ⟨_, _, ?_, ?_, rfl⟩, by decide⟩
  · rfl
  intro j p p' h h'
  match j with
  | 0 =>
    simp only [List.getElem?_cons_zero, Option.some.injEq, mp] at h h'
    subst h h'
    exact .refl
  | 1 =>
    simp only [List.getElem?_cons_zero, List.getElem?_cons_succ, Option.some.injEq, mp] at h h'
    subst h h'
    exact Reorder.swap (p := [.fence]) (q := []) (a := .read 4 1) (b := .read 5 0) .refl ⟨1, 0, rfl, rfl, by decide⟩
  | j + 2 => simp [mp] at h

/-- C63: the same for read-modify-write operations: an `exchange` of order `release` does not publish. -/
theorem C63_counterexample_rmw_release : ∃ s, Weak (fun _ => 0) (mp (rmwI .release 3 1 (fun _ => 1)) (loadI .seqCst 4 1)) s ∧
    s.threads.map (·.log) = [[(3, 0)], [(4, 1), (5, 0)]] := by
  refine ⟨run step (init (fun _ => 0) [[.rmw 3 1 (fun _ => 1), .write 0 7, .fence], loadI .seqCst 4 1 ++ [.read 5 0]])
    [0, 1, 1, 1, 1], ⟨_, _, ?_, ?_, rfl⟩, by decide⟩
  · rfl
  intro j p p' h h'
  match j with
  | 0 =>
    simp only [List.getElem?_cons_zero, Option.some.injEq, mp] at h h'
    subst h h'
    exact Reorder.swap (p := []) (q := [.fence]) (a := .write 0 7) (b := .rmw 3 1 (fun _ => 1)) .refl ⟨0, 1, rfl, rfl, by decide⟩
  | 1 =>
    simp only [List.getElem?_cons_zero, List.getElem?_cons_succ, Option.some.injEq, mp] at h h'
    subst h h'
    exact .refl
  | j + 2 => simp [mp] at h

/-- C63: … and an `exchange` of order `acquire` does not order later reads. -/
theorem C63_counterexample_rmw_acquire : ∃ s, Weak (fun _ => 0) (mp (storeI .seqCst 1 1) (rmwI .acquire 4 1 (fun v => v))) s ∧
    s.threads.map (·.log) = [[], [(5, 0), (4, 1)]] := by
  refine ⟨run step (init (fun _ => 0) [[.write 0 7] ++ storeI .seqCst 1 1, [.fence, .read 5 0, .rmw 4 1 (fun v => v)]])
    [1, 1, 0, 0, 0, 0, 1], ⟨_, _, ?_, ?_, rfl⟩, by decide⟩
  · rfl
  intro j p p' h h'
  match j with
  | 0 =>
    simp only [List.getElem?_cons_zero, Option.some.injEq, mp] at h h'
    subst h h'
    exact .refl
  | 1 =>
    simp only [List.getElem?_cons_zero, List.getElem?_cons_succ, Option.some.injEq, mp] at h h'
    subst h h'
    exact Reorder.swap (p := [.fence]) (q := []) (a := .rmw 4 1 (fun v => v)) (b := .read 5 0) .refl ⟨1, 0, rfl, rfl, by decide⟩
  | j + 2 => simp [mp] at h

end Stdgpu.Props
