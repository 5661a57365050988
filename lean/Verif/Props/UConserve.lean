import Verif.Proof.UAny4
import Verif.Props.UnorderedConc
import Verif.Props.UFairness
/-!
C80: insertions, erasures and lookups of arbitrary keys at the same time. C40 shows that such an execution can store a key
twice, miss a stored key or leave the table. Still, as long as it has not done anything undefined (accessed memory outside
the table, constructed over a living value or destroyed a dead one: `ub = false`), no element is lost, invented, or
destroyed twice: the books balance for every key.

`contents t` are the stored values (what `device_range` gives), `insertedVals s` and `erasedKeys s` are the arguments of the
calls that returned success.
-/
namespace Stdgpu.Spec
open Stdgpu.Unordered Stdgpu.UnorderedConc
variable {K V : Type}

/-- How many of the values have the key `k`. -/
def valuesWith (P : Params K V) (k : K) (l : List V) : Nat := l.countP (fun v => P.keyEq (P.keyOf v) k)

/-- How many of the keys are equal to `k`. -/
def keysEq (P : Params K V) (k : K) (l : List K) : Nat := l.countP (fun a => P.keyEq a k)

/-- How many calls of `insert` with a value with the key `k` the programs contain. -/
def insertCalls (P : Params K V) (k : K) (progs : List (List (Op K V))) : Nat :=
  progs.flatten.countP (fun op => match op with | .insert v => P.keyEq (P.keyOf v) k | _ => false)

end Stdgpu.Spec

namespace Stdgpu.Props
open Stdgpu.Unordered Stdgpu.UnorderedConc Stdgpu.Spec Stdgpu.Conc

variable {K V : Type} {P : Params K V} {bc ec : Nat} {t : Tab V} {progs : List (List (Op K V))}

theorem keyEq_resp (hl : KeyLaws P) (k : K) : ∀ a b, P.keyEq a b = true → P.keyEq a k = P.keyEq b k := by
  intro a b h
  cases h1 : P.keyEq a k <;> cases h2 : P.keyEq b k <;> try rfl
  · have := hl.trans _ _ _ h h2; rw [h1] at this; cases this
  · have := hl.trans _ _ _ (hl.symm _ _ h) h1; rw [h2] at this; cases this

theorem sum_flatMap_countP {α β : Type} (l : List α) (f : α → List β) (q : β → Bool) :
    (l.flatMap f).countP q = (l.map (fun a => (f a).countP q)).sum := by
  induction l with
  | nil => rfl
  | cons a l ih => simp [List.countP_append, ih]

theorem insertedVals_eq (s : Sys (Shared V) (Thread K V)) :
    insertedVals s = s.threads.flatMap (fun t => t.done.filterMap insertedVal) := by
  simp only [insertedVals, uresults, List.filterMap_flatMap]

theorem erasedKeys_eq (s : Sys (Shared V) (Thread K V)) :
    erasedKeys s = s.threads.flatMap (fun t => t.done.filterMap erasedKey) := by
  simp only [erasedKeys, uresults, List.filterMap_flatMap]

theorem sums_finished {s : Sys (Shared V) (Thread K V)} (hf : UFinished s) (q : K → Bool) :
    (s.threads.map (An.tE q)).sum = (erasedKeys s).countP q ∧
    (s.threads.map (An.tI P q)).sum = (insertedVals s).countP (fun v => q (P.keyOf v)) ∧ (s.threads.map An.tC).sum = 0 := by
  refine ⟨?_, ?_, ?_⟩
  · rw [erasedKeys_eq, sum_flatMap_countP]
    refine congrArg List.sum (List.map_congr_left fun u hu => ?_)
    simp [An.tE, (hf u hu).2]
  · rw [insertedVals_eq, sum_flatMap_countP]
    refine congrArg List.sum (List.map_congr_left fun u hu => ?_)
    simp [An.tI, (hf u hu).2]
  · rw [sum_map_eq_zero]
    intro u hu
    simp [An.tC, (hf u hu).2]

/-- C80. For every key: the elements stored at the end and the successful erasures are as many as the elements stored at the
beginning and the successful insertions. -/
theorem C80_key_balance (hl : KeyLaws P) (h0 : 0 < bc) (h1 : bc < 2 ^ 63) (hr : PReachable P bc ec t) (sched : List Nat)
    (hf : UFinished (uexec P t progs sched)) (hu : (uexec P t progs sched).shared.ub = false) (k : K) :
    valuesWith P k (contents (uexec P t progs sched).shared.tab) + keysEq P k (erasedKeys (uexec P t progs sched)) =
      valuesWith P k (contents t) + valuesWith P k (insertedVals (uexec P t progs sched)) := by
  obtain ⟨⟨chain, free, h⟩, -, -⟩ := preachable_rep hl h0 h1 hr
  rcases An.inv_run (q := fun a => P.keyEq a k) (keyEq_resp hl k) h progs sched with hI | hI
  · rw [hu] at hI; cases hI
  · have hb := hI.bal
    obtain ⟨e1, e2, -⟩ := sums_finished (P := P) hf (fun a => P.keyEq a k)
    rw [e1, e2] at hb
    exact hb

/-- C80. `size()` is the number of stored elements, which is the number of elements at the beginning plus the successful
insertions minus the successful erasures. -/
theorem C80_size (hl : KeyLaws P) (h0 : 0 < bc) (h1 : bc < 2 ^ 63) (hr : PReachable P bc ec t) (sched : List Nat)
    (hf : UFinished (uexec P t progs sched)) (hu : (uexec P t progs sched).shared.ub = false) :
    size (uexec P t progs sched).shared.tab = (contents (uexec P t progs sched).shared.tab).length ∧
    (contents (uexec P t progs sched).shared.tab).length + (erasedKeys (uexec P t progs sched)).length =
      (contents t).length + (insertedVals (uexec P t progs sched)).length := by
  obtain ⟨⟨chain, free, h⟩, -, -⟩ := preachable_rep hl h0 h1 hr
  rcases An.inv_run (q := fun _ => true) (fun _ _ _ => rfl) h progs sched with hI | hI
  · rw [hu] at hI; cases hI
  · have hb := hI.bal
    obtain ⟨e1, e2, e3⟩ := sums_finished (P := P) hf (fun _ => true)
    have hc := hI.cnt
    rw [e1, e2] at hb
    rw [e3] at hc
    simp only [An.cQ, List.countP_true] at hb
    refine ⟨?_, hb⟩
    have key : (contents (uexec P t progs sched).shared.tab).length =
        Vector.countBits (uexec P t progs sched).shared.tab.total (uexec P t progs sched).shared.tab.occ := by
      rw [contents_eq, Vector.countBits]
      have : ∀ l : List Nat, (∀ x ∈ l, x < (uexec P t progs sched).shared.tab.total) →
          (l.filterMap (stored (uexec P t progs sched).shared.tab)).length = l.countP (uexec P t progs sched).shared.tab.occ := by
        intro l
        induction l with
        | nil => intro _; rfl
        | cons a l ih =>
          intro hl
          have ih := ih (fun x hx => hl x (List.mem_cons_of_mem _ hx))
          rw [List.countP_cons]
          cases ho : (uexec P t progs sched).shared.tab.occ a with
          | false => simp [stored, ho, ih]
          | true =>
            obtain ⟨v, hv⟩ := Option.isSome_iff_exists.1 (hI.g.occ a (hl a (by simp)) ho).2
            simp [stored, ho, hv, ih]
      exact this _ (fun x hx => List.mem_range.1 hx)
    rw [key, hI.total]
    simp only [size]
    rw [hc]
    simp

/-- C80. Afterwards exactly the stored elements are alive (nothing has leaked, nothing stored has been destroyed), and no
lock is held. -/
theorem C80_no_leak (hl : KeyLaws P) (h0 : 0 < bc) (h1 : bc < 2 ^ 63) (hr : PReachable P bc ec t) (sched : List Nat)
    (hf : UFinished (uexec P t progs sched)) (hu : (uexec P t progs sched).shared.ub = false) (p : Nat) (hp : p < bc + ec) :
    (uexec P t progs sched).shared.tab.live p = (uexec P t progs sched).shared.tab.occ p ∧
    (uexec P t progs sched).shared.tab.locks p = false := by
  obtain ⟨⟨chain, free, h⟩, -, ht⟩ := preachable_rep hl h0 h1 hr
  rcases An.inv_run (q := fun _ => true) (fun _ _ _ => rfl) h progs sched with hI | hI
  · rw [hu] at hI; cases hI
  · have hp' : p < t.total := by rw [ht]; exact hp
    refine ⟨?_, ?_⟩
    · cases ho : (uexec P t progs sched).shared.tab.occ p with
      | true => exact (hI.g.occ p (by rw [hI.total]; exact hp') ho).1
      | false =>
        cases hv : (uexec P t progs sched).shared.tab.live p with
        | false => rfl
        | true =>
          obtain ⟨u, hu, e⟩ := hI.leak p hp' hv ho
          simp [An.tTok, (hf u hu).2] at e
    · have e1 := hI.lock p
      have e2 : ((uexec P t progs sched).threads.map (fun u => (An.tHeld P t.bc u).count p)).sum = 0 := by
        rw [sum_map_eq_zero]
        intro u hu
        simp [An.tHeld, (hf u hu).2]
      rw [e2, h.locks p hp'] at e1
      cases hv : (uexec P t progs sched).shared.tab.locks p with
      | false => rfl
      | true => rw [hv] at e1; simp at e1

theorem tI_le (k : K) (u : Thread K V) : An.tI P (fun a => P.keyEq a k) u ≤
    (progOf u).countP (fun op => match op with | .insert v => P.keyEq (P.keyOf v) k | _ => false) := by
  obtain ⟨todo, cur, ex, done⟩ := u
  have hd : (done.filterMap insertedVal).countP (fun v => P.keyEq (P.keyOf v) k) ≤
      (done.map (·.1)).countP (fun op => match op with | .insert v => P.keyEq (P.keyOf v) k | _ => false) := by
    induction done with
    | nil => simp
    | cons a l ih =>
      obtain ⟨op, r⟩ := a
      rw [List.map_cons, List.countP_cons, List.filterMap_cons]
      cases op <;> cases r <;> simp only [insertedVal, List.countP_cons] <;> omega
  simp only [An.tI, progOf, List.countP_append]
  cases cur with
  | ins v pc =>
    have : An.iNum (if P.keyEq (P.keyOf v) k = true then 1 else 0) pc ≤ if P.keyEq (P.keyOf v) k = true then 1 else 0 := by
      unfold An.iNum; split <;> simp
    simp only [Cur.ops, List.countP_cons, List.countP_nil]
    omega
  | _ => dsimp only; omega

/-- C80, at every moment (also while operations are running): a key is not successfully erased more often than it was
stored at the beginning and is inserted. -/
theorem C80_no_phantom_erase (hl : KeyLaws P) (h0 : 0 < bc) (h1 : bc < 2 ^ 63) (hr : PReachable P bc ec t) (sched : List Nat)
    (hu : (uexec P t progs sched).shared.ub = false) (k : K) :
    keysEq P k (erasedKeys (uexec P t progs sched)) ≤ valuesWith P k (contents t) + insertCalls P k progs := by
  obtain ⟨⟨chain, free, h⟩, -, -⟩ := preachable_rep hl h0 h1 hr
  rcases An.inv_run (q := fun a => P.keyEq a k) (keyEq_resp hl k) h progs sched with hI | hI
  · rw [hu] at hI; cases hI
  · have hb := hI.bal
    have e1 : keysEq P k (erasedKeys (uexec P t progs sched)) ≤
        ((uexec P t progs sched).threads.map (An.tE (fun a => P.keyEq a k))).sum := by
      rw [keysEq, erasedKeys_eq, sum_flatMap_countP]
      refine List.sum_le_sum (M := Nat) fun u hu => ?_
      simp [An.tE]
    have e2 : ((uexec P t progs sched).threads.map (An.tI P (fun a => P.keyEq a k))).sum ≤ insertCalls P k progs := by
      have e : insertCalls P k progs = insertCalls P k ((uexec P t progs sched).threads.map progOf) := by
        rw [progs_kept (P := P) (t := t) (progs := progs) sched]
      rw [e, insertCalls, List.countP_flatten, List.map_map]
      exact List.sum_le_sum (M := Nat) fun u hu => tI_le k u
    have e3 : An.cQ P (fun a => P.keyEq a k) t = valuesWith P k (contents t) := rfl
    omega

/-! ### Concrete executions -/

/-- The execution of `C40_counterexample_duplicate_key`: afterwards key 3 is stored twice. -/
def dupTab : Tab (Nat × Nat) := exTab exC 1 3 [.insert (1, 10), .insert (2, 20)]

theorem dupTab_reachable : PReachable exC 1 3 dupTab := exTab_reachable _ _ _ _

def dupProgs : List (List (Op Nat (Nat × Nat))) := [[.insert (3, 30)], [.erase 1], [.insert (3, 31)]]

def dupSched : List Nat := List.replicate 26 0 ++ List.replicate 14 1 ++ List.replicate 40 2 ++ List.replicate 40 0

theorem dupRun_finished : UFinished (uexec exC dupTab dupProgs dupSched) := by unfold UFinished; decide +kernel

theorem dupRun_defined : (uexec exC dupTab dupProgs dupSched).shared.ub = false := by decide +kernel

/-- The hypotheses are met, and the balance of key 3 is 2 + 0 = 0 + 2. -/
example : valuesWith exC 3 (contents (uexec exC dupTab dupProgs dupSched).shared.tab) + keysEq exC 3 (erasedKeys (uexec exC dupTab dupProgs dupSched)) =
    valuesWith exC 3 (contents dupTab) + valuesWith exC 3 (insertedVals (uexec exC dupTab dupProgs dupSched)) :=
  C80_key_balance exC_laws (show 0 < 1 by decide) (by decide) dupTab_reachable _ dupRun_finished dupRun_defined 3

example : valuesWith exC 3 (contents (uexec exC dupTab dupProgs dupSched).shared.tab) = 2 ∧ valuesWith exC 3 (insertedVals (uexec exC dupTab dupProgs dupSched)) = 2 ∧
    erasedKeys (uexec exC dupTab dupProgs dupSched) = [1] := by decide +kernel

example : size (uexec exC dupTab dupProgs dupSched).shared.tab = (contents (uexec exC dupTab dupProgs dupSched).shared.tab).length ∧
    (contents (uexec exC dupTab dupProgs dupSched).shared.tab).length + (erasedKeys (uexec exC dupTab dupProgs dupSched)).length =
      (contents dupTab).length + (insertedVals (uexec exC dupTab dupProgs dupSched)).length :=
  C80_size exC_laws (show 0 < 1 by decide) (by decide) dupTab_reachable _ dupRun_finished dupRun_defined

example : (uexec exC dupTab dupProgs dupSched).shared.tab.live 1 = (uexec exC dupTab dupProgs dupSched).shared.tab.occ 1 ∧ (uexec exC dupTab dupProgs dupSched).shared.tab.locks 1 = false :=
  C80_no_leak exC_laws (show 0 < 1 by decide) (by decide) dupTab_reachable _ dupRun_finished dupRun_defined 1 (by decide)

def reuseProgs : List (List (Op Nat (Nat × Nat))) := [[.insert (3, 30)], [.erase 1, .insert (1, 11), .erase 1]]

def reuseSched : List Nat := List.replicate 20 0 ++ List.replicate 100 1

theorem reuseRun_defined : (uexec exC dupTab reuseProgs reuseSched).shared.ub = false := by decide +kernel

/-- The bound of `C80_no_phantom_erase` is reached in the middle of an execution: key 1 is erased once, inserted again, and
erased again while another thread is inserting key 3. -/
example : keysEq exC 1 (erasedKeys (uexec exC dupTab reuseProgs reuseSched)) ≤ valuesWith exC 1 (contents dupTab) + insertCalls exC 1 reuseProgs :=
  C80_no_phantom_erase exC_laws (show 0 < 1 by decide) (by decide) dupTab_reachable _ reuseRun_defined 1

example : keysEq exC 1 (erasedKeys (uexec exC dupTab reuseProgs reuseSched)) = 2 ∧ valuesWith exC 1 (contents dupTab) = 1 ∧
    insertCalls exC 1 reuseProgs = 1 := by decide +kernel

end Stdgpu.Props
