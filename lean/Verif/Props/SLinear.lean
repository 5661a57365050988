import Verif.Props.Vector
import Verif.Props.Deque
import Verif.Proof.DequeLin
/-!
C70: concurrent pushes, and concurrent pops, on a vector or a deque are linearizable; a mixture of both is not.
-/
namespace Stdgpu.SLin
open Stdgpu.SlotConc Stdgpu.Conc

variable {C K F α : Type}

/-- The sequential specification as a function. -/
def seqStepF [DecidableEq α] (atBack : K → Bool) (cap : Nat) (m : List α) : Op K α × Res α → Option (List α)
  | (.push k x, .pushed) => if m.length < cap then some (if atBack k then m ++ [x] else x :: m) else none
  | (.push _ _, .pushFailed) => if m.length = cap then some m else none
  | (.pop k, .popped v) =>
    if atBack k then (if m.getLast? = some v then some m.dropLast else none)
    else (if m.head? = some v then some m.tail else none)
  | (.pop _, .popFailed) => if m = [] then some m else none
  | _ => none

def seqRunF [DecidableEq α] (atBack : K → Bool) (cap : Nat) (m : List α) : List (Op K α × Res α) → Option (List α)
  | [] => some m
  | e :: l => (seqStepF atBack cap m e).bind (fun m' => seqRunF atBack cap m' l)

theorem seqStepF_of [DecidableEq α] {atBack : K → Bool} {cap : Nat} {m m' : List α} {e : Op K α × Res α}
    (h : SeqStep atBack cap m e m') : seqStepF atBack cap m e = some m' := by
  obtain ⟨op, r⟩ := e
  cases op <;> cases r <;> simp only [SeqStep] at h
  · obtain ⟨h1, rfl⟩ := h; simp [seqStepF, h1]
  · obtain ⟨h1, rfl⟩ := h; simp [seqStepF, h1]
  · simp only [seqStepF]
    split
    · next hk => rw [if_pos hk] at h; subst h; simp
    · next hk => rw [if_neg hk] at h; subst h; simp
  · obtain ⟨rfl, rfl⟩ := h; simp [seqStepF]

theorem seqRunF_of [DecidableEq α] {atBack : K → Bool} {cap : Nat} {m m' : List α} {E : List (Op K α × Res α)}
    (h : SeqRun atBack cap m E m') : seqRunF atBack cap m E = some m' := by
  induction E generalizing m with
  | nil => cases h; rfl
  | cons e E ih =>
    obtain ⟨m1, h1, h2⟩ := h
    simp only [seqRunF, seqStepF_of h1, Option.bind_some]
    exact ih h2

/-- All linearizations of an execution in which every operation has returned are permutations of the results. -/
theorem linearization_perm {fr : Front C K F} {atBack : K → Bool} {cap : Nat} {m : Mem C α} {l l' : List α}
    {progs : List (List (Op K α))} {sched : List Nat} {L : List (OpId × Op K α × Res α)}
    (h : Linearization fr atBack cap m l progs sched L l') (R : List (OpId × Op K α × Res α)) (hR : (R.map (·.1)).Nodup)
    (h1 : ∀ r ∈ R, resAt (exec fr m progs sched) r.1 = some r.2)
    (h2 : ∀ x, Called fr (exec fr m progs sched) x → x ∈ R.map (·.1)) : L.Perm R := by
  refine (List.perm_ext_iff_of_nodup h.nodup.of_map hR.of_map).2 (fun a => ⟨fun ha => ?_, fun ha => ?_⟩)
  · obtain ⟨r, hr, hx⟩ := List.mem_map.1 (h2 _ (h.called a.1 a.2 ha).1)
    have h3 : (r.1, r.2) ∈ L := h.returned _ _ (h1 r hr)
    have := List.inj_on_of_nodup_map h.nodup ha h3 hx.symm
    rwa [this]
  · exact h.returned _ _ (h1 a ha)

/-- How many operations has a thread called? -/
def numCalled [DecidableEq F] (fr : Front C K F) (t : Thread K F α) : Nat :=
  match t.pc with
  | .front f => if f = fr.start then t.done.length else t.done.length + 1
  | .slot _ _ => t.done.length + 1

theorem called_lt [DecidableEq F] {fr : Front C K F} {s : Sys (Mem C α) (Thread K F α)} {x : OpId} (h : Called fr s x) :
    ∃ n, (s.threads.map (numCalled fr))[x.1]? = some n ∧ x.2 < n := by
  obtain ⟨t, ht, hx⟩ := h
  refine ⟨numCalled fr t, by simp [ht], ?_⟩
  unfold numCalled
  split
  · split
    · next e1 e2 =>
      rcases hx with hx | ⟨-, hx⟩
      · exact hx
      · rw [e1, e2] at hx; exact absurd rfl hx
    · rcases hx with hx | ⟨hx, -⟩ <;> omega
  · rcases hx with hx | ⟨hx, -⟩ <;> omega

theorem not_called [DecidableEq F] {fr : Front C K F} {s : Sys (Mem C α) (Thread K F α)} {i : Nat}
    (h : (s.threads.map (numCalled fr))[i]? = some 0) : ¬ Called fr s (i, 0) := by
  intro hc
  obtain ⟨n, h1, h2⟩ := called_lt hc
  rw [h] at h1
  cases h1
  omega

theorem called_five [DecidableEq F] {fr : Front C K F} {s : Sys (Mem C α) (Thread K F α)}
    (h : s.threads.map (numCalled fr) = [1, 1, 1, 1, 1]) {x : OpId} (hx : Called fr s x) :
    x ∈ [((0, 0) : OpId), (1, 0), (2, 0), (3, 0), (4, 0)] := by
  obtain ⟨n, h1, h2⟩ := called_lt hx
  obtain ⟨i, j⟩ := x
  rw [h] at h1
  simp only at h1 h2
  match i, h1 with
  | 0, h1 => simp at h1; have : j = 0 := by omega
             simp [this]
  | 1, h1 => simp at h1; have : j = 0 := by omega
             simp [this]
  | 2, h1 => simp at h1; have : j = 0 := by omega
             simp [this]
  | 3, h1 => simp at h1; have : j = 0 := by omega
             simp [this]
  | 4, h1 => simp at h1; have : j = 0 := by omega
             simp [this]
  | n + 5, h1 => simp at h1

/-- The real-time order, as far as it is known by a list of pairs. -/
def respects (ord : List (OpId × OpId)) (L : List OpId) : Prop := L.Pairwise (fun a b => (b, a) ∉ ord)

instance (ord : List (OpId × OpId)) (L : List OpId) : Decidable (respects ord L) := by
  unfold respects; infer_instance

/-- No order of five results is legal. -/
theorem no_linearization [DecidableEq F] [DecidableEq α] {fr : Front C K F} {atBack : K → Bool} {cap : Nat} {m : Mem C α}
    {l : List α} {progs : List (List (Op K α))} {sched : List Nat} (R : List (OpId × Op K α × Res α))
    (hR : R.map (·.1) = [((0, 0) : OpId), (1, 0), (2, 0), (3, 0), (4, 0)])
    (h1 : ∀ r ∈ R, resAt (exec fr m progs sched) r.1 = some r.2)
    (h2 : (exec fr m progs sched).threads.map (numCalled fr) = [1, 1, 1, 1, 1]) (ord : List (OpId × OpId))
    (hord : ∀ a ∈ ord, Before fr m progs sched a.1 a.2)
    (key : ∀ x ∈ R, ∀ y ∈ R, ∀ z ∈ R, ∀ u ∈ R, ∀ w ∈ R, ([x, y, z, u, w].map (·.1)).Nodup →
      respects ord ([x, y, z, u, w].map (·.1)) → seqRunF atBack cap l ([x, y, z, u, w].map (·.2)) = none)
    (L : List (OpId × Op K α × Res α)) (l' : List α) : ¬ Linearization fr atBack cap m l progs sched L l' := by
  intro h
  have hperm := linearization_perm h R (by rw [hR]; decide) h1 (by
    intro x hx
    rw [hR]
    exact called_five h2 hx)
  have hleg := seqRunF_of h.legal
  have hnd := h.nodup
  have hsub := hperm.subset
  have hlen := hperm.length_eq
  have hR5 : R.length = 5 := by simpa using congrArg List.length hR
  have hresp : respects ord (L.map (·.1)) := by
    unfold respects
    rw [List.pairwise_map]
    refine h.order.imp ?_
    intro a b hab hc
    exact hab (hord _ hc)
  rw [hR5] at hlen
  clear hperm h
  match L, hlen, hleg, hnd, hsub, hresp with
  | [x, y, z, u, w], _, hleg, hnd, hsub, hresp =>
    have := key x (hsub (by simp)) y (hsub (by simp)) z (hsub (by simp)) u (hsub (by simp)) w (hsub (by simp)) hnd hresp
    rw [hleg] at this
    cases this

end Stdgpu.SLin

namespace Stdgpu.Props
open Stdgpu.SlotConc Stdgpu.Conc Stdgpu.Spec
open Stdgpu.SLin (Linearization SeqRun)

variable {α : Type}

theorem seq_pushFails {K : Type} {atBack : K → Bool} {cap : Nat} {m : List α} {B : List (SLin.LE K α)}
    (h : ∀ b ∈ B, b.2.1.isPush = true ∧ b.2.2 = .pushFailed) (hf : B ≠ [] → m.length = cap) :
    SeqRun atBack cap m (B.map (·.2)) m := by
  refine SLin.seqRun_fails ?_
  intro e he
  obtain ⟨⟨x, op, r⟩, hb, rfl⟩ := List.mem_map.1 he
  obtain ⟨h1, h2⟩ := h _ hb
  simp only at h1 h2
  subst h2
  cases op with
  | pop k => simp [Op.isPush] at h1
  | push k x => exact ⟨hf (by rintro rfl; simp at hb), rfl⟩

theorem seq_popFails {K : Type} {atBack : K → Bool} {cap : Nat} {m : List α} {B : List (SLin.LE K α)}
    (h : ∀ b ∈ B, b.2.1.isPush = false ∧ b.2.2 = .popFailed) (hf : B ≠ [] → m = []) :
    SeqRun atBack cap m (B.map (·.2)) m := by
  refine SLin.seqRun_fails ?_
  intro e he
  obtain ⟨⟨x, op, r⟩, hb, rfl⟩ := List.mem_map.1 he
  obtain ⟨h1, h2⟩ := h _ hb
  simp only at h1 h2
  subst h2
  cases op with
  | push k x => simp [Op.isPush] at h1
  | pop k =>
    have := hf (by rintro rfl; simp at hb)
    exact ⟨this, this⟩

/-! ### Vector -/
section
open Stdgpu.Vector

/-- C70. Every execution of pushes on a vector is linearizable, at every state; and when all threads have finished, the
vector contains the sequence that results from the linearization. -/
theorem C70_vector_push {v : Vec α} {l : List α} (h : Holds v l) (programs : List (List (Op Unit α)))
    (hp : ∀ p ∈ programs, ∀ op ∈ p, op.isPush = true) (sched : List Nat) :
    ∃ L l', Linearization (vfront (cap v)) (fun _ => true) (cap v) v l programs sched L l' ∧
      (Finished (vrun v programs sched) →
        (∀ p, p < cap v → (vrun v programs sched).shared.slots.data p = l'[p]?) ∧
        size (vrun v programs sched).shared = l'.length) := by
  obtain ⟨A, B, m, hA⟩ := vpush_run h programs hp (pushInv_run h programs hp []) sched
  have hlen := hA.len
  refine ⟨A ++ [] ++ B, m, SLin.to_lin rfl hA.lin hA.inv.v.prog rfl hA.run rfl (seq_pushFails hA.fails ?_), ?_⟩
  · intro hB
    have := hA.full hB
    split at hlen <;> omega
  · intro hf
    have hi := pushInv_run h programs hp sched
    have hge := hi.ge
    obtain ⟨-, -, l', -, h3, -, h5⟩ := C18_concurrent_push h programs hp sched hf
    have hcap : cap (vrun v programs sched).shared = cap v := hi.v.hcap
    have hml : (l ++ l').length = m.length := by
      have h6 : size (vrun v programs sched).shared = (m.length : Int) := by
        unfold size clampSize
        rw [hcap]
        change (m.length : Int) = if (vrun v programs sched).shared.ctr ≤ _ then (vrun v programs sched).shared.ctr
          else _ at hlen
        split at hlen <;> split <;> (try split) <;> omega
      omega
    refine ⟨?_, by rw [h5, hml]⟩
    intro p hp
    rw [h3 p hp]
    by_cases hpm : p < m.length
    · have hpl : p < (l ++ l').length := by omega
      rw [List.getElem?_eq_getElem hpl]
      refine (hA.vals.dat p hp _ ?_).symm
      show (vrun v programs sched).shared.slots.data p = _
      rw [h3 p hp, List.getElem?_eq_getElem hpl]
    · rw [List.getElem?_eq_none (by omega), List.getElem?_eq_none (by omega)]

/-- C70. Every execution of pops on a vector is linearizable, at every state; and when all threads have finished, the
vector contains the sequence that results from the linearization. -/
theorem C70_vector_pop {v : Vec α} {l : List α} (h : Holds v l) (programs : List (List (Op Unit α)))
    (hp : ∀ p ∈ programs, ∀ op ∈ p, op.isPush = false) (sched : List Nat) :
    ∃ L l', Linearization (vfront (cap v)) (fun _ => true) (cap v) v l programs sched L l' ∧
      (Finished (vrun v programs sched) →
        (∀ p, p < cap v → (vrun v programs sched).shared.slots.data p = l'[p]?) ∧
        size (vrun v programs sched).shared = l'.length) := by
  have hinit : PopInv (cap v) l programs (init (vfront (cap v)) v programs) := by
    have hlen := h.len
    have hctr := h.ctr
    refine ⟨vinv_init h programs, ?_, ?_, ?_, ?_⟩
    · simp only [init]; omega
    · simp [init]
    · intro p hp; exact h.data p (by simp only [init] at hp; omega)
    · simp [init]
  obtain ⟨A, B, hA⟩ := vpop_run h programs hp hinit sched
  refine ⟨A ++ [] ++ B, l.take (vrun v programs sched).shared.ctr.toNat,
    SLin.to_lin rfl hA.lin hA.inv.v.prog rfl hA.run rfl (seq_popFails hA.fails ?_), ?_⟩
  · intro hB
    have h1 : (vrun v programs sched).shared.ctr ≤ 0 := hA.empty hB
    have h2 : (vrun v programs sched).shared.ctr.toNat = 0 := by omega
    show l.take (vrun v programs sched).shared.ctr.toNat = []
    rw [h2]; rfl
  · intro hf
    obtain ⟨-, -, -, h3, -, h5⟩ := C19_concurrent_pop h programs hp sched hf
    have hle : (vrun v programs sched).shared.ctr ≤ l.length := hA.inv.le
    have hl := h.len
    have hcap : cap (vrun v programs sched).shared = cap v := hA.inv.v.hcap
    have hk : l.length - min programs.flatten.length l.length = (vrun v programs sched).shared.ctr.toNat := by
      unfold size clampSize at h5
      rw [hcap] at h5
      split at h5 <;> (try split at h5) <;> omega
    rw [hk] at h3 h5
    refine ⟨h3, ?_⟩
    rw [h5, List.length_take]
    omega

end

/-! ### Deque -/
section
open Stdgpu.Deque
open Stdgpu.Vector (clampSize)

/-- C70. Every execution of pushes at both ends of a deque is linearizable, at every state; and when all threads have
finished, the deque contains the sequence that results from the linearization. -/
theorem C70_deque_push {d : Deq α} {l : List α} (h : Holds d l) (programs : List (List (Op Side α)))
    (hp : ∀ p ∈ programs, ∀ op ∈ p, op.isPush = true) (sched : List Nat) :
    ∃ L l', Linearization (dfront (cap d)) (fun k => decide (k = .back)) (cap d) d l programs sched L l' ∧
      (Finished (drun d programs sched) →
        (∀ q, q < cap d → (drun d programs sched).shared.slots.data q =
          l'[ringIdx (cap d) (drun d programs sched).shared.ctr.begin q]?) ∧
        size (drun d programs sched).shared = l'.length) := by
  obtain ⟨A, R, B, m, hA⟩ := dpush_run h programs hp sched
  have hsz := hA.sz
  obtain ⟨m', hr, hm'⟩ := SLin.seqRun_pushes (atBack := dBack) (cap := cap d) R m hA.rsvs (by split at hsz <;> omega)
  refine ⟨A ++ R.map (fun r => (r.1, r.2, .pushed)) ++ B, m', SLin.to_lin rfl hA.lin hA.ring.v.prog ?_ hA.run ?_
    (seq_pushFails hA.fails ?_), ?_⟩
  · rw [List.map_map]; exact List.map_id R
  · rw [List.map_map]; exact hr
  · intro hB
    have := hA.full hB
    split at hsz <;> omega
  · intro hf
    have hR := SLin.rsv_nil hA.lin hf
    subst hR
    have hr' : m' = m := hr
    subst hr'
    obtain ⟨l', h1, h2, -⟩ := dring_final hA.ring (quiet_of_finished hA.ring.v hf)
    have hcap : cap (drun d programs sched).shared = cap d := hA.ring.v.hcap
    refine ⟨?_, ?_⟩
    · intro q hq
      have h3 : (drun d programs sched).shared.slots.data q = _ := h2 q hq
      rw [h3]
      by_cases hpm : ringIdx (cap d) (drun d programs sched).shared.ctr.begin q < m'.length
      · have hpl : ringIdx (cap d) (drun d programs sched).shared.ctr.begin q < l'.length := by omega
        have h4 := h3
        change _ = l'[ringIdx (cap d) (drun d programs sched).shared.ctr.begin q]? at h4
        rw [List.getElem?_eq_getElem hpl] at h4
        have h5 := hA.vals.dat q hq _ h4
        exact (List.getElem?_eq_getElem hpl).trans h5.symm
      · have a1 : l'[ringIdx (cap d) (drun d programs sched).shared.ctr.begin q]? = none :=
          List.getElem?_eq_none (by omega)
        have a2 : m'[ringIdx (cap d) (drun d programs sched).shared.ctr.begin q]? = none :=
          List.getElem?_eq_none (by omega)
        exact a1.trans a2.symm
    · unfold size
      rw [hcap]
      have hsz' : (m'.length : Int) + ((0 : Nat) : Int) = if (drun d programs sched).shared.ctr.size ≤ (cap d : Int) then
        (drun d programs sched).shared.ctr.size else (cap d : Int) := hsz
      exact clamp_eq (cap d) m'.length _ hA.ge (by simpa using hsz')

/-- C70. Every execution of pops at both ends of a deque is linearizable, at every state; and when all threads have
finished, the deque contains the sequence that results from the linearization. -/
theorem C70_deque_pop {d : Deq α} {l : List α} (h : Holds d l) (programs : List (List (Op Side α)))
    (hp : ∀ p ∈ programs, ∀ op ∈ p, op.isPush = false) (sched : List Nat) :
    ∃ L l', Linearization (dfront (cap d)) (fun k => decide (k = .back)) (cap d) d l programs sched L l' ∧
      (Finished (drun d programs sched) →
        (∀ q, q < cap d → (drun d programs sched).shared.slots.data q =
          l'[ringIdx (cap d) (drun d programs sched).shared.ctr.begin q]?) ∧
        size (drun d programs sched).shared = l'.length) := by
  obtain ⟨A, R, B, m, hA⟩ := dpop_run h programs hp sched
  have hsz := hA.sz
  obtain ⟨E, m', hE, hr, hm'⟩ := SLin.seqRun_pops (atBack := dBack) (cap := cap d) R m hA.rsvs (by split at hsz <;> omega)
  refine ⟨A ++ E ++ B, m', SLin.to_lin rfl hA.lin hA.ring.v.prog hE hA.run hr (seq_popFails hA.fails ?_), ?_⟩
  · intro hB
    have := hA.empty hB
    rw [← List.length_eq_zero_iff]
    split at hsz <;> omega
  · intro hf
    have hR := SLin.rsv_nil hA.lin hf
    subst hR
    have hE' : E = [] := by simpa using hE
    subst hE'
    have hr' : m' = m := hr
    subst hr'
    obtain ⟨l', h1, h2, -⟩ := dring_final hA.ring (quiet_of_finished hA.ring.v hf)
    have hcap : cap (drun d programs sched).shared = cap d := hA.ring.v.hcap
    have hle := hA.ring.le
    refine ⟨?_, ?_⟩
    · intro q hq
      have h3 : (drun d programs sched).shared.slots.data q = _ := h2 q hq
      rw [h3]
      by_cases hpm : ringIdx (cap d) (drun d programs sched).shared.ctr.begin q < m'.length
      · have hpl : ringIdx (cap d) (drun d programs sched).shared.ctr.begin q < l'.length := by omega
        have h4 := h3
        change _ = l'[ringIdx (cap d) (drun d programs sched).shared.ctr.begin q]? at h4
        rw [List.getElem?_eq_getElem hpl] at h4
        have h5 := hA.vals.dat q hq _ h4
        have h6 := hA.win q hq _ (List.getElem?_eq_getElem hpm)
        rw [h6] at h5
        refine (List.getElem?_eq_getElem hpl).trans ?_
        rw [← h5]
        exact (List.getElem?_eq_getElem hpm).symm
      · have a1 : l'[ringIdx (cap d) (drun d programs sched).shared.ctr.begin q]? = none :=
          List.getElem?_eq_none (by omega)
        have a2 : m'[ringIdx (cap d) (drun d programs sched).shared.ctr.begin q]? = none :=
          List.getElem?_eq_none (by omega)
        exact a1.trans a2.symm
    · unfold size clampSize
      rw [hcap]
      change (m'.length : Int) - ((0 : Nat) : Int) = if 0 ≤ (drun d programs sched).shared.ctr.size then
        (drun d programs sched).shared.ctr.size else _ at hsz
      split at hsz <;> split <;> (try split) <;> omega

end

/-! ### Mixtures of pushes and pops -/
section
open Stdgpu.Vector

/-- A vector of capacity 5 with the elements 0, 1, 2. -/
def linVec : Vec Nat :=
  { slots := { cap := 5, locks := fun _ => false, occ := fun p => decide (p < 3),
               data := fun p => if p < 3 then some p else none, err := false }, ctr := 3 }

theorem linVec_holds : Holds linVec [0, 1, 2] := by
  refine ⟨by decide, rfl, by simp [linVec], by simp [linVec], rfl, ?_⟩
  intro p hp
  have : p < 5 := hp
  match p, this with
  | 0, _ => rfl
  | 1, _ => rfl
  | 2, _ => rfl
  | 3, _ => rfl
  | 4, _ => rfl

/-- Three pops and two pushes, one per thread. -/
def linVecProgs : List (List (Op Unit Nat)) := [[.pop ()], [.pop ()], [.push () 7], [.push () 8], [.pop ()]]

def linVecSched : List Nat :=
  List.replicate 2 0 ++ List.replicate 8 1 ++ List.replicate 7 2 ++ List.replicate 2 3 ++ List.replicate 8 4 ++
    List.replicate 5 3 ++ List.replicate 6 0

def linVecRes : List (SLin.OpId × Op Unit Nat × Res Nat) :=
  [((0, 0), .pop (), .popped 8), ((1, 0), .pop (), .popped 1), ((2, 0), .push () 7, .pushed), ((3, 0), .push () 8, .pushed),
   ((4, 0), .pop (), .popped 2)]

example : (SLin.exec (vfront 5) linVec linVecProgs linVecSched).threads.map (·.done) = linVecRes.map (fun r => [r.2]) := by
  decide +kernel

/-- C70: pushes and pops on a vector at the same time are not linearizable, although no operation has failed and
neither the capacity nor the size zero is ever reached: pop 1 has returned the element 1, which is below the element 2,
before pop 4, which returns the element 2, is called. -/
theorem C70_counterexample_mixed_vector :
    Holds linVec [0, 1, 2] ∧ cap linVec = 5 ∧ Finished (vrun linVec linVecProgs linVecSched) ∧
    valid (vrun linVec linVecProgs linVecSched).shared = true ∧
    (∀ n, n ≤ linVecSched.length → 1 ≤ (vrun linVec linVecProgs (linVecSched.take n)).shared.ctr ∧
      (vrun linVec linVecProgs (linVecSched.take n)).shared.ctr ≤ 3) ∧
    ∀ L l', ¬ Linearization (vfront (cap linVec)) (fun _ => true) (cap linVec) linVec [0, 1, 2] linVecProgs linVecSched
      L l' := by
  refine ⟨linVec_holds, rfl, ?_, by decide +kernel, by decide +kernel, ?_⟩
  · unfold Finished; decide +kernel
  · refine SLin.no_linearization linVecRes rfl (by decide +kernel) (by decide +kernel) [((1, 0), (4, 0))] ?_ (by decide +kernel)
    intro a ha
    simp only [List.mem_cons, List.not_mem_nil, or_false] at ha
    subst ha
    exact ⟨10, by decide +kernel, SLin.not_called (by decide +kernel)⟩

end

section
open Stdgpu.Deque

/-- A full deque of capacity 2 with the elements 10, 11. -/
def linDeq : Deq Nat :=
  { slots := { cap := 2, locks := fun _ => false, occ := fun p => decide (p < 2),
               data := fun p => if p < 2 then some (10 + p) else none, err := false }, ctr := ⟨2, 0, 0⟩ }

theorem linDeq_holds : Holds linDeq [10, 11] := by
  have two : ∀ {P : Nat → Prop}, P 0 → P 1 → ∀ q, q < cap linDeq → P q := by
    intro P h0 h1 q hq
    have : q < 2 := hq
    match q, this with
    | 0, _ => exact h0
    | 1, _ => exact h1
  exact ⟨by decide, by decide, rfl, by decide, rfl, two rfl rfl, two rfl rfl, rfl, two rfl rfl⟩

/-- Three `pop_front` and two `push_back`, one per thread. -/
def linDeqProgs : List (List (Op Side Nat)) :=
  [[.pop .front], [.pop .front], [.push .back 7], [.push .back 8], [.pop .front]]

def linDeqSched : List Nat :=
  List.replicate 3 0 ++ List.replicate 9 1 ++ List.replicate 3 2 ++ List.replicate 8 3 ++ List.replicate 9 4 ++
    List.replicate 5 2 ++ List.replicate 6 0

def linDeqRes : List (SLin.OpId × Op Side Nat × Res Nat) :=
  [((0, 0), .pop .front, .popped 7), ((1, 0), .pop .front, .popped 11), ((2, 0), .push .back 7, .pushed),
   ((3, 0), .push .back 8, .pushed), ((4, 0), .pop .front, .popped 10)]

/-- C70: a deque used as a queue (`push_back` and `pop_front`) is not linearizable when slots are reused: all operations
succeed, but pop 1 has returned the second element before pop 4, which returns the first one, is called. -/
theorem C70_counterexample_queue_wrap :
    Holds linDeq [10, 11] ∧ cap linDeq = 2 ∧ Finished (drun linDeq linDeqProgs linDeqSched) ∧
    valid (drun linDeq linDeqProgs linDeqSched).shared = true ∧
    ∀ L l', ¬ Linearization (dfront (cap linDeq)) (fun k => decide (k = .back)) (cap linDeq) linDeq [10, 11] linDeqProgs
      linDeqSched L l' := by
  refine ⟨linDeq_holds, rfl, ?_, by decide +kernel, ?_⟩
  · unfold Finished; decide +kernel
  · refine SLin.no_linearization linDeqRes rfl (by decide +kernel) (by decide +kernel) [((1, 0), (4, 0))] ?_ (by decide +kernel)
    intro a ha
    simp only [List.mem_cons, List.not_mem_nil, or_false] at ha
    subst ha
    exact ⟨12, by decide +kernel, SLin.not_called (by decide +kernel)⟩

def emptyProgs : List (List (Op Side Nat)) :=
  [[.push .back 7], [.pop .front], [.pop .front], [.push .back 8], [.pop .front]]

def emptySched : List Nat :=
  List.replicate 8 0 ++ List.replicate 2 1 ++ List.replicate 1 2 ++ List.replicate 8 3 ++ List.replicate 9 4 ++
    List.replicate 7 1

def emptyRes : List (SLin.OpId × Op Side Nat × Res Nat) :=
  [((0, 0), .push .back 7, .pushed), ((1, 0), .pop .front, .popped 8), ((2, 0), .pop .front, .popFailed),
   ((3, 0), .push .back 8, .pushed), ((4, 0), .pop .front, .popped 7)]

/-- C70: a deque used as a queue is not linearizable when a pop fails, even if no slot is ever reused: pop 2 reports
an empty queue after push 0 of the element 7 has returned and before pop 4, which returns this element, is called. -/
theorem C70_counterexample_queue_empty :
    Holds (create 2 : Deq Nat) [] ∧ Finished (drun (create 2) emptyProgs emptySched) ∧
    valid (drun (create 2) emptyProgs emptySched).shared = true ∧
    ∀ L l', ¬ Linearization (dfront 2) (fun k => decide (k = .back)) 2 (create 2) [] emptyProgs emptySched L l' := by
  refine ⟨create_holds 2 (by omega), ?_, by decide +kernel, ?_⟩
  · unfold Finished; decide +kernel
  · refine SLin.no_linearization emptyRes rfl (by decide +kernel) (by decide +kernel) [((0, 0), (2, 0)), ((2, 0), (4, 0))]
      ?_ (by decide +kernel)
    intro a ha
    simp only [List.mem_cons, List.not_mem_nil, or_false] at ha
    rcases ha with rfl | rfl
    · exact ⟨8, by decide +kernel, SLin.not_called (by decide +kernel)⟩
    · exact ⟨11, by decide +kernel, SLin.not_called (by decide +kernel)⟩

/-- Two threads push to both ends of a deque at the same time, one of three pushes fails: C70 applies, and the
linearization ends with two elements. -/
example : ∃ L l', Linearization (dfront 2) (fun k => decide (k = .back)) 2 (create 2 : Deq Nat) []
    [[.push .back 1, .push .front 2], [.push .back 3]] ((List.range 40).map (· % 2)) L l' ∧ l'.length = 2 := by
  obtain ⟨L, l', h1, h2⟩ := C70_deque_push (create_holds (α := Nat) 2 (by omega))
    [[.push .back 1, .push .front 2], [.push .back 3]] (by decide) ((List.range 40).map (· % 2))
  obtain ⟨-, h3⟩ := h2 (by unfold Finished; decide +kernel)
  have h4 : size (drun (create 2 : Deq Nat) [[.push .back 1, .push .front 2], [.push .back 3]]
    ((List.range 40).map (· % 2))).shared = 2 := by decide +kernel
  exact ⟨L, l', h1, by omega⟩

/-- Two threads pop from both ends of a deque with two elements, in the middle of an execution. -/
example : ∃ L l', Linearization (dfront 2) (fun k => decide (k = .back)) 2 linDeq [10, 11]
    [[.pop .back, .pop .back], [.pop .front]] [0, 1, 0, 1, 0, 1] L l' := by
  obtain ⟨L, l', h1, -⟩ := C70_deque_pop linDeq_holds [[.pop .back, .pop .back], [.pop .front]] (by decide)
    [0, 1, 0, 1, 0, 1]
  exact ⟨L, l', h1⟩

end

section
open Stdgpu.Vector

example : ∃ L l', Linearization (vfront 5) (fun _ => true) 5 linVec [0, 1, 2]
    [[.pop (), .pop ()], [.pop (), .pop ()]] ((List.range 40).map (· % 2)) L l' ∧ l' = [] := by
  obtain ⟨L, l', h1, h2⟩ := C70_vector_pop linVec_holds [[.pop (), .pop ()], [.pop (), .pop ()]] (by decide)
    ((List.range 40).map (· % 2))
  obtain ⟨-, h3⟩ := h2 (by unfold Finished; decide +kernel)
  have h4 : size (vrun linVec [[.pop (), .pop ()], [.pop (), .pop ()]] ((List.range 40).map (· % 2))).shared = 0 := by
    decide +kernel
  exact ⟨L, l', h1, List.length_eq_zero_iff.1 (by omega)⟩

example : ∃ L l', Linearization (vfront 5) (fun _ => true) 5 linVec [0, 1, 2]
    [[.push () 5, .push () 6], [.push () 7]] ((List.range 40).map (· % 2)) L l' ∧ l'.length = 5 := by
  obtain ⟨L, l', h1, h2⟩ := C70_vector_push linVec_holds [[.push () 5, .push () 6], [.push () 7]] (by decide)
    ((List.range 40).map (· % 2))
  obtain ⟨-, h3⟩ := h2 (by unfold Finished; decide +kernel)
  have h4 : size (vrun linVec [[.push () 5, .push () 6], [.push () 7]] ((List.range 40).map (· % 2))).shared = 5 := by
    decide +kernel
  exact ⟨L, l', h1, by omega⟩

end

end Stdgpu.Props
