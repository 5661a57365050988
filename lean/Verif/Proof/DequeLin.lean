import Verif.Proof.VectorLin
import Verif.Proof.DequeConc2
/-! Linearization of executions with only pushes, or only pops, on a deque. -/
namespace Stdgpu.Deque
open Stdgpu.SlotConc Stdgpu.Conc Stdgpu.Spec
open Stdgpu.SLin (OpId LE LInv SeqRun SeqStep Now PushVals PopVals Before)
open Stdgpu.Vector (clampSize step_cont step_fail step_go exec_snoc exec_out)

variable {α : Type}

/-- Between the update of `_size` and the update of `_begin` or `_end`. -/
abbrev dRsv : FPC → Bool := fun f => decide (f = .pos)
abbrev dBack : Side → Bool := fun k => decide (k = .back)

/-- The slot of a push is where its value will be in the sequence. -/
theorem push_place {cap : Nat} {c : Ctr} {n : Nat} (hb : c.begin < cap) (hn : n < cap)
    (he : c.endd = (c.begin + n) % cap) (k : Side) (m : List α) (hm : m.length = n) (x : α) :
    let r := position cap c true k
    let m' := if dBack k then m ++ [x] else x :: m
    m'[ringIdx cap r.2.begin r.1]? = some x ∧
    (∀ q, q < cap → ∀ v, m[ringIdx cap c.begin q]? = some v → m'[ringIdx cap r.2.begin q]? = some v) := by
  rw [wrap_eq _ _ _ hb (by omega)] at he
  have hel : c.endd < cap := by split at he <;> omega
  cases k with
  | back =>
    simp only [position, if_true, dBack, decide_true]
    rw [fetchIncMod_eq _ _ hel]
    refine ⟨?_, ?_⟩
    · have : ringIdx cap c.begin c.endd = m.length := by unfold ringIdx; split at he <;> split <;> omega
      show (m ++ [x])[ringIdx cap c.begin c.endd]? = some x
      rw [this]; simp
    · intro q hq v hv
      show (m ++ [x])[ringIdx cap c.begin q]? = some v
      rw [List.getElem?_append_left (List.getElem?_eq_some_iff.1 hv).1]; exact hv
  | front =>
    simp only [position, if_true, dBack]
    rw [fetchDecMod_eq _ _ hb]
    obtain ⟨p, hp⟩ : ∃ p, p = if c.begin = 0 then cap - 1 else c.begin - 1 := ⟨_, rfl⟩
    simp only [← hp]
    have hel' : p < cap := by split at hp <;> omega
    refine ⟨?_, ?_⟩
    · simp [ringIdx]
    · intro q hq v hv
      have h1 : ringIdx cap c.begin q < n := by rw [← hm]; exact (List.getElem?_eq_some_iff.1 hv).1
      have h2 : ringIdx cap p q = ringIdx cap c.begin q + 1 := by
        unfold ringIdx at h1 ⊢
        split at h1 <;> split at hp <;> split <;> omega
      rw [h2]
      simpa using hv

/-- The slot of a pop is where its value is in the sequence. -/
theorem pop_place {cap : Nat} {c : Ctr} {n : Nat} (hb : c.begin < cap) (hn : n + 1 ≤ cap)
    (he : c.endd = (c.begin + (n + 1)) % cap) (k : Side) (m : List α) (hm : m.length = n + 1) :
    let r := position cap c false k
    ∃ m' v, (m = if dBack k then m' ++ [v] else v :: m') ∧ m'.length = n ∧
      m[ringIdx cap c.begin r.1]? = some v ∧
      (∀ q, q < cap → ∀ v, m'[ringIdx cap r.2.begin q]? = some v → m[ringIdx cap c.begin q]? = some v) := by
  rw [wrap_eq _ _ _ hb (by omega)] at he
  have hel : c.endd < cap := by split at he <;> omega
  have hne : m ≠ [] := by rintro rfl; simp at hm
  cases k with
  | front =>
    simp only [position, Bool.false_eq_true, if_false, dBack]
    rw [fetchIncMod_eq _ _ hb]
    obtain ⟨p, hp⟩ : ∃ p, p = if c.begin + 1 = cap then 0 else c.begin + 1 := ⟨_, rfl⟩
    simp only [← hp]
    have hel' : p < cap := by split at hp <;> omega
    obtain ⟨v, m', rfl⟩ := List.exists_cons_of_ne_nil hne
    refine ⟨m', v, by simp, by simpa using hm, by simp [ringIdx], ?_⟩
    intro q hq w hw
    have h1 : ringIdx cap p q < n := by
      have := (List.getElem?_eq_some_iff.1 hw).1
      simp only [List.length_cons] at hm
      omega
    have h2 : ringIdx cap c.begin q = ringIdx cap p q + 1 := by
      unfold ringIdx at h1 ⊢
      split at h1 <;> split at hp <;> split <;> omega
    rw [h2]
    simpa using hw
  | back =>
    simp only [position, Bool.false_eq_true, if_false, dBack, decide_true, if_true]
    rw [fetchDecMod_eq _ _ hel]
    obtain ⟨p, hp⟩ : ∃ p, p = if c.endd = 0 then cap - 1 else c.endd - 1 := ⟨_, rfl⟩
    simp only [← hp]
    have hel' : p < cap := by split at hp <;> omega
    obtain ⟨m', v, rfl⟩ : ∃ m' v, m = m' ++ [v] := ⟨m.dropLast, m.getLast hne, (List.dropLast_append_getLast hne).symm⟩
    simp only [List.length_append, List.length_cons, List.length_nil] at hm
    refine ⟨m', v, rfl, by omega, ?_, ?_⟩
    · have : ringIdx cap c.begin p = m'.length := by
        unfold ringIdx; split at he <;> split at hp <;> split <;> omega
      rw [this]; simp
    · intro q hq w hw
      rw [List.getElem?_append_left (List.getElem?_eq_some_iff.1 hw).1]; exact hw

/-! ### Pushes only -/

structure DPush (cap : Nat) (l : List α) (progs : List (List (Op Side α))) (Bef : OpId → OpId → Prop)
    (A : List (LE Side α)) (R : List (OpId × Op Side α)) (B : List (LE Side α)) (m : List α) (s : DSys α) : Prop where
  ring : DRing cap (l : Multiset α) progs m.length s
  lin : LInv dRsv (fun _ _ r => r = .pushed) Bef A R B s
  run : SeqRun dBack cap l (A.map (·.2)) m
  fails : ∀ b ∈ B, b.2.1.isPush = true ∧ b.2.2 = .pushFailed
  rsvs : ∀ r ∈ R, r.2.isPush = true
  ge : 0 ≤ s.shared.ctr.size
  sz : (m.length : Int) + R.length = if s.shared.ctr.size ≤ cap then s.shared.ctr.size else cap
  full : B ≠ [] → (cap : Int) ≤ s.shared.ctr.size
  vals : PushVals (fun q => m[ringIdx cap s.shared.ctr.begin q]?) cap s

theorem dpush_step {cap : Nat} {l : List α} {progs : List (List (Op Side α))} {Bef Bef' : OpId → OpId → Prop}
    {A B : List (LE Side α)} {R : List (OpId × Op Side α)} {m : List α} {s : DSys α} {i : Nat} {t : DThread α}
    (hp : ∀ p ∈ progs, ∀ op ∈ p, op.isPush = true) (h : DPush cap l progs Bef A R B m s) (ht : s.threads[i]? = some t)
    (hbef : ∀ x y, Bef' x y → Bef x y ∨
      Now (dfront cap) ⟨(step (dfront cap) s.shared t).1, s.threads.set i (step (dfront cap) s.shared t).2⟩ x y) :
    ∃ A' R' B' m', DPush cap l progs Bef' A' R' B' m'
      ⟨(step (dfront cap) s.shared t).1, s.threads.set i (step (dfront cap) s.shared t).2⟩ := by
  have hmem := List.mem_of_getElem? ht
  have hsz := h.sz
  have hge := h.ge
  have hle := h.ring.le
  have hb0 := h.ring.begin
  cases htodo : t.todo with
  | nil =>
    rw [done_step i t ht htodo] at hbef ⊢
    exact ⟨A, R, B, m, ⟨h.ring, SLin.lin_id h.lin rfl hbef, h.run, h.fails, h.rsvs, h.ge, h.sz, h.full, h.vals⟩⟩
  | cons op rest =>
    have hpush : op.isPush = true := by
      obtain ⟨p, hp', e⟩ := prog_mem h.ring.v t hmem
      exact hp p hp' op (by rw [e, htodo]; simp)
    have hfails : ∀ b ∈ B ++ [((i, t.done.length), op, failRes op)], b.2.1.isPush = true ∧ b.2.2 = .pushFailed := by
      intro b hb
      rcases List.mem_append.1 hb with hb | hb
      · exact h.fails b hb
      · simp only [List.mem_singleton] at hb
        subst hb
        refine ⟨hpush, ?_⟩
        cases op with
        | push k x => rfl
        | pop k => simp [Op.isPush] at hpush
    cases hpc : t.pc with
    | slot p sp =>
      have hring := dring_slot h.ring ht p sp hpc
      obtain ⟨hpc', op', rest', e1, hfit⟩ := (h.ring.v.shape t hmem).1 p sp hpc
      have hfit' : sp.fits op := by rw [htodo] at e1; simp at e1; rw [e1.1]; exact hfit
      have hvals := SLin.pushVals_step (fr := dfront cap) h.vals ht (by intro f p' sp' e; rw [hpc] at e; cases e)
      cases hr : (slotStep s.shared.slots op p sp).2 with
      | inl sp' =>
        have e : step (dfront cap) s.shared t =
            ({ s.shared with slots := (slotStep s.shared.slots op p sp).1 }, { t with pc := .slot p sp' }) := by
          simp only [step, htodo, hpc, hr]
        rw [e] at hring hbef hvals ⊢
        exact ⟨A, R, B, m, ⟨hring, SLin.lin_stay h.lin ht rfl hpc hbef, h.run, h.fails, h.rsvs, h.ge, h.sz, h.full, hvals⟩⟩
      | inr r =>
        have e : step (dfront cap) s.shared t =
            ({ s.shared with slots := (slotStep s.shared.slots op p sp).1 },
              { todo := rest, pc := .front (dfront cap).start, done := t.done ++ [(op, r)] }) := by
          simp only [step, htodo, hpc, hr]
        have hrp : r = .pushed := by
          rcases slotStep_inr _ _ _ _ hfit' _ hr with ⟨-, h'⟩ | ⟨h', -⟩
          · exact h'
          · rw [hpush] at h'; cases h'
        rw [e] at hring hbef hvals ⊢
        exact ⟨A, R, B, m, ⟨hring, SLin.lin_ret h.lin ht rfl hpc htodo (fun r' hr' => by rw [hr', hrp]) hbef, h.run,
          h.fails, h.rsvs, h.ge, h.sz, h.full, hvals⟩⟩
    | front f =>
      rcases dfront_cases cap s.shared.ctr op.isPush op.kind f with ⟨rfl, e⟩ | ⟨rfl, e, h1, -⟩ | ⟨rfl, hb, h1, e⟩ |
        ⟨rfl, hb, h1, e⟩ | ⟨rfl, hb, h1, e⟩ | ⟨rfl, hb, h1, e⟩ | ⟨rfl, e⟩
      · have hring := dring_stay h.ring ht _ hpc htodo _ _ e (by simp) rfl rfl
        have e' := step_cont s.shared t htodo hpc e
        have hvals := SLin.pushVals_step (fr := dfront cap) h.vals ht (by intro f p sp _; rw [e']; simp)
        rw [e'] at hring hbef hvals ⊢
        exact ⟨A, R, B, m, ⟨hring, SLin.lin_cont h.lin ht rfl hpc rfl rfl hbef, h.run, h.fails, h.rsvs, h.ge, h.sz,
          h.full, hvals⟩⟩
      · have hring := dring_stay h.ring ht _ hpc htodo _ _ e (by simp) rfl rfl
        have e' := step_fail s.shared t htodo hpc e
        have hvals := SLin.pushVals_step (fr := dfront cap) h.vals ht (by intro f p sp _; rw [e']; simp)
        rw [e'] at hring hbef hvals ⊢
        refine ⟨A, R, B ++ [((i, t.done.length), op, failRes op)], m,
          ⟨hring, SLin.lin_fail h.lin ht rfl hpc rfl _ hbef, h.run, hfails, h.rsvs, h.ge, h.sz, ?_, hvals⟩⟩
        intro _
        rcases h1 hpush with h1 | h1
        · exact h1
        · omega
      · have hring := dring_stay h.ring ht _ hpc htodo _ _ e (by simp) rfl rfl
        have e' := step_cont s.shared t htodo hpc e
        have hvals := SLin.pushVals_step (fr := dfront cap) h.vals ht (by intro f p sp _; rw [e']; simp)
        rw [e'] at hring hbef hvals ⊢
        have hB : B = [] := by
          by_contra hB
          have := h.full hB
          omega
        subst hB
        refine ⟨A, R ++ [((i, t.done.length), op)], [], m,
          ⟨hring, SLin.lin_rsv h.lin ht rfl hpc rfl rfl htodo hbef, h.run, by simp, ?_, ?_, ?_, by simp, hvals⟩⟩
        · intro r hr
          rcases List.mem_append.1 hr with hr | hr
          · exact h.rsvs r hr
          · simp only [List.mem_singleton] at hr
            subst hr
            exact hpush
        · show 0 ≤ s.shared.ctr.size + 1
          omega
        · show (m.length : Int) + (R ++ [((i, t.done.length), op)]).length =
            if s.shared.ctr.size + 1 ≤ cap then s.shared.ctr.size + 1 else cap
          rw [if_pos (by omega)] at hsz ⊢
          simp; omega
      · have hring := dring_stay h.ring ht _ hpc htodo _ _ e (by simp) rfl rfl
        have e' := step_fail s.shared t htodo hpc e
        have hvals := SLin.pushVals_step (fr := dfront cap) h.vals ht (by intro f p sp _; rw [e']; simp)
        rw [e'] at hring hbef hvals ⊢
        refine ⟨A, R, B ++ [((i, t.done.length), op, failRes op)], m,
          ⟨hring, SLin.lin_fail h.lin ht rfl hpc rfl _ hbef, h.run, hfails, h.rsvs, ?_, ?_, ?_, hvals⟩⟩
        · show 0 ≤ s.shared.ctr.size + 1
          omega
        · show (m.length : Int) + R.length = if s.shared.ctr.size + 1 ≤ cap then s.shared.ctr.size + 1 else cap
          rw [if_neg (by omega)]; split at hsz <;> omega
        · intro _
          show (cap : Int) ≤ s.shared.ctr.size + 1
          omega
      · rw [hpush] at hb; cases hb
      · rw [hpush] at hb; cases hb
      · have hR := (h.lin.thr i t ht).rsvd .pos op rest hpc rfl htodo
        obtain ⟨R1, R2, rfl⟩ := List.append_of_mem hR
        simp only [List.length_append, List.length_cons] at hsz
        have hnc : m.length < cap := by split at hsz <;> omega
        have hring := dring_push h.ring ht hpc htodo hpush hnc
        have e' := step_go s.shared t htodo hpc e
        rw [e'] at hring hbef ⊢
        have hsl : ∀ t ∈ s.threads, ∀ p sp, t.pc = .slot p sp → p < cap := fun t ht p sp e =>
          ((h.ring.v.shape t ht).1 p sp e).1
        have hsize : (position cap s.shared.ctr op.isPush op.kind).2.size = s.shared.ctr.size := by
          unfold position; cases op.kind <;> cases op.isPush <;> rfl
        cases op with
        | pop k => simp [Op.isPush] at hpush
        | push k x =>
          obtain ⟨g1, g2⟩ := push_place hb0 hnc h.ring.endd k m rfl x
          have hml : (if dBack k then m ++ [x] else x :: m).length = m.length + 1 := by split <;> simp
          refine ⟨A ++ [((i, t.done.length), .push k x, .pushed)], R1 ++ R2, B, if dBack k then m ++ [x] else x :: m,
            ⟨?_, SLin.lin_take h.lin ht rfl hpc htodo rfl hbef, ?_, h.fails, ?_, ?_, ?_, ?_, ?_⟩⟩
          · rw [hml]; exact hring
          · rw [List.map_append]
            exact h.run.snoc ⟨hnc, rfl⟩
          · intro r hr
            exact h.rsvs r (by simp only [List.mem_append, List.mem_cons] at hr ⊢; rcases hr with hr | hr <;> simp [hr])
          · show 0 ≤ (position cap s.shared.ctr _ _).2.size
            rw [hsize]; exact hge
          · show _ = if (position cap s.shared.ctr _ _).2.size ≤ cap then (position cap s.shared.ctr _ _).2.size else _
            rw [hsize, hml, List.length_append, ← hsz]
            push_cast
            omega
          · show _ → _ ≤ (position cap s.shared.ctr _ _).2.size
            rw [hsize]; exact h.full
          · exact SLin.pushVals_go (h.vals.mono hsl g2) htodo g1 _ _

/-! ### Pops only -/

structure DPop (cap b0 : Nat) (l : List α) (progs : List (List (Op Side α))) (Bef : OpId → OpId → Prop)
    (A : List (LE Side α)) (R : List (OpId × Op Side α)) (B : List (LE Side α)) (m : List α) (s : DSys α) : Prop where
  ring : DRing cap (l : Multiset α) progs m.length s
  lin : LInv dRsv (fun p _ r => ∃ v, l[ringIdx cap b0 p]? = some v ∧ r = .popped v) Bef A R B s
  run : SeqRun dBack cap l (A.map (·.2)) m
  fails : ∀ b ∈ B, b.2.1.isPush = false ∧ b.2.2 = .popFailed
  rsvs : ∀ r ∈ R, r.2.isPush = false
  sz : (m.length : Int) - R.length = if 0 ≤ s.shared.ctr.size then s.shared.ctr.size else 0
  empty : B ≠ [] → s.shared.ctr.size ≤ 0
  vals : PopVals (fun q => l[ringIdx cap b0 q]?) cap s
  win : ∀ q, q < cap → ∀ v, m[ringIdx cap s.shared.ctr.begin q]? = some v → l[ringIdx cap b0 q]? = some v

theorem dpop_step {cap b0 : Nat} {l : List α} {progs : List (List (Op Side α))} {Bef Bef' : OpId → OpId → Prop}
    {A B : List (LE Side α)} {R : List (OpId × Op Side α)} {m : List α} {s : DSys α} {i : Nat} {t : DThread α}
    (hp : ∀ p ∈ progs, ∀ op ∈ p, op.isPush = false) (h : DPop cap b0 l progs Bef A R B m s)
    (ht : s.threads[i]? = some t)
    (hbef : ∀ x y, Bef' x y → Bef x y ∨
      Now (dfront cap) ⟨(step (dfront cap) s.shared t).1, s.threads.set i (step (dfront cap) s.shared t).2⟩ x y) :
    ∃ A' R' B' m', DPop cap b0 l progs Bef' A' R' B' m'
      ⟨(step (dfront cap) s.shared t).1, s.threads.set i (step (dfront cap) s.shared t).2⟩ := by
  have hmem := List.mem_of_getElem? ht
  have hsz := h.sz
  have hle := h.ring.le
  have hb0 := h.ring.begin
  have hsl : ∀ p sp, t.pc = .slot p sp → p < cap := fun p sp e => ((h.ring.v.shape t hmem).1 p sp e).1
  have hop : ∀ op rest, t.todo = op :: rest → op.isPush = false := by
    intro op rest e0
    obtain ⟨p, hp', e⟩ := prog_mem h.ring.v t hmem
    exact hp p hp' op (by rw [e, e0]; simp)
  have hvals := SLin.popVals_step (fr := dfront cap) h.vals ht hop hsl
  cases htodo : t.todo with
  | nil =>
    rw [done_step i t ht htodo] at hbef ⊢
    exact ⟨A, R, B, m, ⟨h.ring, SLin.lin_id h.lin rfl hbef, h.run, h.fails, h.rsvs, h.sz, h.empty, h.vals, h.win⟩⟩
  | cons op rest =>
    have hpop := hop op rest htodo
    have hfails : ∀ b ∈ B ++ [((i, t.done.length), op, failRes op)], b.2.1.isPush = false ∧ b.2.2 = .popFailed := by
      intro b hb
      rcases List.mem_append.1 hb with hb | hb
      · exact h.fails b hb
      · simp only [List.mem_singleton] at hb
        subst hb
        refine ⟨hpop, ?_⟩
        cases op with
        | push k x => simp [Op.isPush] at hpop
        | pop k => rfl
    cases hpc : t.pc with
    | slot p sp =>
      have hring := dring_slot h.ring ht p sp hpc
      obtain ⟨hpc', op', rest', e1, hfit⟩ := (h.ring.v.shape t hmem).1 p sp hpc
      have hfit' : sp.fits op := by rw [htodo] at e1; simp at e1; rw [e1.1]; exact hfit
      cases hr : (slotStep s.shared.slots op p sp).2 with
      | inl sp' =>
        have e : step (dfront cap) s.shared t =
            ({ s.shared with slots := (slotStep s.shared.slots op p sp).1 }, { t with pc := .slot p sp' }) := by
          simp only [step, htodo, hpc, hr]
        rw [e] at hring hbef hvals ⊢
        exact ⟨A, R, B, m, ⟨hring, SLin.lin_stay h.lin ht rfl hpc hbef, h.run, h.fails, h.rsvs, h.sz, h.empty, hvals,
          h.win⟩⟩
      | inr r =>
        have e : step (dfront cap) s.shared t =
            ({ s.shared with slots := (slotStep s.shared.slots op p sp).1 },
              { todo := rest, pc := .front (dfront cap).start, done := t.done ++ [(op, r)] }) := by
          simp only [step, htodo, hpc, hr]
        have hrp : ∀ r', (∃ v, l[ringIdx cap b0 p]? = some v ∧ r' = .popped v) → r' = r := by
          rintro r' ⟨v, h1, rfl⟩
          rcases slotStep_inr _ _ _ _ hfit' _ hr with ⟨h', -⟩ | ⟨-, w, h'⟩
          · rw [hpop] at h'; cases h'
          · have := h.vals.thr t hmem p w (.inr (by rw [hpc, SLin.slot_ret _ _ _ _ _ hr, h']))
            simp only [h1, Option.some.injEq] at this
            rw [h', this]
        rw [e] at hring hbef hvals ⊢
        exact ⟨A, R, B, m, ⟨hring, SLin.lin_ret h.lin ht rfl hpc htodo hrp hbef, h.run,
          h.fails, h.rsvs, h.sz, h.empty, hvals, h.win⟩⟩
    | front f =>
      rcases dfront_cases cap s.shared.ctr op.isPush op.kind f with ⟨rfl, e⟩ | ⟨rfl, e, -, h1⟩ | ⟨rfl, hb, h1, e⟩ |
        ⟨rfl, hb, h1, e⟩ | ⟨rfl, hb, h1, e⟩ | ⟨rfl, hb, h1, e⟩ | ⟨rfl, e⟩
      · have hring := dring_stay h.ring ht _ hpc htodo _ _ e (by simp) rfl rfl
        have e' := step_cont s.shared t htodo hpc e
        rw [e'] at hring hbef hvals ⊢
        exact ⟨A, R, B, m, ⟨hring, SLin.lin_cont h.lin ht rfl hpc rfl rfl hbef, h.run, h.fails, h.rsvs, h.sz,
          h.empty, hvals, h.win⟩⟩
      · have hring := dring_stay h.ring ht _ hpc htodo _ _ e (by simp) rfl rfl
        have e' := step_fail s.shared t htodo hpc e
        rw [e'] at hring hbef hvals ⊢
        refine ⟨A, R, B ++ [((i, t.done.length), op, failRes op)], m,
          ⟨hring, SLin.lin_fail h.lin ht rfl hpc rfl _ hbef, h.run, hfails, h.rsvs, h.sz, ?_, hvals, h.win⟩⟩
        intro _
        rcases h1 hpop with h1 | h1
        · exact h1
        · omega
      · rw [hpop] at hb; cases hb
      · rw [hpop] at hb; cases hb
      · have hring := dring_stay h.ring ht _ hpc htodo _ _ e (by simp) rfl rfl
        have e' := step_cont s.shared t htodo hpc e
        rw [e'] at hring hbef hvals ⊢
        have hB : B = [] := by
          by_contra hB
          have := h.empty hB
          omega
        subst hB
        refine ⟨A, R ++ [((i, t.done.length), op)], [], m,
          ⟨hring, SLin.lin_rsv h.lin ht rfl hpc rfl rfl htodo hbef, h.run, by simp, ?_, ?_, by simp, hvals, h.win⟩⟩
        · intro r hr
          rcases List.mem_append.1 hr with hr | hr
          · exact h.rsvs r hr
          · simp only [List.mem_singleton] at hr
            subst hr
            exact hpop
        · show (m.length : Int) - (R ++ [((i, t.done.length), op)]).length =
            if 0 ≤ s.shared.ctr.size - 1 then s.shared.ctr.size - 1 else 0
          rw [if_pos (by omega)] at hsz ⊢
          simp; omega
      · have hring := dring_stay h.ring ht _ hpc htodo _ _ e (by simp) rfl rfl
        have e' := step_fail s.shared t htodo hpc e
        rw [e'] at hring hbef hvals ⊢
        refine ⟨A, R, B ++ [((i, t.done.length), op, failRes op)], m,
          ⟨hring, SLin.lin_fail h.lin ht rfl hpc rfl _ hbef, h.run, hfails, h.rsvs, ?_, ?_, hvals, h.win⟩⟩
        · show (m.length : Int) - R.length = if 0 ≤ s.shared.ctr.size - 1 then s.shared.ctr.size - 1 else 0
          rw [if_neg (by omega)]; split at hsz <;> omega
        · intro _
          show s.shared.ctr.size - 1 ≤ 0
          omega
      · have hR := (h.lin.thr i t ht).rsvd .pos op rest hpc rfl htodo
        obtain ⟨R1, R2, rfl⟩ := List.append_of_mem hR
        simp only [List.length_append, List.length_cons] at hsz
        obtain ⟨n, hn⟩ : ∃ n, m.length = n + 1 := ⟨m.length - 1, by split at hsz <;> omega⟩
        have hr0 := h.ring
        rw [hn] at hr0
        have hring := dring_pop hr0 ht hpc htodo hpop
        have e' := step_go s.shared t htodo hpc e
        rw [e'] at hring hbef hvals ⊢
        have hsize : (position cap s.shared.ctr op.isPush op.kind).2.size = s.shared.ctr.size := by
          unfold position; cases op.kind <;> cases op.isPush <;> rfl
        cases op with
        | push k x => simp [Op.isPush] at hpop
        | pop k =>
          obtain ⟨m1, v, g1, g2, g3, g4⟩ := pop_place hb0 hr0.le hr0.endd k m hn
          have hp0 : (position cap s.shared.ctr false k).1 < cap := by
            have hel : s.shared.ctr.endd < cap := by rw [h.ring.endd]; exact Nat.mod_lt _ (by omega)
            exact (position_lt cap s.shared.ctr false k hb0 hel).1
          refine ⟨A ++ [((i, t.done.length), .pop k, .popped v)], R1 ++ R2, B, m1,
            ⟨?_, SLin.lin_take h.lin ht rfl hpc htodo ⟨v, h.win _ hp0 v g3, rfl⟩ hbef, ?_, h.fails, ?_, ?_, ?_, hvals, ?_⟩⟩
          · rw [g2]; exact hring
          · rw [List.map_append]
            exact h.run.snoc g1
          · intro r hr
            exact h.rsvs r (by simp only [List.mem_append, List.mem_cons] at hr ⊢; rcases hr with hr | hr <;> simp [hr])
          · show _ = if 0 ≤ (position cap s.shared.ctr _ _).2.size then (position cap s.shared.ctr _ _).2.size else _
            rw [hsize, List.length_append, ← hsz]
            push_cast
            omega
          · show _ → (position cap s.shared.ctr _ _).2.size ≤ 0
            rw [hsize]; exact h.empty
          · intro q hq w hw
            exact h.win q hq w (g4 q hq w hw)

/-! ### All executions -/

theorem dpush_run {d : Deq α} {l : List α} (h : Holds d l) (progs : List (List (Op Side α)))
    (hp : ∀ p ∈ progs, ∀ op ∈ p, op.isPush = true) (sched : List Nat) :
    ∃ A R B m, DPush (cap d) l progs (Before (dfront (cap d)) d progs sched) A R B m
      (SLin.exec (dfront (cap d)) d progs sched) := by
  have hsz := h.size
  have hlen := h.len
  induction sched using List.reverseRecOn with
  | nil =>
    refine ⟨[], [], [], l, ⟨dring_init h progs, SLin.lin_init _ rfl d progs, rfl, by simp, by simp, ?_, ?_, by simp, ?_, ?_⟩⟩
    · show 0 ≤ d.ctr.size
      omega
    · show (l.length : Int) + (0 : Nat) = if d.ctr.size ≤ cap d then d.ctr.size else cap d
      rw [if_pos (by omega)]; omega
    · intro q hq w hw
      have := h.data q hq
      show l[ringIdx (cap d) d.ctr.begin q]? = some w
      rw [← this]
      exact hw
    · intro t ht p sp k x rest hpc
      simp only [SLin.exec, run_nil, init, List.mem_map] at ht
      obtain ⟨pr, -, rfl⟩ := ht
      cases hpc
  | append_singleton sched i ih =>
    obtain ⟨A, R, B, m, ih⟩ := ih
    cases ht : (SLin.exec (dfront (cap d)) d progs sched).threads[i]? with
    | none =>
      rw [exec_out ht]
      refine ⟨A, R, B, m, ⟨ih.ring, SLin.lin_id (fr := dfront (cap d)) ih.lin rfl ?_, ih.run, ih.fails, ih.rsvs, ih.ge,
        ih.sz, ih.full, ih.vals⟩⟩
      intro x y hb
      have := SLin.before_snoc hb
      rw [exec_out ht] at this
      exact this
    | some t =>
      rw [exec_snoc ht]
      refine dpush_step hp ih ht ?_
      intro x y hb
      have := SLin.before_snoc hb
      rw [exec_snoc ht] at this
      exact this

theorem dpop_run {d : Deq α} {l : List α} (h : Holds d l) (progs : List (List (Op Side α)))
    (hp : ∀ p ∈ progs, ∀ op ∈ p, op.isPush = false) (sched : List Nat) :
    ∃ A R B m, DPop (cap d) d.ctr.begin l progs (Before (dfront (cap d)) d progs sched) A R B m
      (SLin.exec (dfront (cap d)) d progs sched) := by
  have hsz := h.size
  have hlen := h.len
  induction sched using List.reverseRecOn with
  | nil =>
    refine ⟨[], [], [], l, ⟨dring_init h progs, SLin.lin_init _ rfl d progs, rfl, by simp, by simp, ?_, by simp, ⟨?_, ?_⟩, ?_⟩⟩
    · show (l.length : Int) - (0 : Nat) = if 0 ≤ d.ctr.size then d.ctr.size else 0
      rw [if_pos (by omega)]; omega
    · intro q hq w hw
      have := h.data q hq
      show l[ringIdx (cap d) d.ctr.begin q]? = some w
      rw [← this]
      exact hw
    · intro t ht p w hpc
      simp only [SLin.exec, run_nil, init, List.mem_map] at ht
      obtain ⟨pr, -, rfl⟩ := ht
      rcases hpc with hpc | hpc <;> cases hpc
    · intro q hq w hw
      exact hw
  | append_singleton sched i ih =>
    obtain ⟨A, R, B, m, ih⟩ := ih
    cases ht : (SLin.exec (dfront (cap d)) d progs sched).threads[i]? with
    | none =>
      rw [exec_out ht]
      refine ⟨A, R, B, m, ⟨ih.ring, SLin.lin_id (fr := dfront (cap d)) ih.lin rfl ?_, ih.run, ih.fails, ih.rsvs,
        ih.sz, ih.empty, ih.vals, ih.win⟩⟩
      intro x y hb
      have := SLin.before_snoc hb
      rw [exec_out ht] at this
      exact this
    | some t =>
      rw [exec_snoc ht]
      refine dpop_step hp ih ht ?_
      intro x y hb
      have := SLin.before_snoc hb
      rw [exec_snoc ht] at this
      exact this

end Stdgpu.Deque
