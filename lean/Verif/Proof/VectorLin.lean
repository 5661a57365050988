import Verif.Proof.SlotVals
import Mathlib.Data.List.Induction
/-! Linearization of executions with only pushes, or only pops, on a vector. -/
namespace Stdgpu.Vector
open Stdgpu.SlotConc Stdgpu.Conc Stdgpu.Spec
open Stdgpu.SLin (OpId LE LInv SeqRun SeqStep Now PushVals PopVals Before)

variable {α : Type}

abbrev noRsv : FPC → Bool := fun _ => false
abbrev atBack : Unit → Bool := fun _ => true

structure VPush (cap : Nat) (l : List α) (progs : List (List (Op Unit α))) (Bef : OpId → OpId → Prop)
    (A B : List (LE Unit α)) (m : List α) (s : VSys α) : Prop where
  inv : PushInv cap l progs s
  lin : LInv noRsv (fun _ _ r => r = .pushed) Bef A [] B s
  run : SeqRun atBack cap l (A.map (·.2)) m
  fails : ∀ b ∈ B, b.2.1.isPush = true ∧ b.2.2 = .pushFailed
  len : (m.length : Int) = if s.shared.ctr ≤ cap then s.shared.ctr else cap
  full : B ≠ [] → (cap : Int) ≤ s.shared.ctr
  vals : PushVals (fun q => m[q]?) cap s

theorem vpush_step {cap : Nat} {l : List α} {progs : List (List (Op Unit α))} {Bef Bef' : OpId → OpId → Prop}
    {A B : List (LE Unit α)} {m : List α} {s : VSys α} {i : Nat} {t : VThread α}
    (hp : ∀ p ∈ progs, ∀ op ∈ p, op.isPush = true) (h : VPush cap l progs Bef A B m s) (ht : s.threads[i]? = some t)
    (hbef : ∀ x y, Bef' x y → Bef x y ∨
      Now (vfront cap) ⟨(step (vfront cap) s.shared t).1, s.threads.set i (step (vfront cap) s.shared t).2⟩ x y) :
    ∃ A' B' m', VPush cap l progs Bef' A' B' m'
      ⟨(step (vfront cap) s.shared t).1, s.threads.set i (step (vfront cap) s.shared t).2⟩ := by
  have hi := pushInv_step hp s i t h.inv ht
  have hmem := List.mem_of_getElem? ht
  have hlen := h.len
  have hge := h.inv.ge
  cases htodo : t.todo with
  | nil =>
    rw [done_step i t ht htodo] at hi hbef ⊢
    exact ⟨A, B, m, ⟨hi, SLin.lin_id h.lin rfl hbef, h.run, h.fails, h.len, h.full, h.vals⟩⟩
  | cons op rest =>
    have hpush : op.isPush = true := by
      obtain ⟨p, hp', e⟩ := prog_mem h.inv.v t hmem
      exact hp p hp' op (by rw [e, htodo]; simp)
    cases hpc : t.pc with
    | slot p sp =>
      obtain ⟨hpc', op', rest', e1, hfit⟩ := (h.inv.v.shape t hmem).1 p sp hpc
      have hfit' : sp.fits op := by rw [htodo] at e1; simp at e1; rw [e1.1]; exact hfit
      have hvals := SLin.pushVals_step (fr := vfront cap) h.vals ht (by intro f p' sp' e; rw [hpc] at e; cases e)
      cases hr : (slotStep s.shared.slots op p sp).2 with
      | inl sp' =>
        have e : step (vfront cap) s.shared t =
            ({ s.shared with slots := (slotStep s.shared.slots op p sp).1 }, { t with pc := .slot p sp' }) := by
          simp only [step, htodo, hpc, hr]
        rw [e] at hi hbef hvals ⊢
        exact ⟨A, B, m, ⟨hi, SLin.lin_stay h.lin ht rfl hpc hbef, h.run, h.fails, h.len, h.full, hvals⟩⟩
      | inr r =>
        have e : step (vfront cap) s.shared t =
            ({ s.shared with slots := (slotStep s.shared.slots op p sp).1 },
              { todo := rest, pc := .front (vfront cap).start, done := t.done ++ [(op, r)] }) := by
          simp only [step, htodo, hpc, hr]
        have hrp : r = .pushed := by
          rcases slotStep_inr _ _ _ _ hfit' _ hr with ⟨-, h'⟩ | ⟨h', -⟩
          · exact h'
          · rw [hpush] at h'; cases h'
        rw [e] at hi hbef hvals ⊢
        exact ⟨A, B, m, ⟨hi, SLin.lin_ret h.lin ht rfl hpc htodo (fun r' hr' => by rw [hr', hrp]) hbef, h.run, h.fails,
          h.len, h.full, hvals⟩⟩
    | front f =>
      have hfull : (cap : Int) ≤ s.shared.ctr → m.length = cap := by
        intro hc; split at hlen <;> omega
      rcases vfront_cases cap s.shared.ctr op.isPush op.kind f with ⟨-, e, -⟩ | ⟨-, e, h1, -⟩ | ⟨-, hb, h1, h2, e⟩ |
        ⟨-, hb, h1, e⟩ | ⟨-, hb, -⟩ | ⟨-, hb, -⟩
      · have e' := step_cont s.shared t htodo hpc e
        have hvals := SLin.pushVals_step (fr := vfront cap) h.vals ht (by intro f p sp _; rw [e']; simp)
        rw [e'] at hi hbef hvals ⊢
        exact ⟨A, B, m, ⟨hi, SLin.lin_cont h.lin ht rfl hpc rfl rfl hbef, h.run, h.fails, h.len, h.full, hvals⟩⟩
      · have e' := step_fail s.shared t htodo hpc e
        have hvals := SLin.pushVals_step (fr := vfront cap) h.vals ht (by intro f p sp _; rw [e']; simp)
        rw [e'] at hi hbef hvals ⊢
        refine ⟨A, B ++ [((i, t.done.length), op, failRes op)], m,
          ⟨hi, SLin.lin_fail h.lin ht rfl hpc rfl _ hbef, h.run, ?_, h.len, ?_, hvals⟩⟩
        · intro b hb
          rcases List.mem_append.1 hb with hb | hb
          · exact h.fails b hb
          · simp only [List.mem_singleton] at hb
            subst hb
            refine ⟨hpush, ?_⟩
            cases op with
            | push k x => rfl
            | pop k => simp [Op.isPush] at hpush
        · intro _
          rcases h1 hpush with h1 | h1
          · exact h1
          · show (cap : Int) ≤ s.shared.ctr; omega
      · have e' := step_go s.shared t htodo hpc e
        rw [e'] at hi hbef ⊢
        have hB : B = [] := by
          by_contra hB
          have := h.full hB
          omega
        subst hB
        cases op with
        | pop k => simp [Op.isPush] at hpush
        | push k x =>
          have hml : m.length = s.shared.ctr.toNat := by rw [if_pos (by omega)] at hlen; omega
          have hsl : ∀ t ∈ s.threads, ∀ p sp, t.pc = .slot p sp → p < cap := fun t ht p sp e =>
            ((h.inv.v.shape t ht).1 p sp e).1
          refine ⟨A ++ [((i, t.done.length), .push k x, .pushed)], [], m ++ [x],
            ⟨hi, SLin.lin_place h.lin ht rfl hpc rfl htodo rfl hbef, ?_, by simp, ?_, by simp, ?_⟩⟩
          · rw [List.map_append]
            exact h.run.snoc ⟨by omega, by simp [atBack]⟩
          · show (((m ++ [x]).length : Nat) : Int) = if s.shared.ctr + 1 ≤ cap then s.shared.ctr + 1 else cap
            rw [if_pos (by omega)]
            simp; omega
          · refine SLin.pushVals_go (h.vals.mono hsl ?_) htodo ?_ _ _
            · intro q hq v hv
              rw [List.getElem?_append_left (List.getElem?_eq_some_iff.1 hv).1]; exact hv
            · rw [← hml]; simp
      · have e' := step_fail s.shared t htodo hpc e
        have hvals := SLin.pushVals_step (fr := vfront cap) h.vals ht (by intro f p sp _; rw [e']; simp)
        rw [e'] at hi hbef hvals ⊢
        refine ⟨A, B ++ [((i, t.done.length), op, failRes op)], m,
          ⟨hi, SLin.lin_fail h.lin ht rfl hpc rfl _ hbef, h.run, ?_, ?_, ?_, hvals⟩⟩
        · intro b hb
          rcases List.mem_append.1 hb with hb | hb
          · exact h.fails b hb
          · simp only [List.mem_singleton] at hb
            subst hb
            refine ⟨hpush, ?_⟩
            cases op with
            | push k x => rfl
            | pop k => simp [Op.isPush] at hpush
        · show (m.length : Int) = if s.shared.ctr + 1 ≤ cap then s.shared.ctr + 1 else cap
          rw [if_neg (by omega)]; split at hlen <;> omega
        · intro _
          show (cap : Int) ≤ s.shared.ctr + 1
          omega
      · rw [hpush] at hb; simp at hb
      · rw [hpush] at hb; simp at hb

structure VPop (cap : Nat) (l : List α) (progs : List (List (Op Unit α))) (Bef : OpId → OpId → Prop)
    (A B : List (LE Unit α)) (s : VSys α) : Prop where
  inv : PopInv cap l progs s
  lin : LInv noRsv (fun p _ r => ∃ v, l[p]? = some v ∧ r = .popped v) Bef A [] B s
  run : SeqRun atBack cap l (A.map (·.2)) (l.take s.shared.ctr.toNat)
  fails : ∀ b ∈ B, b.2.1.isPush = false ∧ b.2.2 = .popFailed
  empty : B ≠ [] → s.shared.ctr ≤ 0
  vals : PopVals (fun q => l[q]?) cap s

theorem vpop_step {cap : Nat} {l : List α} {progs : List (List (Op Unit α))} {Bef Bef' : OpId → OpId → Prop}
    {A B : List (LE Unit α)} {s : VSys α} {i : Nat} {t : VThread α} (hl : l.length ≤ cap)
    (hp : ∀ p ∈ progs, ∀ op ∈ p, op.isPush = false) (h : VPop cap l progs Bef A B s) (ht : s.threads[i]? = some t)
    (hbef : ∀ x y, Bef' x y → Bef x y ∨
      Now (vfront cap) ⟨(step (vfront cap) s.shared t).1, s.threads.set i (step (vfront cap) s.shared t).2⟩ x y) :
    ∃ A' B', VPop cap l progs Bef' A' B'
      ⟨(step (vfront cap) s.shared t).1, s.threads.set i (step (vfront cap) s.shared t).2⟩ := by
  have hi := popInv_step hp hl s i t h.inv ht
  have hmem := List.mem_of_getElem? ht
  have hle := h.inv.le
  have hsl : ∀ p sp, t.pc = .slot p sp → p < cap := fun p sp e => ((h.inv.v.shape t hmem).1 p sp e).1
  have hop : ∀ op rest, t.todo = op :: rest → op.isPush = false := by
    intro op rest e0
    obtain ⟨p, hp', e⟩ := prog_mem h.inv.v t hmem
    exact hp p hp' op (by rw [e, e0]; simp)
  have hvals := SLin.popVals_step (fr := vfront cap) h.vals ht hop hsl
  cases htodo : t.todo with
  | nil =>
    rw [done_step i t ht htodo] at hi hbef ⊢
    exact ⟨A, B, ⟨hi, SLin.lin_id h.lin rfl hbef, h.run, h.fails, h.empty, h.vals⟩⟩
  | cons op rest =>
    have hpop := hop op rest htodo
    have hfr : failRes op = .popFailed := by
      cases op with
      | push k x => simp [Op.isPush] at hpop
      | pop k => rfl
    have hfails : ∀ b ∈ B ++ [((i, t.done.length), op, failRes op)], b.2.1.isPush = false ∧ b.2.2 = .popFailed := by
      intro b hb
      rcases List.mem_append.1 hb with hb | hb
      · exact h.fails b hb
      · simp only [List.mem_singleton] at hb
        subst hb
        exact ⟨hpop, hfr⟩
    cases hpc : t.pc with
    | slot p sp =>
      obtain ⟨hpc', op', rest', e1, hfit⟩ := (h.inv.v.shape t hmem).1 p sp hpc
      have hfit' : sp.fits op := by rw [htodo] at e1; simp at e1; rw [e1.1]; exact hfit
      cases hr : (slotStep s.shared.slots op p sp).2 with
      | inl sp' =>
        have e : step (vfront cap) s.shared t =
            ({ s.shared with slots := (slotStep s.shared.slots op p sp).1 }, { t with pc := .slot p sp' }) := by
          simp only [step, htodo, hpc, hr]
        rw [e] at hi hbef hvals ⊢
        exact ⟨A, B, ⟨hi, SLin.lin_stay h.lin ht rfl hpc hbef, h.run, h.fails, h.empty, hvals⟩⟩
      | inr r =>
        have e : step (vfront cap) s.shared t =
            ({ s.shared with slots := (slotStep s.shared.slots op p sp).1 },
              { todo := rest, pc := .front (vfront cap).start, done := t.done ++ [(op, r)] }) := by
          simp only [step, htodo, hpc, hr]
        have hrp : ∀ r', (∃ v, l[p]? = some v ∧ r' = .popped v) → r' = r := by
          rintro r' ⟨v, h1, rfl⟩
          rcases slotStep_inr _ _ _ _ hfit' _ hr with ⟨h', -⟩ | ⟨-, w, h'⟩
          · rw [hpop] at h'; cases h'
          · have := h.vals.thr t hmem p w (.inr (by rw [hpc, SLin.slot_ret _ _ _ _ _ hr, h']))
            simp only [h1, Option.some.injEq] at this
            rw [h', this]
        rw [e] at hi hbef hvals ⊢
        exact ⟨A, B, ⟨hi, SLin.lin_ret h.lin ht rfl hpc htodo hrp hbef, h.run, h.fails, h.empty, hvals⟩⟩
    | front f =>
      rcases vfront_cases cap s.shared.ctr op.isPush op.kind f with ⟨-, e, -⟩ | ⟨-, e, -, h1⟩ | ⟨-, hb, -⟩ |
        ⟨-, hb, -⟩ | ⟨-, hb, h1, h2, e⟩ | ⟨-, hb, h1, e⟩
      · have e' := step_cont s.shared t htodo hpc e
        rw [e'] at hi hbef hvals ⊢
        exact ⟨A, B, ⟨hi, SLin.lin_cont h.lin ht rfl hpc rfl rfl hbef, h.run, h.fails, h.empty, hvals⟩⟩
      · have e' := step_fail s.shared t htodo hpc e
        rw [e'] at hi hbef hvals ⊢
        refine ⟨A, B ++ [((i, t.done.length), op, failRes op)],
          ⟨hi, SLin.lin_fail h.lin ht rfl hpc rfl _ hbef, h.run, hfails, ?_, hvals⟩⟩
        intro _
        show s.shared.ctr ≤ 0
        rcases h1 hpop with h1 | h1
        · exact h1
        · omega
      · rw [hpop] at hb; simp at hb
      · rw [hpop] at hb; simp at hb
      · have e' := step_go s.shared t htodo hpc e
        rw [e'] at hi hbef hvals ⊢
        have hB : B = [] := by
          by_contra hB
          have := h.empty hB
          omega
        subst hB
        cases op with
        | push k x => simp [Op.isPush] at hpop
        | pop k =>
          obtain ⟨c, hc⟩ : ∃ c : Nat, s.shared.ctr = (c : Int) + 1 := ⟨(s.shared.ctr - 1).toNat, by omega⟩
          have hcl : c < l.length := by omega
          have e1 : (s.shared.ctr - 1).toNat = c := by omega
          have e2 : s.shared.ctr.toNat = c + 1 := by omega
          refine ⟨A ++ [((i, t.done.length), .pop k, .popped l[c])], [],
            ⟨hi, SLin.lin_place h.lin ht rfl hpc rfl htodo ?_ hbef, ?_, by simp, by simp, hvals⟩⟩
          · rw [e1]
            exact ⟨l[c], List.getElem?_eq_getElem hcl, rfl⟩
          · rw [List.map_append]
            refine h.run.snoc ?_
            show l.take s.shared.ctr.toNat = _
            rw [e2]
            show _ = l.take (s.shared.ctr - 1).toNat ++ [l[c]]
            rw [e1, List.take_append_getElem hcl]
      · have e' := step_fail s.shared t htodo hpc e
        rw [e'] at hi hbef hvals ⊢
        have h0 : s.shared.ctr ≤ 0 := by omega
        refine ⟨A, B ++ [((i, t.done.length), op, failRes op)],
          ⟨hi, SLin.lin_fail h.lin ht rfl hpc rfl _ hbef, ?_, hfails, ?_, hvals⟩⟩
        · have := h.run
          show SeqRun atBack cap l _ (l.take (s.shared.ctr - 1).toNat)
          rw [show (s.shared.ctr - 1).toNat = s.shared.ctr.toNat by omega]
          exact this
        · intro _
          show s.shared.ctr - 1 ≤ 0
          omega

/-! ### All executions -/

theorem exec_snoc {C K F : Type} {fr : Front C K F} {m : Mem C α} {progs : List (List (Op K α))} {sched : List Nat}
    {i : Nat} {t : Thread K F α} (ht : (SLin.exec fr m progs sched).threads[i]? = some t) :
    SLin.exec fr m progs (sched ++ [i]) = ⟨(step fr (SLin.exec fr m progs sched).shared t).1,
      (SLin.exec fr m progs sched).threads.set i (step fr (SLin.exec fr m progs sched).shared t).2⟩ := by
  unfold SLin.exec at ht ⊢
  rw [run_append, run_cons, run_nil]
  exact stepAt_eq _ _ _ _ ht

theorem exec_out {C K F : Type} {fr : Front C K F} {m : Mem C α} {progs : List (List (Op K α))} {sched : List Nat}
    {i : Nat} (ht : (SLin.exec fr m progs sched).threads[i]? = none) :
    SLin.exec fr m progs (sched ++ [i]) = SLin.exec fr m progs sched := by
  unfold SLin.exec at ht ⊢
  rw [run_append, run_cons, run_nil]
  unfold stepAt
  rw [ht]

theorem vpush_run {v : Vec α} {l : List α} (h : Holds v l) (progs : List (List (Op Unit α)))
    (hp : ∀ p ∈ progs, ∀ op ∈ p, op.isPush = true) (hinit : PushInv (cap v) l progs (init (vfront (cap v)) v progs))
    (sched : List Nat) :
    ∃ A B m, VPush (cap v) l progs (Before (vfront (cap v)) v progs sched) A B m
      (SLin.exec (vfront (cap v)) v progs sched) := by
  induction sched using List.reverseRecOn with
  | nil =>
    refine ⟨[], [], l, ⟨hinit, SLin.lin_init _ rfl v progs, rfl, by simp, ?_, by simp, ?_, ?_⟩⟩
    · show (l.length : Int) = if v.ctr ≤ cap v then v.ctr else cap v
      have := h.ctr
      have := h.len
      rw [if_pos (by omega)]; omega
    · intro q hq w hw
      have := h.data q hq
      show l[q]? = some w
      rw [← this]
      exact hw
    · intro t ht p sp k x rest hpc
      simp only [SLin.exec, run_nil, init, List.mem_map] at ht
      obtain ⟨pr, -, rfl⟩ := ht
      cases hpc
  | append_singleton sched i ih =>
    obtain ⟨A, B, m, ih⟩ := ih
    cases ht : (SLin.exec (vfront (cap v)) v progs sched).threads[i]? with
    | none =>
      rw [exec_out ht]
      refine ⟨A, B, m, ⟨ih.inv, SLin.lin_id (fr := vfront (cap v)) ih.lin rfl ?_, ih.run, ih.fails, ih.len, ih.full, ih.vals⟩⟩
      intro x y hb
      have := SLin.before_snoc hb
      rw [exec_out ht] at this
      exact this
    | some t =>
      rw [exec_snoc ht]
      refine vpush_step hp ih ht ?_
      intro x y hb
      have := SLin.before_snoc hb
      rw [exec_snoc ht] at this
      exact this

theorem vpop_run {v : Vec α} {l : List α} (h : Holds v l) (progs : List (List (Op Unit α)))
    (hp : ∀ p ∈ progs, ∀ op ∈ p, op.isPush = false) (hinit : PopInv (cap v) l progs (init (vfront (cap v)) v progs))
    (sched : List Nat) :
    ∃ A B, VPop (cap v) l progs (Before (vfront (cap v)) v progs sched) A B
      (SLin.exec (vfront (cap v)) v progs sched) := by
  induction sched using List.reverseRecOn with
  | nil =>
    refine ⟨[], [], ⟨hinit, SLin.lin_init _ rfl v progs, ?_, by simp, by simp, ?_, ?_⟩⟩
    · show l.take v.ctr.toNat = l
      have := h.ctr
      rw [List.take_of_length_le (by omega)]
    · intro q hq w hw
      have := h.data q hq
      show l[q]? = some w
      rw [← this]
      exact hw
    · intro t ht p w hpc
      simp only [SLin.exec, run_nil, init, List.mem_map] at ht
      obtain ⟨pr, -, rfl⟩ := ht
      rcases hpc with hpc | hpc <;> cases hpc
  | append_singleton sched i ih =>
    obtain ⟨A, B, ih⟩ := ih
    cases ht : (SLin.exec (vfront (cap v)) v progs sched).threads[i]? with
    | none =>
      rw [exec_out ht]
      refine ⟨A, B, ⟨ih.inv, SLin.lin_id (fr := vfront (cap v)) ih.lin rfl ?_, ih.run, ih.fails, ih.empty, ih.vals⟩⟩
      intro x y hb
      have := SLin.before_snoc hb
      rw [exec_out ht] at this
      exact this
    | some t =>
      rw [exec_snoc ht]
      refine vpop_step h.len hp ih ht ?_
      intro x y hb
      have := SLin.before_snoc hb
      rw [exec_snoc ht] at this
      exact this

end Stdgpu.Vector
