import Verif.Proof.QueueCnt
/-! A deque used as a queue without reuse of slots: linearization. -/
namespace Stdgpu.Deque
open Stdgpu.SlotConc Stdgpu.Conc Stdgpu.Spec
open Stdgpu.SLin (OpId LE OInv OBase QRun QStep Now Before isQueueOp OnSlot resAt)
open Stdgpu.Vector (exec_snoc exec_out)

variable {α : Type}

/-! ### Values -/

structure QVals (g : Nat → Option α) (cap : Nat) (s : DSys α) : Prop where
  dat : ∀ q, q < cap → ∀ v, s.shared.slots.data q = some v → g q = some v
  push : ∀ t ∈ s.threads, ∀ p sp k x rest, t.pc = .slot p sp → t.todo = .push k x :: rest → g p = some x
  pop : ∀ t ∈ s.threads, ∀ p v, t.pc = .slot p (.destroy v) ∨ t.pc = .slot p (.unlockDone (.popped v)) → g p = some v

theorem qvals_step {g : Nat → Option α} {cap : Nat} {s : DSys α} (h : QVals g cap s) {i : Nat} {t : DThread α}
    (ht : s.threads[i]? = some t) (hsl : ∀ p sp, t.pc = .slot p sp → p < cap)
    (hno : ∀ f p sp, t.pc = .front f → (step (dfront cap) s.shared t).2.pc ≠ .slot p sp) :
    QVals g cap ⟨(step (dfront cap) s.shared t).1, s.threads.set i (step (dfront cap) s.shared t).2⟩ := by
  have hmem := List.mem_of_getElem? ht
  have hP := SLin.pushVals_step (fr := dfront cap) (⟨h.dat, h.push⟩ : SLin.PushVals g cap s) ht hno
  refine ⟨hP.dat, hP.thr, ?_⟩
  intro x hx p v hpc
  rcases mem_set_cases _ _ _ _ hx with rfl | ⟨j, -, hj⟩
  · cases htodo : t.todo with
    | nil =>
      have e : step (dfront cap) s.shared t = (s.shared, t) := by unfold step; rw [htodo]
      rw [e] at hpc; exact h.pop t hmem p v hpc
    | cons op rest =>
      cases hpc0 : t.pc with
      | front fpc =>
        exfalso
        rcases hpc with e | e
        · exact hno fpc _ _ hpc0 e
        · exact hno fpc _ _ hpc0 e
      | slot p0 sp =>
        have hpcap := hsl p0 sp hpc0
        unfold step at hpc; simp only [htodo, hpc0] at hpc
        cases hr : (slotStep s.shared.slots op p0 sp).2 with
        | inr r => rw [hr] at hpc; simp at hpc
        | inl sp' =>
          rw [hr] at hpc; simp only [PC.slot.injEq] at hpc
          have : p0 = p := by rcases hpc with ⟨e, -⟩ | ⟨e, -⟩ <;> exact e
          subst this
          rcases slot_take _ _ _ _ _ v hr (by simpa using hpc) with h3 | h3
          · exact h.dat _ hpcap v h3
          · subst h3; exact h.pop t hmem p0 v (Or.inl hpc0)
  · exact h.pop x (List.mem_of_getElem? hj) p v hpc

theorem QVals.mono {g g' : Nat → Option α} {cap : Nat} {s : DSys α} (h : QVals g cap s)
    (hsl : ∀ t ∈ s.threads, ∀ p sp, t.pc = .slot p sp → p < cap)
    (hg : ∀ q, q < cap → ∀ v, g q = some v → g' q = some v) : QVals g' cap s :=
  ⟨fun q hq v hv => hg q hq v (h.dat q hq v hv), fun t ht p sp k x rest h1 h2 =>
    hg p (hsl t ht p sp h1) x (h.push t ht p sp k x rest h1 h2), fun t ht p v h1 =>
    hg p (by rcases h1 with h1 | h1 <;> exact hsl t ht p _ h1) v (h.pop t ht p v h1)⟩

/-- An operation gets slot `p`. -/
theorem qvals_go {g : Nat → Option α} {cap : Nat} {s : DSys α} (h : QVals g cap s) {i : Nat} {t : DThread α} {p : Nat}
    (hg : ∀ k x rest, t.todo = .push k x :: rest → g p = some x) (c : Ctr) :
    QVals g cap ⟨{ s.shared with ctr := c }, s.threads.set i { t with pc := .slot p .tryLock }⟩ := by
  refine ⟨h.dat, ?_, ?_⟩
  · intro u hu q sp' k' y rest' hpc htd
    rcases mem_set_cases _ _ _ _ hu with rfl | ⟨j, -, hj⟩
    · simp only [PC.slot.injEq] at hpc
      rw [← hpc.1]
      exact hg _ _ _ htd
    · exact h.push u (List.mem_of_getElem? hj) q sp' k' y rest' hpc htd
  · intro u hu q v hpc
    rcases mem_set_cases _ _ _ _ hu with rfl | ⟨j, -, hj⟩
    · rcases hpc with hpc | hpc <;> cases hpc
    · exact h.pop u (List.mem_of_getElem? hj) q v hpc

/-! ### The linearization -/

/-- `Q`: the initial elements and the pushed ones in the order of their tickets; `P`: the pops in the order of their
tickets. A pop is entered into `L` when it has its ticket and there is an element for it. -/
structure QInv (cap b0 : Nat) (l : List α) (progs : List (List (Op Side α))) (Bef : OpId → OpId → Prop)
    (L : List (LE Side α)) (Q : List α) (P : List OpId) (s : DSys α) : Prop where
  c : CInv cap b0 (l : Multiset α) progs Q.length P.length s
  vals : QVals (fun q => Q[ringIdx cap b0 q]?) cap s
  lin : OInv Bef L s
  run : QRun cap l (L.map (·.2)) (Q.drop P.length)
  push : ∀ (i : Nat) (t : DThread α), s.threads[i]? = some t → ∀ p sp k x rest, t.pc = .slot p sp →
    t.todo = .push k x :: rest → ((i, t.done.length), .push k x, .pushed) ∈ L
  pop : ∀ (i : Nat) (t : DThread α), s.threads[i]? = some t → ∀ p sp k rest, t.pc = .slot p sp →
    t.todo = .pop k :: rest → P[ringIdx cap b0 p]? = some (i, t.done.length)
  got : ∀ (j : Nat) y, P[j]? = some y → ∀ v, Q[j]? = some v → (y, .pop .front, .popped v) ∈ L
  pend : ∀ (j : Nat) y, P[j]? = some y → Q.length ≤ j → y ∉ L.map (·.1) ∧ OnSlot s y (.pop .front)
  nodup : P.Nodup

section
variable {cap b0 : Nat} {l : List α} {progs : List (List (Op Side α))} {Bef Bef' : OpId → OpId → Prop}
  {L : List (LE Side α)} {Q : List α} {P : List OpId} {s : DSys α} {i : Nat} {t : DThread α}

theorem no_res_onSlot {y : OpId} {op : Op Side α} (h : OnSlot s y op) : resAt s y = none := by
  obtain ⟨u, h1, h2, -⟩ := h
  obtain ⟨a, b⟩ := y
  simp only at h1 h2
  subst h2
  exact SLin.not_ret h1

/-- The ids in `P`. -/
theorem mem_P (h : QInv cap b0 l progs Bef L Q P s) {y : OpId} (hy : y ∈ P) :
    y ∈ L.map (·.1) ∨ OnSlot s y (.pop .front) := by
  obtain ⟨j, hj⟩ := List.mem_iff_getElem?.1 hy
  cases hq : Q[j]? with
  | none => exact .inr (h.pend j y hj (List.getElem?_eq_none_iff.1 hq)).2
  | some v => exact .inl (List.mem_map.2 ⟨_, h.got j y hj v hq, rfl⟩)

theorem front_not_P (h : QInv cap b0 l progs Bef L Q P s) (ht : s.threads[i]? = some t) {f : FPC} (hpc : t.pc = .front f) :
    (i, t.done.length) ∉ P := by
  intro hy
  rcases mem_P h hy with h1 | ⟨u, h1, -, ⟨p, sp, h2⟩, -⟩
  · exact SLin.o_fresh h.lin ht hpc h1
  · simp only at h1
    rw [ht] at h1
    cases h1
    rw [hpc] at h2
    cases h2

theorem qinv_step (hp : ∀ p ∈ progs, ∀ op ∈ p, isQueueOp op = true) (h : QInv cap b0 l progs Bef L Q P s)
    (ht : s.threads[i]? = some t)
    (hbef : ∀ x y, Bef' x y → Bef x y ∨
      Now (dfront cap) ⟨(step (dfront cap) s.shared t).1, s.threads.set i (step (dfront cap) s.shared t).2⟩ x y) :
    ∃ L' Q' P', QInv cap b0 l progs Bef' L' Q' P'
      ⟨(step (dfront cap) s.shared t).1, s.threads.set i (step (dfront cap) s.shared t).2⟩ := by
  have hmem := List.mem_of_getElem? ht
  have hlt : i < s.threads.length := (List.getElem?_eq_some_iff.1 ht).1
  have hb0 := h.c.hb
  have hsl : ∀ p sp, t.pc = .slot p sp → p < cap := fun p sp e => ((h.c.v.shape t hmem).1 p sp e).1
  have hsl' : ∀ t ∈ s.threads, ∀ p sp, t.pc = .slot p sp → p < cap := fun t ht p sp e => ((h.c.v.shape t ht).1 p sp e).1
  have hop : ∀ op rest, t.todo = op :: rest → isQueueOp op = true := by
    intro op rest e0
    obtain ⟨p, hp', e⟩ := prog_mem h.c.v t hmem
    exact hp p hp' op (by rw [e, e0]; simp)
  -- threads other than `i`
  have other : ∀ {t' : DThread α} {j : Nat} {u : DThread α}, (s.threads.set i t')[j]? = some u →
      j = i ∧ u = t' ∨ j ≠ i ∧ s.threads[j]? = some u := by
    intro t' j u hu
    by_cases hj : j = i
    · subst hj
      rw [List.getElem?_set_self hlt] at hu
      cases hu
      exact .inl ⟨rfl, rfl⟩
    · rw [List.getElem?_set_ne (Ne.symm hj)] at hu
      exact .inr ⟨hj, hu⟩
  cases htodo : t.todo with
  | nil =>
    rw [done_step i t ht htodo] at hbef ⊢
    exact ⟨L, Q, P, ⟨h.c, h.vals, SLin.o_id h.lin hbef, h.run, h.push, h.pop, h.got, h.pend, h.nodup⟩⟩
  | cons op rest =>
    have hq := hop op rest htodo
    cases hpc : t.pc with
    | slot p sp =>
      have hc := cinv_slot h.c ht htodo hpc
      have hv := qvals_step h.vals ht hsl (by intro f p' sp' e; rw [hpc] at e; cases e)
      obtain ⟨hpc', op', rest', e1, hfit⟩ := (h.c.v.shape t hmem).1 p sp hpc
      have hfit' : sp.fits op := by rw [htodo] at e1; simp at e1; rw [e1.1]; exact hfit
      cases hr : (slotStep s.shared.slots op p sp).2 with
      | inl sp' =>
        have e : step (dfront cap) s.shared t =
            ({ s.shared with slots := (slotStep s.shared.slots op p sp).1 }, { t with pc := .slot p sp' }) := by
          simp only [step, htodo, hpc, hr]
        rw [e] at hc hv hbef ⊢
        refine ⟨L, Q, P, ⟨hc, hv, SLin.o_stay h.lin ht rfl rfl (fun _ _ _ => ⟨p, sp', rfl⟩) hbef, h.run, ?_, ?_, h.got, ?_, h.nodup⟩⟩
        · intro j u hu p1 sp1 k x rest1 h1 h2
          rcases other hu with ⟨rfl, rfl⟩ | ⟨-, hu⟩
          · exact h.push _ t ht p sp k x rest1 hpc h2
          · exact h.push j u hu p1 sp1 k x rest1 h1 h2
        · intro j u hu p1 sp1 k rest1 h1 h2
          rcases other hu with ⟨rfl, rfl⟩ | ⟨-, hu⟩
          · simp only [PC.slot.injEq] at h1
            rw [← h1.1]
            exact h.pop _ t ht p sp k rest1 hpc h2
          · exact h.pop j u hu p1 sp1 k rest1 h1 h2
        · intro j y hy hj
          obtain ⟨h1, h2⟩ := h.pend j y hy hj
          refine ⟨h1, ?_⟩
          by_cases hyi : y.1 = i
          · obtain ⟨u, h3, h4, -, h6⟩ := h2
            rw [hyi, ht] at h3
            cases h3
            refine ⟨{ t with pc := .slot p sp' }, ?_, h4, ⟨p, sp', rfl⟩, h6⟩
            show (s.threads.set i _)[y.1]? = _
            rw [hyi, List.getElem?_set_self hlt]
          · exact SLin.onSlot_set ht hyi h2
      | inr r =>
        have e : step (dfront cap) s.shared t =
            ({ s.shared with slots := (slotStep s.shared.slots op p sp).1 },
              { todo := rest, pc := .front (dfront cap).start, done := t.done ++ [(op, r)] }) := by
          simp only [step, htodo, hpc, hr]
        have hL : ((i, t.done.length), op, r) ∈ L ∧ ∀ (j : Nat) (y : OpId), P[j]? = some y → Q.length ≤ j → y.1 ≠ i := by
          have hpd : ∀ (j : Nat) (y : OpId), P[j]? = some y → Q.length ≤ j → y.1 = i →
              y = (i, t.done.length) ∧ op = .pop .front ∧ y ∉ L.map (·.1) := by
            intro j y hy hj hyi
            obtain ⟨h1, u, h3, h4, -, rest2, h6⟩ := h.pend j y hy hj
            rw [hyi, ht] at h3
            cases h3
            rw [htodo] at h6
            refine ⟨?_, by simp at h6; exact h6.1, h1⟩
            rw [← hyi, ← h4]
          rcases slotStep_inr _ _ _ _ hfit' _ hr with ⟨h', rfl⟩ | ⟨h', w, rfl⟩
          · cases op with
            | pop k => simp [Op.isPush] at h'
            | push k x =>
              refine ⟨h.push i t ht p sp k x rest hpc htodo, ?_⟩
              intro j y hy hj hyi
              have := (hpd j y hy hj hyi).2.1
              cases this
          · cases op with
            | push k x => simp [Op.isPush] at h'
            | pop k =>
              have hk : k = .front := by
                cases k with
                | front => rfl
                | back => simp [isQueueOp] at hq
              subst hk
              have hgp := h.vals.pop t hmem p w (.inr (by rw [hpc, SLin.slot_ret _ _ _ _ _ hr]))
              have hP := h.pop i t ht p sp .front rest hpc htodo
              have hin := h.got _ _ hP w hgp
              refine ⟨hin, ?_⟩
              intro j y hy hj hyi
              obtain ⟨rfl, -, h3⟩ := hpd j y hy hj hyi
              exact h3 (List.mem_map.2 ⟨_, hin, rfl⟩)
        obtain ⟨hL, hne⟩ := hL
        rw [e] at hc hv hbef ⊢
        refine ⟨L, Q, P, ⟨hc, hv, SLin.o_ret h.lin.base ht hL h.lin.ret (fun x e hx _ => h.lin.cur x e hx) hbef, h.run, ?_, ?_,
          h.got, ?_, h.nodup⟩⟩
        · intro j u hu p1 sp1 k x rest1 h1 h2
          rcases other hu with ⟨rfl, rfl⟩ | ⟨-, hu⟩
          · cases h1
          · exact h.push j u hu p1 sp1 k x rest1 h1 h2
        · intro j u hu p1 sp1 k rest1 h1 h2
          rcases other hu with ⟨rfl, rfl⟩ | ⟨-, hu⟩
          · cases h1
          · exact h.pop j u hu p1 sp1 k rest1 h1 h2
        · intro j y hy hj
          obtain ⟨h1, h2⟩ := h.pend j y hy hj
          exact ⟨h1, SLin.onSlot_set ht (hne j y hy hj) h2⟩
    | front f =>
      -- pending pops are other threads
      have hne : ∀ (j : Nat) (y : OpId), P[j]? = some y → Q.length ≤ j → y.1 ≠ i := by
        intro j y hy hj hyi
        obtain ⟨-, u, h3, -, ⟨p, sp, h5⟩, -⟩ := h.pend j y hy hj
        rw [hyi, ht] at h3
        cases h3
        rw [hpc] at h5
        cases h5
      have hfresh := SLin.o_fresh h.lin ht hpc
      by_cases hf : f = .pos
      · subst hf
        cases op with
        | push k x =>
          have hk : k = .back := by
            cases k with
            | back => rfl
            | front => simp [isQueueOp] at hq
          subst hk
          obtain ⟨hn, c, e, hc⟩ := cinv_push h.c ht htodo hpc
          rw [e] at hc hbef ⊢
          have hx : (Q ++ [x])[ringIdx cap b0 ((b0 + Q.length) % cap)]? = some x := by
            rw [ring_self hb0 hn]; simp
          have hv : QVals (fun q => (Q ++ [x])[ringIdx cap b0 q]?) cap s := by
            refine h.vals.mono hsl' ?_
            intro q _ v hv
            rw [List.getElem?_append_left (List.getElem?_eq_some_iff.1 hv).1]; exact hv
          have hv' := qvals_go (i := i) (t := t) (p := (b0 + Q.length) % cap) hv (by
            intro k' x' rest' e'
            rw [htodo] at e'
            cases e'
            exact hx) c
          have hbase := SLin.o_add h.lin.base hfresh (SLin.not_ret ht) (Op.push Side.back x, Res.pushed)
          have hc' : CInv cap b0 (l : Multiset α) progs (Q ++ [x]).length P.length
              ⟨{ s.shared with ctr := c }, s.threads.set i { t with pc := .slot ((b0 + Q.length) % cap) .tryLock }⟩ := by
            rw [List.length_append]; exact hc
          have hdl : (Q.drop P.length).length < cap := by rw [List.length_drop]; omega
          have hpush : ∀ L' : List (LE Side α), (∀ a ∈ L, a ∈ L') → ((i, t.done.length), Op.push Side.back x, Res.pushed) ∈ L' →
              ∀ (j : Nat) (u : DThread α),
              (s.threads.set i { t with pc := .slot ((b0 + Q.length) % cap) .tryLock })[j]? = some u →
              ∀ p sp k x rest, u.pc = .slot p sp → u.todo = .push k x :: rest →
              ((j, u.done.length), .push k x, .pushed) ∈ L' := by
            intro L' hL1 hL2 j u hu p1 sp1 k x1 rest1 e1 e2
            rcases other hu with ⟨rfl, rfl⟩ | ⟨-, hu⟩
            · replace e2 : t.todo = .push k x1 :: rest1 := e2
              rw [htodo] at e2
              cases e2
              exact hL2
            · exact hL1 _ (h.push j u hu p1 sp1 k x1 rest1 e1 e2)
          have hpop : ∀ (j : Nat) (u : DThread α),
              (s.threads.set i { t with pc := .slot ((b0 + Q.length) % cap) .tryLock })[j]? = some u →
              ∀ p sp k rest, u.pc = .slot p sp → u.todo = .pop k :: rest → P[ringIdx cap b0 p]? = some (j, u.done.length) := by
            intro j u hu p1 sp1 k rest1 e1 e2
            rcases other hu with ⟨rfl, rfl⟩ | ⟨-, hu⟩
            · replace e2 : t.todo = .pop k :: rest1 := e2
              rw [htodo] at e2
              cases e2
            · exact h.pop j u hu p1 sp1 k rest1 e1 e2
          cases hPQ : P[Q.length]? with
          | none =>
            have hle : P.length ≤ Q.length := List.getElem?_eq_none_iff.1 hPQ
            refine ⟨L ++ [((i, t.done.length), .push .back x, .pushed)], Q ++ [x], P, ⟨hc', hv',
              SLin.o_go hbase ht hpc ?_ ?_ hbef, ?_, hpush _ (fun a ha => List.mem_append_left _ ha) (by simp), hpop, ?_, ?_,
              h.nodup⟩⟩
            · intro y e hy
              exact List.mem_append_left _ (h.lin.ret y e hy)
            · intro y e hy
              rcases List.mem_append.1 hy with hy | hy
              · rcases h.lin.cur y e hy with h1 | h1
                · exact .inl h1
                · exact .inr (.inl h1)
              · simp only [List.mem_singleton, Prod.mk.injEq] at hy
                obtain ⟨rfl, rfl⟩ := hy
                exact .inr (.inr ⟨rfl, ⟨rest, htodo⟩, by simp⟩)
            · rw [List.map_append, List.drop_append_of_le_length hle]
              exact h.run.snoc ⟨hdl, rfl⟩
            · intro j y hy v hv
              have hj := (List.getElem?_eq_some_iff.1 hy).1
              rw [List.getElem?_append_left (by omega)] at hv
              exact List.mem_append_left _ (h.got j y hy v hv)
            · intro j y hy hj
              have hj' := (List.getElem?_eq_some_iff.1 hy).1
              simp only [List.length_append, List.length_cons, List.length_nil] at hj
              omega
          | some y =>
            have hle : Q.length < P.length := (List.getElem?_eq_some_iff.1 hPQ).1
            obtain ⟨hy1, hy2⟩ := h.pend _ y hPQ (le_refl _)
            have hyi := hne _ y hPQ (le_refl _)
            have hbase2 := SLin.o_add hbase (x := y) (by
              rw [List.map_append, List.mem_append]
              rintro (h3 | h3)
              · exact hy1 h3
              · simp only [List.map_cons, List.map_nil, List.mem_singleton] at h3
                exact hyi (by rw [h3])) (no_res_onSlot hy2) (Op.pop Side.front, Res.popped x)
            refine ⟨L ++ [((i, t.done.length), .push .back x, .pushed)] ++ [(y, .pop .front, .popped x)], Q ++ [x], P, ⟨hc', hv',
              SLin.o_go hbase2 ht hpc ?_ ?_ hbef, ?_, hpush _ ?_ (by simp), hpop, ?_, ?_, h.nodup⟩⟩
            · intro y e hy
              exact List.mem_append_left _ (List.mem_append_left _ (h.lin.ret y e hy))
            · intro z e hz
              simp only [List.mem_append, List.mem_singleton, Prod.mk.injEq] at hz
              rcases hz with (hz | ⟨rfl, rfl⟩) | ⟨rfl, rfl⟩
              · rcases h.lin.cur z e hz with h1 | h1
                · exact .inl h1
                · exact .inr (.inl h1)
              · exact .inr (.inr ⟨rfl, ⟨rest, htodo⟩, by simp⟩)
              · exact .inr (.inl ⟨hy2, by simp⟩)
            · have hrun := h.run
              rw [List.drop_eq_nil_of_le (by omega)] at hrun
              rw [List.map_append, List.map_append, List.drop_eq_nil_of_le (by simp; omega)]
              exact (hrun.snoc (e := (Op.push Side.back x, Res.pushed)) (m' := [x]) ⟨by simp; omega, rfl⟩).snoc rfl
            · intro a ha
              exact List.mem_append_left _ (List.mem_append_left _ ha)
            · intro j z hz v hv
              by_cases hj : j < Q.length
              · rw [List.getElem?_append_left hj] at hv
                exact List.mem_append_left _ (List.mem_append_left _ (h.got j z hz v hv))
              · have hj' := (List.getElem?_eq_some_iff.1 hv).1
                simp only [List.length_append, List.length_cons, List.length_nil] at hj'
                have : j = Q.length := by omega
                subst this
                rw [hPQ] at hz
                cases hz
                simp at hv
                subst hv
                simp
            · intro j z hz hj
              simp only [List.length_append, List.length_cons, List.length_nil] at hj
              obtain ⟨h1, h2⟩ := h.pend j z hz (by omega)
              have hzi := hne j z hz (by omega)
              refine ⟨?_, SLin.onSlot_set ht hzi h2⟩
              simp only [List.map_append, List.map_cons, List.map_nil, List.mem_append, List.mem_singleton]
              rintro ((h3 | h3) | h3)
              · exact h1 h3
              · exact hzi (by rw [h3])
              · subst h3
                have hj1 := (List.getElem?_eq_some_iff.1 hz).1
                have := (List.getElem?_inj hj1 h.nodup).1 (hz.trans hPQ.symm)
                omega
        | pop k =>
          have hk : k = .front := by
            cases k with
            | front => rfl
            | back => simp [isQueueOp] at hq
          subst hk
          obtain ⟨hn, c, e, hc⟩ := cinv_pop h.c ht htodo hpc
          rw [e] at hc hbef ⊢
          have hc' : CInv cap b0 (l : Multiset α) progs Q.length (P ++ [(i, t.done.length)]).length
              ⟨{ s.shared with ctr := c }, s.threads.set i { t with pc := .slot ((b0 + P.length) % cap) .tryLock }⟩ := by
            rw [List.length_append]; exact hc
          have hv' := qvals_go (i := i) (t := t) (p := (b0 + P.length) % cap) h.vals (by
            intro k' x' rest' e'
            rw [htodo] at e'
            cases e') c
          have hnd : (P ++ [(i, t.done.length)]).Nodup := by
            rw [List.nodup_append]
            refine ⟨h.nodup, by simp, ?_⟩
            intro a ha b hb hab
            simp only [List.mem_singleton] at hb
            subst hab hb
            exact front_not_P h ht hpc ha
          have hpush : ∀ L' : List (LE Side α), (∀ a ∈ L, a ∈ L') → ∀ (j : Nat) (u : DThread α),
              (s.threads.set i { t with pc := .slot ((b0 + P.length) % cap) .tryLock })[j]? = some u →
              ∀ p sp k x rest, u.pc = .slot p sp → u.todo = .push k x :: rest →
              ((j, u.done.length), .push k x, .pushed) ∈ L' := by
            intro L' hL1 j u hu p1 sp1 k x1 rest1 e1 e2
            rcases other hu with ⟨rfl, rfl⟩ | ⟨-, hu⟩
            · replace e2 : t.todo = .push k x1 :: rest1 := e2
              rw [htodo] at e2
              cases e2
            · exact hL1 _ (h.push j u hu p1 sp1 k x1 rest1 e1 e2)
          have hpop : ∀ (j : Nat) (u : DThread α),
              (s.threads.set i { t with pc := .slot ((b0 + P.length) % cap) .tryLock })[j]? = some u →
              ∀ p sp k rest, u.pc = .slot p sp → u.todo = .pop k :: rest →
              (P ++ [(i, t.done.length)])[ringIdx cap b0 p]? = some (j, u.done.length) := by
            intro j u hu p1 sp1 k rest1 e1 e2
            rcases other hu with ⟨rfl, rfl⟩ | ⟨-, hu⟩
            · simp only [PC.slot.injEq] at e1
              rw [← e1.1, ring_self hb0 hn]
              simp
            · have := h.pop j u hu p1 sp1 k rest1 e1 e2
              rw [List.getElem?_append_left (List.getElem?_eq_some_iff.1 this).1]
              exact this
          have hPc : ∀ (j : Nat) y, (P ++ [(i, t.done.length)])[j]? = some y →
              P[j]? = some y ∨ j = P.length ∧ y = (i, t.done.length) := by
            intro j y hy
            by_cases hj : j < P.length
            · rw [List.getElem?_append_left hj] at hy
              exact .inl hy
            · have hj' := (List.getElem?_eq_some_iff.1 hy).1
              simp only [List.length_append, List.length_cons, List.length_nil] at hj'
              have : j = P.length := by omega
              subst this
              simp at hy
              exact .inr ⟨rfl, hy.symm⟩
          cases hQP : Q[P.length]? with
          | some v =>
            have hle : P.length < Q.length := (List.getElem?_eq_some_iff.1 hQP).1
            have hbase := SLin.o_add h.lin.base hfresh (SLin.not_ret ht) (Op.pop Side.front, Res.popped v)
            refine ⟨L ++ [((i, t.done.length), .pop .front, .popped v)], Q, P ++ [(i, t.done.length)], ⟨hc', hv',
              SLin.o_go hbase ht hpc ?_ ?_ hbef, ?_, hpush _ (fun a ha => List.mem_append_left _ ha), hpop, ?_, ?_, hnd⟩⟩
            · intro y e hy
              exact List.mem_append_left _ (h.lin.ret y e hy)
            · intro y e hy
              rcases List.mem_append.1 hy with hy | hy
              · rcases h.lin.cur y e hy with h1 | h1
                · exact .inl h1
                · exact .inr (.inl h1)
              · simp only [List.mem_singleton, Prod.mk.injEq] at hy
                obtain ⟨rfl, rfl⟩ := hy
                exact .inr (.inr ⟨rfl, ⟨rest, htodo⟩, by simp⟩)
            · rw [List.map_append]
              refine h.run.snoc ?_
              show Q.drop P.length = v :: Q.drop (P ++ [(i, t.done.length)]).length
              rw [List.length_append, List.drop_eq_getElem_cons hle]
              rw [List.getElem?_eq_getElem hle] at hQP
              cases hQP
              rfl
            · intro j y hy w hw
              rcases hPc j y hy with hy | ⟨rfl, rfl⟩
              · exact List.mem_append_left _ (h.got j y hy w hw)
              · rw [hQP] at hw
                cases hw
                simp
            · intro j y hy hj
              rcases hPc j y hy with hy | ⟨rfl, rfl⟩
              · have hj' := (List.getElem?_eq_some_iff.1 hy).1
                omega
              · omega
          | none =>
            have hle : Q.length ≤ P.length := List.getElem?_eq_none_iff.1 hQP
            refine ⟨L, Q, P ++ [(i, t.done.length)], ⟨hc', hv',
              SLin.o_stay h.lin ht rfl rfl (fun p sp e => by rw [hpc] at e; cases e) hbef, ?_, hpush _ (fun a ha => ha), hpop,
              ?_, ?_, hnd⟩⟩
            · have hrun := h.run
              rw [List.drop_eq_nil_of_le hle] at hrun
              rw [List.drop_eq_nil_of_le (by simp; omega)]
              exact hrun
            · intro j y hy w hw
              rcases hPc j y hy with hy | ⟨rfl, rfl⟩
              · exact h.got j y hy w hw
              · rw [hQP] at hw
                cases hw
            · intro j y hy hj
              rcases hPc j y hy with hy | ⟨rfl, rfl⟩
              · obtain ⟨h1, h2⟩ := h.pend j y hy hj
                exact ⟨h1, SLin.onSlot_set ht (hne j y hy hj) h2⟩
              · refine ⟨hfresh, { t with pc := .slot ((b0 + P.length) % cap) .tryLock }, ?_, rfl, ⟨_, _, rfl⟩, rest, htodo⟩
                show (s.threads.set i _)[i]? = _
                rw [List.getElem?_set_self hlt]
      · obtain ⟨hc, hcase⟩ := cinv_front h.c ht htodo hpc hf
        have hv := qvals_step h.vals ht hsl (by
          intro f' p' sp' _
          rcases hcase with ⟨f', c, e⟩ | ⟨-, c, e⟩ <;> rw [e] <;> simp)
        have h1 : ∀ (t' : DThread α), (∃ f', t'.pc = .front f') → ∀ (j : Nat) (u : DThread α),
            (s.threads.set i t')[j]? = some u → ∀ p sp, u.pc = .slot p sp → s.threads[j]? = some u := by
          intro t' hf' j u hu p sp e
          rcases other hu with ⟨rfl, rfl⟩ | ⟨-, hu⟩
          · obtain ⟨f', hf'⟩ := hf'
            rw [hf'] at e
            cases e
          · exact hu
        rcases hcase with ⟨f', c, e⟩ | ⟨hb, c, e⟩
        · rw [e] at hc hv hbef ⊢
          refine ⟨L, Q, P, ⟨hc, hv, SLin.o_stay h.lin ht rfl rfl (fun p sp e => by rw [hpc] at e; cases e) hbef, h.run,
            ?_, ?_, h.got, ?_, h.nodup⟩⟩
          · intro j u hu p1 sp1 k x rest1 e1 e2
            exact h.push j u (h1 _ ⟨f', rfl⟩ j u hu _ _ e1) p1 sp1 k x rest1 e1 e2
          · intro j u hu p1 sp1 k rest1 e1 e2
            exact h.pop j u (h1 _ ⟨f', rfl⟩ j u hu _ _ e1) p1 sp1 k rest1 e1 e2
          · intro j y hy hj
            obtain ⟨h1, h2⟩ := h.pend j y hy hj
            exact ⟨h1, SLin.onSlot_set ht (hne j y hy hj) h2⟩
        · rw [e] at hc hv hbef ⊢
          refine ⟨L ++ [((i, t.done.length), op, .popFailed)], Q, P, ⟨hc, hv, SLin.o_fail h.lin ht hpc hbef, ?_,
            ?_, ?_, ?_, ?_, h.nodup⟩⟩
          · rw [List.map_append]
            refine h.run.snoc ?_
            cases op with
            | push k x => simp [Op.isPush] at hb
            | pop k => rfl
          · intro j u hu p1 sp1 k x rest1 e1 e2
            exact List.mem_append_left _ (h.push j u (h1 _ ⟨_, rfl⟩ j u hu _ _ e1) p1 sp1 k x rest1 e1 e2)
          · intro j u hu p1 sp1 k rest1 e1 e2
            exact h.pop j u (h1 _ ⟨_, rfl⟩ j u hu _ _ e1) p1 sp1 k rest1 e1 e2
          · intro j y hy v hv
            exact List.mem_append_left _ (h.got j y hy v hv)
          · intro j y hy hj
            obtain ⟨h1, h2⟩ := h.pend j y hy hj
            refine ⟨?_, SLin.onSlot_set ht (hne j y hy hj) h2⟩
            rw [List.map_append, List.mem_append]
            rintro (h3 | h3)
            · exact h1 h3
            · simp only [List.map_cons, List.map_nil, List.mem_singleton] at h3
              exact hne j y hy hj (by rw [h3])

end
end Stdgpu.Deque
