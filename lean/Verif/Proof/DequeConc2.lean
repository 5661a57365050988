import Verif.Proof.DequeConc
/-! Concurrent pushes only, pops only, on a deque. -/
namespace Stdgpu.Deque
open Stdgpu.SlotConc Stdgpu.Conc Stdgpu.Spec
open Stdgpu.Vector (clampSize step_cont step_fail step_go)

variable {α : Type}

section
variable {C K F : Type} {fr : Front C K F} {cap : Nat} {c₀ : Multiset α} {programs : List (List (Op K α))}
  {tick : Nat → Int} {s : Sys (Mem C α) (Thread K F α)}

theorem results_length (h : SInv fr cap c₀ programs tick s) (hf : Finished s) :
    (results s).length = programs.flatten.length := by
  have := ops_count h (fun _ => true)
  have e : s.threads.flatMap (·.todo) = [] := by
    rw [List.flatMap_eq_nil_iff]; exact hf
  rw [e] at this
  simpa using this

theorem results_op (h : SInv fr cap c₀ programs tick s) {e : Op K α × Res α} (he : e ∈ results s) :
    ∃ p ∈ programs, e.1 ∈ p := by
  obtain ⟨t, ht, he⟩ := mem_results.1 he
  obtain ⟨p, hp, e1⟩ := prog_mem h t ht
  exact ⟨p, hp, by rw [e1]; exact List.mem_append_left _ (List.mem_map_of_mem he)⟩

end

/-- `begin` after `f` pushes at the front. -/
def backBy (cap b0 f : Nat) : Nat := if f ≤ b0 then b0 - f else b0 + cap - f

/-- `begin` after `f` pops at the front. -/
def fwdBy (cap b0 f : Nat) : Nat := if b0 + f < cap then b0 + f else b0 + f - cap

/-! ### Pushes only -/

/-- After `n - l.length` pushes, `f` of them at the front: slot `p` was given to a push at side `k`. -/
def pushSide (cap b0 n f : Nat) (k : Side) (p : Nat) : Prop :=
  match k with
  | .front => cap - f ≤ ringIdx cap b0 p
  | .back => ringIdx cap b0 p < n - f

theorem pushSide_mono {cap b0 n f n' f' : Nat} (h1 : f ≤ f') (h2 : n - f ≤ n' - f') {k : Side} {p : Nat}
    (h : pushSide cap b0 n f k p) : pushSide cap b0 n' f' k p := by
  cases k <;> simp only [pushSide] at * <;> omega

structure PushInv (cap : Nat) (b0 : Nat) (l : List α) (programs : List (List (Op Side α))) (n f : Nat) (s : DSys α) :
    Prop where
  r : DRing cap (l : Multiset α) programs n s
  ge : 0 ≤ s.shared.ctr.size
  sz : (n : Int) + (s.threads.map (midN true)).sum = if s.shared.ctr.size ≤ cap then s.shared.ctr.size else cap
  fl : f + l.length ≤ n
  beg : s.shared.ctr.begin = backBy cap b0 f
  pos : ∀ t ∈ s.threads, ∀ p sp, t.pc = .slot p sp → l.length ≤ ringIdx cap b0 p
  side : ∀ t ∈ s.threads, ∀ p sp op rest, t.pc = .slot p sp → t.todo = op :: rest → pushSide cap b0 n f op.kind p
  old : ∀ q, q < cap → ringIdx cap b0 q < l.length → s.shared.slots.data q = l[ringIdx cap b0 q]?
  failed : ∀ t ∈ s.threads, ∀ op, (op, Res.pushFailed) ∈ t.done → (cap : Int) ≤ s.shared.ctr.size

theorem pushInv_step' {cap b0 : Nat} {l : List α} {programs : List (List (Op Side α))} (hb0 : b0 < cap)
    (hp : ∀ p ∈ programs, ∀ op ∈ p, op.isPush = true) (s : DSys α) (i : Nat) (t : DThread α) (n f : Nat)
    (h : PushInv cap b0 l programs n f s) (ht : s.threads[i]? = some t) :
    ∃ n' f', f ≤ f' ∧ n - f ≤ n' - f' ∧ PushInv cap b0 l programs n' f'
      ⟨(step (dfront cap) s.shared t).1, s.threads.set i (step (dfront cap) s.shared t).2⟩ := by
  have hmem := List.mem_of_getElem? ht
  cases htodo : t.todo with
  | nil => exact ⟨n, f, le_refl _, le_refl _, by rw [done_step i t ht htodo]; exact h⟩
  | cons op rest =>
    have hpush : op.isPush = true := by
      obtain ⟨p, hp', e⟩ := prog_mem h.r.v t hmem
      exact hp p hp' op (by rw [e, htodo]; simp)
    have hsz := h.sz
    have hge := h.ge
    have hfl := h.fl
    have hle := h.r.le
    have hbeg := h.beg
    have hpos0 := h.r.begin
    have key : ∀ (n' f' : Nat) (m' : Mem Ctr α) (t' : DThread α), step (dfront cap) s.shared t = (m', t') →
        DRing cap (l : Multiset α) programs n'
          ⟨(step (dfront cap) s.shared t).1, s.threads.set i (step (dfront cap) s.shared t).2⟩ →
        s.shared.ctr.size ≤ m'.ctr.size →
        (n' : Int) + midN true t' - (if m'.ctr.size ≤ cap then m'.ctr.size else cap) =
          n + midN true t - (if s.shared.ctr.size ≤ cap then s.shared.ctr.size else cap) →
        f' + l.length ≤ n' → m'.ctr.begin = backBy cap b0 f' → f ≤ f' → n - f ≤ n' - f' →
        (∀ p sp, t'.pc = .slot p sp → l.length ≤ ringIdx cap b0 p ∧
          ∀ op rest, t'.todo = op :: rest → pushSide cap b0 n' f' op.kind p) →
        (∀ q, q < cap → ringIdx cap b0 q < l.length → m'.slots.data q = s.shared.slots.data q) →
        (∀ op', (op', Res.pushFailed) ∈ t'.done → (op', Res.pushFailed) ∈ t.done ∨ (cap : Int) ≤ m'.ctr.size) →
        ∃ n' f', f ≤ f' ∧ n - f ≤ n' - f' ∧ PushInv cap b0 l programs n' f'
          ⟨(step (dfront cap) s.shared t).1, s.threads.set i (step (dfront cap) s.shared t).2⟩ := by
      intro n' f' m' t' e hr h1 h2 h3 h4 g1 g2 h5 h6 h7
      rw [e] at hr ⊢
      have a3 := sum_map_set (midN true) s.threads i t t' ht
      refine ⟨n', f', g1, g2, hr, le_trans hge h1, ?_, h3, h4, ?_, ?_, ?_, ?_⟩
      · simp only; omega
      · intro x hx
        rcases mem_set_cases _ _ _ _ hx with rfl | ⟨j, -, hj⟩
        · exact fun p sp hx => (h5 p sp hx).1
        · exact h.pos x (List.mem_of_getElem? hj)
      · intro x hx
        rcases mem_set_cases _ _ _ _ hx with rfl | ⟨j, -, hj⟩
        · exact fun p sp op rest hx => (h5 p sp hx).2 op rest
        · exact fun p sp op rest a b => pushSide_mono g1 g2 (h.side x (List.mem_of_getElem? hj) p sp op rest a b)
      · intro q hq1 hq2; simp only [h6 q hq1 hq2]; exact h.old q hq1 hq2
      · intro x hx op' hop
        rcases mem_set_cases _ _ _ _ hx with rfl | ⟨j, -, hj⟩
        · rcases h7 op' hop with h8 | h8
          · exact le_trans (h.failed t hmem op' h8) h1
          · exact h8
        · exact le_trans (h.failed x (List.mem_of_getElem? hj) op' hop) h1
    cases hpc : t.pc with
    | slot p sp =>
      have hr := dring_slot h.r ht p sp hpc
      have hpl := h.pos t hmem p sp hpc
      obtain ⟨-, op', rest', e1, hfit⟩ := (h.r.v.shape t hmem).1 p sp hpc
      have hfit' : sp.fits op := by rw [htodo] at e1; simp at e1; rw [e1.1]; exact hfit
      have hframe := fun q hq => (slotStep_frame s.shared.slots op p sp q hq).1
      have hdat : ∀ q, q < cap → ringIdx cap b0 q < l.length →
          (slotStep s.shared.slots op p sp).1.data q = s.shared.slots.data q := by
        intro q _ hq; exact hframe q (fun e => by subst e; omega)
      cases hr' : (slotStep s.shared.slots op p sp).2 with
      | inl s' =>
        refine key n f { s.shared with slots := (slotStep s.shared.slots op p sp).1 } { t with pc := .slot p s' } ?_ hr
          (le_refl _) ?_ hfl hbeg (le_refl _) (le_refl _) ?_ hdat ?_
        · simp only [step, htodo, hpc, hr']
        · simp [midN, hpc]
        · intro p' sp' hx; simp at hx; rw [← hx.1]
          exact ⟨hpl, fun op' rest' => h.side t hmem p sp op' rest' hpc⟩
        · intro e he; exact Or.inl he
      | inr r =>
        refine key n f { s.shared with slots := (slotStep s.shared.slots op p sp).1 }
          { todo := rest, pc := .front (dfront cap).start, done := t.done ++ [(op, r)] } ?_ hr (le_refl _) ?_ hfl hbeg (le_refl _) (le_refl _)
          (by simp) hdat ?_
        · simp only [step, htodo, hpc, hr']
        · simp [midN, hpc, dfront]
        · intro op' hop
          simp only [List.mem_append, List.mem_singleton, Prod.mk.injEq] at hop
          rcases hop with hop | ⟨-, rfl⟩
          · exact Or.inl hop
          · rcases slotStep_inr _ _ _ _ hfit' _ hr' with ⟨-, h'⟩ | ⟨-, v, h'⟩ <;> simp at h'
    | front fpc =>
      have r3 := le_sum_map (midN true) s.threads t hmem
      rcases dfront_cases cap s.shared.ctr op.isPush op.kind fpc with ⟨h1, e⟩ | ⟨h1, e, h2, h3⟩ | ⟨h1, hb, h2, e⟩ |
        ⟨h1, hb, h2, e⟩ | ⟨h1, hb, h2, e⟩ | ⟨h1, hb, h2, e⟩ | ⟨h1, e⟩
      · exact key n f _ _ (step_cont _ _ htodo hpc e) (dring_stay h.r ht fpc hpc htodo _ _ e (by simp) rfl rfl)
          (le_refl _) (by simp [midN, hpc, h1]) hfl hbeg (le_refl _) (le_refl _) (by simp) (by simp) (fun _ hx => Or.inl hx)
      · refine key n f _ _ (step_fail _ _ htodo hpc e) (dring_stay h.r ht fpc hpc htodo _ _ e (by simp) rfl rfl)
          (le_refl _) (by simp [midN, hpc, h1, dfront]) hfl hbeg (le_refl _) (le_refl _) (by simp) (by simp) (fun _ hx => Or.inr ?_)
        rcases h2 hpush with h2 | h2
        · exact h2
        · omega
      · refine key n f _ _ (step_cont _ _ htodo hpc e) (dring_stay h.r ht fpc hpc htodo _ _ e (by simp) rfl rfl)
          (by simp) ?_ hfl hbeg (le_refl _) (le_refl _) (by simp) (by simp) (fun _ hx => Or.inl hx)
        simp only [midN, hpc, h1, htodo, hb, if_true]
        rw [if_pos (by omega), if_pos (by omega)]; omega
      · refine key n f _ _ (step_fail _ _ htodo hpc e) (dring_stay h.r ht fpc hpc htodo _ _ e (by simp) rfl rfl)
          (by simp) ?_ hfl hbeg (le_refl _) (le_refl _) (by simp) (by simp) (fun _ hx => Or.inr (by simp only; omega))
        simp only [midN, hpc, h1, dfront]
        rw [if_neg (by omega)]; split <;> omega
      · rw [hpush] at hb; simp at hb
      · rw [hpush] at hb; simp at hb
      · subst h1
        have hsz' : (position cap s.shared.ctr true op.kind).2.size = s.shared.ctr.size := by
          unfold position; cases op.kind <;> rfl
        have q1 : midN true t = 1 := by simp [midN, hpc, htodo, hpush]
        have hnc : n < cap := by split at hsz <;> omega
        have hring := dring_push h.r ht hpc htodo hpush hnc
        have hend := h.r.endd
        rw [wrap_eq _ _ _ hpos0 (by omega)] at hend
        cases hk : op.kind with
        | back =>
          have hel : s.shared.ctr.endd < cap := by split at hend <;> omega
          have hpo : position cap s.shared.ctr op.isPush op.kind =
            (s.shared.ctr.endd, { s.shared.ctr with endd := if s.shared.ctr.endd + 1 = cap then 0
              else s.shared.ctr.endd + 1 }) := by
            rw [hpush, hk]; simp only [position, if_true, fetchIncMod_eq _ _ hel]
          rw [hpo] at e
          refine key (n + 1) f _ _ (step_go _ _ htodo hpc e) hring (by simp) ?_ (by omega) hbeg (by omega) (by omega) ?_ (by simp)
            (fun _ hx => Or.inl hx)
          · simp only [midN, hpc, htodo, hpush, if_true]; simp
          · intro p sp hx
            simp at hx
            rw [← hx.1]
            constructor
            · unfold ringIdx backBy at *
              split at hbeg <;> split at hend <;> split <;> omega
            · intro op' rest' he
              rw [htodo] at he; simp at he; rw [← he.1, hk]
              show ringIdx cap b0 s.shared.ctr.endd < n + 1 - f
              unfold ringIdx backBy at *
              split at hbeg <;> split at hend <;> split <;> omega
        | front =>
          have hpo : position cap s.shared.ctr op.isPush op.kind =
            ((if s.shared.ctr.begin = 0 then cap - 1 else s.shared.ctr.begin - 1), { s.shared.ctr with
              begin := if s.shared.ctr.begin = 0 then cap - 1 else s.shared.ctr.begin - 1 }) := by
            rw [hpush, hk]; simp only [position, if_true, fetchDecMod_eq _ _ hpos0]
          rw [hpo] at e
          refine key (n + 1) (f + 1) _ _ (step_go _ _ htodo hpc e) hring (by simp) ?_ (by omega) ?_ (by omega) (by omega) ?_
            (by simp) (fun _ hx => Or.inl hx)
          · simp only [midN, hpc, htodo, hpush, if_true]; simp
          · simp only
            unfold backBy at *
            split at hbeg <;> split <;> split <;> omega
          · intro p sp hx
            simp at hx
            rw [← hx.1]
            constructor
            · unfold ringIdx backBy at *
              split at hbeg <;> (by_cases hz : s.shared.ctr.begin = 0) <;> simp only [hz, if_true, if_false] <;>
                split <;> omega
            · intro op' rest' he
              rw [htodo] at he; simp at he; rw [← he.1, hk]
              show cap - (f + 1) ≤ ringIdx cap b0 (if s.shared.ctr.begin = 0 then cap - 1 else s.shared.ctr.begin - 1)
              unfold ringIdx backBy at *
              split at hbeg <;> (by_cases hz : s.shared.ctr.begin = 0) <;> simp only [hz, if_true, if_false] <;>
                split <;> omega

theorem pushInv_step {cap b0 : Nat} {l : List α} {programs : List (List (Op Side α))} (hb0 : b0 < cap)
    (hp : ∀ p ∈ programs, ∀ op ∈ p, op.isPush = true) (s : DSys α) (i : Nat) (t : DThread α) (n f : Nat)
    (h : PushInv cap b0 l programs n f s) (ht : s.threads[i]? = some t) :
    ∃ n' f', PushInv cap b0 l programs n' f'
      ⟨(step (dfront cap) s.shared t).1, s.threads.set i (step (dfront cap) s.shared t).2⟩ := by
  obtain ⟨n', f', -, -, h'⟩ := pushInv_step' hb0 hp s i t n f h ht
  exact ⟨n', f', h'⟩

theorem clamp_eq (cap n : Nat) (x : Int) (h0 : 0 ≤ x) (h : (n : Int) = if x ≤ cap then x else cap) :
    clampSize cap x = n := by
  unfold clampSize
  rw [if_neg (by omega)]
  split at h
  · rw [if_neg (by omega)]; omega
  · rw [if_pos (by omega)]; omega

theorem push_final {cap b0 : Nat} {l : List α} {programs : List (List (Op Side α))} {n f : Nat} {s : DSys α}
    (hb0 : b0 < cap) (hp : ∀ p ∈ programs, ∀ op ∈ p, op.isPush = true)
    (h : PushInv cap b0 l programs n f s) (hf : Finished s) :
    (pushedVals s).length = min programs.flatten.length (cap - l.length) ∧
    ∃ lf lb : List α, lf.length = f ∧ (lf ++ lb).Perm (pushedVals s) ∧ n = (lf ++ l ++ lb).length ∧
      (∀ q, q < cap → s.shared.slots.data q = (lf ++ l ++ lb)[ringIdx cap s.shared.ctr.begin q]?) ∧
      (∀ q, q < cap → s.shared.slots.occ q = decide (ringIdx cap s.shared.ctr.begin q < (lf ++ l ++ lb).length)) ∧
      clampSize cap s.shared.ctr.size = (lf ++ l ++ lb).length := by
  have hq := quiet_of_finished h.r.v hf
  obtain ⟨l', h1, h2, h3, h4, h5⟩ := dring_final h.r hq
  have hfl := h.fl
  have hbeg := h.beg
  have hle := h.r.le
  have hmid : (s.threads.map (midN true)).sum = 0 := by
    rw [sum_map_eq_zero]; intro t ht; simp [midN, hf t ht]
  have hsz := h.sz
  rw [hmid] at hsz
  have hpop : poppedVals s = [] := by
    unfold poppedVals
    rw [List.filterMap_eq_nil_iff]
    rintro ⟨op, r⟩ he
    obtain ⟨p, g1, g2⟩ := results_op h.r.v he
    have g3 := hp p g1 _ g2
    have g4 := results_fit h.r.v _ he
    cases op with
    | pop k => simp [Op.isPush] at g3
    | push k x => cases r <;> simp [resFits] at g4 <;> rfl
  -- the old elements
  have hmidl : (l'.drop f).take l.length = l := by
    apply List.ext_getElem?
    intro j
    by_cases hj : j < l.length
    · rw [List.getElem?_take_of_lt hj, List.getElem?_drop]
      have hlt : (if b0 + j < cap then b0 + j else b0 + j - cap) < cap := by split <;> omega
      have e1 : ringIdx cap b0 (if b0 + j < cap then b0 + j else b0 + j - cap) = j := by
        unfold ringIdx; by_cases hc : b0 + j < cap <;> simp only [hc, if_true, if_false] <;> split <;> omega
      have e2 : ringIdx cap s.shared.ctr.begin (if b0 + j < cap then b0 + j else b0 + j - cap) = f + j := by
        unfold ringIdx backBy at *
        by_cases hc : b0 + j < cap <;> simp only [hc, if_true, if_false] <;> split at hbeg <;> split <;> omega
      have e3 := h2 _ hlt
      have e4 := h.old _ hlt (by rw [e1]; exact hj)
      rw [e1] at e4
      rw [e2] at e3
      rw [← e3, e4]
    · rw [List.getElem?_eq_none (by simp; omega), List.getElem?_eq_none (by omega)]
  have hsplit : l' = l'.take f ++ l ++ (l'.drop f).drop l.length := by
    rw [List.append_assoc]
    conv_lhs => rw [← List.take_append_drop f l']
    congr 1
    conv_lhs => rw [← List.take_append_drop l.length (l'.drop f), hmidl]
  have hlen : l'.length = (l'.take f ++ l ++ (l'.drop f).drop l.length).length := congrArg List.length hsplit
  have hperm : (l'.take f ++ (l'.drop f).drop l.length).Perm (pushedVals s) := by
    rw [hpop] at h5
    have h5' : (l ++ pushedVals s).Perm l' := by
      rw [Multiset.coe_add] at h5
      simpa using Multiset.coe_eq_coe.1 h5
    have h6 : l'.Perm (l ++ (l'.take f ++ (l'.drop f).drop l.length)) := by
      conv_lhs => rw [hsplit]
      rw [← List.append_assoc]
      exact List.Perm.append_right _ List.perm_append_comm
    exact ((List.perm_append_left_iff l).1 (h5'.trans h6)).symm
  have hpl : (pushedVals s).length = n - l.length := by
    rw [← hperm.length_eq]
    simp only [List.length_append] at hlen ⊢
    omega
  refine ⟨?_, l'.take f, (l'.drop f).drop l.length, by simp; omega, hperm, by omega, ?_, ?_, ?_⟩
  · have hn := results_length h.r.v hf
    have hle2 : (pushedVals s).length ≤ programs.flatten.length := hn ▸ List.length_filterMap_le _ _
    by_cases hfail : ∃ e ∈ results s, e.2 = Res.pushFailed
    · obtain ⟨⟨op, r⟩, he, rfl⟩ := hfail
      obtain ⟨t, ht, he⟩ := mem_results.1 he
      have := h.failed t ht op he
      split at hsz <;> omega
    · have : (pushedVals s).length = (results s).length := by
        apply Vector.filterMap_length_eq
        rintro ⟨op, r⟩ he
        obtain ⟨p, g1, g2⟩ := results_op h.r.v he
        have g3 := hp p g1 _ g2
        have g4 := results_fit h.r.v _ he
        have g5 : r ≠ Res.pushFailed := fun e => hfail ⟨_, he, e⟩
        cases op with
        | pop k => simp [Op.isPush] at g3
        | push k x => cases r <;> simp [resFits, pushVal] at g4 g5 ⊢
      omega
  · intro q hq'; rw [← hsplit]; exact h2 q hq'
  · intro q hq'; rw [← hsplit, h1]; exact h3 q hq'
  · rw [← hsplit, h1]
    exact clamp_eq cap n _ h.ge (by simpa using hsz)

/-! ### Pops only -/

/-- After pops, `f` of them at the front, `n` elements remaining: slot `p` was given to a pop at side `k`. -/
def popSide (f n : Nat) (k : Side) (j : Nat) : Prop :=
  match k with
  | .front => j < f
  | .back => f + n ≤ j

theorem popSide_mono {f n f' n' : Nat} (h1 : f ≤ f') (h2 : f' + n' ≤ f + n) {k : Side} {j : Nat}
    (h : popSide f n k j) : popSide f' n' k j := by
  cases k <;> simp only [popSide] at * <;> omega

structure PopInv (cap : Nat) (b0 : Nat) (l : List α) (programs : List (List (Op Side α))) (n f : Nat) (s : DSys α) :
    Prop where
  r : DRing cap (l : Multiset α) programs n s
  sz : (n : Int) - (s.threads.map (midN false)).sum = if 0 ≤ s.shared.ctr.size then s.shared.ctr.size else 0
  fl : f + n ≤ l.length
  beg : s.shared.ctr.begin = fwdBy cap b0 f
  pos : ∀ t ∈ s.threads, ∀ p sp, t.pc = .slot p sp → ringIdx cap b0 p < f ∨ f + n ≤ ringIdx cap b0 p
  side : ∀ t ∈ s.threads, ∀ p sp op rest, t.pc = .slot p sp → t.todo = op :: rest → popSide f n op.kind (ringIdx cap b0 p)
  old : ∀ q, q < cap → f ≤ ringIdx cap b0 q → ringIdx cap b0 q < f + n → s.shared.slots.data q = l[ringIdx cap b0 q]?
  failed : ∀ t ∈ s.threads, ∀ op, (op, Res.popFailed) ∈ t.done → s.shared.ctr.size ≤ 0

theorem popInv_step' {cap b0 : Nat} {l : List α} {programs : List (List (Op Side α))} (hb0 : b0 < cap)
    (hlc : l.length ≤ cap)
    (hp : ∀ p ∈ programs, ∀ op ∈ p, op.isPush = false) (s : DSys α) (i : Nat) (t : DThread α) (n f : Nat)
    (h : PopInv cap b0 l programs n f s) (ht : s.threads[i]? = some t) :
    ∃ n' f', f ≤ f' ∧ f' + n' ≤ f + n ∧ PopInv cap b0 l programs n' f'
      ⟨(step (dfront cap) s.shared t).1, s.threads.set i (step (dfront cap) s.shared t).2⟩ := by
  have hmem := List.mem_of_getElem? ht
  cases htodo : t.todo with
  | nil => exact ⟨n, f, le_refl _, le_refl _, by rw [done_step i t ht htodo]; exact h⟩
  | cons op rest =>
    have hpush : op.isPush = false := by
      obtain ⟨p, hp', e⟩ := prog_mem h.r.v t hmem
      exact hp p hp' op (by rw [e, htodo]; simp)
    have hsz := h.sz
    have hfl := h.fl
    have hle := h.r.le
    have hbeg := h.beg
    have hpos0 := h.r.begin
    have key : ∀ (n' f' : Nat) (m' : Mem Ctr α) (t' : DThread α), step (dfront cap) s.shared t = (m', t') →
        DRing cap (l : Multiset α) programs n'
          ⟨(step (dfront cap) s.shared t).1, s.threads.set i (step (dfront cap) s.shared t).2⟩ →
        m'.ctr.size ≤ s.shared.ctr.size →
        (n' : Int) - midN false t' - (if 0 ≤ m'.ctr.size then m'.ctr.size else 0) =
          n - midN false t - (if 0 ≤ s.shared.ctr.size then s.shared.ctr.size else 0) →
        f ≤ f' → f' + n' ≤ f + n → m'.ctr.begin = fwdBy cap b0 f' →
        (∀ p sp, t'.pc = .slot p sp → (ringIdx cap b0 p < f' ∨ f' + n' ≤ ringIdx cap b0 p) ∧
          ∀ op rest, t'.todo = op :: rest → popSide f' n' op.kind (ringIdx cap b0 p)) →
        (∀ q, q < cap → f ≤ ringIdx cap b0 q → ringIdx cap b0 q < f + n →
          m'.slots.data q = s.shared.slots.data q) →
        (∀ op', (op', Res.popFailed) ∈ t'.done → (op', Res.popFailed) ∈ t.done ∨ m'.ctr.size ≤ 0) →
        ∃ n' f', f ≤ f' ∧ f' + n' ≤ f + n ∧ PopInv cap b0 l programs n' f'
          ⟨(step (dfront cap) s.shared t).1, s.threads.set i (step (dfront cap) s.shared t).2⟩ := by
      intro n' f' m' t' e hr h1 h2 h3 h3' h4 h5 h6 h7
      rw [e] at hr ⊢
      have a3 := sum_map_set (midN false) s.threads i t t' ht
      refine ⟨n', f', h3, h3', hr, ?_, by omega, h4, ?_, ?_, ?_, ?_⟩
      · simp only; omega
      · intro x hx p sp hxp
        rcases mem_set_cases _ _ _ _ hx with rfl | ⟨j, -, hj⟩
        · exact (h5 p sp hxp).1
        · have := h.pos x (List.mem_of_getElem? hj) p sp hxp
          omega
      · intro x hx
        rcases mem_set_cases _ _ _ _ hx with rfl | ⟨j, -, hj⟩
        · exact fun p sp op rest hx => (h5 p sp hx).2 op rest
        · exact fun p sp op rest a b => popSide_mono h3 h3' (h.side x (List.mem_of_getElem? hj) p sp op rest a b)
      · intro q hq1 hq2 hq3
        simp only [h6 q hq1 (by omega) (by omega)]; exact h.old q hq1 (by omega) (by omega)
      · intro x hx op' hop
        rcases mem_set_cases _ _ _ _ hx with rfl | ⟨j, -, hj⟩
        · rcases h7 op' hop with h8 | h8
          · exact le_trans h1 (h.failed t hmem op' h8)
          · exact h8
        · exact le_trans h1 (h.failed x (List.mem_of_getElem? hj) op' hop)
    cases hpc : t.pc with
    | slot p sp =>
      have hr := dring_slot h.r ht p sp hpc
      have hpl := h.pos t hmem p sp hpc
      obtain ⟨-, op', rest', e1, hfit⟩ := (h.r.v.shape t hmem).1 p sp hpc
      have hfit' : sp.fits op := by rw [htodo] at e1; simp at e1; rw [e1.1]; exact hfit
      have hframe := fun q hq => (slotStep_frame s.shared.slots op p sp q hq).1
      have hdat : ∀ q, q < cap → f ≤ ringIdx cap b0 q → ringIdx cap b0 q < f + n →
          (slotStep s.shared.slots op p sp).1.data q = s.shared.slots.data q := by
        intro q _ hq1 hq2; exact hframe q (fun e => by subst e; omega)
      cases hr' : (slotStep s.shared.slots op p sp).2 with
      | inl s' =>
        refine key n f { s.shared with slots := (slotStep s.shared.slots op p sp).1 } { t with pc := .slot p s' } ?_ hr
          (le_refl _) ?_ (le_refl _) (le_refl _) hbeg ?_ hdat ?_
        · simp only [step, htodo, hpc, hr']
        · simp [midN, hpc]
        · intro p' sp' hx; simp at hx; rw [← hx.1]
          exact ⟨hpl, fun op' rest' => h.side t hmem p sp op' rest' hpc⟩
        · intro e he; exact Or.inl he
      | inr r =>
        refine key n f { s.shared with slots := (slotStep s.shared.slots op p sp).1 }
          { todo := rest, pc := .front (dfront cap).start, done := t.done ++ [(op, r)] } ?_ hr (le_refl _) ?_
          (le_refl _) (le_refl _) hbeg (by simp) hdat ?_
        · simp only [step, htodo, hpc, hr']
        · simp [midN, hpc, dfront]
        · intro op' hop
          simp only [List.mem_append, List.mem_singleton, Prod.mk.injEq] at hop
          rcases hop with hop | ⟨-, rfl⟩
          · exact Or.inl hop
          · rcases slotStep_inr _ _ _ _ hfit' _ hr' with ⟨-, h'⟩ | ⟨-, v, h'⟩ <;> simp at h'
    | front fpc =>
      have r3 := le_sum_map (midN false) s.threads t hmem
      rcases dfront_cases cap s.shared.ctr op.isPush op.kind fpc with ⟨h1, e⟩ | ⟨h1, e, h2, h3⟩ | ⟨h1, hb, h2, e⟩ |
        ⟨h1, hb, h2, e⟩ | ⟨h1, hb, h2, e⟩ | ⟨h1, hb, h2, e⟩ | ⟨h1, e⟩
      · exact key n f _ _ (step_cont _ _ htodo hpc e) (dring_stay h.r ht fpc hpc htodo _ _ e (by simp) rfl rfl)
          (le_refl _) (by simp [midN, hpc, h1]) (le_refl _) (le_refl _) hbeg (by simp) (by simp) (fun _ hx => Or.inl hx)
      · refine key n f _ _ (step_fail _ _ htodo hpc e) (dring_stay h.r ht fpc hpc htodo _ _ e (by simp) rfl rfl)
          (le_refl _) (by simp [midN, hpc, h1, dfront]) (le_refl _) (le_refl _) hbeg (by simp) (by simp)
          (fun _ hx => Or.inr ?_)
        rcases h3 hpush with h2 | h2
        · exact h2
        · omega
      · rw [hpush] at hb; simp at hb
      · rw [hpush] at hb; simp at hb
      · refine key n f _ _ (step_cont _ _ htodo hpc e) (dring_stay h.r ht fpc hpc htodo _ _ e (by simp) rfl rfl)
          (by simp only; omega) ?_ (le_refl _) (le_refl _) hbeg (by simp) (by simp) (fun _ hx => Or.inl hx)
        simp only [midN, hpc, h1, htodo, hb, if_true]
        rw [if_pos (by omega), if_pos (by omega)]; omega
      · refine key n f _ _ (step_fail _ _ htodo hpc e) (dring_stay h.r ht fpc hpc htodo _ _ e (by simp) rfl rfl)
          (by simp only; omega) ?_ (le_refl _) (le_refl _) hbeg (by simp) (by simp) (fun _ hx => Or.inr (by simp only; omega))
        simp only [midN, hpc, h1, dfront]
        rw [if_neg (by omega)]; split <;> omega
      · subst h1
        have q1 : midN false t = 1 := by simp [midN, hpc, htodo, hpush]
        have hn0 : 0 < n := by split at hsz <;> omega
        obtain ⟨n0, rfl⟩ : ∃ n0, n = n0 + 1 := ⟨n - 1, by omega⟩
        have hring := dring_pop h.r ht hpc htodo hpush
        have hend := h.r.endd
        rw [wrap_eq _ _ _ hpos0 (by omega)] at hend
        cases hk : op.kind with
        | front =>
          have hpo : position cap s.shared.ctr op.isPush op.kind =
            (s.shared.ctr.begin, { s.shared.ctr with begin := if s.shared.ctr.begin + 1 = cap then 0
              else s.shared.ctr.begin + 1 }) := by
            rw [hpush, hk]; simp only [position, Bool.false_eq_true, if_false, fetchIncMod_eq _ _ hpos0]
          rw [hpo] at e
          refine key n0 (f + 1) _ _ (step_go _ _ htodo hpc e) hring (by simp) ?_ (by omega)
            (by omega) ?_ ?_ (by simp) (fun _ hx => Or.inl hx)
          · simp only [midN, hpc, htodo, hpush, if_true]; simp
          · simp only
            unfold fwdBy at *
            split at hbeg <;> split <;> split <;> omega
          · intro p sp hx
            simp at hx
            rw [← hx.1]
            constructor
            · unfold ringIdx fwdBy at *
              split at hbeg <;> split <;> omega
            · intro op' rest' he
              rw [htodo] at he; simp at he; rw [← he.1, hk]
              show ringIdx cap b0 s.shared.ctr.begin < f + 1
              unfold ringIdx fwdBy at *
              split at hbeg <;> split <;> omega
        | back =>
          have hel : s.shared.ctr.endd < cap := by split at hend <;> omega
          have hpo : position cap s.shared.ctr op.isPush op.kind =
            ((if s.shared.ctr.endd = 0 then cap - 1 else s.shared.ctr.endd - 1), { s.shared.ctr with
              endd := if s.shared.ctr.endd = 0 then cap - 1 else s.shared.ctr.endd - 1 }) := by
            rw [hpush, hk]; simp only [position, Bool.false_eq_true, if_false, fetchDecMod_eq _ _ hel]
          rw [hpo] at e
          refine key n0 f _ _ (step_go _ _ htodo hpc e) hring (by simp) ?_ (le_refl _)
            (by omega) hbeg ?_ (by simp) (fun _ hx => Or.inl hx)
          · simp only [midN, hpc, htodo, hpush, if_true]; simp
          · intro p sp hx
            simp at hx
            rw [← hx.1]
            constructor
            · unfold ringIdx fwdBy at *
              split at hbeg <;> split at hend <;> (by_cases hz : s.shared.ctr.endd = 0) <;>
                simp only [hz, if_true, if_false] <;> split <;> omega
            · intro op' rest' he
              rw [htodo] at he; simp at he; rw [← he.1, hk]
              show f + n0 ≤ ringIdx cap b0 (if s.shared.ctr.endd = 0 then cap - 1 else s.shared.ctr.endd - 1)
              unfold ringIdx fwdBy at *
              split at hbeg <;> split at hend <;> (by_cases hz : s.shared.ctr.endd = 0) <;>
                simp only [hz, if_true, if_false] <;> split <;> omega

theorem popInv_step {cap b0 : Nat} {l : List α} {programs : List (List (Op Side α))} (hb0 : b0 < cap)
    (hlc : l.length ≤ cap)
    (hp : ∀ p ∈ programs, ∀ op ∈ p, op.isPush = false) (s : DSys α) (i : Nat) (t : DThread α) (n f : Nat)
    (h : PopInv cap b0 l programs n f s) (ht : s.threads[i]? = some t) :
    ∃ n' f', PopInv cap b0 l programs n' f'
      ⟨(step (dfront cap) s.shared t).1, s.threads.set i (step (dfront cap) s.shared t).2⟩ := by
  obtain ⟨n', f', -, -, h'⟩ := popInv_step' hb0 hlc hp s i t n f h ht
  exact ⟨n', f', h'⟩

theorem pop_final {cap b0 : Nat} {l : List α} {programs : List (List (Op Side α))} {n f : Nat} {s : DSys α}
    (hb0 : b0 < cap) (hlc : l.length ≤ cap) (hp : ∀ p ∈ programs, ∀ op ∈ p, op.isPush = false)
    (h : PopInv cap b0 l programs n f s) (hf : Finished s) :
    (poppedVals s).length = min programs.flatten.length l.length ∧
    ∃ lf l' lb : List α, lf.length = f ∧ l = lf ++ l' ++ lb ∧ (lf ++ lb).Perm (poppedVals s) ∧
      (∀ q, q < cap → s.shared.slots.data q = l'[ringIdx cap s.shared.ctr.begin q]?) ∧
      (∀ q, q < cap → s.shared.slots.occ q = decide (ringIdx cap s.shared.ctr.begin q < l'.length)) ∧
      clampSize cap s.shared.ctr.size = l'.length := by
  have hq := quiet_of_finished h.r.v hf
  obtain ⟨l', h1, h2, h3, h4, h5⟩ := dring_final h.r hq
  have hfl := h.fl
  have hbeg := h.beg
  have hle := h.r.le
  have hmid : (s.threads.map (midN false)).sum = 0 := by
    rw [sum_map_eq_zero]; intro t ht; simp [midN, hf t ht]
  have hsz := h.sz
  rw [hmid] at hsz
  have hpush : pushedVals s = [] := by
    unfold pushedVals
    rw [List.filterMap_eq_nil_iff]
    rintro ⟨op, r⟩ he
    obtain ⟨p, g1, g2⟩ := results_op h.r.v he
    have g3 := hp p g1 _ g2
    cases op with
    | push k x => simp [Op.isPush] at g3
    | pop k => cases r <;> rfl
  have hmidl : (l.drop f).take n = l' := by
    apply List.ext_getElem?
    intro j
    by_cases hj : j < n
    · rw [List.getElem?_take_of_lt hj, List.getElem?_drop]
      obtain ⟨q, hqe⟩ : ∃ q, q = if b0 + (f + j) < cap then b0 + (f + j) else b0 + (f + j) - cap := ⟨_, rfl⟩
      have hlt : q < cap := by split at hqe <;> omega
      have e1 : ringIdx cap b0 q = f + j := by
        unfold ringIdx; split at hqe <;> split <;> omega
      have e2 : ringIdx cap s.shared.ctr.begin q = j := by
        unfold ringIdx fwdBy at *
        split at hqe <;> split at hbeg <;> split <;> omega
      have e3 := h2 _ hlt
      have e4 := h.old _ hlt (by rw [e1]; omega) (by rw [e1]; omega)
      rw [e1] at e4
      rw [e2] at e3
      rw [← e3, e4]
    · rw [List.getElem?_eq_none (by simp; omega), List.getElem?_eq_none (by omega)]
  have hsplit : l = l.take f ++ l' ++ (l.drop f).drop n := by
    rw [List.append_assoc]
    conv_lhs => rw [← List.take_append_drop f l]
    congr 1
    conv_lhs => rw [← List.take_append_drop n (l.drop f), hmidl]
  have hperm : (l.take f ++ (l.drop f).drop n).Perm (poppedVals s) := by
    rw [hpush] at h5
    have h5' : l.Perm (l' ++ poppedVals s) := by
      rw [Multiset.coe_add] at h5
      simpa using Multiset.coe_eq_coe.1 h5
    have h6 : l.Perm (l' ++ (l.take f ++ (l.drop f).drop n)) := by
      conv_lhs => rw [hsplit]
      rw [← List.append_assoc]
      exact List.Perm.append_right _ List.perm_append_comm
    exact (List.perm_append_left_iff l').1 (h6.symm.trans h5')
  have hpl : (poppedVals s).length = l.length - n := by
    rw [← hperm.length_eq]
    simp; omega
  refine ⟨?_, l.take f, l', (l.drop f).drop n, by simp; omega, hsplit, hperm, h2, by rw [h1]; exact h3, ?_⟩
  · have hn := results_length h.r.v hf
    have hle2 : (poppedVals s).length ≤ programs.flatten.length := hn ▸ List.length_filterMap_le _ _
    by_cases hfail : ∃ e ∈ results s, e.2 = Res.popFailed
    · obtain ⟨⟨op, r⟩, he, rfl⟩ := hfail
      obtain ⟨t, ht, he⟩ := mem_results.1 he
      have := h.failed t ht op he
      split at hsz <;> omega
    · have : (poppedVals s).length = (results s).length := by
        apply Vector.filterMap_length_eq
        rintro ⟨op, r⟩ he
        obtain ⟨p, g1, g2⟩ := results_op h.r.v he
        have g3 := hp p g1 _ g2
        have g4 := results_fit h.r.v _ he
        have g5 : r ≠ Res.popFailed := fun e => hfail ⟨_, he, e⟩
        cases op with
        | push k x => simp [Op.isPush] at g3
        | pop k => cases r <;> simp [resFits, popVal] at g4 g5 ⊢
      omega
  · unfold clampSize
    rw [h1]
    split at hsz
    · rw [if_neg (by omega), if_neg (by omega)]; omega
    · rw [if_pos (by omega)]; omega

end Stdgpu.Deque
