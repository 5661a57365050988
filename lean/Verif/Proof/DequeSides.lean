import Verif.Proof.DequeConc2
import Verif.Proof.SlotMap
/-! Which elements are pushed and popped at which end of a deque. -/
namespace Stdgpu.Deque
open Stdgpu.SlotConc Stdgpu.Conc Stdgpu.Spec
open Stdgpu.Vector (clampSize step_cont step_fail step_go)

variable {α : Type}

/-- The shared data after a step: only a slot step changes the slots. -/
theorem step_data (cap : Nat) (m : Mem Ctr α) (t : DThread α) :
    (step (dfront cap) m t).1.slots = m.slots ∨
    ∃ p sp op rest, t.pc = .slot p sp ∧ t.todo = op :: rest ∧
      (step (dfront cap) m t).1.slots = (slotStep m.slots op p sp).1 := by
  unfold step
  cases ht : t.todo with
  | nil => left; rfl
  | cons op rest =>
    cases hp : t.pc with
    | front f => left; dsimp only; split <;> rfl
    | slot p sp => right; refine ⟨p, sp, op, rest, rfl, rfl, ?_⟩; dsimp only; split <;> rfl

theorem slot_data {K : Type} (m : Slots α) (op : Op K α) (p : Nat) (sp : SPC α) (q : Nat) (v : α)
    (h : (slotStep m op p sp).1.data q = some v) :
    m.data q = some v ∨ (q = p ∧ sp = .construct ∧ ∃ k, op = .push k v) := by
  cases sp with
  | tryLock =>
    left; simp only [slotStep] at h; split at h
    · exact h
    · split at h <;> exact h
  | check => left; cases op <;> exact h
  | construct =>
    cases op with
    | push k x =>
      simp only [slotStep, upd] at h
      split at h
      · right; simp at h; subst h; exact ⟨by assumption, rfl, k, rfl⟩
      · left; exact h
    | pop k => left; exact h
  | setOcc => left; exact h
  | resetOcc => left; exact h
  | take => left; simp only [slotStep] at h; cases hd : m.data p <;> simp only [hd] at h <;> exact h
  | destroy v' =>
    left
    simp only [slotStep, upd] at h
    split at h
    · simp at h
    · exact h
  | unlockRetry => left; exact h
  | unlockDone r => left; exact h

/-! ### Pushes -/

/-- Pushes, with the side as a part `T` of the value. -/
structure PushTag (T : α → Side) (cap b0 : Nat) (l : List α) (programs : List (List (Op Side α))) (n f : Nat)
    (s : DSys α) : Prop where
  inv : PushInv cap b0 l programs n f s
  tag : ∀ q, q < cap → l.length ≤ ringIdx cap b0 q → ∀ v, s.shared.slots.data q = some v → pushSide cap b0 n f (T v) q

theorem pushTag_step {T : α → Side} {cap b0 : Nat} {l : List α} {programs : List (List (Op Side α))} (hb0 : b0 < cap)
    (hp : ∀ p ∈ programs, ∀ op ∈ p, op.isPush = true) (hT : ∀ p ∈ programs, ∀ k x, Op.push k x ∈ p → T x = k)
    (s : DSys α) (i : Nat) (t : DThread α)
    (h : ∃ n f, PushTag T cap b0 l programs n f s) (ht : s.threads[i]? = some t) :
    ∃ n f, PushTag T cap b0 l programs n f
      ⟨(step (dfront cap) s.shared t).1, s.threads.set i (step (dfront cap) s.shared t).2⟩ := by
  obtain ⟨n, f, h⟩ := h
  obtain ⟨n', f', h1, h2, h'⟩ := pushInv_step' hb0 hp s i t n f h.inv ht
  have hmem := List.mem_of_getElem? ht
  refine ⟨n', f', h', ?_⟩
  intro q hq hl v hv
  replace hv : (step (dfront cap) s.shared t).1.slots.data q = some v := hv
  apply pushSide_mono h1 h2
  rcases step_data cap s.shared t with e | ⟨p, sp, op, rest, e1, e2, e3⟩
  · rw [e] at hv; exact h.tag q hq hl v hv
  · rw [e3] at hv
    rcases slot_data _ _ _ _ _ _ hv with h3 | ⟨rfl, -, k, rfl⟩
    · exact h.tag q hq hl v h3
    · have h5 := h.inv.side t hmem q sp _ rest e1 e2
      obtain ⟨pr, h6, h7⟩ := prog_mem h.inv.r.v t hmem
      rw [hT pr h6 k v (by rw [h7, e2]; simp)]
      exact h5

/-- Values pushed at side `k`. -/
theorem filterMap_side {ε : Type} (L : List ε) (g : ε → Option α) (k : ε → Bool) (P : α → Bool)
    (h : ∀ e ∈ L, ∀ v, g e = some v → P v = k e) :
    (L.filterMap g).filter P = L.filterMap (fun e => if k e then g e else none) := by
  induction L with
  | nil => rfl
  | cons e L ih =>
    have ih := ih (fun e' he' => h e' (List.mem_cons_of_mem _ he'))
    have he := h e (List.mem_cons_self ..)
    cases hg : g e with
    | none => simp [hg, ih]
    | some v =>
      have := he v hg
      cases hk : k e <;> rw [hk] at this <;> simp [hg, hk, this, ih]

theorem perm_parts {lf lb L : List α} (P : α → Bool) (h : (lf ++ lb).Perm L) (hf : ∀ v ∈ lf, P v = true)
    (hb : ∀ v ∈ lb, P v = false) : lf.Perm (L.filter P) ∧ lb.Perm (L.filter (fun v => !P v)) := by
  have h1 := h.filter P
  have h2 := h.filter (fun v => !P v)
  rw [List.filter_append, List.filter_eq_self.2 hf, List.filter_eq_nil_iff.2 (by simpa using hb), List.append_nil] at h1
  rw [List.filter_append, List.filter_eq_nil_iff.2 (by simpa using hf),
    List.filter_eq_self.2 (by simpa using hb), List.nil_append] at h2
  exact ⟨h1, h2⟩

def Side.isFront : Side → Bool
  | .front => true
  | .back => false

theorem pushTag_final {T : α → Side} {cap b0 : Nat} {l : List α} {programs : List (List (Op Side α))} {n f : Nat}
    {s : DSys α} (hb0 : b0 < cap) (hp : ∀ p ∈ programs, ∀ op ∈ p, op.isPush = true)
    (hT : ∀ p ∈ programs, ∀ k x, Op.push k x ∈ p → T x = k)
    (h : PushTag T cap b0 l programs n f s) (hf : Finished s) :
    (pushedVals s).length = min programs.flatten.length (cap - l.length) ∧
    ∃ lf lb : List α, lf.Perm ((results s).filterMap (fun e => if e.1.kind.isFront then pushVal e else none)) ∧
      lb.Perm ((results s).filterMap (fun e => if !e.1.kind.isFront then pushVal e else none)) ∧
      (∀ q, q < cap → s.shared.slots.data q = (lf ++ l ++ lb)[ringIdx cap s.shared.ctr.begin q]?) ∧
      (∀ q, q < cap → s.shared.slots.occ q = decide (ringIdx cap s.shared.ctr.begin q < (lf ++ l ++ lb).length)) ∧
      clampSize cap s.shared.ctr.size = (lf ++ l ++ lb).length := by
  obtain ⟨h1, lf, lb, h2, h3, h4, h5, h6, h7⟩ := push_final hb0 hp h.inv hf
  have hbeg := h.inv.beg
  have hle := h.inv.r.le
  have hfl := h.inv.fl
  have hb := h.inv.r.begin
  simp only [List.length_append] at h4
  have hpos : ∀ j, j < n → ∃ q, q < cap ∧ ringIdx cap s.shared.ctr.begin q = j ∧
      ringIdx cap b0 q = if j < f then cap - f + j else j - f := by
    intro j hj
    obtain ⟨q, hqe⟩ : ∃ q, q = if s.shared.ctr.begin + j < cap then s.shared.ctr.begin + j
      else s.shared.ctr.begin + j - cap := ⟨_, rfl⟩
    refine ⟨q, by split at hqe <;> omega, ?_, ?_⟩
    · unfold ringIdx; split at hqe <;> split <;> omega
    · unfold ringIdx backBy at *
      split at hqe <;> split at hbeg <;> split <;> split <;> omega
  have side : ∀ j v, j < n → (j < f ∨ f + l.length ≤ j) → (lf ++ l ++ lb)[j]? = some v →
      (T v).isFront = decide (j < f) := by
    intro j v hj hj' hv
    obtain ⟨q, hq, e1, e2⟩ := hpos j hj
    have := h.tag q hq (by rw [e2]; split <;> omega) v (by rw [h5 q hq, e1, hv])
    cases hTv : T v with
    | front =>
      rw [hTv] at this
      simp only [pushSide, e2] at this
      simp only [Side.isFront]; symm; rw [decide_eq_true_iff]
      split at this <;> omega
    | back =>
      rw [hTv] at this
      simp only [pushSide, e2] at this
      simp only [Side.isFront]; symm; rw [decide_eq_false_iff_not]
      split at this <;> omega
  have hlf : ∀ v ∈ lf, (T v).isFront = true := by
    intro v hv
    obtain ⟨j, hj, e⟩ := List.mem_iff_getElem.1 hv
    rw [side j v (by omega) (Or.inl (by omega)) (by
      rw [List.append_assoc, List.getElem?_append_left hj, List.getElem?_eq_getElem hj, e])]
    simp; omega
  have hlb : ∀ v ∈ lb, (T v).isFront = false := by
    intro v hv
    obtain ⟨j, hj, e⟩ := List.mem_iff_getElem.1 hv
    rw [side (f + l.length + j) v (by omega) (Or.inr (by omega)) (by
      rw [List.getElem?_append_right (by simp; omega)]
      simp only [List.length_append]
      rw [show f + l.length + j - (lf.length + l.length) = j by omega, List.getElem?_eq_getElem hj, e])]
    simp; omega
  obtain ⟨g1, g2⟩ := perm_parts (fun v => (T v).isFront) h3 hlf hlb
  have htag : ∀ e ∈ results s, ∀ v, pushVal e = some v → T v = e.1.kind := by
    rintro ⟨op, r⟩ he v hv
    obtain ⟨p, a1, a2⟩ := results_op h.inv.r.v he
    cases op with
    | pop k => cases r <;> simp [pushVal] at hv
    | push k x =>
      cases r <;> simp [pushVal] at hv
      subst hv; exact hT p a1 k x a2
  unfold pushedVals at g1 g2
  rw [filterMap_side (results s) pushVal (fun e => e.1.kind.isFront) _ (fun e he v hv => by rw [htag e he v hv])] at g1
  rw [filterMap_side (results s) pushVal (fun e => !e.1.kind.isFront) _ (fun e he v hv => by rw [htag e he v hv])] at g2
  exact ⟨h1, lf, lb, g1, g2, h5, h6, h7⟩

/-! ### Pops -/

structure PopTag (cap b0 : Nat) (l : List α) (programs : List (List (Op Side α))) (n f : Nat) (s : DSys α) : Prop where
  inv : PopInv cap b0 l programs n f s
  dat : ∀ q, q < cap → ∀ v, s.shared.slots.data q = some v → l[ringIdx cap b0 q]? = some v
  thr : ∀ t ∈ s.threads, ∀ p v, t.pc = .slot p (.destroy v) ∨ t.pc = .slot p (.unlockDone (.popped v)) →
    l[ringIdx cap b0 p]? = some v
  res : ∀ t ∈ s.threads, ∀ op v, (op, Res.popped v) ∈ t.done → ∃ j, l[j]? = some v ∧ popSide f n op.kind j

theorem slot_take {K : Type} (m : Slots α) (op : Op K α) (p : Nat) (sp sp' : SPC α) (v : α)
    (h : (slotStep m op p sp).2 = .inl sp') (h2 : sp' = .destroy v ∨ sp' = .unlockDone (.popped v)) :
    m.data p = some v ∨ sp = .destroy v := by
  cases sp with
  | tryLock =>
    simp only [slotStep] at h; split at h
    · simp at h; subst h; simp at h2
    · split at h <;> simp at h <;> subst h <;> simp at h2
  | check => cases op <;> simp [slotStep] at h <;> subst h <;> split at h2 <;> simp at h2
  | construct => cases op <;> simp [slotStep] at h <;> subst h <;> simp at h2
  | setOcc => simp [slotStep] at h; subst h; simp at h2
  | resetOcc => simp [slotStep] at h; subst h; simp at h2
  | take =>
    simp only [slotStep] at h
    cases hd : m.data p <;> simp only [hd] at h <;> simp at h <;> subst h <;> simp at h2
    subst h2; left; rfl
  | destroy v' => simp [slotStep] at h; subst h; simp at h2; subst h2; right; rfl
  | unlockRetry => simp [slotStep] at h; subst h; simp at h2
  | unlockDone r => simp [slotStep] at h

theorem popTag_step {cap b0 : Nat} {l : List α} {programs : List (List (Op Side α))} (hb0 : b0 < cap)
    (hlc : l.length ≤ cap) (hp : ∀ p ∈ programs, ∀ op ∈ p, op.isPush = false)
    (s : DSys α) (i : Nat) (t : DThread α)
    (h : ∃ n f, PopTag cap b0 l programs n f s) (ht : s.threads[i]? = some t) :
    ∃ n f, PopTag cap b0 l programs n f
      ⟨(step (dfront cap) s.shared t).1, s.threads.set i (step (dfront cap) s.shared t).2⟩ := by
  obtain ⟨n, f, h⟩ := h
  obtain ⟨n', f', h1, h2, h'⟩ := popInv_step' hb0 hlc hp s i t n f h.inv ht
  have hmem := List.mem_of_getElem? ht
  have hop : ∀ op rest, t.todo = op :: rest → op.isPush = false := by
    intro op rest e
    obtain ⟨pr, h6, h7⟩ := prog_mem h.inv.r.v t hmem
    exact hp pr h6 op (by rw [h7, e]; simp)
  refine ⟨n', f', h', ?_, ?_, ?_⟩
  · intro q hq v hv
    replace hv : (step (dfront cap) s.shared t).1.slots.data q = some v := hv
    rcases step_data cap s.shared t with e | ⟨p, sp, op, rest, e1, e2, e3⟩
    · rw [e] at hv; exact h.dat q hq v hv
    · rw [e3] at hv
      rcases slot_data _ _ _ _ _ _ hv with h3 | ⟨rfl, -, k, rfl⟩
      · exact h.dat q hq v h3
      · exact absurd (hop _ _ e2) (by simp [Op.isPush])
  · intro x hx p v hpc
    rcases mem_set_cases _ _ _ _ hx with rfl | ⟨j, -, hj⟩
    · cases htodo : t.todo with
      | nil =>
        have e : step (dfront cap) s.shared t = (s.shared, t) := by unfold step; rw [htodo]
        rw [e] at hpc; exact h.thr t hmem p v hpc
      | cons op rest =>
        cases hpc0 : t.pc with
        | front fpc =>
          exfalso
          unfold step at hpc; simp only [htodo, hpc0] at hpc
          generalize (dfront cap).step s.shared.ctr op.isPush op.kind fpc = r at hpc
          obtain ⟨c, o⟩ := r
          cases o <;> simp at hpc
        | slot p0 sp =>
          have hpcap := ((h.inv.r.v.shape t hmem).1 p0 sp hpc0).1
          unfold step at hpc; simp only [htodo, hpc0] at hpc
          cases hr : (slotStep s.shared.slots op p0 sp).2 with
          | inr r => rw [hr] at hpc; simp at hpc
          | inl sp' =>
            rw [hr] at hpc; simp only [PC.slot.injEq] at hpc
            have : p0 = p := by rcases hpc with ⟨e, -⟩ | ⟨e, -⟩ <;> exact e
            subst this
            rcases slot_take _ _ _ _ _ v hr (by simpa using hpc) with h3 | h3
            · exact h.dat _ hpcap v h3
            · subst h3; exact h.thr t hmem p0 v (Or.inl hpc0)
    · exact h.thr x (List.mem_of_getElem? hj) p v hpc
  · intro x hx op' v hd
    rcases mem_set_cases _ _ _ _ hx with rfl | ⟨j, -, hj⟩
    · have old : (op', Res.popped v) ∈ t.done → ∃ j, l[j]? = some v ∧ popSide f' n' op'.kind j := by
        intro hd
        obtain ⟨j, a, b⟩ := h.res t hmem op' v hd
        exact ⟨j, a, popSide_mono h1 h2 b⟩
      cases htodo : t.todo with
      | nil =>
        have e : step (dfront cap) s.shared t = (s.shared, t) := by unfold step; rw [htodo]
        rw [e] at hd; exact old hd
      | cons op rest =>
        cases hpc0 : t.pc with
        | front fpc =>
          unfold step at hd; simp only [htodo, hpc0] at hd
          generalize (dfront cap).step s.shared.ctr op.isPush op.kind fpc = r at hd
          obtain ⟨c, o⟩ := r
          cases o with
          | cont f' => exact old hd
          | go p => exact old hd
          | fail =>
            simp only [List.mem_append, List.mem_singleton, Prod.mk.injEq] at hd
            rcases hd with hd | ⟨-, hd⟩
            · exact old hd
            · cases op <;> simp [failRes] at hd
        | slot p0 sp =>
          unfold step at hd; simp only [htodo, hpc0] at hd
          cases hr : (slotStep s.shared.slots op p0 sp).2 with
          | inl sp' => rw [hr] at hd; exact old hd
          | inr r =>
            rw [hr] at hd
            simp only [List.mem_append, List.mem_singleton, Prod.mk.injEq] at hd
            rcases hd with hd | ⟨rfl, rfl⟩
            · exact old hd
            · have hsp : sp = .unlockDone (.popped v) := by
                cases sp with
                | unlockDone r' => simp [slotStep] at hr; rw [hr]
                | tryLock => simp only [slotStep] at hr; split at hr <;> (try split at hr) <;> simp at hr
                | check => cases op' <;> simp [slotStep] at hr
                | construct => cases op' <;> simp [slotStep] at hr
                | take => simp only [slotStep] at hr; split at hr <;> simp at hr
                | _ => simp [slotStep] at hr
              subst hsp
              exact ⟨ringIdx cap b0 p0, h.thr t hmem p0 v (Or.inr hpc0),
                popSide_mono h1 h2 (h.inv.side t hmem p0 _ op' rest hpc0 htodo)⟩
    · obtain ⟨j, a, b⟩ := h.res x (List.mem_of_getElem? hj) op' v hd
      exact ⟨j, a, popSide_mono h1 h2 b⟩

/-- `ix` tells the index of an element (the elements are distinct). -/
theorem popTag_final {ix : α → Nat} {cap b0 : Nat} {l : List α} {programs : List (List (Op Side α))} {n f : Nat}
    {s : DSys α} (hix : ∀ (j : Nat) (v : α), l[j]? = some v → ix v = j)
    (hb0 : b0 < cap) (hlc : l.length ≤ cap) (hp : ∀ p ∈ programs, ∀ op ∈ p, op.isPush = false)
    (h : PopTag cap b0 l programs n f s) (hf : Finished s) :
    (poppedVals s).length = min programs.flatten.length l.length ∧
    ∃ lf l' lb : List α, l = lf ++ l' ++ lb ∧
      lf.Perm ((results s).filterMap (fun e => if e.1.kind.isFront then popVal e else none)) ∧
      lb.Perm ((results s).filterMap (fun e => if !e.1.kind.isFront then popVal e else none)) ∧
      (∀ q, q < cap → s.shared.slots.data q = l'[ringIdx cap s.shared.ctr.begin q]?) ∧
      (∀ q, q < cap → s.shared.slots.occ q = decide (ringIdx cap s.shared.ctr.begin q < l'.length)) ∧
      clampSize cap s.shared.ctr.size = l'.length := by
  obtain ⟨h1, lf, l', lb, h2, h3, h4, h5, h6, h7⟩ := pop_final hb0 hlc hp h.inv hf
  have hlf : ∀ v ∈ lf, decide (ix v < f) = true := by
    intro v hv
    obtain ⟨j, hj, e⟩ := List.mem_iff_getElem.1 hv
    rw [hix j v (by rw [h3, List.append_assoc, List.getElem?_append_left hj, List.getElem?_eq_getElem hj, e])]
    simp; omega
  have hlb : ∀ v ∈ lb, decide (ix v < f) = false := by
    intro v hv
    obtain ⟨j, hj, e⟩ := List.mem_iff_getElem.1 hv
    rw [hix (f + l'.length + j) v (by
      rw [h3, List.getElem?_append_right (by simp; omega)]
      simp only [List.length_append]
      rw [show f + l'.length + j - (lf.length + l'.length) = j by omega, List.getElem?_eq_getElem hj, e])]
    simp; omega
  obtain ⟨g1, g2⟩ := perm_parts (fun v => decide (ix v < f)) h4 hlf hlb
  have htag : ∀ e ∈ results s, ∀ v, popVal e = some v → decide (ix v < f) = e.1.kind.isFront := by
    rintro ⟨op, r⟩ he v hv
    cases r with
    | popped w =>
      simp [popVal] at hv; subst hv
      obtain ⟨t, ht, he⟩ := mem_results.1 he
      obtain ⟨j, a, b⟩ := h.res t ht op _ he
      rw [hix j _ a]
      cases hk : op.kind <;> rw [hk] at b <;> simp only [popSide] at b <;> simp [Side.isFront] <;> omega
    | _ => simp [popVal] at hv
  unfold poppedVals at g1 g2
  rw [filterMap_side (results s) popVal (fun e => e.1.kind.isFront) _ (fun e he v hv => htag e he v hv)] at g1
  rw [filterMap_side (results s) popVal (fun e => !e.1.kind.isFront) _ (fun e he v hv => by rw [htag e he v hv])] at g2
  exact ⟨h1, lf, l', lb, h3, g1, g2, h5, h6, h7⟩

/-! ### Tagging the values -/

theorem holds_tag {τ : Type} {d : Deq α} {l : List α} (h : Holds d l) (l' : List (α × τ)) (hl : l'.map Prod.fst = l)
    (dflt : τ) : ∃ d' : Deq (α × τ), Holds d' l' ∧ Mem.map Prod.fst d' = d ∧ cap d' = cap d ∧ d'.ctr = d.ctr := by
  subst hl
  refine ⟨⟨⟨d.slots.cap, d.slots.locks, d.slots.occ, fun q => if q < cap d then l'[ringIdx (cap d) d.ctr.begin q]?
    else (d.slots.data q).map (·, dflt), d.slots.err⟩, d.ctr⟩, ?_, ?_, rfl, rfl⟩
  · have hlen : (l'.map Prod.fst).length = l'.length := List.length_map _
    refine ⟨h.pos, hlen ▸ h.len, hlen ▸ h.size, h.begin, hlen ▸ h.endd, h.locks, ?_, h.err, ?_⟩
    · intro q hq; have := h.occ q hq; rw [hlen] at this; exact this
    · intro q hq
      exact if_pos hq
  · obtain ⟨⟨c, lo, oc, da, er⟩, ctr⟩ := d
    simp only [Mem.map, Slots.map]
    congr 2
    funext q
    split
    · rename_i hq
      have := h.data q hq
      simp only [List.getElem?_map] at this
      exact this.symm
    · simp [Option.map_map, Function.comp_def]

end Stdgpu.Deque
