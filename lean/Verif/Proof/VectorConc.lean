import Verif.Proof.SlotQuiet
import Verif.Proof.Vector
/-! Invariants of concurrent vector operations. -/
namespace Stdgpu.Vector
open Stdgpu.SlotConc Stdgpu.Conc Stdgpu.Spec

variable {α : Type}

abbrev VThread (α : Type) := Thread Unit FPC α
abbrev VSys (α : Type) := Sys (Mem Int α) (VThread α)

/-- Number of operations that were given slot `p`, pushes minus pops. -/
def vtick (c : Int) (p : Nat) : Int := if (p : Int) < c then 1 else 0

def VInv (cap : Nat) (c₀ : Multiset α) (programs : List (List (Op Unit α))) (s : VSys α) : Prop :=
  SInv (vfront cap) cap c₀ programs (vtick s.shared.ctr) s

/-- The possible outcomes of a step of the front end. -/
theorem vfront_cases (cap : Nat) (s : Int) (b : Bool) (k : Unit) (f : FPC) :
    (f = .check ∧ (vfront cap).step s b k f = (s, .cont .rmw) ∧
      (b = true → s < cap ∧ 0 < cap) ∧ (b = false → 0 < s ∧ 0 < cap)) ∨
    (f = .check ∧ (vfront cap).step s b k f = (s, .fail) ∧
      (b = true → (cap : Int) ≤ s ∨ cap = 0) ∧ (b = false → s ≤ 0 ∨ cap = 0)) ∨
    (f = .rmw ∧ b = true ∧ 0 ≤ s ∧ s < cap ∧ (vfront cap).step s b k f = (s + 1, .go s.toNat)) ∨
    (f = .rmw ∧ b = true ∧ (s < 0 ∨ (cap : Int) ≤ s) ∧ (vfront cap).step s b k f = (s + 1, .fail)) ∨
    (f = .rmw ∧ b = false ∧ 0 < s ∧ s ≤ cap ∧ (vfront cap).step s b k f = (s - 1, .go (s - 1).toNat)) ∨
    (f = .rmw ∧ b = false ∧ (s ≤ 0 ∨ (cap : Int) < s) ∧ (vfront cap).step s b k f = (s - 1, .fail)) := by
  cases f with
  | check =>
    cases b with
    | false =>
      by_cases hc : clampSize cap s = 0
      · right; left
        refine ⟨rfl, by simp [vfront, hc], by simp, fun _ => ?_⟩
        unfold clampSize at hc; split at hc
        · omega
        · split at hc <;> omega
      · left
        refine ⟨rfl, by simp [vfront, hc], by simp, fun _ => ?_⟩
        unfold clampSize at hc; split at hc
        · omega
        · split at hc <;> omega
    | true =>
      by_cases hc : clampSize cap s = cap
      · right; left
        refine ⟨rfl, by simp [vfront, hc], fun _ => ?_, by simp⟩
        unfold clampSize at hc; split at hc
        · omega
        · split at hc <;> omega
      · left
        refine ⟨rfl, by simp [vfront, hc], fun _ => ?_, by simp⟩
        unfold clampSize at hc; split at hc
        · omega
        · split at hc <;> omega
  | rmw =>
    cases b with
    | false =>
      by_cases hc : 0 ≤ s - 1 ∧ s - 1 < cap
      · right; right; right; right; left
        exact ⟨rfl, rfl, by omega, by omega, by simp only [vfront, Bool.false_eq_true, if_false, if_pos hc]⟩
      · right; right; right; right; right
        exact ⟨rfl, rfl, by omega, by simp only [vfront, Bool.false_eq_true, if_false, if_neg hc]⟩
    | true =>
      by_cases hc : 0 ≤ s ∧ s < cap
      · right; right; left
        exact ⟨rfl, rfl, by omega, by omega, by simp only [vfront, if_true, if_pos hc]⟩
      · right; right; right; left
        exact ⟨rfl, rfl, by omega, by simp only [vfront, if_true, if_neg hc]⟩

/-! Unfolding of a front-end step. -/
section
variable {C K F : Type} {fr : Front C K F} (m : Mem C α) (t : Thread K F α) {op : Op K α} {rest : List (Op K α)}

theorem step_cont {f f' : F} {c' : C} (h1 : t.todo = op :: rest) (h2 : t.pc = .front f)
    (e : fr.step m.ctr op.isPush op.kind f = (c', .cont f')) :
    step fr m t = ({ m with ctr := c' }, { t with pc := .front f' }) := by
  simp only [step, h1, h2, e]

theorem step_fail {f : F} {c' : C} (h1 : t.todo = op :: rest) (h2 : t.pc = .front f)
    (e : fr.step m.ctr op.isPush op.kind f = (c', .fail)) :
    step fr m t = ({ m with ctr := c' }, { todo := rest, pc := .front fr.start, done := t.done ++ [(op, failRes op)] }) := by
  simp only [step, h1, h2, e]

theorem step_go {f : F} {c' : C} {p : Nat} (h1 : t.todo = op :: rest) (h2 : t.pc = .front f)
    (e : fr.step m.ctr op.isPush op.kind f = (c', .go p)) :
    step fr m t = ({ m with ctr := c' }, { t with pc := .slot p .tryLock }) := by
  simp only [step, h1, h2, e]
end

theorem vinv_step {cap : Nat} {c₀ : Multiset α} {programs : List (List (Op Unit α))} (s : VSys α) (i : Nat)
    (t : VThread α) (h : VInv cap c₀ programs s) (ht : s.threads[i]? = some t) :
    VInv cap c₀ programs ⟨(step (vfront cap) s.shared t).1, s.threads.set i (step (vfront cap) s.shared t).2⟩ := by
  cases htodo : t.todo with
  | nil => rw [done_step i t ht htodo]; exact h
  | cons op rest =>
    cases hpc : t.pc with
    | slot p sp =>
      have hc : (step (vfront cap) s.shared t).1.ctr = s.shared.ctr := by
        simp only [step, htodo, hpc]; split <;> rfl
      unfold VInv
      simp only [hc]
      exact slot_step h i t ht p sp hpc
    | front f =>
      have hc : (step (vfront cap) s.shared t).1.ctr = ((vfront cap).step s.shared.ctr op.isPush op.kind f).1 := by
        simp only [step, htodo, hpc]; split <;> rfl
      unfold VInv
      simp only [hc]
      refine front_step h i t ht f hpc op rest htodo ?_
      rcases vfront_cases cap s.shared.ctr op.isPush op.kind f with ⟨-, e, -⟩ | ⟨-, e, -⟩ | ⟨-, hb, h1, h2, e⟩ |
        ⟨-, hb, h1, e⟩ | ⟨-, hb, h1, h2, e⟩ | ⟨-, hb, h1, e⟩ <;> rw [e]
      · simp
      · simp
      · refine ⟨by omega, fun q hq => ?_⟩
        simp only [vtick, hb, if_true]
        split <;> split <;> split <;> omega
      · intro q hq
        simp only [vtick]
        split <;> split <;> omega
      · refine ⟨by omega, fun q hq => ?_⟩
        simp only [vtick, hb, Bool.false_eq_true, if_false]
        split <;> split <;> split <;> omega
      · intro q hq
        simp only [vtick]
        split <;> split <;> omega

theorem contents_of_holds {v : Vec α} {l : List α} (h : Holds v l) : contents (cap v) v.slots.data = (l : Multiset α) := by
  rw [contents_eq, liveIn_congr _ (fun p => l[p]?) 0 _ (fun p _ hp => h.data p hp),
    liveIn_split _ 0 l.length _ (Nat.zero_le _) h.len, liveIn_list _ _ (le_refl _),
    liveIn_none _ l.length _ (fun p hp _ => List.getElem?_eq_none hp)]
  simp

theorem vinv_init {v : Vec α} {l : List α} (h : Holds v l)
    (programs : List (List (Op Unit α))) :
    VInv (cap v) (l : Multiset α) programs (init (vfront (cap v)) v programs) := by
  unfold VInv
  rw [← contents_of_holds h]
  refine sinv_init v programs rfl h.err h.locks ?_ ?_
  · intro p hp
    rw [h.data p hp, h.occ p hp]
    by_cases hl : p < l.length
    · rw [List.getElem?_eq_getElem hl]; simp [hl]
    · rw [List.getElem?_eq_none (by omega)]; simp; omega
  · intro p hp
    have hc := h.ctr
    show vtick v.ctr p = _
    rw [h.occ p hp, hc]
    unfold vtick
    by_cases hl : p < l.length
    · rw [if_pos (by omega)]; simp [hl]
    · rw [if_neg (by omega)]; simp [hl]

theorem vinv_run {v : Vec α} {l : List α} (h : Holds v l)
    (programs : List (List (Op Unit α))) (sched : List Nat) :
    VInv (cap v) (l : Multiset α) programs (run (step (vfront (cap v))) (init (vfront (cap v)) v programs) sched) :=
  run_inv (VInv (cap v) (l : Multiset α) programs) (fun s i t hs ht => vinv_step s i t hs ht) _
    (vinv_init h programs) sched

/-! ### Pushes only -/

structure PushInv (cap : Nat) (l : List α) (programs : List (List (Op Unit α))) (s : VSys α) : Prop where
  v : VInv cap (l : Multiset α) programs s
  ge : (l.length : Int) ≤ s.shared.ctr
  pos : ∀ t ∈ s.threads, ∀ p sp, t.pc = .slot p sp → l.length ≤ p
  old : ∀ p, p < l.length → s.shared.slots.data p = l[p]?
  failed : ∀ t ∈ s.threads, ∀ op, (op, Res.pushFailed) ∈ t.done → (cap : Int) ≤ s.shared.ctr

theorem pushInv_step {cap : Nat} {l : List α} {programs : List (List (Op Unit α))}
    (hp : ∀ p ∈ programs, ∀ op ∈ p, op.isPush = true) (s : VSys α) (i : Nat)
    (t : VThread α) (h : PushInv cap l programs s) (ht : s.threads[i]? = some t) :
    PushInv cap l programs
      ⟨(step (vfront cap) s.shared t).1, s.threads.set i (step (vfront cap) s.shared t).2⟩ := by
  have hv := vinv_step s i t h.v ht
  have hmem := List.mem_of_getElem? ht
  cases htodo : t.todo with
  | nil => rw [done_step i t ht htodo]; exact h
  | cons op rest =>
    have hpush : op.isPush = true := by
      obtain ⟨p, hp', e⟩ := prog_mem h.v t hmem
      exact hp p hp' op (by rw [e, htodo]; simp)
    have key : ∀ (m' : Mem Int α) (t' : VThread α), step (vfront cap) s.shared t = (m', t') →
        s.shared.ctr ≤ m'.ctr → (∀ p sp, t'.pc = .slot p sp → l.length ≤ p) →
        (∀ p, p < l.length → m'.slots.data p = s.shared.slots.data p) →
        (∀ op', (op', Res.pushFailed) ∈ t'.done → (op', Res.pushFailed) ∈ t.done ∨ (cap : Int) ≤ m'.ctr) →
        PushInv cap l programs ⟨(step (vfront cap) s.shared t).1, s.threads.set i (step (vfront cap) s.shared t).2⟩ := by
      intro m' t' e h1 h2 h3 h4
      rw [e] at hv ⊢
      have h1' : s.shared.ctr ≤ m'.ctr := h1
      refine ⟨hv, le_trans h.ge h1', ?_, ?_, ?_⟩
      · intro x hx
        rcases mem_set_cases _ _ _ _ hx with rfl | ⟨j, -, hj⟩
        · exact h2
        · exact h.pos x (List.mem_of_getElem? hj)
      · intro p hp; simp only [h3 p hp]; exact h.old p hp
      · intro x hx op' hop
        rcases mem_set_cases _ _ _ _ hx with rfl | ⟨j, -, hj⟩
        · rcases h4 op' hop with h5 | h5
          · exact le_trans (h.failed t hmem op' h5) h1'
          · exact h5
        · exact le_trans (h.failed x (List.mem_of_getElem? hj) op' hop) h1'
    have hge := h.ge
    cases hpc : t.pc with
    | slot p sp =>
      have hpl := h.pos t hmem p sp hpc
      obtain ⟨-, op', rest', e1, hfit⟩ := (h.v.shape t hmem).1 p sp hpc
      have hfit' : sp.fits op := by rw [htodo] at e1; simp at e1; rw [e1.1]; exact hfit
      have hframe := fun q hq => (slotStep_frame s.shared.slots op p sp q hq).1
      refine key _ _ rfl ?_ ?_ ?_ ?_
      · simp only [step, htodo, hpc]; split <;> simp
      · intro q sq hq
        simp only [step, htodo, hpc] at hq
        split at hq
        · simp at hq; omega
        · simp at hq
      · intro q hq
        have := hframe q (by omega)
        simp only [step, htodo, hpc]
        split <;> exact this
      · intro op' hop
        simp only [step, htodo, hpc] at hop
        split at hop
        · exact Or.inl hop
        · rename_i r hr
          simp only [List.mem_append, List.mem_singleton, Prod.mk.injEq] at hop
          rcases hop with hop | ⟨-, rfl⟩
          · exact Or.inl hop
          · rcases slotStep_inr _ _ _ _ hfit' _ hr with ⟨-, h'⟩ | ⟨-, v, h'⟩ <;> simp at h'
    | front f =>
      rcases vfront_cases cap s.shared.ctr op.isPush op.kind f with ⟨-, e, -⟩ | ⟨-, e, h1, -⟩ | ⟨-, hb, h1, h2, e⟩ |
        ⟨-, hb, h1, e⟩ | ⟨-, hb, -⟩ | ⟨-, hb, -⟩
      · exact key _ _ (step_cont _ _ htodo hpc e) (le_refl _) (by simp) (by simp) (fun _ hx => Or.inl hx)
      · refine key _ _ (step_fail _ _ htodo hpc e) (le_refl _) (by simp) (by simp) (fun _ _ => Or.inr ?_)
        have := h1 hpush
        have : (0 : Int) ≤ s.shared.ctr := by omega
        simp only; omega
      · refine key _ _ (step_go _ _ htodo hpc e) (by simp) ?_ (by simp) (fun _ hx => Or.inl hx)
        intro p sp hx; simp at hx; omega
      · refine key _ _ (step_fail _ _ htodo hpc e) (by simp) (by simp) (by simp) (fun _ _ => Or.inr ?_)
        simp only; omega
      · rw [hpush] at hb; simp at hb
      · rw [hpush] at hb; simp at hb

theorem length_filterMap_le' {β γ : Type} (f : β → Option γ) (l : List β) : (l.filterMap f).length ≤ l.length :=
  List.length_filterMap_le f l

theorem results_length {cap : Nat} {c₀ : Multiset α} {programs : List (List (Op Unit α))} {s : VSys α}
    (h : VInv cap c₀ programs s) (hf : Finished s) : (results s).length = programs.flatten.length := by
  have := ops_count h (fun _ => true)
  have e : s.threads.flatMap (·.todo) = [] := by
    rw [List.flatMap_eq_nil_iff]; exact hf
  rw [e] at this
  simpa using this

theorem results_op {cap : Nat} {c₀ : Multiset α} {programs : List (List (Op Unit α))} {s : VSys α}
    (h : VInv cap c₀ programs s) {e : Op Unit α × Res α} (he : e ∈ results s) : ∃ p ∈ programs, e.1 ∈ p := by
  obtain ⟨t, ht, he⟩ := mem_results.1 he
  obtain ⟨p, hp, e1⟩ := prog_mem h t ht
  exact ⟨p, hp, by rw [e1]; exact List.mem_append_left _ (List.mem_map_of_mem he)⟩

theorem filterMap_length_eq {β γ : Type} (f : β → Option γ) (l : List β) (h : ∀ x ∈ l, (f x).isSome) :
    (l.filterMap f).length = l.length := by
  rw [List.length_filterMap_eq_countP, List.countP_eq_length.2 h]

theorem push_final {cap : Nat} {l : List α} {programs : List (List (Op Unit α))} {s : VSys α}
    (hp : ∀ p ∈ programs, ∀ op ∈ p, op.isPush = true) (hlen : l.length ≤ cap)
    (h : PushInv cap l programs s) (hf : Finished s) :
    (pushedVals s).length = min programs.flatten.length (cap - l.length) ∧
    ∃ l', l'.Perm (pushedVals s) ∧ (∀ p, p < cap → s.shared.slots.data p = (l ++ l')[p]?) ∧
      (∀ p, p < cap → s.shared.slots.occ p = decide (p < (l ++ l').length)) ∧
      clampSize cap s.shared.ctr = (l ++ l').length := by
  have hq := quiet_of_finished h.v hf
  have hocc := fun p hp => quiet_occ h.v hq p hp
  have hlive := fun p hp => quiet_live h.v hq p hp
  have hcons := quiet_cons h.v hq
  have hge := h.ge
  obtain ⟨c, hc⟩ : ∃ c, c = min s.shared.ctr.toNat cap := ⟨_, rfl⟩
  have hlc : l.length ≤ c := by omega
  have hcc : c ≤ cap := by omega
  have hocc' : ∀ p, p < cap → s.shared.slots.occ p = decide (p < c) := by
    intro p hp
    have := hocc p hp
    unfold vtick at this
    split at this
    · have : s.shared.slots.occ p = true := by
        cases h : s.shared.slots.occ p <;> simp [h] at this ⊢
      rw [this]; simp; omega
    · have : s.shared.slots.occ p = false := by
        cases h : s.shared.slots.occ p <;> simp [h] at this ⊢
      rw [this]; simp; omega
  have hsome : ∀ p, p < c → (s.shared.slots.data p).isSome := by
    intro p hp; rw [hlive p (by omega), hocc' p (by omega)]; simpa using hp
  have hnone : ∀ p, c ≤ p → p < cap → s.shared.slots.data p = none := by
    intro p h1 h2
    have := hlive p h2
    rw [hocc' p h2] at this
    have hd : decide (p < c) = false := by simp; omega
    rw [hd] at this
    simpa using this
  have hold : liveIn s.shared.slots.data 0 l.length = l := by
    rw [liveIn_congr _ (fun p => l[p]?) 0 _ (fun p _ hp => h.old p hp), liveIn_list _ _ (le_refl _)]; simp
  have hpop : poppedVals s = [] := by
    unfold poppedVals
    rw [List.filterMap_eq_nil_iff]
    rintro ⟨op, r⟩ he
    obtain ⟨p, h1, h2⟩ := results_op h.v he
    have h3 := hp p h1 _ h2
    have h4 := results_fit h.v _ he
    cases op with
    | pop k => simp [Op.isPush] at h3
    | push k x => cases r <;> simp [resFits] at h4 <;> rfl
  rw [liveIn_split _ 0 l.length cap (by omega) hlen, hold, liveIn_split _ l.length c cap hlc hcc,
    liveIn_none _ c cap hnone, hpop] at hcons
  simp only [List.append_nil, ← Multiset.coe_add, Multiset.coe_nil, add_zero] at hcons
  have hperm := Multiset.coe_eq_coe.1 (add_left_cancel hcons)
  have hl' := liveIn_length s.shared.slots.data l.length c (fun p _ hp => hsome p hp)
  have hn := results_length h.v hf
  refine ⟨?_, liveIn s.shared.slots.data l.length c, hperm.symm, ?_, ?_, ?_⟩
  · rw [hperm.length_eq, hl']
    have hle : (pushedVals s).length ≤ programs.flatten.length := hn ▸ List.length_filterMap_le _ _
    rw [hperm.length_eq, hl'] at hle
    by_cases hfail : ∃ e ∈ results s, e.2 = Res.pushFailed
    · obtain ⟨⟨op, r⟩, he, rfl⟩ := hfail
      obtain ⟨t, ht, he⟩ := mem_results.1 he
      have := h.failed t ht op he
      omega
    · have : (pushedVals s).length = (results s).length := by
        apply filterMap_length_eq
        rintro ⟨op, r⟩ he
        obtain ⟨p, h1, h2⟩ := results_op h.v he
        have h3 := hp p h1 _ h2
        have h4 := results_fit h.v _ he
        have h5 : r ≠ Res.pushFailed := fun e => hfail ⟨_, he, e⟩
        cases op with
        | pop k => simp [Op.isPush] at h3
        | push k x => cases r <;> simp [resFits, pushVal] at h4 h5 ⊢
      rw [hperm.length_eq, hl', hn] at this
      omega
  · intro p hp
    by_cases h1 : p < l.length
    · rw [List.getElem?_append_left h1]; exact h.old p h1
    · rw [List.getElem?_append_right (by omega)]
      by_cases h2 : p < c
      · rw [liveIn_get _ _ _ (fun p _ hp => hsome p hp) _ (by omega)]; congr 1; omega
      · rw [List.getElem?_eq_none (by omega)]; exact hnone p (by omega) hp
  · intro p hp
    rw [hocc' p hp, List.length_append, hl']; congr 1; rw [show l.length + (c - l.length) = c by omega]
  · rw [List.length_append, hl', clampSize]
    split
    · omega
    · split <;> omega

/-! ### Pops only -/

structure PopInv (cap : Nat) (l : List α) (programs : List (List (Op Unit α))) (s : VSys α) : Prop where
  v : VInv cap (l : Multiset α) programs s
  le : s.shared.ctr ≤ l.length
  pos : ∀ t ∈ s.threads, ∀ p sp, t.pc = .slot p sp → s.shared.ctr ≤ p
  old : ∀ p : Nat, (p : Int) < s.shared.ctr → s.shared.slots.data p = l[p]?
  failed : ∀ t ∈ s.threads, ∀ op, (op, Res.popFailed) ∈ t.done → s.shared.ctr ≤ 0

theorem popInv_step {cap : Nat} {l : List α} {programs : List (List (Op Unit α))}
    (hp : ∀ p ∈ programs, ∀ op ∈ p, op.isPush = false) (hlen : l.length ≤ cap) (s : VSys α) (i : Nat)
    (t : VThread α) (h : PopInv cap l programs s) (ht : s.threads[i]? = some t) :
    PopInv cap l programs
      ⟨(step (vfront cap) s.shared t).1, s.threads.set i (step (vfront cap) s.shared t).2⟩ := by
  have hv := vinv_step s i t h.v ht
  have hmem := List.mem_of_getElem? ht
  cases htodo : t.todo with
  | nil => rw [done_step i t ht htodo]; exact h
  | cons op rest =>
    have hpush : op.isPush = false := by
      obtain ⟨p, hp', e⟩ := prog_mem h.v t hmem
      exact hp p hp' op (by rw [e, htodo]; simp)
    have key : ∀ (m' : Mem Int α) (t' : VThread α), step (vfront cap) s.shared t = (m', t') →
        m'.ctr ≤ s.shared.ctr → (∀ p sp, t'.pc = .slot p sp → m'.ctr ≤ p) →
        (∀ p : Nat, (p : Int) < s.shared.ctr → m'.slots.data p = s.shared.slots.data p) →
        (∀ op', (op', Res.popFailed) ∈ t'.done → (op', Res.popFailed) ∈ t.done ∨ m'.ctr ≤ 0) →
        PopInv cap l programs ⟨(step (vfront cap) s.shared t).1, s.threads.set i (step (vfront cap) s.shared t).2⟩ := by
      intro m' t' e h1 h2 h3 h4
      rw [e] at hv ⊢
      have h1' : m'.ctr ≤ s.shared.ctr := h1
      refine ⟨hv, le_trans h1' h.le, ?_, ?_, ?_⟩
      · intro x hx
        rcases mem_set_cases _ _ _ _ hx with rfl | ⟨j, -, hj⟩
        · exact h2
        · exact fun p sp e => le_trans h1' (h.pos x (List.mem_of_getElem? hj) p sp e)
      · intro p hp
        have hp' : (p : Int) < s.shared.ctr := lt_of_lt_of_le hp h1'
        simp only [h3 p hp']; exact h.old p hp'
      · intro x hx op' hop
        rcases mem_set_cases _ _ _ _ hx with rfl | ⟨j, -, hj⟩
        · rcases h4 op' hop with h5 | h5
          · exact le_trans h1' (h.failed t hmem op' h5)
          · exact h5
        · exact le_trans h1' (h.failed x (List.mem_of_getElem? hj) op' hop)
    have hle := h.le
    cases hpc : t.pc with
    | slot p sp =>
      have hpl := h.pos t hmem p sp hpc
      obtain ⟨-, op', rest', e1, hfit⟩ := (h.v.shape t hmem).1 p sp hpc
      have hfit' : sp.fits op := by rw [htodo] at e1; simp at e1; rw [e1.1]; exact hfit
      have hframe := fun q hq => (slotStep_frame s.shared.slots op p sp q hq).1
      refine key _ _ rfl ?_ ?_ ?_ ?_
      · simp only [step, htodo, hpc]; split <;> simp
      · intro q sq hq
        simp only [step, htodo, hpc] at hq ⊢
        split at hq
        · simp at hq
          rw [← hq.1]
          exact hpl
        · simp at hq
      · intro q hq
        have := hframe q (by omega)
        simp only [step, htodo, hpc]
        split <;> exact this
      · intro op' hop
        simp only [step, htodo, hpc] at hop
        split at hop
        · exact Or.inl hop
        · rename_i r hr
          simp only [List.mem_append, List.mem_singleton, Prod.mk.injEq] at hop
          rcases hop with hop | ⟨-, rfl⟩
          · exact Or.inl hop
          · rcases slotStep_inr _ _ _ _ hfit' _ hr with ⟨-, h'⟩ | ⟨-, v, h'⟩ <;> simp at h'
    | front f =>
      rcases vfront_cases cap s.shared.ctr op.isPush op.kind f with ⟨-, e, -⟩ | ⟨-, e, -, h1⟩ | ⟨-, hb, -⟩ |
        ⟨-, hb, -⟩ | ⟨-, hb, h1, h2, e⟩ | ⟨-, hb, h1, e⟩
      · exact key _ _ (step_cont _ _ htodo hpc e) (le_refl _) (by simp) (by simp) (fun _ hx => Or.inl hx)
      · refine key _ _ (step_fail _ _ htodo hpc e) (le_refl _) (by simp) (by simp) (fun _ _ => Or.inr ?_)
        have := h1 hpush
        simp only; omega
      · rw [hpush] at hb; simp at hb
      · rw [hpush] at hb; simp at hb
      · refine key _ _ (step_go _ _ htodo hpc e) (by simp only; omega) ?_ (by simp) (fun _ hx => Or.inl hx)
        intro p sp hx; simp at hx ⊢; omega
      · refine key _ _ (step_fail _ _ htodo hpc e) (by simp only; omega) (by simp) (by simp) (fun _ _ => Or.inr ?_)
        simp only; omega

theorem pop_final {cap : Nat} {l : List α} {programs : List (List (Op Unit α))} {s : VSys α}
    (hp : ∀ p ∈ programs, ∀ op ∈ p, op.isPush = false) (hlen : l.length ≤ cap)
    (h : PopInv cap l programs s) (hf : Finished s) :
    let k := min programs.flatten.length l.length
    (poppedVals s).Perm (l.drop (l.length - k)) ∧
      (∀ p, p < cap → s.shared.slots.data p = (l.take (l.length - k))[p]?) ∧
      (∀ p, p < cap → s.shared.slots.occ p = decide (p < l.length - k)) ∧
      clampSize cap s.shared.ctr = ((l.length - k : Nat) : Int) := by
  intro k
  have hq := quiet_of_finished h.v hf
  have hocc := fun p hp => quiet_occ h.v hq p hp
  have hlive := fun p hp => quiet_live h.v hq p hp
  have hcons := quiet_cons h.v hq
  have hle := h.le
  obtain ⟨c, hc⟩ : ∃ c, c = s.shared.ctr.toNat := ⟨_, rfl⟩
  have hcl : c ≤ l.length := by omega
  have hocc' : ∀ p, p < cap → s.shared.slots.occ p = decide (p < c) := by
    intro p hp
    have := hocc p hp
    unfold vtick at this
    split at this
    · have : s.shared.slots.occ p = true := by
        cases h : s.shared.slots.occ p <;> simp [h] at this ⊢
      rw [this]; simp; omega
    · have : s.shared.slots.occ p = false := by
        cases h : s.shared.slots.occ p <;> simp [h] at this ⊢
      rw [this]; simp; omega
  have hnone : ∀ p, c ≤ p → p < cap → s.shared.slots.data p = none := by
    intro p h1 h2
    have := hlive p h2
    rw [hocc' p h2] at this
    have hd : decide (p < c) = false := by simp; omega
    rw [hd] at this
    simpa using this
  have hold : liveIn s.shared.slots.data 0 c = l.take c := by
    rw [liveIn_congr _ (fun p => l[p]?) 0 _ (fun p _ hp => h.old p (by omega)), liveIn_list _ _ hcl]
  have hpush : pushedVals s = [] := by
    unfold pushedVals
    rw [List.filterMap_eq_nil_iff]
    rintro ⟨op, r⟩ he
    obtain ⟨p, h1, h2⟩ := results_op h.v he
    have h3 := hp p h1 _ h2
    cases op with
    | push k x => simp [Op.isPush] at h3
    | pop k => cases r <;> rfl
  rw [liveIn_split _ 0 c cap (by omega) (by omega), hold, liveIn_none _ c cap hnone, hpush] at hcons
  simp only [List.append_nil, Multiset.coe_nil, add_zero] at hcons
  have hsplit : (l : Multiset α) = (l.take c : Multiset α) + (l.drop c : Multiset α) := by
    rw [Multiset.coe_add, List.take_append_drop]
  rw [hsplit] at hcons
  have hperm := (Multiset.coe_eq_coe.1 (add_left_cancel hcons)).symm
  have hn := results_length h.v hf
  have hck : l.length - k = c := by
    have hle' : (poppedVals s).length ≤ programs.flatten.length := hn ▸ List.length_filterMap_le _ _
    have hlen' := hperm.length_eq
    rw [List.length_drop] at hlen'
    by_cases hfail : ∃ e ∈ results s, e.2 = Res.popFailed
    · obtain ⟨⟨op, r⟩, he, rfl⟩ := hfail
      obtain ⟨t, ht, he⟩ := mem_results.1 he
      have := h.failed t ht op he
      omega
    · have : (poppedVals s).length = (results s).length := by
        apply filterMap_length_eq
        rintro ⟨op, r⟩ he
        obtain ⟨p, h1, h2⟩ := results_op h.v he
        have h3 := hp p h1 _ h2
        have h4 := results_fit h.v _ he
        have h5 : r ≠ Res.popFailed := fun e => hfail ⟨_, he, e⟩
        cases op with
        | push k x => simp [Op.isPush] at h3
        | pop k => cases r <;> simp [resFits, popVal] at h4 h5 ⊢
      omega
  rw [hck]
  refine ⟨hperm, ?_, hocc', ?_⟩
  · intro p hp
    by_cases h1 : p < c
    · rw [List.getElem?_take_of_lt h1]; exact h.old p (by omega)
    · rw [List.getElem?_eq_none (by simp; omega)]; exact hnone p (by omega) hp
  · rw [clampSize]
    split
    · omega
    · split <;> omega

/-! ### No boundary crossing -/

/-- Pushes (pops) of this thread that have not performed their counter update yet. -/
def remOps (b : Bool) (t : VThread α) : Nat :=
  match t.pc with
  | .front _ => t.todo.countP (fun op => op.isPush == b)
  | .slot _ _ => t.todo.tail.countP (fun op => op.isPush == b)

structure RoomInv (cap : Nat) (l : List α) (programs : List (List (Op Unit α))) (s : VSys α) : Prop where
  v : VInv cap (l : Multiset α) programs s
  hi : s.shared.ctr + (s.threads.map (remOps true)).sum ≤ cap
  lo : 0 ≤ s.shared.ctr - (s.threads.map (remOps false)).sum
  ok : ∀ t ∈ s.threads, ∀ e ∈ t.done, e.2 ≠ Res.pushFailed ∧ e.2 ≠ Res.popFailed

theorem roomInv_step {cap : Nat} {l : List α} {programs : List (List (Op Unit α))}
    (s : VSys α) (i : Nat) (t : VThread α) (h : RoomInv cap l programs s) (ht : s.threads[i]? = some t) :
    RoomInv cap l programs
      ⟨(step (vfront cap) s.shared t).1, s.threads.set i (step (vfront cap) s.shared t).2⟩ := by
  have hv := vinv_step s i t h.v ht
  have hmem := List.mem_of_getElem? ht
  cases htodo : t.todo with
  | nil => rw [done_step i t ht htodo]; exact h
  | cons op rest =>
    have key : ∀ (m' : Mem Int α) (t' : VThread α), step (vfront cap) s.shared t = (m', t') →
        m'.ctr + remOps true t' ≤ s.shared.ctr + remOps true t →
        s.shared.ctr - remOps false t ≤ m'.ctr - remOps false t' →
        (∀ e ∈ t'.done, e ∈ t.done ∨ (e.2 ≠ Res.pushFailed ∧ e.2 ≠ Res.popFailed)) →
        RoomInv cap l programs ⟨(step (vfront cap) s.shared t).1, s.threads.set i (step (vfront cap) s.shared t).2⟩ := by
      intro m' t' e h1 h2 h3
      rw [e] at hv ⊢
      have a1 := sum_map_set (remOps true) s.threads i t t' ht
      have a2 := sum_map_set (remOps false) s.threads i t t' ht
      have b1 := h.hi
      have b2 := h.lo
      refine ⟨hv, ?_, ?_, ?_⟩
      · simp only; omega
      · simp only; omega
      · intro x hx w he
        rcases mem_set_cases _ _ _ _ hx with rfl | ⟨j, -, hj⟩
        · rcases h3 w he with h4 | h4
          · exact h.ok t hmem w h4
          · exact h4
        · exact h.ok x (List.mem_of_getElem? hj) w he
    have r1 := le_sum_map (remOps true) s.threads t hmem
    have r2 := le_sum_map (remOps false) s.threads t hmem
    have b1 := h.hi
    have b2 := h.lo
    cases hpc : t.pc with
    | slot p sp =>
      obtain ⟨-, op', rest', e1, hfit⟩ := (h.v.shape t hmem).1 p sp hpc
      have hfit' : sp.fits op := by rw [htodo] at e1; simp at e1; rw [e1.1]; exact hfit
      cases hr : (slotStep s.shared.slots op p sp).2 with
      | inl s' =>
        refine key { s.shared with slots := (slotStep s.shared.slots op p sp).1 } { t with pc := .slot p s' } ?_ ?_ ?_ ?_
        · simp only [step, htodo, hpc, hr]
        · simp [remOps, hpc]
        · simp [remOps, hpc]
        · intro e he; exact Or.inl he
      | inr r =>
        refine key { s.shared with slots := (slotStep s.shared.slots op p sp).1 }
          { todo := rest, pc := .front (vfront cap).start, done := t.done ++ [(op, r)] } ?_ ?_ ?_ ?_
        · simp only [step, htodo, hpc, hr]
        · simp [remOps, hpc, htodo]
        · simp [remOps, hpc, htodo]
        · intro e he
          simp only [List.mem_append, List.mem_singleton] at he
          rcases he with he | rfl
          · exact Or.inl he
          · right
            rcases slotStep_inr _ _ _ _ hfit' _ hr with ⟨-, h'⟩ | ⟨-, v, h'⟩ <;> simp [h']
    | front f =>
      have c1 : remOps true t = (if op.isPush then 1 else 0) + rest.countP (fun op => op.isPush == true) := by
        simp only [remOps, hpc, htodo, List.countP_cons]; cases op.isPush <;> simp; omega
      have c2 : remOps false t = (if op.isPush then 0 else 1) + rest.countP (fun op => op.isPush == false) := by
        simp only [remOps, hpc, htodo, List.countP_cons]; cases op.isPush <;> simp; omega
      rcases vfront_cases cap s.shared.ctr op.isPush op.kind f with ⟨-, e, -⟩ | ⟨-, e, h1, h2⟩ | ⟨-, hb, h1, h2, e⟩ |
        ⟨-, hb, h1, e⟩ | ⟨-, hb, h1, h2, e⟩ | ⟨-, hb, h1, e⟩
      · exact key _ _ (step_cont _ _ htodo hpc e) (by simp [remOps, hpc]) (by simp [remOps, hpc])
          (fun _ hx => Or.inl hx)
      · exfalso
        cases hb : op.isPush with
        | true => have := h1 hb; simp [hb] at c1; omega
        | false => have := h2 hb; simp [hb] at c2; omega
      · refine key _ _ (step_go _ _ htodo hpc e) ?_ ?_ (fun _ hx => Or.inl hx)
        · simp [hb] at c1; simp [remOps, htodo] at *; omega
        · simp [hb] at c2; simp [remOps, htodo] at *; omega
      · exfalso; simp [hb] at c1; omega
      · refine key _ _ (step_go _ _ htodo hpc e) ?_ ?_ (fun _ hx => Or.inl hx)
        · simp [hb] at c1; simp [remOps, htodo] at *; omega
        · simp [hb] at c2; simp [remOps, htodo] at *; omega
      · exfalso; simp [hb] at c2; omega

end Stdgpu.Vector
