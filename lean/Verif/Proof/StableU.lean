import Verif.Props.UConserve
import Verif.Props.UFairness
/-! Entries of unordered containers whose keys are not erased stay as they are, in every mixture of operations. -/
namespace Stdgpu.UnorderedConc.An
open Stdgpu.Unordered Stdgpu.UnorderedConc Stdgpu.Spec Stdgpu.Conc Stdgpu.Props

variable {K V : Type} {P : Params K V} {t₀ : Tab V} {progs : List (List (Op K V))}

/-- The entry whose value an erasure is about to destroy after it has reset the occupied bit. -/
def goneAt : EPC → Option Nat
  | .cntB p | .desB p | .cnt p _ | .des p _ => some p
  | _ => none

structure KI (P : Params K V) (t₀ : Tab V) (progs : List (List (Op K V))) (s : Sys (Shared V) (Thread K V)) : Prop where
  inv : Inv P (fun _ => true) t₀ s
  progs : s.threads.map progOf = progs
  gone : ∀ t ∈ s.threads, ∀ k pc p, t.cur = .era k pc → goneAt pc = some p →
    ∃ x, s.shared.tab.val p = some x ∧ P.keyEq (P.keyOf x) k = true

theorem KI.erases {s : Sys (Shared V) (Thread K V)} (h : KI P t₀ progs s) {t : Thread K V} (ht : t ∈ s.threads) {k : K} {pc : EPC}
    (hc : t.cur = .era k pc) {x : V} (hx : P.keyEq (P.keyOf x) k = true) : erases P progs (P.keyOf x) = true := by
  unfold Spec.erases
  rw [List.any_eq_true]
  refine ⟨.erase k, List.mem_flatten.2 ⟨progOf t, ?_, by simp [progOf, Cur.ops, hc]⟩, hx⟩
  rw [← h.progs]
  exact List.mem_map.2 ⟨t, ht, rfl⟩

theorem gone_tok {pc : EPC} {p : Nat} (h : goneAt pc = some p) : eTok pc = some p := by
  cases pc <;> simp [goneAt] at h <;> simp [eTok, h]

/-- The entry whose value has been constructed stays, and stays occupied if it is, unless its key is erased. -/
theorem keep_step (h0 : 0 < t₀.bc) (h1 : t₀.bc < 2 ^ 63) (hle : t₀.bc ≤ t₀.total) {s : Sys (Shared V) (Thread K V)}
    (h : KI P t₀ progs s) {i : Nat} {t : Thread K V} (ht : s.threads[i]? = some t)
    (hu : (UnorderedConc.step P s.shared t).1.ub = false) {p : Nat} {x : V} (hl : s.shared.tab.live p = true)
    (hv : s.shared.tab.val p = some x) (hx : Spec.erases P progs (P.keyOf x) = false) :
    (UnorderedConc.step P s.shared t).1.tab.live p = true ∧ (UnorderedConc.step P s.shared t).1.tab.val p = some x ∧
    (s.shared.tab.occ p = true → (UnorderedConc.step P s.shared t).1.tab.occ p = true) := by
  have hm := List.mem_of_getElem? ht
  have hh : ∀ p ∈ tHeld P t₀.bc t, s.shared.tab.locks p = true := by
    intro p hp
    have e1 := le_sum_map (fun t => (tHeld P t₀.bc t).count p) s.threads t hm
    have e2 := List.count_pos_iff.2 hp
    have e3 := h.inv.lock p
    cases hl : s.shared.tab.locks p
    · rw [hl] at e3; simp at e3; omega
    · rfl
  have hgood := h.inv.good t hm
  obtain ⟨eff, -⟩ := step_ok (q := fun _ => true) (fun _ _ _ => rfl) h.inv.bc h0 h1 (by rw [h.inv.total]; exact hle) h.inv.g hgood hh hu
  by_cases htok : tTok P t₀.bc t = some p
  · have same : (UnorderedConc.step P s.shared t).1.tab.live = s.shared.tab.live →
        (UnorderedConc.step P s.shared t).1.tab.val = s.shared.tab.val →
        (s.shared.tab.occ p = true → (UnorderedConc.step P s.shared t).1.tab.occ p = true) →
        (UnorderedConc.step P s.shared t).1.tab.live p = true ∧ (UnorderedConc.step P s.shared t).1.tab.val p = some x ∧
        (s.shared.tab.occ p = true → (UnorderedConc.step P s.shared t).1.tab.occ p = true) :=
      fun a b c => ⟨by rw [a]; exact hl, by rw [b]; exact hv, c⟩
    obtain ⟨todo, cur, ex, done⟩ := t
    have contra : ∀ k pc, cur = .era k pc → (∃ y, s.shared.tab.val p = some y ∧ P.keyEq (P.keyOf y) k = true) → False := by
      rintro k pc rfl ⟨y, e1, e2⟩
      rw [hv] at e1
      cases e1
      rw [h.erases hm rfl e2] at hx
      cases hx
    cases cur with
    | idle => cases htok
    | fnd k W => cases htok
    | ins v pc =>
      simp only [tTok] at htok
      cases pc <;> simp only [iTok] at htok <;> (try cases htok) <;>
        exact same rfl rfl (by intro ho; simp [UnorderedConc.step, insStep, setOcc, setOff, addCount, SlotConc.upd, ho])
    | era k pc =>
      simp only [tTok] at htok
      have hg := hgood.2
      simp only at hg
      cases pc with
      | f2 p' W =>
        have e := find_tab s.shared (fun w => P.keyEq (P.keyOf w) k) W
        have : (UnorderedConc.step P s.shared ⟨todo, .era k (.f2 p' W), ex, done⟩).1.tab = s.shared.tab := by
          simp only [UnorderedConc.step, eraStep]
          rcases hr : findStep s.shared (fun w => P.keyEq (P.keyOf w) k) W with ⟨m', w' | r⟩ <;> rw [hr] at e <;> exact e
        exact same (by rw [this]) (by rw [this]) (by rw [this]; exact id)
      | f3 p' q W =>
        have e := find_tab s.shared (fun w => P.keyEq (P.keyOf w) k) W
        have : (UnorderedConc.step P s.shared ⟨todo, .era k (.f3 p' q W), ex, done⟩).1.tab = s.shared.tab := by
          simp only [UnorderedConc.step, eraStep]
          rcases hr : findStep s.shared (fun w => P.keyEq (P.keyOf w) k) W with ⟨m', w' | r⟩ <;> rw [hr] at e <;> exact e
        exact same (by rw [this]) (by rw [this]) (by rw [this]; exact id)
      | p2 p' q it W =>
        simp only [eTok] at htok
        split at htok
        · next he => cases htok; exact (contra k _ rfl (hg he).2.2.2).elim
        · cases htok
      | cntB p' => cases htok; exact (contra k _ rfl (h.gone _ hm k _ p rfl rfl)).elim
      | desB p' => cases htok; exact (contra k _ rfl (h.gone _ hm k _ p rfl rfl)).elim
      | cnt p' q => cases htok; exact (contra k _ rfl (h.gone _ hm k _ p rfl rfl)).elim
      | des p' q => cases htok; exact (contra k _ rfl (h.gone _ hm k _ p rfl rfl)).elim
      | resetB | rd1 | rd2 | rd3 | wr | zero | reset => cases htok; exact (contra k _ rfl hg.2.2.2).elim
      | _ => cases htok
  · obtain ⟨e1, e2, e3⟩ := eff.frame p htok hl
    exact ⟨e2, by rw [e3]; exact hv, fun ho => by rw [e1]; exact ho⟩

theorem progs_step {s : Sys (Shared V) (Thread K V)} (h : s.threads.map progOf = progs) {i : Nat} {t : Thread K V}
    (ht : s.threads[i]? = some t) (m : Shared V) : (s.threads.set i (UnorderedConc.step P m t).2).map progOf = progs := by
  rw [List.map_set, progOf_step, ← h]
  apply List.ext_getElem?
  intro j
  rw [List.getElem?_set]
  split
  · next e =>
    subst e
    have := (List.getElem?_eq_some_iff.1 ht).1
    simp [this, ht]
    rw [(List.getElem?_eq_some_iff.1 ht).2]
  · rfl

theorem KI.step (h0 : 0 < t₀.bc) (h1 : t₀.bc < 2 ^ 63) (hle : t₀.bc ≤ t₀.total) {s : Sys (Shared V) (Thread K V)}
    (h : KI P t₀ progs s) {i : Nat} {t : Thread K V} (ht : s.threads[i]? = some t)
    (hu : (UnorderedConc.step P s.shared t).1.ub = false) :
    KI P t₀ progs ⟨(UnorderedConc.step P s.shared t).1, s.threads.set i (UnorderedConc.step P s.shared t).2⟩ := by
  refine ⟨h.inv.step (fun _ _ _ => rfl) h0 h1 hle ht hu, progs_step h.progs ht _, ?_⟩
  have hm := List.mem_of_getElem? ht
  have hh : ∀ p ∈ tHeld P t₀.bc t, s.shared.tab.locks p = true := by
    intro p hp
    have e1 := le_sum_map (fun t => (tHeld P t₀.bc t).count p) s.threads t hm
    have e2 := List.count_pos_iff.2 hp
    have e3 := h.inv.lock p
    cases hl : s.shared.tab.locks p
    · rw [hl] at e3; simp at e3; omega
    · rfl
  have hgood := h.inv.good t hm
  obtain ⟨eff, -⟩ := step_ok (q := fun _ => true) (fun _ _ _ => rfl) h.inv.bc h0 h1 (by rw [h.inv.total]; exact hle) h.inv.g hgood hh hu
  intro u hu' k pc p hc hp
  rcases mem_set_cases _ _ _ _ hu' with rfl | ⟨j, hj, hju⟩
  · obtain ⟨todo, cur, ex, done⟩ := t
    have hg := hgood.2
    have own := h.gone _ hm
    cases cur with
    | idle =>
      cases todo with
      | nil => cases hc
      | cons op rest => cases op <;> simp [UnorderedConc.step, begin] at hc; obtain ⟨rfl, rfl⟩ := hc; simp [goneAt] at hp
    | ins v pc' =>
      exfalso
      simp only [UnorderedConc.step] at hc
      split at hc <;> cases hc
    | fnd k' W =>
      exfalso
      simp only [UnorderedConc.step] at hc
      split at hc <;> cases hc
    | era k' pc' =>
      simp only at hg
      simp only [UnorderedConc.step] at hc ⊢
      rcases hr : eraStep s.shared (bucket P s.shared.tab k') (fun w => P.keyEq (P.keyOf w) k') ex pc' with ⟨m', ex', pc'' | ok⟩
      · rw [hr] at hc
        simp only [Cur.era.injEq] at hc ⊢
        obtain ⟨rfl, rfl⟩ := hc
        cases pc' with
        | resetB q => simp only [eraStep] at hr; cases hr; simp only [goneAt, Option.some.injEq] at hp; subst hp; exact hg.2.2.2
        | reset q q' => simp only [eraStep] at hr; cases hr; simp only [goneAt, Option.some.injEq] at hp; subst hp; exact hg.2.2.2
        | cntB q => simp only [eraStep] at hr; cases hr; simp only [goneAt, Option.some.injEq] at hp; subst hp; exact own k' _ q rfl rfl
        | cnt q q' => simp only [eraStep] at hr; cases hr; simp only [goneAt, Option.some.injEq] at hp; subst hp; exact own k' _ q rfl rfl
        | _ =>
          exfalso
          simp only [eraStep] at hr
          (repeat' split at hr) <;> (try cases hr) <;> simp [goneAt] at hp <;> (try split at hp) <;> simp [goneAt] at hp
      · rw [hr] at hc; cases hc
  · have hum := List.mem_of_getElem? hju
    have e := gone_tok hp
    have hk : tTok P t₀.bc u = some p := by simp [tTok, hc, e]
    obtain ⟨x, e1, e2⟩ := h.gone u hum k pc p hc hp
    obtain ⟨-, -, e3⟩ := eff.frame p (fun e => h.inv.own i j t u p (fun e => hj e.symm) ht hju e hk) (tok_good (h.inv.good u hum) hk).1
    exact ⟨x, by rw [e3]; exact e1, e2⟩

theorem ki_init {t : Tab V} {chain : Nat → List Nat} {free : List Nat} (h : Rep P t chain free) (progs : List (List (Op K V))) :
    KI P t progs (init t progs) := by
  refine ⟨inv_init h progs, progs_kept (P := P) [], ?_⟩
  intro u hu k pc p hc
  simp only [init, List.mem_map] at hu
  obtain ⟨_, -, rfl⟩ := hu
  cases hc

theorem ki_run {t : Tab V} {chain : Nat → List Nat} {free : List Nat}
    (h : Rep P t chain free) (progs : List (List (Op K V))) (sched : List Nat) :
    (uexec P t progs sched).shared.ub = true ∨ KI P t progs (uexec P t progs sched) := by
  refine run_inv (f := UnorderedConc.step P) (fun s => s.shared.ub = true ∨ KI P t progs s) ?_ _ (.inr (ki_init h progs)) sched
  intro s i u hs hu
  by_cases hb : (UnorderedConc.step P s.shared u).1.ub = true
  · exact .inl hb
  · rcases hs with hs | hs
    · exact absurd (ub_mono hs) hb
    · exact .inr (hs.step h.bc_pos h.bc_lt h.bc_le hu (by simpa using hb))

/-! ### Positions that have been returned -/

/-- The entry an insertion has made visible but not returned yet. -/
def visibleAt : IPC → Option Nat
  | .link _ n => some n
  | .unlock _ r => r
  | _ => none

/-- Only constructions change values. -/
theorem val_or_live (m : Shared V) (t : Thread K V) (p : Nat) :
    (UnorderedConc.step P m t).1.tab.val p = m.tab.val p ∨
    ((UnorderedConc.step P m t).1.tab.live p = true ∧ ∃ v, (UnorderedConc.step P m t).1.tab.val p = some v) := by
  obtain ⟨todo, cur, ex, done⟩ := t
  cases cur with
  | idle => cases todo <;> exact .inl rfl
  | fnd k W =>
    have := find_tab m (fun w => P.keyEq (P.keyOf w) k) W
    simp only [UnorderedConc.step]
    generalize findStep m (fun w => P.keyEq (P.keyOf w) k) W = r at this ⊢
    left
    rcases r with ⟨m', W' | (_ | p)⟩ <;> simp only at this ⊢ <;> rw [this]
  | ins v pc =>
    have key : ∀ b eq, (insStep m v b eq ex pc).1.tab.val p = m.tab.val p ∨
        ((insStep m v b eq ex pc).1.tab.live p = true ∧ ∃ v', (insStep m v b eq ex pc).1.tab.val p = some v') := by
      intro b eq
      cases pc with
      | c1 W =>
        have := find_tab m eq W
        simp only [insStep]
        generalize findStep m eq W = r at this ⊢
        left
        rcases r with ⟨m', W' | (_ | p)⟩ <;> simp only at this ⊢ <;> rw [this]
      | c2 W =>
        have := find_tab m eq W
        simp only [insStep]
        generalize findStep m eq W = r at this ⊢
        left
        rcases r with ⟨m', W' | (_ | p)⟩ <;> simp only at this ⊢ <;> rw [this]
      | c3 e e' W =>
        have := find_tab m eq W
        simp only [insStep]
        generalize findStep m eq W = r at this ⊢
        left
        rcases r with ⟨m', W' | (_ | p)⟩ <;> dsimp only at this ⊢ <;> (try split) <;> rw [this]
      | e1 W =>
        have := end_tab m W
        simp only [insStep]
        generalize endStep m W = r at this ⊢
        left
        rcases r with ⟨m', W' | p⟩ <;> simp only at this ⊢ <;> rw [this]
      | e2 e W =>
        have := end_tab m W
        simp only [insStep]
        generalize endStep m W = r at this ⊢
        left
        rcases r with ⟨m', W' | p⟩ <;> simp only at this ⊢ <;> rw [this]
      | pop e =>
        simp only [insStep]
        left
        split
        · split <;> rfl
        · rfl
      | lockB => simp only [insStep]; left; split <;> rfl
      | lockE e => simp only [insStep]; left; split <;> rfl
      | consB =>
        by_cases h : p = b
        · right; simp [insStep, constructAt, SlotConc.upd, h]
        · left; simp [insStep, constructAt, SlotConc.upd, h]
      | cons e n =>
        by_cases h : p = n
        · right; simp [insStep, constructAt, SlotConc.upd, h]
        · left; simp [insStep, constructAt, SlotConc.upd, h]
      | _ => exact .inl rfl
    have := key (bucket P m.tab (P.keyOf v)) (fun w => P.keyEq (P.keyOf w) (P.keyOf v))
    simp only [UnorderedConc.step]
    generalize insStep m v (bucket P m.tab (P.keyOf v)) (fun w => P.keyEq (P.keyOf w) (P.keyOf v)) ex pc = r at this ⊢
    rcases r with ⟨m', ex', pc' | (_ | p)⟩ <;> exact this
  | era k pc =>
    have key : ∀ b eq, (eraStep m b eq ex pc).1.tab.val p = m.tab.val p := by
      intro b eq
      cases pc with
      | f1 W =>
        have := find_tab m eq W
        simp only [eraStep]
        generalize findStep m eq W = r at this ⊢
        rcases r with ⟨m', W' | (_ | p)⟩ <;> simp only at this ⊢ <;> rw [this]
      | f2 p W =>
        have := find_tab m eq W
        simp only [eraStep]
        generalize findStep m eq W = r at this ⊢
        rcases r with ⟨m', W' | r⟩ <;> simp only at this ⊢ <;> rw [this]
      | f3 p q' W =>
        have := find_tab m eq W
        simp only [eraStep]
        generalize findStep m eq W = r at this ⊢
        rcases r with ⟨m', W' | r⟩ <;> simp only at this ⊢ <;> rw [this]
      | p1 p W =>
        have := prev_tab m p W
        simp only [eraStep]
        generalize prevStep m p W = r at this ⊢
        rcases r with ⟨m', W' | r⟩ <;> simp only at this ⊢ <;> rw [this]
      | p2 p q' it W =>
        have := prev_tab m p W
        simp only [eraStep]
        generalize prevStep m p W = r at this ⊢
        rcases r with ⟨m', W' | r⟩ <;> simp only at this ⊢ <;> rw [this]
      | lockB p => simp only [eraStep]; split <;> rfl
      | lock1 p q' => simp only [eraStep]; split <;> rfl
      | lock2 p q' => simp only [eraStep]; split <;> rfl
      | _ => rfl
    have := key (bucket P m.tab k) (fun w => P.keyEq (P.keyOf w) k)
    simp only [UnorderedConc.step]
    generalize eraStep m (bucket P m.tab k) (fun w => P.keyEq (P.keyOf w) k) ex pc = r at this ⊢
    rcases r with ⟨m', ex', pc' | ok⟩ <;> exact .inl this

theorem hop_inside {t : Tab V} {w q : Nat} (h : hop t w = some q) : q < t.total := by
  unfold hop at h
  simp only at h
  split at h
  · next hq => cases h; omega
  · cases h

/-- A value that is alive, or of a key that is erased. -/
def AliveOr (P : Params K V) (progs : List (List (Op K V))) (t : Tab V) (p : Nat) : Prop :=
  ∃ x, t.val p = some x ∧ (t.live p = true ∨ Spec.erases P progs (P.keyOf x) = true)

theorem aliveOr_step (h0 : 0 < t₀.bc) (h1 : t₀.bc < 2 ^ 63) (hle : t₀.bc ≤ t₀.total) {s : Sys (Shared V) (Thread K V)}
    (h : KI P t₀ progs s) {i : Nat} {t : Thread K V} (ht : s.threads[i]? = some t)
    (hu : (UnorderedConc.step P s.shared t).1.ub = false) {p : Nat} (ha : AliveOr P progs s.shared.tab p) :
    AliveOr P progs (UnorderedConc.step P s.shared t).1.tab p := by
  obtain ⟨x, e1, e2⟩ := ha
  cases hx : Spec.erases P progs (P.keyOf x) with
  | true =>
    rcases val_or_live (P := P) s.shared t p with e | ⟨e, v, e'⟩
    · exact ⟨x, e.trans e1, .inr hx⟩
    · exact ⟨v, e', .inl e⟩
  | false =>
    rw [hx] at e2
    obtain ⟨a, b, -⟩ := keep_step h0 h1 hle h ht hu (by simpa using e2) e1 hx
    exact ⟨x, b, .inl a⟩

/-- What is known about the results. -/
structure RI (P : Params K V) (progs : List (List (Op K V))) (s : Sys (Shared V) (Thread K V)) : Prop where
  cur : ∀ t ∈ s.threads, ∀ v pc p, t.cur = .ins v pc → visibleAt pc = some p → Spec.erases P progs (P.keyOf v) = false →
    s.shared.tab.live p = true ∧ s.shared.tab.occ p = true ∧ s.shared.tab.val p = some v ∧ p < s.shared.tab.total
  ins : ∀ t ∈ s.threads, ∀ v p, (Op.insert v, Res.inserted p) ∈ t.done → Spec.erases P progs (P.keyOf v) = false →
    s.shared.tab.live p = true ∧ s.shared.tab.occ p = true ∧ s.shared.tab.val p = some v ∧ p < s.shared.tab.total
  wlk : ∀ t ∈ s.threads, ∀ k W, t.cur = .fnd k W → wpos W < s.shared.tab.total ∧ ∀ p, W = .val p → AliveOr P progs s.shared.tab p
  fnd : ∀ t ∈ s.threads, ∀ k p, (Op.find k, Res.found p) ∈ t.done → Spec.erases P progs k = false →
    s.shared.tab.live p = true ∧ ∃ x, s.shared.tab.val p = some x ∧ P.keyEq (P.keyOf x) k = true

theorem erases_congr (hl : KeyLaws P) {a b : K} (h : P.keyEq a b = true) : Spec.erases P progs a = Spec.erases P progs b := by
  unfold Spec.erases
  congr 1
  funext op
  cases op with
  | erase k => exact keyEq_resp hl k _ _ h
  | _ => rfl

theorem RI.step (hlaws : KeyLaws P) (h0 : 0 < t₀.bc) (h1 : t₀.bc < 2 ^ 63) (hle : t₀.bc ≤ t₀.total) {s : Sys (Shared V) (Thread K V)}
    (h : KI P t₀ progs s) (r : RI P progs s) {i : Nat} {t : Thread K V} (ht : s.threads[i]? = some t)
    (hu : (UnorderedConc.step P s.shared t).1.ub = false) :
    RI P progs ⟨(UnorderedConc.step P s.shared t).1, s.threads.set i (UnorderedConc.step P s.shared t).2⟩ := by
  have hm := List.mem_of_getElem? ht
  have htot : (UnorderedConc.step P s.shared t).1.tab.total = s.shared.tab.total :=
    (h.step h0 h1 hle ht hu).inv.total.trans h.inv.total.symm
  have k1 : ∀ p v, Spec.erases P progs (P.keyOf v) = false → s.shared.tab.live p = true ∧ s.shared.tab.occ p = true ∧ s.shared.tab.val p = some v ∧ p < s.shared.tab.total →
      (UnorderedConc.step P s.shared t).1.tab.live p = true ∧ (UnorderedConc.step P s.shared t).1.tab.occ p = true ∧
      (UnorderedConc.step P s.shared t).1.tab.val p = some v ∧ p < (UnorderedConc.step P s.shared t).1.tab.total := by
    rintro p v he ⟨a, b, c, g⟩
    obtain ⟨d, e, f⟩ := keep_step h0 h1 hle h ht hu a c he
    exact ⟨d, f b, e, by rw [htot]; exact g⟩
  have k2 : ∀ p k, Spec.erases P progs k = false →
      (s.shared.tab.live p = true ∧ ∃ x, s.shared.tab.val p = some x ∧ P.keyEq (P.keyOf x) k = true) →
      (UnorderedConc.step P s.shared t).1.tab.live p = true ∧
      ∃ x, (UnorderedConc.step P s.shared t).1.tab.val p = some x ∧ P.keyEq (P.keyOf x) k = true := by
    rintro p k he ⟨a, x, c, e⟩
    obtain ⟨d, e', -⟩ := keep_step h0 h1 hle h ht hu a c (by rw [erases_congr hlaws e]; exact he)
    exact ⟨d, x, e', e⟩
  have hgood := (h.inv.good t hm).2
  have hg := h.inv.g
  have main : (∀ v pc p, (UnorderedConc.step P s.shared t).2.cur = .ins v pc → visibleAt pc = some p → Spec.erases P progs (P.keyOf v) = false →
        (UnorderedConc.step P s.shared t).1.tab.live p = true ∧ (UnorderedConc.step P s.shared t).1.tab.occ p = true ∧
        (UnorderedConc.step P s.shared t).1.tab.val p = some v ∧ p < (UnorderedConc.step P s.shared t).1.tab.total) ∧
      (∀ v p, (Op.insert v, Res.inserted p) ∈ (UnorderedConc.step P s.shared t).2.done → (Op.insert v, Res.inserted p) ∈ t.done ∨
        ∃ pc, t.cur = .ins v pc ∧ visibleAt pc = some p) ∧
      (∀ k p, (Op.find k, Res.found p) ∈ (UnorderedConc.step P s.shared t).2.done → (Op.find k, Res.found p) ∈ t.done ∨
        (Spec.erases P progs k = false → s.shared.tab.live p = true ∧ ∃ x, s.shared.tab.val p = some x ∧ P.keyEq (P.keyOf x) k = true)) := by
    obtain ⟨todo, cur, ex, done⟩ := t
    have rc := r.cur _ hm
    cases cur with
    | idle =>
      cases todo with
      | nil => exact ⟨fun _ _ _ e => (by cases e), fun _ _ e => .inl e, fun _ _ e => .inl e⟩
      | cons op rest =>
        refine ⟨fun v pc p e hv => ?_, fun _ _ e => .inl e, fun _ _ e => .inl e⟩
        cases op <;> simp [UnorderedConc.step, begin] at e
        obtain ⟨rfl, rfl⟩ := e
        cases hv
    | era k pc =>
      simp only [UnorderedConc.step]
      split
      · exact ⟨fun _ _ _ e => (by cases e), fun _ _ e => .inl e, fun _ _ e => .inl e⟩
      · refine ⟨fun _ _ _ e => (by cases e), fun _ _ e => ?_, fun _ _ e => ?_⟩ <;> simp at e <;> exact .inl e
    | fnd k W =>
      obtain ⟨rw1, rw2⟩ := r.wlk _ hm k W rfl
      simp only [UnorderedConc.step] at ⊢
      rcases hr : findStep s.shared (fun w => P.keyEq (P.keyOf w) k) W with ⟨m', w' | ro⟩
      · exact ⟨fun _ _ _ e => (by cases e), fun _ _ e => .inl e, fun _ _ e => .inl e⟩
      · cases ro with
        | none => refine ⟨fun _ _ _ e => (by cases e), fun _ _ e => ?_, fun _ _ e => ?_⟩ <;> simp at e <;> exact .inl e
        | some q =>
          refine ⟨fun _ _ _ e => (by cases e), fun _ _ e => ?_, fun k' p e => ?_⟩
          · simp at e; exact .inl e
          · simp only [List.mem_append, List.mem_singleton, Prod.mk.injEq, Op.find.injEq, Res.found.injEq] at e
            rcases e with e | ⟨rfl, rfl⟩
            · exact .inl e
            · obtain ⟨rfl, x, e1, e2⟩ := find_some hr
              refine .inr fun he => ⟨?_, x, e1, e2⟩
              obtain ⟨y, e3, e4⟩ := rw2 _ rfl
              rw [e1] at e3
              cases e3
              rw [erases_congr hlaws e2, he] at e4
              simpa using e4
    | ins v pc =>
      simp only at hgood
      have vis : ∀ p, visibleAt pc = some p → Spec.erases P progs (P.keyOf v) = false → _ := fun p hp he => k1 p v he (rc v pc p rfl hp he)
      simp only [UnorderedConc.step] at k1 vis ⊢
      rcases hr : insStep s.shared v (bucket P s.shared.tab (P.keyOf v)) (fun w => P.keyEq (P.keyOf w) (P.keyOf v)) ex pc with ⟨m', ex', pc' | ro⟩
      · rw [hr] at k1 vis
        refine ⟨fun v' pc'' p e hv he => ?_, fun _ _ e => .inl e, fun _ _ e => .inl e⟩
        simp only [Cur.ins.injEq] at e
        obtain ⟨rfl, rfl⟩ := e
        simp only at k1 vis ⊢
        have eb : bucket P s.shared.tab (P.keyOf v) = bkt P t₀.bc (P.keyOf v) := by rw [← h.inv.bc]; rfl
        cases pc with
        | setB =>
          simp only [insStep] at hr
          cases hr
          simp only [visibleAt, Option.some.injEq] at hv
          subst hv
          rw [eb]
          exact ⟨hgood.2.2.1, by simp [setOcc, SlotConc.upd], hgood.2.2.2, hgood.1⟩
        | set e n =>
          simp only [insStep] at hr
          cases hr
          simp only [visibleAt, Option.some.injEq] at hv
          subst hv
          exact ⟨hgood.2.2.1, by simp [setOcc, SlotConc.upd], hgood.2.2.2, hgood.1⟩
        | link e n =>
          simp only [insStep] at hr
          cases hr
          exact vis p hv he
        | unlock q ro =>
          simp only [insStep] at hr
          cases ro <;> cases hr
          cases hv
        | _ =>
          exfalso
          simp only [insStep] at hr
          (repeat' split at hr) <;> (try cases hr) <;> simp [visibleAt] at hv <;> (try split at hv) <;> simp [visibleAt] at hv
      · cases ro with
        | none => refine ⟨fun _ _ _ e => (by cases e), fun _ _ e => ?_, fun _ _ e => ?_⟩ <;> simp at e <;> exact .inl e
        | some q =>
          refine ⟨fun _ _ _ e => (by cases e), fun v' p e => ?_, fun _ _ e => ?_⟩
          · simp only [List.mem_append, List.mem_singleton, Prod.mk.injEq, Op.insert.injEq, Res.inserted.injEq] at e
            rcases e with e | ⟨rfl, rfl⟩
            · exact .inl e
            · refine .inr ⟨pc, rfl, ?_⟩
              cases pc with
              | unlock a b => simp only [insStep] at hr; cases b <;> cases hr; rfl
              | _ =>
                exfalso
                simp only [insStep] at hr
                (repeat' split at hr) <;> cases hr
          · simp at e; exact .inl e
  refine ⟨?_, ?_, ?_, ?_⟩
  · intro u hu' v pc p hc hv he
    rcases mem_set_cases _ _ _ _ hu' with rfl | ⟨j, hj, hju⟩
    · exact main.1 v pc p hc hv he
    · exact k1 p v he (r.cur u (List.mem_of_getElem? hju) v pc p hc hv he)
  · intro u hu' v p hd he
    rcases mem_set_cases _ _ _ _ hu' with rfl | ⟨j, hj, hju⟩
    · rcases main.2.1 v p hd with e | ⟨pc, e1, e2⟩
      · exact k1 p v he (r.ins t hm v p e he)
      · exact k1 p v he (r.cur t hm v pc p e1 e2 he)
    · exact k1 p v he (r.ins u (List.mem_of_getElem? hju) v p hd he)
  · intro u hu' k W hc
    have own : ∀ u ∈ s.threads, ∀ k W, u.cur = .fnd k W → wpos W < (UnorderedConc.step P s.shared t).1.tab.total ∧
        ∀ p, W = .val p → AliveOr P progs (UnorderedConc.step P s.shared t).1.tab p := by
      intro u hu' k W hc
      obtain ⟨a, b⟩ := r.wlk u hu' k W hc
      exact ⟨by rw [htot]; exact a, fun p e => aliveOr_step h0 h1 hle h ht hu (b p e)⟩
    rcases mem_set_cases _ _ _ _ hu' with rfl | ⟨j, hj, hju⟩
    · have : (wpos W < s.shared.tab.total ∧ ∀ p, W = .val p → AliveOr P progs s.shared.tab p) := by
        obtain ⟨todo, cur, ex, done⟩ := t
        cases cur with
        | idle =>
          cases todo with
          | nil => cases hc
          | cons op rest =>
            cases op <;> simp [UnorderedConc.step, begin] at hc
            obtain ⟨rfl, rfl⟩ := hc
            refine ⟨?_, fun p e => by cases e⟩
            have := fun k => bkt_lt P t₀.bc k h0 h1
            simp only [wpos, bucket_eq]
            rw [h.inv.total, h.inv.bc]
            exact lt_of_lt_of_le (this _) hle
        | ins v pc' =>
          exfalso
          simp only [UnorderedConc.step] at hc
          split at hc <;> cases hc
        | era k pc' =>
          exfalso
          simp only [UnorderedConc.step] at hc
          split at hc <;> cases hc
        | fnd k' W' =>
          obtain ⟨a, b⟩ := r.wlk _ hm k' W' rfl
          simp only [UnorderedConc.step] at hc
          rcases hr : findStep s.shared (fun w => P.keyEq (P.keyOf w) k') W' with ⟨m', w' | ro⟩
          · rw [hr] at hc
            simp only [Cur.fnd.injEq] at hc
            obtain ⟨rfl, rfl⟩ := hc
            cases W' with
            | occ w =>
              simp only [findStep, Prod.mk.injEq, Sum.inl.injEq] at hr
              obtain ⟨-, hr⟩ := hr
              split at hr
              · next ho =>
                subst hr
                refine ⟨a, fun p e => ?_⟩
                cases e
                obtain ⟨e1, e2⟩ := hg.occ w a ho
                obtain ⟨x, hx⟩ := Option.isSome_iff_exists.1 e2
                exact ⟨x, hx, .inl e1⟩
              · subst hr; exact ⟨a, fun p e => by cases e⟩
            | val w =>
              simp only [findStep] at hr
              split at hr
              · simp only [Prod.mk.injEq, Sum.inl.injEq] at hr
                obtain ⟨-, rfl⟩ := hr
                exact ⟨a, b⟩
              · simp only [Prod.mk.injEq] at hr
                obtain ⟨-, hr⟩ := hr
                split at hr <;> cases hr
                exact ⟨a, fun p e => by cases e⟩
            | off1 w =>
              simp only [findStep, Prod.mk.injEq] at hr
              obtain ⟨-, hr⟩ := hr
              split at hr <;> cases hr
              exact ⟨a, fun p e => by cases e⟩
            | off2 w =>
              simp only [findStep] at hr
              split at hr
              · simp only [Prod.mk.injEq, Sum.inl.injEq] at hr
                obtain ⟨-, rfl⟩ := hr
                exact ⟨a, b⟩
              · next q hq =>
                simp only [Prod.mk.injEq, Sum.inl.injEq] at hr
                obtain ⟨-, rfl⟩ := hr
                exact ⟨hop_inside hq, fun p e => by cases e⟩
          · rw [hr] at hc
            cases ro <;> cases hc
      exact ⟨by rw [htot]; exact this.1, fun p e => aliveOr_step h0 h1 hle h ht hu (this.2 p e)⟩
    · exact own u (List.mem_of_getElem? hju) k W hc
  · intro u hu' k p hd he
    rcases mem_set_cases _ _ _ _ hu' with rfl | ⟨j, hj, hju⟩
    · rcases main.2.2 k p hd with e | e
      · exact k2 p k he (r.fnd t hm k p e he)
      · exact k2 p k he (e he)
    · exact k2 p k he (r.fnd u (List.mem_of_getElem? hju) k p hd he)

theorem ri_run (hlaws : KeyLaws P) {t : Tab V} {chain : Nat → List Nat} {free : List Nat}
    (h : Rep P t chain free) (progs : List (List (Op K V))) (sched : List Nat) :
    (uexec P t progs sched).shared.ub = true ∨ (KI P t progs (uexec P t progs sched) ∧ RI P progs (uexec P t progs sched)) := by
  refine run_inv (f := UnorderedConc.step P) (fun s => s.shared.ub = true ∨ (KI P t progs s ∧ RI P progs s)) ?_ _
    (.inr ⟨ki_init h progs, ?_⟩) sched
  · intro s i u hs hu
    by_cases hb : (UnorderedConc.step P s.shared u).1.ub = true
    · exact .inl hb
    · rcases hs with hs | ⟨hs, hr⟩
      · exact absurd (ub_mono hs) hb
      · exact .inr ⟨hs.step h.bc_pos h.bc_lt h.bc_le hu (by simpa using hb),
          hr.step hlaws h.bc_pos h.bc_lt h.bc_le hs hu (by simpa using hb)⟩
  · have : ∀ u ∈ (init t progs).threads, u.cur = .idle ∧ u.done = [] := by
      intro u hu
      simp only [init, List.mem_map] at hu
      obtain ⟨_, -, rfl⟩ := hu
      exact ⟨rfl, rfl⟩
    refine ⟨?_, ?_, ?_, ?_⟩
    · intro u hu v pc p hc; rw [(this u hu).1] at hc; cases hc
    · intro u hu v p hd; rw [(this u hu).2] at hd; cases hd
    · intro u hu k W hc; rw [(this u hu).1] at hc; cases hc
    · intro u hu k p hd; rw [(this u hu).2] at hd; cases hd

/-- From one moment to a later one. -/
theorem keep_run {t : Tab V} {chain : Nat → List Nat} {free : List Nat} (h : Rep P t chain free) (progs : List (List (Op K V)))
    (sched later : List Nat) (hu : (uexec P t progs (sched ++ later)).shared.ub = false) {p : Nat} {x : V}
    (hl : (uexec P t progs sched).shared.tab.live p = true) (hv : (uexec P t progs sched).shared.tab.val p = some x)
    (hx : Spec.erases P progs (P.keyOf x) = false) :
    (uexec P t progs (sched ++ later)).shared.tab.live p = true ∧ (uexec P t progs (sched ++ later)).shared.tab.val p = some x ∧
    ((uexec P t progs sched).shared.tab.occ p = true → (uexec P t progs (sched ++ later)).shared.tab.occ p = true) := by
  have e : ∀ l, uexec P t progs (sched ++ l) = run (UnorderedConc.step P) (uexec P t progs sched) l := by
    intro l; unfold uexec; rw [run_append]
  rw [e] at hu ⊢
  have key : (run (UnorderedConc.step P) (uexec P t progs sched) later).shared.ub = true ∨
      (KI P t progs (run (UnorderedConc.step P) (uexec P t progs sched) later) ∧
        (run (UnorderedConc.step P) (uexec P t progs sched) later).shared.tab.live p = true ∧
        (run (UnorderedConc.step P) (uexec P t progs sched) later).shared.tab.val p = some x ∧
        ((uexec P t progs sched).shared.tab.occ p = true →
          (run (UnorderedConc.step P) (uexec P t progs sched) later).shared.tab.occ p = true)) := by
    refine run_inv (f := UnorderedConc.step P) (fun s => s.shared.ub = true ∨ (KI P t progs s ∧ s.shared.tab.live p = true ∧
      s.shared.tab.val p = some x ∧ ((uexec P t progs sched).shared.tab.occ p = true → s.shared.tab.occ p = true))) ?_ _ ?_ later
    · intro s i u hs hu
      by_cases hb : (UnorderedConc.step P s.shared u).1.ub = true
      · exact .inl hb
      · rcases hs with hs | ⟨hs, a, b, c⟩
        · exact absurd (ub_mono hs) hb
        · have hb' : (UnorderedConc.step P s.shared u).1.ub = false := by simpa using hb
          obtain ⟨a', b', c'⟩ := keep_step h.bc_pos h.bc_lt h.bc_le hs hu hb' a b hx
          exact .inr ⟨hs.step h.bc_pos h.bc_lt h.bc_le hu hb', a', b', fun ho => c' (c ho)⟩
    · rcases ki_run h progs sched with hk | hk
      · exact .inl hk
      · exact .inr ⟨hk, hl, hv, id⟩
  rcases key with key | key
  · rw [hu] at key; cases key
  · exact key.2

end Stdgpu.UnorderedConc.An
