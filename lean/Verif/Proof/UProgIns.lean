import Verif.Proof.UProg2
import Verif.Proof.UConcIns6
/-! Progress of concurrent inserts and lookups. -/
namespace Stdgpu.UnorderedConc
open Stdgpu.Conc
open Stdgpu.SlotConc (upd)
open Stdgpu.Unordered
open Stdgpu.Vector (FPC vfront countBits PopInv)
open Stdgpu.Spec (KeyLaws UFinished)
variable {K V : Type}

theorem HT.lt {t : Tab V} {W : Hop} {r : Nat} (h : HT t W r) (hw : ∀ w, W = .off1 w ∨ W = .off2 w → w < t.total) :
    r < t.total := by
  induction h with
  | @done W r h =>
    cases W with
    | off1 w =>
      simp only [endStep] at h
      split at h
      · cases h; exact hw _ (.inl rfl)
      · simp at h
    | off2 w =>
      simp only [endStep] at h
      split at h <;> simp at h
  | @more W W' r h _ ih =>
    refine ih ?_
    cases W with
    | off1 w =>
      simp only [endStep] at h
      split at h
      · simp at h
      · cases h
        intro u hu
        rcases hu with hu | hu
        · simp at hu
        · cases hu; exact hw _ (.inl rfl)
    | off2 w =>
      simp only [endStep] at h
      split at h
      · cases h
        intro u hu
        rcases hu with hu | hu
        · simp at hu
        · cases hu; exact hw _ (.inr rfl)
      · rename_i q hq
        cases h
        intro u hu
        rcases hu with hu | hu
        · cases hu
          simp only [hop] at hq
          split at hq
          · cases hq; omega
          · simp at hq
        · simp at hu

/-- Walks from the bucket end. -/
structure Tot (t : Tab V) (eq : V → Bool) (b : Nat) : Prop where
  walk : ∃ r, WT t eq (.occ b) r
  hop : ∃ r, HT t (.off1 b) r

theorem Tot.same {t t' : Tab V} (hs : Same t t') {eq : V → Bool} {b : Nat} (h : Tot t eq b) : Tot t' eq b :=
  ⟨let ⟨r, h1⟩ := h.walk; ⟨r, h1.same hs⟩, let ⟨r, h1⟩ := h.hop; ⟨r, h1.same hs⟩⟩

section
variable {P : Params K V} {m m' : Shared V} {t : Thread K V} {v : V}

abbrev bOf (P : Params K V) (m : Shared V) (v : V) : Nat := bkt P m.tab.bc (P.keyOf v)

theorem step_go {pc pc' : IPC} {ex' : Ex} (hcur : t.cur = .ins v pc)
    (e : insStep m v (bOf P m v) (eqOf P v) t.ex pc = (m', ex', .go pc')) :
    step P m t = (m', { t with cur := .ins v pc', ex := ex' }) := by
  have : insStep m v (bucket P m.tab (P.keyOf v)) (fun w => P.keyEq (P.keyOf w) (P.keyOf v)) t.ex pc = (m', ex', .go pc') := e
  simp only [step, hcur, this]

theorem step_ret {pc : IPC} {r : Option Nat} (hcur : t.cur = .ins v pc)
    (e : insStep m v (bOf P m v) (eqOf P v) t.ex pc = (m', t.ex, .ret r)) :
    ∃ d, step P m t = (m', { t with cur := .idle, done := d }) := by
  have : insStep m v (bucket P m.tab (P.keyOf v)) (fun w => P.keyEq (P.keyOf w) (P.keyOf v)) t.ex pc = (m', t.ex, .ret r) := e
  cases r with
  | none => exact ⟨t.done ++ [(.insert v, .notInserted)], by simp only [step, hcur, this]⟩
  | some p => exact ⟨t.done ++ [(.insert v, .inserted p)], by simp only [step, hcur, this]⟩

/-- Running alone, the thread returns. -/
def Idle (P : Params K V) (m : Shared V) (t : Thread K V) : Prop :=
  ∃ m' t', Reach P m t m' t' ∧ t'.todo = t.todo ∧ t'.ex = t.ex ∧ t'.cur = .idle

/-- Running alone, the thread calls `pop_back`. -/
def Pops (P : Params K V) (v : V) (m : Shared V) (t : Thread K V) : Prop :=
  ∃ m' t' e, Reach P m t m' t' ∧ t'.todo = t.todo ∧ t'.ex = { t.ex with todo := [.pop ()] } ∧ t'.cur = .ins v (.pop e)

/-- Running alone, the thread tries again. -/
def Again (P : Params K V) (v : V) (m : Shared V) (t : Thread K V) : Prop :=
  ∃ m' t', Reach P m t m' t' ∧ t'.todo = t.todo ∧ t'.ex = t.ex ∧ t'.cur = .ins v .full

theorem Idle.back {t' : Thread K V} (hr : Reach P m t m' t') (h1 : t'.todo = t.todo) (h2 : t'.ex = t.ex)
    (h : Idle P m' t') : Idle P m t :=
  let ⟨a, b, k1, k2, k3, k4⟩ := h; ⟨a, b, hr.trans k1, k2.trans h1, k3.trans h2, k4⟩

theorem Pops.back {t' : Thread K V} (hr : Reach P m t m' t') (h1 : t'.todo = t.todo) (h2 : t'.ex = t.ex)
    (h : Pops P v m' t') : Pops P v m t :=
  let ⟨a, b, e, k1, k2, k3, k4⟩ := h; ⟨a, b, e, hr.trans k1, k2.trans h1, by rw [k3, h2], k4⟩

theorem Again.back {t' : Thread K V} (hr : Reach P m t m' t') (h1 : t'.todo = t.todo) (h2 : t'.ex = t.ex)
    (h : Again P v m' t') : Again P v m t :=
  let ⟨a, b, k1, k2, k3, k4⟩ := h; ⟨a, b, hr.trans k1, k2.trans h1, k3.trans h2, k4⟩

theorem Idle.go {pc pc' : IPC} (hcur : t.cur = .ins v pc)
    (e : insStep m v (bOf P m v) (eqOf P v) t.ex pc = (m', t.ex, .go pc'))
    (h : Idle P m' { t with cur := .ins v pc' }) : Idle P m t :=
  Idle.back (.step (step_go hcur e) (.refl _ _ _)) rfl rfl h

theorem Idle.ret {pc : IPC} {r : Option Nat} (hcur : t.cur = .ins v pc)
    (e : insStep m v (bOf P m v) (eqOf P v) t.ex pc = (m', t.ex, .ret r)) : Idle P m t := by
  obtain ⟨d, h⟩ := step_ret hcur e
  exact ⟨_, _, .step h (.refl _ _ _), rfl, rfl, rfl⟩

/-! ### Straight-line code -/

theorem idle_unlock {p n : Nat} (hcur : t.cur = .ins v (.unlock p (some n))) : Idle P m t := Idle.ret hcur rfl

theorem again_unlock {p : Nat} (hcur : t.cur = .ins v (.unlock p none)) : Again P v m t :=
  ⟨_, _, .step (step_go hcur rfl) (.refl _ _ _), rfl, rfl, rfl⟩

theorem idle_link {e n : Nat} (hcur : t.cur = .ins v (.link e n)) : Idle P m t := .go hcur rfl (idle_unlock rfl)
theorem idle_set {e n : Nat} (hcur : t.cur = .ins v (.set e n)) : Idle P m t := .go hcur rfl (idle_link rfl)
theorem idle_cnt {e n : Nat} (hcur : t.cur = .ins v (.cnt e n)) : Idle P m t := .go hcur rfl (idle_set rfl)
theorem idle_off {e n : Nat} (hcur : t.cur = .ins v (.off e n)) : Idle P m t := .go hcur rfl (idle_cnt rfl)
theorem idle_cons {e n : Nat} (hcur : t.cur = .ins v (.cons e n)) : Idle P m t := .go hcur rfl (idle_off rfl)
theorem idle_setB (hcur : t.cur = .ins v .setB) : Idle P m t := .go hcur rfl (idle_unlock rfl)
theorem idle_cntB (hcur : t.cur = .ins v .cntB) : Idle P m t := .go hcur rfl (idle_setB rfl)
theorem idle_consB (hcur : t.cur = .ins v .consB) : Idle P m t := .go hcur rfl (idle_cntB rfl)

/-! ### Walks -/

theorem run_walk {c : Walk → IPC} (hc : ∀ (m : Shared V) (ex : Ex) (b : Nat) (W W' : Walk), (findStep m (eqOf P v) W).2 = .inl W' →
      insStep m v b (eqOf P v) ex (c W) = ((findStep m (eqOf P v) W).1, ex, .go (c W')))
    {W : Walk} {r : Option Nat} (h : WT m.tab (eqOf P v) W r) (ht : t.cur = .ins v (c W)) :
    ∃ m' W', Reach P m t m' { t with cur := .ins v (c W') } ∧ m'.tab = m.tab ∧ (findStep m' (eqOf P v) W').2 = .inr r := by
  refine walk_go (P := P) (eq := eqOf P v) (fun W => .ins v (c W)) ?_ h ht
  intro m t W W' ht e
  have := step_go (P := P) (m := m) ht (hc m t.ex (bOf P m v) W W' e)
  rw [this]

theorem run_hop {c : Hop → IPC} (hc : ∀ (m : Shared V) (ex : Ex) (b : Nat) (W W' : Hop), (endStep m W).2 = .inl W' →
      insStep m v b (eqOf P v) ex (c W) = ((endStep m W).1, ex, .go (c W')))
    {W : Hop} {r : Nat} (h : HT m.tab W r) (ht : t.cur = .ins v (c W)) :
    ∃ m' W', Reach P m t m' { t with cur := .ins v (c W') } ∧ m'.tab = m.tab ∧ (endStep m' W').2 = .inr r := by
  refine end_go (P := P) (fun W => .ins v (c W)) ?_ h ht
  intro m t W W' ht e
  have := step_go (P := P) (m := m) ht (hc m t.ex (bOf P m v) W W' e)
  rw [this]

theorem pair_eq {α β : Type} {x : α × β} {a : β} (h : x.2 = a) : x = (x.1, a) := by rw [← h]

/-- The walk of the first lookup: it returns or goes on to the bucket. -/
theorem run_c1 {W : Walk} {r : Option Nat} (h : WT m.tab (eqOf P v) W r) (ht : t.cur = .ins v (.c1 W)) :
    (r ≠ none ∧ Idle P m t) ∨ (r = none ∧ ∃ m', Reach P m t m' { t with cur := .ins v .occ1 } ∧ m'.tab = m.tab) := by
  obtain ⟨m', W', h1, h2, h3⟩ := run_walk (c := .c1) (by
    intro m ex b W W' e; simp only [insStep]; rw [pair_eq e]) h ht
  cases r with
  | some p =>
    refine .inl ⟨by simp, Idle.back h1 rfl rfl (Idle.ret (v := v) (pc := .c1 W') (r := none) (m' := (findStep m' (eqOf P v) W').1) rfl ?_)⟩
    simp only [insStep]; rw [pair_eq h3]
  | none =>
    refine .inr ⟨rfl, (findStep m' (eqOf P v) W').1, h1.trans (.step (step_go rfl (pc' := .occ1) (ex' := t.ex) ?_) (.refl _ _ _)), ?_⟩
    · simp only [insStep]; rw [pair_eq h3]
    · rw [(findStep_tab _ _ _).1, h2]

theorem run_c2 {W : Walk} {r : Option Nat} (h : WT m.tab (eqOf P v) W r) (ht : t.cur = .ins v (.c2 W)) :
    ∃ m', Reach P m t m' { t with cur := .ins v (if r.isSome then .unlock (bOf P m v) none else .occ2) } ∧ m'.tab = m.tab := by
  obtain ⟨m', W', h1, h2, h3⟩ := run_walk (c := .c2) (by
    intro m ex b W W' e; simp only [insStep]; rw [pair_eq e]) h ht
  refine ⟨(findStep m' (eqOf P v) W').1, h1.trans (.step (step_go rfl (ex' := t.ex) ?_) (.refl _ _ _)), ?_⟩
  · cases r with
    | some p => simp only [insStep]; rw [pair_eq h3]; simp [bOf, h2]
    | none => simp only [insStep]; rw [pair_eq h3]; simp
  · rw [(findStep_tab _ _ _).1, h2]

theorem run_c3 {e e' : Nat} {W : Walk} {r : Option Nat} (h : WT m.tab (eqOf P v) W r) (ht : t.cur = .ins v (.c3 e e' W)) :
    (r = none ∧ e = e' ∧ Pops P v m t) ∨
    (¬ (r = none ∧ e = e') ∧ ∃ m', Reach P m t m' { t with cur := .ins v (.unlock e none) } ∧ m'.tab = m.tab) := by
  obtain ⟨m', W', h1, h2, h3⟩ := run_walk (c := .c3 e e') (by
    intro m ex b W W' e; simp only [insStep]; rw [pair_eq e]) h ht
  cases r with
  | some p =>
    refine .inr ⟨by simp, (findStep m' (eqOf P v) W').1, h1.trans (.step (step_go rfl (ex' := t.ex) ?_) (.refl _ _ _)), ?_⟩
    · simp only [insStep]; rw [pair_eq h3]
    · rw [(findStep_tab _ _ _).1, h2]
  | none =>
    by_cases he : e = e'
    · refine .inl ⟨rfl, he, (findStep m' (eqOf P v) W').1, _, e, h1.trans (.step (step_go rfl (ex' := { t.ex with todo := [.pop ()] })
        (pc' := .pop e) ?_) (.refl _ _ _)), rfl, rfl, rfl⟩
      simp only [insStep]; rw [pair_eq h3]; simp [he]
    · refine .inr ⟨by simp [he], (findStep m' (eqOf P v) W').1, h1.trans (.step (step_go rfl (ex' := t.ex) ?_) (.refl _ _ _)), ?_⟩
      · simp only [insStep]; rw [pair_eq h3]; simp [he]
      · rw [(findStep_tab _ _ _).1, h2]

theorem run_e1 {W : Hop} {r : Nat} (h : HT m.tab W r) (ht : t.cur = .ins v (.e1 W)) :
    ∃ m', Reach P m t m' { t with cur := .ins v (.lockE r) } ∧ m'.tab = m.tab := by
  obtain ⟨m', W', h1, h2, h3⟩ := run_hop (c := .e1) (P := P) (by
    intro m ex b W W' e; simp only [insStep]; rw [pair_eq e]) h ht
  refine ⟨(endStep m' W').1, h1.trans (.step (step_go rfl (ex' := t.ex) ?_) (.refl _ _ _)), ?_⟩
  · simp only [insStep]; rw [pair_eq h3]
  · rw [(endStep_tab _ _).1, h2]

theorem run_e2 {e : Nat} {W : Hop} {r : Nat} (h : HT m.tab W r) (ht : t.cur = .ins v (.e2 e W)) :
    ∃ m', Reach P m t m' { t with cur := .ins v (.c3 e r (.occ (bOf P m v))) } ∧ m'.tab = m.tab := by
  obtain ⟨m', W', h1, h2, h3⟩ := run_hop (c := .e2 e) (P := P) (by
    intro m ex b W W' e; simp only [insStep]; rw [pair_eq e]) h ht
  refine ⟨(endStep m' W').1, h1.trans (.step (step_go rfl (ex' := t.ex) ?_) (.refl _ _ _)), ?_⟩
  · simp only [insStep]; rw [pair_eq h3]; simp [bOf, h2]
  · rw [(endStep_tab _ _).1, h2]

/-- Running alone, the thread returns, calls `pop_back` or tries again. -/
def Settles (P : Params K V) (v : V) (m : Shared V) (t : Thread K V) : Prop := Idle P m t ∨ Pops P v m t ∨ Again P v m t

theorem Settles.back {t' : Thread K V} (hr : Reach P m t m' t') (h1 : t'.todo = t.todo) (h2 : t'.ex = t.ex)
    (h : Settles P v m' t') : Settles P v m t :=
  h.imp (.back hr h1 h2) (Or.imp (.back hr h1 h2) (.back hr h1 h2))

theorem settles_occ2 (hcur : t.cur = .ins v .occ2) : Settles P v m t := by
  cases ho : m.tab.occ (bOf P m v) with
  | false =>
    exact .inl (.go hcur (pc' := .consB) (m' := m) (by simp [insStep, ho]) (idle_consB rfl))
  | true =>
    exact .back (.step (step_go hcur (pc' := .unlock _ none) (m' := m) (ex' := t.ex) (by simp [insStep, ho]; rfl)) (.refl _ _ _)) rfl rfl
      (.inr (.inr (again_unlock rfl)))

theorem settles_c2 {W : Walk} {r : Option Nat} (h : WT m.tab (eqOf P v) W r) (ht : t.cur = .ins v (.c2 W)) :
    Settles P v m t := by
  obtain ⟨m', h1, h2⟩ := run_c2 h ht
  refine .back h1 rfl rfl ?_
  cases r with
  | none => exact settles_occ2 rfl
  | some p => exact .inr (.inr (again_unlock rfl))

theorem settles_c3 {e e' : Nat} {W : Walk} {r : Option Nat} (h : WT m.tab (eqOf P v) W r) (ht : t.cur = .ins v (.c3 e e' W)) :
    Settles P v m t := by
  rcases run_c3 h ht with ⟨-, -, h⟩ | ⟨-, m', h1, -⟩
  · exact .inr (.inl h)
  · exact .back h1 rfl rfl (.inr (.inr (again_unlock rfl)))

theorem settles_e2 {e : Nat} {W : Hop} {r : Nat} (htot : Tot m.tab (eqOf P v) (bOf P m v)) (h : HT m.tab W r)
    (ht : t.cur = .ins v (.e2 e W)) : Settles P v m t := by
  obtain ⟨m', h1, h2⟩ := run_e2 h ht
  obtain ⟨r', h3⟩ := htot.walk
  exact .back h1 rfl rfl (settles_c3 (by rw [h2]; exact h3) rfl)

theorem same_lock (m : Shared V) (p : Nat) (b : Bool) : Same m.tab (setLock m p b).tab := ⟨rfl, rfl, rfl, rfl, rfl, rfl⟩

theorem settles_lockB (htot : Tot m.tab (eqOf P v) (bOf P m v)) (hcur : t.cur = .ins v .lockB) : Settles P v m t := by
  cases hlk : m.tab.locks (bOf P m v) with
  | true =>
    exact .inr (.inr ⟨_, _, .step (step_go hcur (m' := m) (ex' := t.ex) (pc' := .full) (by simp [insStep, hlk])) (.refl _ _ _),
      rfl, rfl, rfl⟩)
  | false =>
    obtain ⟨r, h⟩ := (htot.same (same_lock m (bOf P m v) true)).walk
    refine .back (.step (step_go hcur (m' := setLock m (bOf P m v) true) (ex' := t.ex) (pc' := .c2 (.occ (bOf P m v)))
      (by simp [insStep, hlk])) (.refl _ _ _)) rfl rfl (settles_c2 h rfl)

theorem settles_lockE {e : Nat} (htot : Tot m.tab (eqOf P v) (bOf P m v)) (hcur : t.cur = .ins v (.lockE e)) :
    Settles P v m t := by
  cases hlk : m.tab.locks e with
  | true =>
    exact .inr (.inr ⟨_, _, .step (step_go hcur (m' := m) (ex' := t.ex) (pc' := .full) (by simp [insStep, hlk])) (.refl _ _ _),
      rfl, rfl, rfl⟩)
  | false =>
    have h0 := htot.same (same_lock m e true)
    obtain ⟨r, h⟩ := h0.hop
    exact .back (.step (step_go hcur (m' := setLock m e true) (ex' := t.ex) (pc' := .e2 e (.off1 (bOf P m v)))
      (by simp [insStep, hlk])) (.refl _ _ _)) rfl rfl (settles_e2 h0 h rfl)

theorem settles_e1 {W : Hop} {r : Nat} (htot : Tot m.tab (eqOf P v) (bOf P m v)) (h : HT m.tab W r)
    (ht : t.cur = .ins v (.e1 W)) : Settles P v m t := by
  obtain ⟨m', h1, h2⟩ := run_e1 (P := P) h ht
  exact .back h1 rfl rfl (settles_lockE (by rw [bOf, h2]; exact htot) rfl)

theorem settles_occ1 (htot : Tot m.tab (eqOf P v) (bOf P m v)) (hcur : t.cur = .ins v .occ1) : Settles P v m t := by
  cases ho : m.tab.occ (bOf P m v) with
  | false =>
    exact .back (.step (step_go hcur (m' := m) (ex' := t.ex) (pc' := .lockB) (by simp [insStep, ho])) (.refl _ _ _)) rfl rfl
      (settles_lockB htot rfl)
  | true =>
    obtain ⟨r, h⟩ := htot.hop
    exact .back (.step (step_go hcur (m' := m) (ex' := t.ex) (pc' := .e1 (.off1 (bOf P m v))) (by simp [insStep, ho]))
      (.refl _ _ _)) rfl rfl (settles_e1 htot h rfl)

theorem settles_c1 {W : Walk} {r : Option Nat} (htot : Tot m.tab (eqOf P v) (bOf P m v)) (h : WT m.tab (eqOf P v) W r)
    (ht : t.cur = .ins v (.c1 W)) : Settles P v m t := by
  rcases run_c1 h ht with ⟨-, h⟩ | ⟨-, m', h1, h2⟩
  · exact .inl h
  · exact .back h1 rfl rfl (settles_occ1 (by rw [bOf, h2]; exact htot) rfl)

theorem settles_exc (htot : Tot m.tab (eqOf P v) (bOf P m v)) (hcur : t.cur = .ins v .exc) : Settles P v m t := by
  cases he : Vector.empty m.tab.excess with
  | true => exact .inl (.ret hcur (m' := m) (r := none) (by simp [insStep, he]))
  | false =>
    obtain ⟨r, h⟩ := htot.walk
    exact .back (.step (step_go hcur (m' := m) (ex' := t.ex) (pc' := .c1 (.occ (bOf P m v))) (by simp [insStep, he]))
      (.refl _ _ _)) rfl rfl (settles_c1 htot h rfl)

/-! ### A try that meets no other thread -/

/-- From the head of the loop, all locks being free, the thread returns or calls `pop_back`. -/
theorem fresh (htot : Tot m.tab (eqOf P v) (bOf P m v)) (hb : bOf P m v < m.tab.total)
    (hfree : ∀ p, p < m.tab.total → m.tab.locks p = false) (hcur : t.cur = .ins v .full) : Idle P m t ∨ Pops P v m t := by
  cases hf : full m.tab with
  | true => exact .inl (.ret hcur (m' := m) (r := none) (by simp [insStep, hf]))
  | false =>
    cases he : Vector.empty m.tab.excess with
    | true =>
      exact .inl (.go hcur (m' := m) (pc' := .exc) (by simp [insStep, hf]) (.ret rfl (m' := m) (r := none) (by simp [insStep, he])))
    | false =>
      have r1 : Reach P m t m { t with cur := .ins v (.c1 (.occ (bOf P m v))) } :=
        .step (step_go hcur (m' := m) (ex' := t.ex) (pc' := .exc) (by simp [insStep, hf]))
          (.step (step_go rfl (m' := m) (ex' := t.ex) (pc' := .c1 (.occ (bOf P m v))) (by simp [insStep, he])) (.refl _ _ _))
      obtain ⟨r, hw⟩ := htot.walk
      rcases run_c1 (t := { t with cur := .ins v (.c1 (.occ (bOf P m v))) }) hw rfl with ⟨-, h⟩ | ⟨rfl, m1, h1, h2⟩
      · exact .inl (.back r1 rfl rfl h)
      · have r2 := r1.trans h1
        have hbo : bOf P m1 v = bOf P m v := by rw [bOf, h2]
        cases ho : m.tab.occ (bOf P m v) with
        | false =>
          have r3 := r2.trans (.step (step_go rfl (m' := m1) (ex' := t.ex) (pc' := .lockB)
            (by simp [insStep, hbo, h2, ho])) (.refl _ _ _))
          have r4 := r3.trans (.step (step_go rfl (m' := setLock m1 (bOf P m v) true) (ex' := t.ex) (pc' := .c2 (.occ (bOf P m v)))
            (by simp [insStep, hbo, h2, hfree _ hb])) (.refl _ _ _))
          have hs : Same m.tab (setLock m1 (bOf P m v) true).tab := by rw [← h2]; exact same_lock _ _ _
          obtain ⟨m2, h3, h4⟩ := run_c2 (P := P) (t := { t with cur := .ins v (.c2 (.occ (bOf P m v))) }) (hw.same hs) rfl
          have r5 := r4.trans h3
          refine .inl (.back r5 rfl rfl (.go rfl (m' := m2) (pc' := .consB) ?_ (idle_consB rfl)))
          have hbo2 : bOf P m2 v = bOf P m v := by rw [bOf, h4, hs.bc]
          have ho2 : m2.tab.occ (bOf P m v) = false := by rw [h4, hs.occ]; exact ho
          simp [insStep, hbo2, ho2]
        | true =>
          obtain ⟨e, hh⟩ := htot.hop
          have hlt : e < m.tab.total := hh.lt (by rintro w (h | h) <;> cases h; exact hb)
          have r3 := r2.trans (.step (step_go rfl (m' := m1) (ex' := t.ex) (pc' := .e1 (.off1 (bOf P m v)))
            (by simp [insStep, hbo, h2, ho])) (.refl _ _ _))
          obtain ⟨m2, h3, h4⟩ := run_e1 (P := P) (t := { t with cur := .ins v (.e1 (.off1 (bOf P m v))) }) (m := m1) (r := e)
            (by rw [h2]; exact hh) rfl
          have r4 := r3.trans h3
          have hbo2 : bOf P m2 v = bOf P m v := by rw [bOf, h4, h2]
          have r5 := r4.trans (.step (step_go rfl (m' := setLock m2 e true) (ex' := t.ex) (pc' := .e2 e (.off1 (bOf P m v)))
            (by simp [insStep, hbo2, h4, h2, hfree _ hlt])) (.refl _ _ _))
          have hs : Same m.tab (setLock m2 e true).tab := by rw [← h2, ← h4]; exact same_lock _ _ _
          obtain ⟨m3, h5, h6⟩ := run_e2 (P := P) (t := { t with cur := .ins v (.e2 e (.off1 (bOf P m v))) }) (hh.same hs) rfl
          have hbo3 : bOf P (setLock m2 e true) v = bOf P m v := by rw [bOf, hs.bc]
          rw [hbo3] at h5
          have r6 := r5.trans h5
          rcases run_c3 (P := P) (t := { t with cur := .ins v (.c3 e e (.occ (bOf P m v))) }) (m := m3) (r := none)
            (by rw [h6]; exact hw.same hs) rfl with ⟨-, -, h⟩ | ⟨h, -⟩
          · exact .inr (.back r6 rfl rfl h)
          · exact absurd ⟨rfl, rfl⟩ h

/-- The free list is exhausted: the thread returns. -/
theorem fresh_empty (he : Vector.empty m.tab.excess = true) (hcur : t.cur = .ins v .full) : Idle P m t := by
  cases hf : full m.tab with
  | true => exact .ret hcur (m' := m) (r := none) (by simp [insStep, hf])
  | false =>
    exact .go hcur (m' := m) (pc' := .exc) (by simp [insStep, hf]) (.ret rfl (m' := m) (r := none) (by simp [insStep, he]))

/-- A lookup returns. -/
theorem run_fnd {k : K} {W : Walk} {r : Option Nat} (h : WT m.tab (fun w => P.keyEq (P.keyOf w) k) W r)
    (ht : t.cur = .fnd k W) : Idle P m t := by
  obtain ⟨m', W', h1, h2, h3⟩ := walk_go (P := P) (eq := fun w => P.keyEq (P.keyOf w) k) (fun W => .fnd k W) (by
    intro m t W W' ht e
    simp only [step, ht]; rw [pair_eq e]) h ht
  have e : ∃ m'' d, step P m' { t with cur := .fnd k W' } = (m'', { t with cur := .idle, done := d }) := by
    cases r with
    | none => exact ⟨_, _, by simp only [step]; rw [pair_eq h3]⟩
    | some p => exact ⟨_, _, by simp only [step]; rw [pair_eq h3]⟩
  obtain ⟨m'', d, e⟩ := e
  exact ⟨_, _, h1.trans (.step e (.refl _ _ _)), rfl, rfl, rfl⟩

end

end Stdgpu.UnorderedConc
