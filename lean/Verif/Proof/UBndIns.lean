import Verif.Proof.UBnd
/-! Progress with bounds: the try of an insertion, one thread. -/
namespace Stdgpu.UnorderedConc.Bd
open Stdgpu.Conc
open Stdgpu.SlotConc (upd)
open Stdgpu.Unordered
open Stdgpu.Vector (FPC vfront countBits VInv)
open Stdgpu.Spec
variable {K V : Type}

/-- Walks from the bucket end. -/
structure Tot (t : Tab V) (eq : V → Bool) (b : Nat) : Prop where
  walk : ∃ r, WB t eq 8 (.occ b) r
  hop : ∃ r, HB t 8 (.off1 b) r

theorem Tot.same {t t' : Tab V} (hs : Same t t') {eq : V → Bool} {b : Nat} (h : Tot t eq b) : Tot t' eq b :=
  ⟨let ⟨r, h1⟩ := h.walk; ⟨r, h1.same hs⟩, let ⟨r, h1⟩ := h.hop; ⟨r, h1.same hs⟩⟩

section
variable {P : Params K V} {m m' : Shared V} {t : Thread K V} {v : V}

/-- Running alone, the thread returns. -/
def Idle (P : Params K V) (N : Nat) (m : Shared V) (t : Thread K V) : Prop :=
  ∃ m' t', ReachN P N m t m' t' ∧ t'.todo = t.todo ∧ t'.ex = t.ex ∧ t'.cur = .idle

/-- Running alone, the thread calls `pop_back`. -/
def Pops (P : Params K V) (N : Nat) (v : V) (m : Shared V) (t : Thread K V) : Prop :=
  ∃ m' t' e, ReachN P N m t m' t' ∧ t'.todo = t.todo ∧ t'.ex = { t.ex with todo := [.pop ()] } ∧ t'.cur = .ins v (.pop e)

/-- Running alone, the thread tries again. -/
def Again (P : Params K V) (N : Nat) (v : V) (m : Shared V) (t : Thread K V) : Prop :=
  ∃ m' t', ReachN P N m t m' t' ∧ t'.todo = t.todo ∧ t'.ex = t.ex ∧ t'.cur = .ins v .full

theorem Idle.mono {N M : Nat} (h : Idle P N m t) (hM : N ≤ M) : Idle P M m t :=
  let ⟨a, b, k1, k2⟩ := h; ⟨a, b, k1.mono hM, k2⟩

theorem Pops.mono {N M : Nat} (h : Pops P N v m t) (hM : N ≤ M) : Pops P M v m t :=
  let ⟨a, b, e, k1, k2⟩ := h; ⟨a, b, e, k1.mono hM, k2⟩

theorem Again.mono {N M : Nat} (h : Again P N v m t) (hM : N ≤ M) : Again P M v m t :=
  let ⟨a, b, k1, k2⟩ := h; ⟨a, b, k1.mono hM, k2⟩

theorem Idle.back {t' : Thread K V} {a b N : Nat} (hr : ReachN P a m t m' t') (h1 : t'.todo = t.todo) (h2 : t'.ex = t.ex)
    (h : Idle P b m' t') (hN : a + b ≤ N := by omega) : Idle P N m t :=
  let ⟨a, b, k1, k2, k3, k4⟩ := h; ⟨a, b, (hr.trans k1).mono hN, k2.trans h1, k3.trans h2, k4⟩

theorem Pops.back {t' : Thread K V} {a b N : Nat} (hr : ReachN P a m t m' t') (h1 : t'.todo = t.todo) (h2 : t'.ex = t.ex)
    (h : Pops P b v m' t') (hN : a + b ≤ N := by omega) : Pops P N v m t :=
  let ⟨a, b, e, k1, k2, k3, k4⟩ := h; ⟨a, b, e, (hr.trans k1).mono hN, k2.trans h1, by rw [k3, h2], k4⟩

theorem Again.back {t' : Thread K V} {a b N : Nat} (hr : ReachN P a m t m' t') (h1 : t'.todo = t.todo) (h2 : t'.ex = t.ex)
    (h : Again P b v m' t') (hN : a + b ≤ N := by omega) : Again P N v m t :=
  let ⟨a, b, k1, k2, k3, k4⟩ := h; ⟨a, b, (hr.trans k1).mono hN, k2.trans h1, k3.trans h2, k4⟩

theorem Idle.go {pc pc' : IPC} (hcur : t.cur = .ins v pc)
    (e : insStep m v (bOf P m v) (eqOf P v) t.ex pc = (m', t.ex, .go pc'))
    {b N : Nat} (h : Idle P b m' { t with cur := .ins v pc' }) (hN : b + 1 ≤ N := by omega) : Idle P N m t :=
  Idle.back (.one (step_go hcur e)) rfl rfl h (by omega)

theorem Idle.ret {pc : IPC} {r : Option Nat} (hcur : t.cur = .ins v pc)
    (e : insStep m v (bOf P m v) (eqOf P v) t.ex pc = (m', t.ex, .ret r)) : Idle P 1 m t := by
  obtain ⟨d, h⟩ := step_ret hcur e
  exact ⟨_, _, .one h, rfl, rfl, rfl⟩

/-! ### Straight-line code -/

theorem idle_unlock {p n : Nat} (hcur : t.cur = .ins v (.unlock p (some n))) : Idle P 1 m t := Idle.ret hcur rfl

theorem again_unlock {p : Nat} (hcur : t.cur = .ins v (.unlock p none)) : Again P 1 v m t :=
  ⟨_, _, .one (step_go hcur rfl), rfl, rfl, rfl⟩

theorem idle_link {e n : Nat} (hcur : t.cur = .ins v (.link e n)) : Idle P 2 m t := .go hcur rfl (idle_unlock rfl)
theorem idle_set {e n : Nat} (hcur : t.cur = .ins v (.set e n)) : Idle P 3 m t := .go hcur rfl (idle_link rfl)
theorem idle_cnt {e n : Nat} (hcur : t.cur = .ins v (.cnt e n)) : Idle P 4 m t := .go hcur rfl (idle_set rfl)
theorem idle_off {e n : Nat} (hcur : t.cur = .ins v (.off e n)) : Idle P 5 m t := .go hcur rfl (idle_cnt rfl)
theorem idle_cons {e n : Nat} (hcur : t.cur = .ins v (.cons e n)) : Idle P 6 m t := .go hcur rfl (idle_off rfl)
theorem idle_setB (hcur : t.cur = .ins v .setB) : Idle P 2 m t := .go hcur rfl (idle_unlock rfl)
theorem idle_cntB (hcur : t.cur = .ins v .cntB) : Idle P 3 m t := .go hcur rfl (idle_setB rfl)
theorem idle_consB (hcur : t.cur = .ins v .consB) : Idle P 4 m t := .go hcur rfl (idle_cntB rfl)

/-! ### Walks -/

theorem run_walk {c : Walk → IPC} (hc : ∀ (m : Shared V) (ex : Ex) (b : Nat) (W W' : Walk), (findStep m (eqOf P v) W).2 = .inl W' →
      insStep m v b (eqOf P v) ex (c W) = ((findStep m (eqOf P v) W).1, ex, .go (c W')))
    {W : Walk} {r : Option Nat} (h : WB m.tab (eqOf P v) 8 W r) (ht : t.cur = .ins v (c W)) :
    ∃ m' W', ReachN P 8 m t m' { t with cur := .ins v (c W') } ∧ m'.tab = m.tab ∧ (findStep m' (eqOf P v) W').2 = .inr r := by
  refine walk_go (P := P) (eq := eqOf P v) (fun W => .ins v (c W)) ?_ h ht
  intro m t W W' ht e
  have := step_go (P := P) (m := m) ht (hc m t.ex (bOf P m v) W W' e)
  rw [this]

theorem run_hop {c : Hop → IPC} (hc : ∀ (m : Shared V) (ex : Ex) (b : Nat) (W W' : Hop), (endStep m W).2 = .inl W' →
      insStep m v b (eqOf P v) ex (c W) = ((endStep m W).1, ex, .go (c W')))
    {W : Hop} {r : Nat} (h : HB m.tab 8 W r) (ht : t.cur = .ins v (c W)) :
    ∃ m' W', ReachN P 8 m t m' { t with cur := .ins v (c W') } ∧ m'.tab = m.tab ∧ (endStep m' W').2 = .inr r := by
  refine end_go (P := P) (fun W => .ins v (c W)) ?_ h ht
  intro m t W W' ht e
  have := step_go (P := P) (m := m) ht (hc m t.ex (bOf P m v) W W' e)
  rw [this]

/-- The walk of the first lookup: it returns or goes on to the bucket. -/
theorem run_c1 {W : Walk} {r : Option Nat} (h : WB m.tab (eqOf P v) 8 W r) (ht : t.cur = .ins v (.c1 W)) :
    (r ≠ none ∧ Idle P 9 m t) ∨ (r = none ∧ ∃ m', ReachN P 9 m t m' { t with cur := .ins v .occ1 } ∧ m'.tab = m.tab) := by
  obtain ⟨m', W', h1, h2, h3⟩ := run_walk (c := .c1) (by
    intro m ex b W W' e; simp only [insStep]; rw [pair_eq e]) h ht
  cases r with
  | some p =>
    refine .inl ⟨by simp, Idle.back h1 rfl rfl (Idle.ret (v := v) (pc := .c1 W') (r := none) (m' := (findStep m' (eqOf P v) W').1) rfl ?_)⟩
    simp only [insStep]; rw [pair_eq h3]
  | none =>
    refine .inr ⟨rfl, (findStep m' (eqOf P v) W').1, h1.trans (.one (step_go rfl (pc' := .occ1) (ex' := t.ex) ?_)), ?_⟩
    · simp only [insStep]; rw [pair_eq h3]
    · rw [(findStep_tab _ _ _).1, h2]

theorem run_c2 {W : Walk} {r : Option Nat} (h : WB m.tab (eqOf P v) 8 W r) (ht : t.cur = .ins v (.c2 W)) :
    ∃ m', ReachN P 9 m t m' { t with cur := .ins v (if r.isSome then .unlock (bOf P m v) none else .occ2) } ∧ m'.tab = m.tab := by
  obtain ⟨m', W', h1, h2, h3⟩ := run_walk (c := .c2) (by
    intro m ex b W W' e; simp only [insStep]; rw [pair_eq e]) h ht
  refine ⟨(findStep m' (eqOf P v) W').1, h1.trans (.one (step_go rfl (ex' := t.ex) ?_)), ?_⟩
  · cases r with
    | some p => simp only [insStep]; rw [pair_eq h3]; simp [bOf, h2]
    | none => simp only [insStep]; rw [pair_eq h3]; simp
  · rw [(findStep_tab _ _ _).1, h2]

theorem run_c3 {e e' : Nat} {W : Walk} {r : Option Nat} (h : WB m.tab (eqOf P v) 8 W r) (ht : t.cur = .ins v (.c3 e e' W)) :
    (r = none ∧ e = e' ∧ Pops P 9 v m t) ∨
    (¬ (r = none ∧ e = e') ∧ ∃ m', ReachN P 9 m t m' { t with cur := .ins v (.unlock e none) } ∧ m'.tab = m.tab) := by
  obtain ⟨m', W', h1, h2, h3⟩ := run_walk (c := .c3 e e') (by
    intro m ex b W W' e; simp only [insStep]; rw [pair_eq e]) h ht
  cases r with
  | some p =>
    refine .inr ⟨by simp, (findStep m' (eqOf P v) W').1, h1.trans (.one (step_go rfl (ex' := t.ex) ?_)), ?_⟩
    · simp only [insStep]; rw [pair_eq h3]
    · rw [(findStep_tab _ _ _).1, h2]
  | none =>
    by_cases he : e = e'
    · refine .inl ⟨rfl, he, (findStep m' (eqOf P v) W').1, _, e, h1.trans (.one (step_go rfl (ex' := { t.ex with todo := [.pop ()] })
        (pc' := .pop e) ?_)), rfl, rfl, rfl⟩
      simp only [insStep]; rw [pair_eq h3]; simp [he]
    · refine .inr ⟨by simp [he], (findStep m' (eqOf P v) W').1, h1.trans (.one (step_go rfl (ex' := t.ex) ?_)), ?_⟩
      · simp only [insStep]; rw [pair_eq h3]; simp [he]
      · rw [(findStep_tab _ _ _).1, h2]

theorem run_e1 {W : Hop} {r : Nat} (h : HB m.tab 8 W r) (ht : t.cur = .ins v (.e1 W)) :
    ∃ m', ReachN P 9 m t m' { t with cur := .ins v (.lockE r) } ∧ m'.tab = m.tab := by
  obtain ⟨m', W', h1, h2, h3⟩ := run_hop (c := .e1) (P := P) (by
    intro m ex b W W' e; simp only [insStep]; rw [pair_eq e]) h ht
  refine ⟨(endStep m' W').1, h1.trans (.one (step_go rfl (ex' := t.ex) ?_)), ?_⟩
  · simp only [insStep]; rw [pair_eq h3]
  · rw [(endStep_tab _ _).1, h2]

theorem run_e2 {e : Nat} {W : Hop} {r : Nat} (h : HB m.tab 8 W r) (ht : t.cur = .ins v (.e2 e W)) :
    ∃ m', ReachN P 9 m t m' { t with cur := .ins v (.c3 e r (.occ (bOf P m v))) } ∧ m'.tab = m.tab := by
  obtain ⟨m', W', h1, h2, h3⟩ := run_hop (c := .e2 e) (P := P) (by
    intro m ex b W W' e; simp only [insStep]; rw [pair_eq e]) h ht
  refine ⟨(endStep m' W').1, h1.trans (.one (step_go rfl (ex' := t.ex) ?_)), ?_⟩
  · simp only [insStep]; rw [pair_eq h3]; simp [bOf, h2]
  · rw [(endStep_tab _ _).1, h2]

/-- Running alone, the thread returns, calls `pop_back` or tries again. -/
def Settles (P : Params K V) (N : Nat) (v : V) (m : Shared V) (t : Thread K V) : Prop :=
  Idle P N m t ∨ Pops P N v m t ∨ Again P N v m t

theorem Settles.mono {N M : Nat} (h : Settles P N v m t) (hM : N ≤ M) : Settles P M v m t :=
  h.imp (·.mono hM) (Or.imp (·.mono hM) (·.mono hM))

theorem Settles.back {t' : Thread K V} {a b N : Nat} (hr : ReachN P a m t m' t') (h1 : t'.todo = t.todo) (h2 : t'.ex = t.ex)
    (h : Settles P b v m' t') (hN : a + b ≤ N := by omega) : Settles P N v m t :=
  h.imp (.back hr h1 h2 · hN) (Or.imp (.back hr h1 h2 · hN) (.back hr h1 h2 · hN))

theorem settles_occ2 (hcur : t.cur = .ins v .occ2) : Settles P 5 v m t := by
  cases ho : m.tab.occ (bOf P m v) with
  | false =>
    exact .inl (.go hcur (pc' := .consB) (m' := m) (by simp [insStep, ho]) (idle_consB rfl))
  | true =>
    exact .back (.one (step_go hcur (pc' := .unlock _ none) (m' := m) (ex' := t.ex) (by simp [insStep, ho]; rfl))) rfl rfl
      (.inr (.inr (again_unlock rfl)))

theorem settles_c2 {W : Walk} {r : Option Nat} (h : WB m.tab (eqOf P v) 8 W r) (ht : t.cur = .ins v (.c2 W)) :
    Settles P 14 v m t := by
  obtain ⟨m', h1, h2⟩ := run_c2 h ht
  refine .back (b := 5) h1 rfl rfl ?_
  cases r with
  | none => exact settles_occ2 rfl
  | some p => exact .inr (.inr ((again_unlock rfl).mono (by omega)))

theorem settles_c3 {e e' : Nat} {W : Walk} {r : Option Nat} (h : WB m.tab (eqOf P v) 8 W r) (ht : t.cur = .ins v (.c3 e e' W)) :
    Settles P 10 v m t := by
  rcases run_c3 h ht with ⟨-, -, h⟩ | ⟨-, m', h1, -⟩
  · exact .inr (.inl (h.mono (by omega)))
  · exact .back h1 rfl rfl (.inr (.inr (again_unlock rfl)))

theorem settles_e2 {e : Nat} {W : Hop} {r : Nat} (htot : Tot m.tab (eqOf P v) (bOf P m v)) (h : HB m.tab 8 W r)
    (ht : t.cur = .ins v (.e2 e W)) : Settles P 19 v m t := by
  obtain ⟨m', h1, h2⟩ := run_e2 h ht
  obtain ⟨r', h3⟩ := htot.walk
  exact .back h1 rfl rfl (settles_c3 (by rw [h2]; exact h3) rfl)

theorem settles_lockB (htot : Tot m.tab (eqOf P v) (bOf P m v)) (hcur : t.cur = .ins v .lockB) : Settles P 15 v m t := by
  cases hlk : m.tab.locks (bOf P m v) with
  | true =>
    exact .inr (.inr (Again.mono (N := 1) ⟨m, _, .one (step_go hcur (m' := m) (ex' := t.ex) (pc' := .full) (by simp [insStep, hlk])),
      rfl, rfl, rfl⟩ (by omega)))
  | false =>
    obtain ⟨r, h⟩ := (htot.same (same_lock m (bOf P m v) true)).walk
    refine .back (.one (step_go hcur (m' := setLock m (bOf P m v) true) (ex' := t.ex) (pc' := .c2 (.occ (bOf P m v)))
      (by simp [insStep, hlk]))) rfl rfl (settles_c2 h rfl)

theorem settles_lockE {e : Nat} (htot : Tot m.tab (eqOf P v) (bOf P m v)) (hcur : t.cur = .ins v (.lockE e)) :
    Settles P 20 v m t := by
  cases hlk : m.tab.locks e with
  | true =>
    exact .inr (.inr (Again.mono (N := 1) ⟨m, _, .one (step_go hcur (m' := m) (ex' := t.ex) (pc' := .full) (by simp [insStep, hlk])),
      rfl, rfl, rfl⟩ (by omega)))
  | false =>
    have h0 := htot.same (same_lock m e true)
    obtain ⟨r, h⟩ := h0.hop
    exact .back (.one (step_go hcur (m' := setLock m e true) (ex' := t.ex) (pc' := .e2 e (.off1 (bOf P m v)))
      (by simp [insStep, hlk]))) rfl rfl (settles_e2 h0 h rfl)

theorem settles_e1 {W : Hop} {r : Nat} (htot : Tot m.tab (eqOf P v) (bOf P m v)) (h : HB m.tab 8 W r)
    (ht : t.cur = .ins v (.e1 W)) : Settles P 29 v m t := by
  obtain ⟨m', h1, h2⟩ := run_e1 (P := P) h ht
  exact .back h1 rfl rfl (settles_lockE (by rw [bOf, h2]; exact htot) rfl)

theorem settles_occ1 (htot : Tot m.tab (eqOf P v) (bOf P m v)) (hcur : t.cur = .ins v .occ1) : Settles P 30 v m t := by
  cases ho : m.tab.occ (bOf P m v) with
  | false =>
    exact .back (.one (step_go hcur (m' := m) (ex' := t.ex) (pc' := .lockB) (by simp [insStep, ho]))) rfl rfl
      (settles_lockB htot rfl)
  | true =>
    obtain ⟨r, h⟩ := htot.hop
    exact .back (.one (step_go hcur (m' := m) (ex' := t.ex) (pc' := .e1 (.off1 (bOf P m v))) (by simp [insStep, ho]))) rfl rfl (settles_e1 htot h rfl)

theorem settles_c1 {W : Walk} {r : Option Nat} (htot : Tot m.tab (eqOf P v) (bOf P m v)) (h : WB m.tab (eqOf P v) 8 W r)
    (ht : t.cur = .ins v (.c1 W)) : Settles P 39 v m t := by
  rcases run_c1 h ht with ⟨-, h⟩ | ⟨-, m', h1, h2⟩
  · exact .inl (h.mono (by omega))
  · exact .back h1 rfl rfl (settles_occ1 (by rw [bOf, h2]; exact htot) rfl)

theorem settles_exc (htot : Tot m.tab (eqOf P v) (bOf P m v)) (hcur : t.cur = .ins v .exc) : Settles P 40 v m t := by
  cases he : Vector.empty m.tab.excess with
  | true => exact .inl ((Idle.ret hcur (m' := m) (r := none) (by simp [insStep, he])).mono (by omega))
  | false =>
    obtain ⟨r, h⟩ := htot.walk
    exact .back (.one (step_go hcur (m' := m) (ex' := t.ex) (pc' := .c1 (.occ (bOf P m v))) (by simp [insStep, he]))) rfl rfl (settles_c1 htot h rfl)

/-! ### A try that meets no other thread -/

/-- From the head of the loop, all locks being free, the thread returns or calls `pop_back`. -/
theorem fresh (htot : Tot m.tab (eqOf P v) (bOf P m v)) (hb : bOf P m v < m.tab.total)
    (hfree : ∀ p, p < m.tab.total → m.tab.locks p = false) (hcur : t.cur = .ins v .full) : Idle P 50 m t ∨ Pops P 50 v m t := by
  cases hf : full m.tab with
  | true => exact .inl ((Idle.ret hcur (m' := m) (r := none) (by simp [insStep, hf])).mono (by omega))
  | false =>
    cases he : Vector.empty m.tab.excess with
    | true =>
      exact .inl (.go hcur (m' := m) (pc' := .exc) (by simp [insStep, hf]) (.ret rfl (m' := m) (r := none) (by simp [insStep, he])))
    | false =>
      have r0 : ReachN P 1 m t m { t with cur := .ins v .exc } :=
        .one (step_go hcur (m' := m) (ex' := t.ex) (pc' := .exc) (by simp [insStep, hf]))
      have r1 : ReachN P 2 m t m { t with cur := .ins v (.c1 (.occ (bOf P m v))) } :=
        r0.trans (.one (step_go rfl (m' := m) (ex' := t.ex) (pc' := .c1 (.occ (bOf P m v))) (by simp [insStep, he])))
      obtain ⟨r, hw⟩ := htot.walk
      rcases run_c1 (t := { t with cur := .ins v (.c1 (.occ (bOf P m v))) }) hw rfl with ⟨-, h⟩ | ⟨rfl, m1, h1, h2⟩
      · exact .inl (.back r1 rfl rfl h)
      · have r2 := r1.trans h1
        have hbo : bOf P m1 v = bOf P m v := by rw [bOf, h2]
        cases ho : m.tab.occ (bOf P m v) with
        | false =>
          have r3 := r2.trans (.one (step_go rfl (m' := m1) (ex' := t.ex) (pc' := .lockB)
            (by simp [insStep, hbo, h2, ho])))
          have r4 := r3.trans (.one (step_go rfl (m' := setLock m1 (bOf P m v) true) (ex' := t.ex) (pc' := .c2 (.occ (bOf P m v)))
            (by simp [insStep, hbo, h2, hfree _ hb])))
          have hs : Same m.tab (setLock m1 (bOf P m v) true).tab := by rw [← h2]; exact same_lock _ _ _
          obtain ⟨m2, h3, h4⟩ := run_c2 (P := P) (t := { t with cur := .ins v (.c2 (.occ (bOf P m v))) }) (hw.same hs) rfl
          have r5 := r4.trans h3
          refine .inl (.back (b := 5) r5 rfl rfl (.go rfl (m' := m2) (pc' := .consB) ?_ (idle_consB rfl)))
          have hbo2 : bOf P m2 v = bOf P m v := by rw [bOf, h4, hs.bc]
          have ho2 : m2.tab.occ (bOf P m v) = false := by rw [h4, hs.occ]; exact ho
          simp [insStep, hbo2, ho2]
        | true =>
          obtain ⟨e, hh⟩ := htot.hop
          have hlt : e < m.tab.total := hh.toHT.lt (by rintro w (h | h) <;> cases h; exact hb)
          have r3 := r2.trans (.one (step_go rfl (m' := m1) (ex' := t.ex) (pc' := .e1 (.off1 (bOf P m v)))
            (by simp [insStep, hbo, h2, ho])))
          obtain ⟨m2, h3, h4⟩ := run_e1 (P := P) (t := { t with cur := .ins v (.e1 (.off1 (bOf P m v))) }) (m := m1) (r := e)
            (by rw [h2]; exact hh) rfl
          have r4 := r3.trans h3
          have hbo2 : bOf P m2 v = bOf P m v := by rw [bOf, h4, h2]
          have r5 := r4.trans (.one (step_go rfl (m' := setLock m2 e true) (ex' := t.ex) (pc' := .e2 e (.off1 (bOf P m v)))
            (by simp [insStep, hbo2, h4, h2, hfree _ hlt])))
          have hs : Same m.tab (setLock m2 e true).tab := by rw [← h2, ← h4]; exact same_lock _ _ _
          obtain ⟨m3, h5, h6⟩ := run_e2 (P := P) (t := { t with cur := .ins v (.e2 e (.off1 (bOf P m v))) }) (hh.same hs) rfl
          have hbo3 : bOf P (setLock m2 e true) v = bOf P m v := by rw [bOf, hs.bc]
          rw [hbo3] at h5
          have r6 := r5.trans h5
          rcases run_c3 (P := P) (t := { t with cur := .ins v (.c3 e e (.occ (bOf P m v))) }) (m := m3) (r := none)
            (by rw [h6]; exact hw.same hs) rfl with ⟨-, -, h⟩ | ⟨h, -⟩
          · exact .inr (.back r6 rfl rfl h)
          · exact absurd ⟨rfl, rfl⟩ h

/-- The free list is exhausted: the thread returns. -/
theorem fresh_empty (he : Vector.empty m.tab.excess = true) (hcur : t.cur = .ins v .full) : Idle P 2 m t := by
  cases hf : full m.tab with
  | true => exact (Idle.ret hcur (m' := m) (r := none) (by simp [insStep, hf])).mono (by omega)
  | false =>
    exact .go hcur (m' := m) (pc' := .exc) (by simp [insStep, hf]) (.ret rfl (m' := m) (r := none) (by simp [insStep, he]))

/-- A lookup returns. -/
theorem run_fnd {k : K} {W : Walk} {r : Option Nat} (h : WB m.tab (fun w => P.keyEq (P.keyOf w) k) 8 W r)
    (ht : t.cur = .fnd k W) : Idle P 9 m t := by
  obtain ⟨m', W', h1, h2, h3⟩ := walk_go (P := P) (eq := fun w => P.keyEq (P.keyOf w) k) (fun W => .fnd k W) (by
    intro m t W W' ht e
    simp only [step, ht]; rw [pair_eq e]) h ht
  have e : ∃ m'' d, step P m' { t with cur := .fnd k W' } = (m'', { t with cur := .idle, done := d }) := by
    cases r with
    | none => exact ⟨_, _, by simp only [step]; rw [pair_eq h3]⟩
    | some p => exact ⟨_, _, by simp only [step]; rw [pair_eq h3]⟩
  obtain ⟨m'', d, e⟩ := e
  exact ⟨_, _, h1.trans (.one e), rfl, rfl, rfl⟩

end

end Stdgpu.UnorderedConc.Bd
