import Verif.Proof.UBndIns
/-! Progress with bounds: the try of an erasure, one thread. -/
namespace Stdgpu.UnorderedConc.Bd.Er
open Stdgpu.Conc
open Stdgpu.SlotConc (upd)
open Stdgpu.Unordered
open Stdgpu.Vector (FPC vfront countBits VInv)
open Stdgpu.Spec
open Stdgpu.UnorderedConc.Er (bK eqK)
variable {K V : Type}

/-- Walks from the bucket end. -/
structure Tot (t : Tab V) (eq : V → Bool) (b : Nat) : Prop where
  walk : ∃ r, WB t eq 8 (.occ b) r
  prev : ∀ p, ∃ r, PB t p 8 (.off1 b) r

theorem Tot.same {t t' : Tab V} (hs : Same t t') {eq : V → Bool} {b : Nat} (h : Tot t eq b) : Tot t' eq b :=
  ⟨let ⟨r, h1⟩ := h.walk; ⟨r, h1.same hs⟩, fun p => let ⟨r, h1⟩ := h.prev p; ⟨r, h1.same hs⟩⟩

section
variable {P : Params K V} {m m' : Shared V} {t : Thread K V} {k : K}

/-- Running alone, the thread calls `push_back`. -/
def Pushes (P : Params K V) (N : Nat) (k : K) (m : Shared V) (t : Thread K V) : Prop :=
  ∃ m' t' p q, ReachN P N m t m' t' ∧ t'.todo = t.todo ∧ t'.ex = { t.ex with todo := [.push () p] } ∧ t'.cur = .era k (.push p q)

/-- Running alone, the thread tries again. -/
def Again (P : Params K V) (N : Nat) (k : K) (m : Shared V) (t : Thread K V) : Prop :=
  ∃ m' t', ReachN P N m t m' t' ∧ t'.todo = t.todo ∧ t'.ex = t.ex ∧ t'.cur = .era k (.f1 (.occ (bK P m k)))

theorem Pushes.mono {N M : Nat} (h : Pushes P N k m t) (hM : N ≤ M) : Pushes P M k m t :=
  let ⟨a, b, p, q, k1, k2⟩ := h; ⟨a, b, p, q, k1.mono hM, k2⟩

theorem Again.mono {N M : Nat} (h : Again P N k m t) (hM : N ≤ M) : Again P M k m t :=
  let ⟨a, b, k1, k2⟩ := h; ⟨a, b, k1.mono hM, k2⟩

theorem Pushes.back {t' : Thread K V} {a b N : Nat} (hr : ReachN P a m t m' t') (h1 : t'.todo = t.todo) (h2 : t'.ex = t.ex)
    (h : Pushes P b k m' t') (hN : a + b ≤ N := by omega) : Pushes P N k m t :=
  let ⟨a, b, p, q, k1, k2, k3, k4⟩ := h; ⟨a, b, p, q, (hr.trans k1).mono hN, k2.trans h1, by rw [k3, h2], k4⟩

theorem Again.back {t' : Thread K V} (hbc : m'.tab.bc = m.tab.bc) {a b N : Nat} (hr : ReachN P a m t m' t') (h1 : t'.todo = t.todo)
    (h2 : t'.ex = t.ex) (h : Again P b k m' t') (hN : a + b ≤ N := by omega) : Again P N k m t :=
  let ⟨a, b, k1, k2, k3, k4⟩ := h; ⟨a, b, (hr.trans k1).mono hN, k2.trans h1, k3.trans h2, by rw [k4, bK, bK, hbc]⟩

theorem Idle.go {pc pc' : EPC} (hcur : t.cur = .era k pc)
    (e : eraStep m (bK P m k) (eqK P k) t.ex pc = (m', t.ex, .go pc'))
    {b N : Nat} (h : Idle P b m' { t with cur := .era k pc' }) (hN : b + 1 ≤ N := by omega) : Idle P N m t :=
  Idle.back (.one (UnorderedConc.Er.step_go hcur e)) rfl rfl h (by omega)

theorem Idle.ret {pc : EPC} {r : Bool} (hcur : t.cur = .era k pc)
    (e : eraStep m (bK P m k) (eqK P k) t.ex pc = (m', t.ex, .ret r)) : Idle P 1 m t := by
  obtain ⟨d, h⟩ := UnorderedConc.Er.step_ret hcur e
  exact ⟨_, _, .one h, rfl, rfl, rfl⟩

theorem Pushes.go {pc pc' : EPC} (hcur : t.cur = .era k pc)
    (e : eraStep m (bK P m k) (eqK P k) t.ex pc = (m', t.ex, .go pc'))
    {b N : Nat} (h : Pushes P b k m' { t with cur := .era k pc' }) (hN : b + 1 ≤ N := by omega) : Pushes P N k m t :=
  Pushes.back (.one (UnorderedConc.Er.step_go hcur e)) rfl rfl h (by omega)

theorem Again.go {pc pc' : EPC} (hcur : t.cur = .era k pc)
    (e : eraStep m (bK P m k) (eqK P k) t.ex pc = (m', t.ex, .go pc')) (hbc : m'.tab.bc = m.tab.bc)
    {b N : Nat} (h : Again P b k m' { t with cur := .era k pc' }) (hN : b + 1 ≤ N := by omega) : Again P N k m t :=
  Again.back hbc (.one (UnorderedConc.Er.step_go hcur e)) rfl rfl h (by omega)

/-! ### Straight-line code -/

theorem again_f1 (hcur : t.cur = .era k (.f1 (.occ (bK P m k)))) : Again P 0 k m t := ⟨_, _, .refl _ _ _, rfl, rfl, hcur⟩

theorem idle_unlockB {p : Nat} (hcur : t.cur = .era k (.unlockB p true)) : Idle P 1 m t := Idle.ret hcur rfl
theorem again_unlockB {p : Nat} (hcur : t.cur = .era k (.unlockB p false)) : Again P 1 k m t := .go hcur rfl rfl (again_f1 rfl)
theorem idle_desB {p : Nat} (hcur : t.cur = .era k (.desB p)) : Idle P 2 m t := Idle.go hcur rfl (idle_unlockB rfl)
theorem idle_cntB {p : Nat} (hcur : t.cur = .era k (.cntB p)) : Idle P 3 m t := Idle.go hcur rfl (idle_desB rfl)
theorem idle_resetB {p : Nat} (hcur : t.cur = .era k (.resetB p)) : Idle P 4 m t := Idle.go hcur rfl (idle_cntB rfl)
theorem idle_unlock2 {q : Nat} (hcur : t.cur = .era k (.unlock2 q true)) : Idle P 1 m t := Idle.ret hcur rfl
theorem idle_unlock1 {p q : Nat} (hcur : t.cur = .era k (.unlock1 p q true)) : Idle P 2 m t := Idle.go hcur rfl (idle_unlock2 rfl)
theorem again_unlock2 {q : Nat} (hcur : t.cur = .era k (.unlock2 q false)) : Again P 1 k m t := .go hcur rfl rfl (again_f1 rfl)
theorem again_unlock1 {p q : Nat} (hcur : t.cur = .era k (.unlock1 p q false)) : Again P 2 k m t :=
  .go hcur rfl rfl (again_unlock2 rfl)
theorem again_undo1 {p : Nat} (hcur : t.cur = .era k (.undo1 p)) : Again P 1 k m t := .go hcur rfl rfl (again_f1 rfl)
theorem pushes_des {p q : Nat} (hcur : t.cur = .era k (.des p q)) : Pushes P 1 k m t :=
  ⟨_, _, p, q, .one (UnorderedConc.Er.step_go hcur rfl), rfl, rfl, rfl⟩
theorem pushes_cnt {p q : Nat} (hcur : t.cur = .era k (.cnt p q)) : Pushes P 2 k m t := .go hcur rfl (pushes_des rfl)
theorem pushes_reset {p q : Nat} (hcur : t.cur = .era k (.reset p q)) : Pushes P 3 k m t := .go hcur rfl (pushes_cnt rfl)
theorem pushes_zero {p q : Nat} (hcur : t.cur = .era k (.zero p q)) : Pushes P 4 k m t := .go hcur rfl (pushes_reset rfl)
theorem pushes_wr {p q : Nat} {o : Int} (hcur : t.cur = .era k (.wr p q o)) : Pushes P 4 k m t := .go hcur rfl (pushes_reset rfl)
theorem pushes_rd3 {p q : Nat} {o : Int} (hcur : t.cur = .era k (.rd3 p q o)) : Pushes P 5 k m t := .go hcur rfl (pushes_wr rfl)
theorem pushes_rd2 {p q : Nat} (hcur : t.cur = .era k (.rd2 p q)) : Pushes P 6 k m t := .go hcur rfl (pushes_rd3 rfl)
theorem pushes_rd1 {p q : Nat} (hcur : t.cur = .era k (.rd1 p q)) : Pushes P 7 k m t := by
  by_cases h : m.tab.off p = 0
  · exact .go hcur (m' := m) (pc' := .zero p q) (by simp [eraStep, h]) (pushes_zero rfl)
  · exact .go hcur (m' := m) (pc' := .rd2 p q) (by simp [eraStep, h]) (pushes_rd2 rfl)

/-! ### Walks -/

theorem run_walk {c : Walk → EPC} (hc : ∀ (m : Shared V) (ex : Ex) (b : Nat) (W W' : Walk), (findStep m (eqK P k) W).2 = .inl W' →
      eraStep m b (eqK P k) ex (c W) = ((findStep m (eqK P k) W).1, ex, .go (c W')))
    {W : Walk} {r : Option Nat} (h : WB m.tab (eqK P k) 8 W r) (ht : t.cur = .era k (c W)) :
    ∃ m' W', ReachN P 8 m t m' { t with cur := .era k (c W') } ∧ m'.tab = m.tab ∧ (findStep m' (eqK P k) W').2 = .inr r := by
  refine walk_go (P := P) (eq := eqK P k) (fun W => .era k (c W)) ?_ h ht
  intro m t W W' ht e
  have := UnorderedConc.Er.step_go (P := P) (m := m) ht (hc m t.ex (bK P m k) W W' e)
  rw [this]

theorem run_prev {p : Nat} {c : Hop → EPC} (hc : ∀ (m : Shared V) (ex : Ex) (b : Nat) (W W' : Hop), (prevStep m p W).2 = .inl W' →
      eraStep m b (eqK P k) ex (c W) = ((prevStep m p W).1, ex, .go (c W')))
    {W : Hop} {r : Nat} (h : PB m.tab p 8 W r) (ht : t.cur = .era k (c W)) :
    ∃ m' W', ReachN P 8 m t m' { t with cur := .era k (c W') } ∧ m'.tab = m.tab ∧ (prevStep m' p W').2 = .inr r := by
  refine prev_go (P := P) (p := p) (fun W => .era k (c W)) ?_ h ht
  intro m t W W' ht e
  have := UnorderedConc.Er.step_go (P := P) (m := m) ht (hc m t.ex (bK P m k) W W' e)
  rw [this]

theorem run_f1 {W : Walk} {r : Option Nat} (h : WB m.tab (eqK P k) 8 W r) (ht : t.cur = .era k (.f1 W)) :
    (r = none ∧ Idle P 9 m t) ∨ (∃ p, r = some p ∧ ∃ m', ReachN P 9 m t m'
      { t with cur := .era k (if p = bK P m k then .lockB p else .p1 p (.off1 (bK P m k))) } ∧ m'.tab = m.tab) := by
  obtain ⟨m', W', h1, h2, h3⟩ := run_walk (c := .f1) (by
    intro m ex b W W' e; simp only [eraStep]; rw [pair_eq e]) h ht
  cases r with
  | none =>
    refine .inl ⟨rfl, Idle.back h1 rfl rfl (Idle.ret (k := k) (pc := .f1 W') (r := false) (m' := (findStep m' (eqK P k) W').1) rfl ?_)⟩
    simp only [eraStep]; rw [pair_eq h3]
  | some p =>
    refine .inr ⟨p, rfl, (findStep m' (eqK P k) W').1, h1.trans (.one (UnorderedConc.Er.step_go rfl (ex' := t.ex) ?_)), ?_⟩
    · simp only [eraStep]; rw [pair_eq h3]; simp [bK, h2]
    · rw [(findStep_tab _ _ _).1, h2]

theorem run_f2 {p : Nat} {W : Walk} {r : Option Nat} (h : WB m.tab (eqK P k) 8 W r) (ht : t.cur = .era k (.f2 p W)) :
    ∃ m', ReachN P 9 m t m' { t with cur := .era k (if some p = r then .resetB p else .unlockB p false) } ∧ m'.tab = m.tab := by
  obtain ⟨m', W', h1, h2, h3⟩ := run_walk (c := .f2 p) (by
    intro m ex b W W' e; simp only [eraStep]; rw [pair_eq e]) h ht
  refine ⟨(findStep m' (eqK P k) W').1, h1.trans (.one (UnorderedConc.Er.step_go rfl (ex' := t.ex) ?_)), ?_⟩
  · simp only [eraStep]; rw [pair_eq h3]
  · rw [(findStep_tab _ _ _).1, h2]

theorem run_f3 {p q : Nat} {W : Walk} {r : Option Nat} (h : WB m.tab (eqK P k) 8 W r) (ht : t.cur = .era k (.f3 p q W)) :
    ∃ m', ReachN P 9 m t m' { t with cur := .era k (.p2 p q r (.off1 (bK P m k))) } ∧ m'.tab = m.tab := by
  obtain ⟨m', W', h1, h2, h3⟩ := run_walk (c := .f3 p q) (by
    intro m ex b W W' e; simp only [eraStep]; rw [pair_eq e]) h ht
  refine ⟨(findStep m' (eqK P k) W').1, h1.trans (.one (UnorderedConc.Er.step_go rfl (ex' := t.ex) ?_)), ?_⟩
  · simp only [eraStep]; rw [pair_eq h3]; simp [bK, h2]
  · rw [(findStep_tab _ _ _).1, h2]

theorem run_p1 {p : Nat} {W : Hop} {r : Nat} (h : PB m.tab p 8 W r) (ht : t.cur = .era k (.p1 p W)) :
    ∃ m', ReachN P 9 m t m' { t with cur := .era k (.lock1 p r) } ∧ m'.tab = m.tab := by
  obtain ⟨m', W', h1, h2, h3⟩ := run_prev (c := .p1 p) (P := P) (by
    intro m ex b W W' e; simp only [eraStep]; rw [pair_eq e]) h ht
  refine ⟨(prevStep m' p W').1, h1.trans (.one (UnorderedConc.Er.step_go rfl (ex' := t.ex) ?_)), ?_⟩
  · simp only [eraStep]; rw [pair_eq h3]
  · rw [(prevStep_tab _ _ _).1, h2]

theorem run_p2 {p q : Nat} {it : Option Nat} {W : Hop} {r : Nat} (h : PB m.tab p 8 W r) (ht : t.cur = .era k (.p2 p q it W)) :
    ∃ m', ReachN P 9 m t m' { t with cur := .era k (if some p = it ∧ q = r then .rd1 p q else .unlock1 p q false) } ∧
      m'.tab = m.tab := by
  obtain ⟨m', W', h1, h2, h3⟩ := run_prev (c := .p2 p q it) (P := P) (by
    intro m ex b W W' e; simp only [eraStep]; rw [pair_eq e]) h ht
  refine ⟨(prevStep m' p W').1, h1.trans (.one (UnorderedConc.Er.step_go rfl (ex' := t.ex) ?_)), ?_⟩
  · simp only [eraStep]; rw [pair_eq h3]
  · rw [(prevStep_tab _ _ _).1, h2]

/-- Running alone, the thread returns, calls `push_back` or tries again. -/
def Settles (P : Params K V) (N : Nat) (k : K) (m : Shared V) (t : Thread K V) : Prop :=
  Idle P N m t ∨ Pushes P N k m t ∨ Again P N k m t

theorem Settles.mono {N M : Nat} (h : Settles P N k m t) (hM : N ≤ M) : Settles P M k m t :=
  h.imp (·.mono hM) (Or.imp (·.mono hM) (·.mono hM))

theorem Settles.back {t' : Thread K V} {a b N : Nat} (hr : ReachN P a m t m' t') (h1 : t'.todo = t.todo)
    (h2 : t'.ex = t.ex) (hbc : m'.tab.bc = m.tab.bc) (h : Settles P b k m' t') (hN : a + b ≤ N := by omega) : Settles P N k m t :=
  h.imp (.back hr h1 h2 · hN) (Or.imp (.back hr h1 h2 · hN) (.back hbc hr h1 h2 · hN))

theorem settles_f2 {p : Nat} {W : Walk} {r : Option Nat} (h : WB m.tab (eqK P k) 8 W r) (ht : t.cur = .era k (.f2 p W)) :
    Settles P 13 k m t := by
  obtain ⟨m', h1, h2⟩ := run_f2 h ht
  refine .back (b := 4) h1 rfl rfl (by rw [h2]) ?_
  split
  · exact .inl (idle_resetB rfl)
  · exact .inr (.inr ((again_unlockB rfl).mono (by omega)))

theorem settles_lockB {p : Nat} (htot : Tot m.tab (eqK P k) (bK P m k)) (hcur : t.cur = .era k (.lockB p)) : Settles P 15 k m t := by
  cases hlk : m.tab.locks p with
  | true => exact .inr (.inr (.go hcur (m' := m) (pc' := .f1 (.occ (bK P m k))) (by simp [eraStep, hlk]) rfl (again_f1 rfl)))
  | false =>
    obtain ⟨r, h⟩ := (htot.same (same_lock m p true)).walk
    refine .back (.one (UnorderedConc.Er.step_go hcur (m' := setLock m p true) (ex' := t.ex) (pc' := .f2 p (.occ (bK P m k)))
      (by simp [eraStep, hlk]))) rfl rfl rfl (settles_f2 h rfl)

theorem settles_p2 {p q : Nat} {it : Option Nat} {W : Hop} {r : Nat} (h : PB m.tab p 8 W r)
    (ht : t.cur = .era k (.p2 p q it W)) : Settles P 16 k m t := by
  obtain ⟨m', h1, h2⟩ := run_p2 (P := P) h ht
  refine .back (b := 7) h1 rfl rfl (by rw [h2]) ?_
  split
  · exact .inr (.inl (pushes_rd1 rfl))
  · exact .inr (.inr ((again_unlock1 rfl).mono (by omega)))

theorem settles_f3 {p q : Nat} {W : Walk} {r : Option Nat} (htot : Tot m.tab (eqK P k) (bK P m k))
    (h : WB m.tab (eqK P k) 8 W r) (ht : t.cur = .era k (.f3 p q W)) : Settles P 25 k m t := by
  obtain ⟨m', h1, h2⟩ := run_f3 h ht
  obtain ⟨r', h3⟩ := htot.prev p
  exact .back h1 rfl rfl (by rw [h2]) (settles_p2 (by rw [h2]; exact h3) rfl)

theorem settles_lock2 {p q : Nat} (htot : Tot m.tab (eqK P k) (bK P m k)) (hcur : t.cur = .era k (.lock2 p q)) : Settles P 26 k m t := by
  cases hlk : m.tab.locks q with
  | true => exact .inr (.inr (.go hcur (m' := m) (pc' := .undo1 p) (by simp [eraStep, hlk]) rfl (again_undo1 rfl)))
  | false =>
    have h0 := htot.same (same_lock m q true)
    obtain ⟨r, h⟩ := h0.walk
    refine .back (.one (UnorderedConc.Er.step_go hcur (m' := setLock m q true) (ex' := t.ex) (pc' := .f3 p q (.occ (bK P m k)))
      (by simp [eraStep, hlk]))) rfl rfl rfl (settles_f3 h0 h rfl)

theorem settles_lock1 {p q : Nat} (htot : Tot m.tab (eqK P k) (bK P m k)) (hcur : t.cur = .era k (.lock1 p q)) : Settles P 27 k m t := by
  cases hlk : m.tab.locks p with
  | true => exact .inr (.inr (.go hcur (m' := m) (pc' := .f1 (.occ (bK P m k))) (by simp [eraStep, hlk]) rfl (again_f1 rfl)))
  | false =>
    exact .back (.one (UnorderedConc.Er.step_go hcur (m' := setLock m p true) (ex' := t.ex) (pc' := .lock2 p q)
      (by simp [eraStep, hlk]))) rfl rfl rfl (settles_lock2 (htot.same (same_lock m p true)) rfl)

theorem settles_p1 {p : Nat} {W : Hop} {r : Nat} (htot : Tot m.tab (eqK P k) (bK P m k)) (h : PB m.tab p 8 W r)
    (ht : t.cur = .era k (.p1 p W)) : Settles P 36 k m t := by
  obtain ⟨m', h1, h2⟩ := run_p1 (P := P) h ht
  exact .back h1 rfl rfl (by rw [h2]) (settles_lock1 (by rw [bK, h2]; exact htot) rfl)

theorem settles_f1 {W : Walk} {r : Option Nat} (htot : Tot m.tab (eqK P k) (bK P m k)) (h : WB m.tab (eqK P k) 8 W r)
    (ht : t.cur = .era k (.f1 W)) : Settles P 45 k m t := by
  rcases run_f1 h ht with ⟨-, h⟩ | ⟨p, -, m', h1, h2⟩
  · exact .inl (h.mono (by omega))
  · refine .back (b := 36) h1 rfl rfl (by rw [h2]) ?_
    have htot' : Tot m'.tab (eqK P k) (bK P m' k) := by rw [bK, h2]; exact htot
    split
    · exact (settles_lockB htot' rfl).mono (by omega)
    · obtain ⟨r', h3⟩ := htot.prev p
      exact settles_p1 htot' (by rw [h2]; exact h3) rfl

/-! ### A try that meets no other thread -/

/-- All locks being free, a new try returns or calls `push_back`. -/
theorem fresh (htot : Tot m.tab (eqK P k) (bK P m k)) (hb : bK P m k < m.tab.total)
    (hfree : ∀ p, p < m.tab.total → m.tab.locks p = false) (hcur : t.cur = .era k (.f1 (.occ (bK P m k)))) :
    Idle P 50 m t ∨ Pushes P 50 k m t := by
  obtain ⟨r, hw⟩ := htot.walk
  rcases run_f1 hw hcur with ⟨-, h⟩ | ⟨p, rfl, m1, h1, h2⟩
  · exact .inl (h.mono (by omega))
  · have hp : p < m.tab.total := UnorderedConc.Er.WT.lt hw.toWT hb p rfl
    have hbo : bK P m1 k = bK P m k := by rw [bK, h2]
    by_cases hpb : p = bK P m k
    · rw [if_pos hpb] at h1
      have r2 := h1.trans (.one (UnorderedConc.Er.step_go rfl (m' := setLock m1 p true) (ex' := t.ex) (pc' := .f2 p (.occ (bK P m k)))
        (by simp [eraStep, hbo, h2, hfree _ hp])))
      have hs : Same m.tab (setLock m1 p true).tab := by rw [← h2]; exact same_lock _ _ _
      obtain ⟨m2, h3, h4⟩ := run_f2 (P := P) (t := { t with cur := .era k (.f2 p (.occ (bK P m k))) }) (hw.same hs) rfl
      rw [if_pos rfl] at h3
      exact .inl (.back (r2.trans h3) rfl rfl (idle_resetB rfl))
    · rw [if_neg hpb] at h1
      obtain ⟨q, hq⟩ := htot.prev p
      obtain ⟨hq1, hq2⟩ := UnorderedConc.Er.PT.lt_ne hq.toPT hb (fun e => hpb e.symm)
      obtain ⟨m2, h3, h4⟩ := run_p1 (P := P) (t := { t with cur := .era k (.p1 p (.off1 (bK P m k))) }) (m := m1) (r := q)
        (by rw [h2]; exact hq) rfl
      have r2 := h1.trans h3
      have hbo2 : bK P m2 k = bK P m k := by rw [bK, h4, h2]
      have r3 := r2.trans (.one (UnorderedConc.Er.step_go rfl (m' := setLock m2 p true) (ex' := t.ex) (pc' := .lock2 p q)
        (by simp [eraStep, h4, h2, hfree _ hp])))
      have hlq : (setLock m2 p true).tab.locks q = false := by
        show upd m2.tab.locks p true q = false
        rw [h4, h2]
        simp [upd, hq2, hfree _ hq1]
      have r4 := r3.trans (.one (UnorderedConc.Er.step_go rfl (m' := setLock (setLock m2 p true) q true) (ex' := t.ex)
        (pc' := .f3 p q (.occ (bK P m k)))
        (by simp only [eraStep, hlq]; simp; exact hbo2)))
      have hs : Same m.tab (setLock (setLock m2 p true) q true).tab := by
        rw [← h2, ← h4]; exact ⟨rfl, rfl, rfl, rfl, rfl, rfl⟩
      obtain ⟨m3, h5, h6⟩ := run_f3 (P := P) (t := { t with cur := .era k (.f3 p q (.occ (bK P m k))) }) (hw.same hs) rfl
      have hbo3 : bK P (setLock (setLock m2 p true) q true) k = bK P m k := by rw [bK, hs.bc]
      rw [hbo3] at h5
      obtain ⟨m4, h7, h8⟩ := run_p2 (P := P) (t := { t with cur := .era k (.p2 p q (some p) (.off1 (bK P m k))) }) (m := m3)
        (r := q) (by rw [h6]; exact hq.same hs) rfl
      rw [if_pos ⟨rfl, rfl⟩] at h7
      exact .inr (.back ((r4.trans h5).trans h7) rfl rfl (pushes_rd1 rfl))

end
end Stdgpu.UnorderedConc.Bd.Er
