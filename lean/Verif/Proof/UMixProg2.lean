import Verif.Proof.UMixProg
import Verif.Proof.UMixRoom2
/-! Progress of concurrent insertions, erasures and lookups when different keys have different buckets: the whole
system. -/
namespace Stdgpu.UnorderedConc.Mx
open Stdgpu.Conc
open Stdgpu.SlotConc (upd)
open Stdgpu.Unordered
open Stdgpu.Vector (FPC vfront countBits VInv)
open Stdgpu.Spec
variable {K V : Type} {P : Params K V}

section
variable {E : Start P} {xp : List (List (SlotConc.Op Unit Nat))} {s : Sys (Shared V) (Thread K V)}

theorem inv_runs (hl : KeyLaws P) (h : Inv E xp s) (σ : List Nat) : ∃ xp, Inv E xp (run (step P) s σ) :=
  run_inv (f := step P) (fun s => ∃ xp, Inv E xp s) (fun _ _ _ ⟨_, h⟩ ht => h.step hl ht) _ ⟨_, h⟩ σ

/-- As long as a thread has not completed a further call on the free list and is at the front of it, the counter is the
same. -/
def Kept (c0 : Int) (L : Nat) (m : Shared V) (t : Thread K V) : Prop :=
  L < t.ex.done.length ∨ (t.ex.done.length = L ∧ ∀ f, t.ex.pc = .front f → m.tab.excess.ctr = c0)

theorem slot_kept {cap : Nat} {c0 : Int} {L : Nat} {v : Vector.Vec Nat} {x : Ex}
    (h : L < x.done.length ∨ (x.done.length = L ∧ ∀ f, x.pc = .front f → v.ctr = c0)) :
    L < (SlotConc.step (vfront cap) v x).2.done.length ∨ ((SlotConc.step (vfront cap) v x).2.done.length = L ∧
      ∀ f, (SlotConc.step (vfront cap) v x).2.pc = .front f → (SlotConc.step (vfront cap) v x).1.ctr = c0) := by
  obtain ⟨todo, pc, done⟩ := x
  cases todo with
  | nil => exact h
  | cons op rest =>
    cases pc with
    | front f =>
      simp only [SlotConc.step]
      rcases Vector.vfront_cases cap v.ctr op.isPush op.kind f with ⟨h3, e', -⟩ | ⟨h3, e', -⟩ | ⟨h3, h4, -, -, e'⟩ |
        ⟨h3, h4, -, e'⟩ | ⟨h3, -, -, -, e'⟩ | ⟨h3, -, -, e'⟩ <;> rw [e']
      · exact h.imp id (fun ⟨h1, h2⟩ => ⟨h1, fun _ _ => h2 f rfl⟩)
      · left; simp only [List.length_append, List.length_singleton] at h ⊢; omega
      · exact h.imp id (fun ⟨h1, h2⟩ => ⟨h1, fun _ h => by simp at h⟩)
      · left; simp only [List.length_append, List.length_singleton] at h ⊢; omega
      · exact h.imp id (fun ⟨h1, h2⟩ => ⟨h1, fun _ h => by simp at h⟩)
      · left; simp only [List.length_append, List.length_singleton] at h ⊢; omega
    | slot p sp =>
      simp only [SlotConc.step]
      split
      · exact h.imp id (fun ⟨h1, h2⟩ => ⟨h1, fun _ h => by simp at h⟩)
      · left; simp only [List.length_append, List.length_singleton] at h ⊢; omega

theorem Kept.step {c0 : Int} {L : Nat} {m : Shared V} {t : Thread K V} (h : Kept c0 L m t) :
    Kept c0 L (UnorderedConc.step P m t).1 (UnorderedConc.step P m t).2 := by
  have calm : Calm m t (UnorderedConc.step P m t) → Kept c0 L (UnorderedConc.step P m t).1 (UnorderedConc.step P m t).2 := by
    rintro ⟨h1, h2, h3, -⟩
    unfold Kept at h ⊢
    rw [h1, h2, h3]; exact h
  by_cases ha : AtEx t.cur = true
  · by_cases h0 : t.ex.todo = []
    · have hx : exStep m t.ex = (m, t.ex) := by unfold exStep; simp [SlotConc.step, h0]
      obtain ⟨todo, cur, ex, done⟩ := t
      cases cur with
      | idle => simp [AtEx] at ha
      | fnd k w => simp [AtEx] at ha
      | ins v pc =>
        cases pc <;> simp [AtEx] at ha
        simp only at hx h0
        simp only [UnorderedConc.step, insStep, hx, h0, if_true]
        cases ex.done.getLast? with
        | none => exact h
        | some x => obtain ⟨op, res⟩ := x; cases res <;> exact h
      | era k pc =>
        cases pc <;> simp [AtEx] at ha
        simp only at hx h0
        simp only [UnorderedConc.step, eraStep, hx, h0, if_true]
        exact h
    · obtain ⟨e1, e2, -, -⟩ := exStep_big (P := P) (m := m) ha h0
      unfold Kept
      rw [e1, e2]
      exact slot_kept h
  · cases hcur : t.cur with
    | idle => exact calm (idle_calm hcur)
    | fnd k w => exact calm (fnd_calm hcur)
    | ins v pc =>
      refine calm (ins_calm hcur ?_)
      rintro e rfl
      rw [hcur] at ha; exact ha rfl
    | era k pc =>
      refine calm (era_calm hcur ?_)
      rintro p q rfl
      rw [hcur] at ha; exact ha rfl

theorem Kept.reach {c0 : Int} {L : Nat} {m m' : Shared V} {t t' : Thread K V} (hr : Reach P m t m' t') (h : Kept c0 L m t) :
    Kept c0 L m' t' := by
  obtain ⟨n, hn⟩ := hr
  have : ∀ n (x : Shared V × Thread K V), Kept c0 L x.1 x.2 → Kept c0 L (solo P n x).1 (solo P n x).2 := by
    intro n
    induction n with
    | zero => intro x hx; exact hx
    | succ n ih => intro x hx; exact ih _ hx.step
  have h2 := this n (m, t) h
  rw [hn] at h2
  exact h2

/-- From a call of `pop_back` the thread goes on to return or to try again; in the latter case the free list is empty or
its counter, which was too large, has become smaller. -/
theorem Inv.popped (h : Inv E xp s) {i : Nat} {t : Thread K V} (ht : s.threads[i]? = some t)
    (ho : ∀ j u, j ≠ i → s.threads[j]? = some u → u.ex.todo = []) {v : V} {e : Nat} (hpc : t.ex.pc = .front .check)
    (hcur : t.cur = .ins v (.pop e)) :
    ∃ σ m' t', run (UnorderedConc.step P) s σ = ⟨m', s.threads.set i t'⟩ ∧ t'.todo = t.todo ∧ t'.ex.todo = [] ∧
      (t'.cur = .idle ∨ (t'.cur = .ins v .full ∧ (Vector.empty m'.tab.excess = true ∨
        (0 < s.shared.tab.excess.ctr ∧ m'.tab.excess.ctr = s.shared.tab.excess.ctr - 1)))) := by
  have hmem := List.mem_of_getElem? ht
  have hlt := (List.getElem?_eq_some_iff.1 ht).1
  obtain ⟨σ, σx, m1, t1, h1, h2, h3, hx⟩ := drain_one_ex P h.wellEx h.ex ht ho
  have htodo : t.ex.todo = [.pop ()] := by
    have hk := h.knows t hmem
    rw [hcur] at hk
    exact hk.2.1
  have hne : t.ex.todo ≠ [] := by rw [htodo]; simp
  have ht1 : (⟨m1, s.threads.set i t1⟩ : Sys (Shared V) (Thread K V)).threads[i]? = some t1 := by simp [hlt]
  rcases h2 with rfl | ⟨-, k2, k3, k4⟩
  · exact absurd h3 hne
  rcases k4 with ⟨k5, -⟩ | ⟨-, k5⟩
  · exact absurd h3 k5
  rw [hcur] at k5
  rcases k5.ins with ⟨n, hc⟩ | ⟨hc, op, res, hlast, hres⟩
  · obtain ⟨m2, t2, r1, r2, r3, r4⟩ := idle_cons (P := P) (m := m1) hc
    obtain ⟨σ', h4⟩ := r1.run (s := ⟨m1, s.threads.set i t1⟩) ht1
    refine ⟨σ ++ σ', m2, t2, ?_, r2.trans k2, by rw [r3]; exact h3, .inl r4⟩
    rw [run_append, h1, h4]; simp
  · have e1 : UnorderedConc.step P m1 t1 = (setLock m1 e false, { t1 with cur := .ins v .full }) :=
      step_go (pc := .unlock e none) hc rfl
    refine ⟨σ ++ [i], setLock m1 e false, { t1 with cur := .ins v .full }, ?_, k2, h3, .inr ⟨rfl, ?_⟩⟩
    · rw [run_append, h1, run_cons, run_nil, SlotConc.stepAt_eq _ _ _ _ ht1, e1]
      simp
    · have hp : Pop1 (E.t₀.total - E.t₀.bc) i s.shared.tab.excess.ctr (exSys s) := by
        refine ⟨t.ex, by simp [exSys, ht], ?_, .inl ⟨htodo, fun _ _ => rfl⟩⟩
        intro j y hj hy
        simp only [exSys, List.getElem?_map, Option.map_eq_some_iff] at hy
        obtain ⟨u, hu, rfl⟩ := hy
        exact ho j u hj hu
      have hp' := pop1_run _ h.ex hp σx
      rw [← hx] at hp'
      obtain ⟨x, hx1, -, hx2⟩ := hp'
      have hxt : x = t1.ex := by
        have : (exSys (⟨m1, s.threads.set i t1⟩ : Sys (Shared V) (Thread K V))).threads[i]? = some t1.ex := by simp [exSys, hlt]
        rw [hx1] at this
        exact Option.some.inj this
      subst hxt
      rcases hx2 with ⟨h4, -⟩ | ⟨-, h4⟩
      · rw [h3] at h4; simp at h4
      · have hcap : Vector.cap m1.tab.excess = E.t₀.total - E.t₀.bc := by
          have := h.ex.hcap
          have h5 : ∀ (σ : List Nat) (y : Vector.VSys Nat), y.shared.slots.cap = E.t₀.total - E.t₀.bc →
              (run (SlotConc.step (vfront (E.t₀.total - E.t₀.bc))) y σ).shared.slots.cap = E.t₀.total - E.t₀.bc := by
            intro σ y hy
            exact run_inv (f := SlotConc.step (vfront (E.t₀.total - E.t₀.bc))) (fun y => y.shared.slots.cap = E.t₀.total - E.t₀.bc)
              (fun y j z hy _ => by show (SlotConc.step _ y.shared z).1.slots.cap = _; rw [slot_cap]; exact hy) y hy σ
          have h6 := h5 σx (exSys s) this
          rw [← hx] at h6
          exact h6
        rcases h4 op res hlast hres with h4 | ⟨h4, h5⟩
        · left
          show Vector.empty m1.tab.excess = true
          unfold Vector.empty Vector.size
          rw [hcap]
          have h4' : Vector.clampSize (E.t₀.total - E.t₀.bc) m1.tab.excess.ctr = 0 := h4
          rw [h4']
          rfl
        · right
          exact ⟨by omega, h5⟩

/-- From a call of `push_back` the thread goes on to return. -/
theorem Inv.pushed (h : Inv E xp s) {i : Nat} {t : Thread K V} (ht : s.threads[i]? = some t)
    (ho : ∀ j u, j ≠ i → s.threads[j]? = some u → u.ex.todo = []) {k : K} {p q : Nat}
    (hcur : t.cur = .era k (.push p q)) :
    ∃ σ m' t', run (UnorderedConc.step P) s σ = ⟨m', s.threads.set i t'⟩ ∧ t'.todo = t.todo ∧ t'.ex.todo = [] ∧ t'.cur = .idle := by
  have hmem := List.mem_of_getElem? ht
  have hlt := (List.getElem?_eq_some_iff.1 ht).1
  obtain ⟨σ, m1, t1, h1, h2, h3⟩ := drain_one P h.wellEx h.ex ht ho
  have hne : t.ex.todo ≠ [] := by
    have hk := h.knows t hmem
    rw [hcur] at hk
    have : t.ex.todo = [.push () p] := hk.1
    rw [this]; simp
  have ht1 : (⟨m1, s.threads.set i t1⟩ : Sys (Shared V) (Thread K V)).threads[i]? = some t1 := by simp [hlt]
  rcases h2 with rfl | ⟨-, k2, k3, k4⟩
  · exact absurd h3 hne
  rcases k4 with ⟨k5, -⟩ | ⟨-, k5⟩
  · exact absurd h3 k5
  rw [hcur] at k5
  have hc : t1.cur = .era k (.unlock1 p q true) := k5
  obtain ⟨m2, t2, r1, r2, r3, r4⟩ := Er.idle_unlock1 (P := P) (m := m1) hc
  obtain ⟨σ', h4⟩ := r1.run (s := ⟨m1, s.threads.set i t1⟩) ht1
  refine ⟨σ ++ σ', m2, t2, ?_, r2.trans k2, by rw [r3]; exact h3, r4⟩
  rw [run_append, h1, h4]; simp

/-- The head of the loop of an operation. -/
def Head (P : Params K V) (bc : Nat) (c c' : Cur K V) : Prop :=
  (∃ v pc, c = .ins v pc ∧ c' = .ins v .full) ∨ (∃ k pc, c = .era k pc ∧ c' = .era k (.f1 (.occ (bkt P bc k))))

theorem Head.not_idle {bc : Nat} {c c' : Cur K V} (h : Head P bc c c') : c' ≠ .idle := by
  rcases h with ⟨v, pc, -, h⟩ | ⟨k, pc, -, h⟩ <;> rw [h] <;> simp

theorem Head.held {bc bc' : Nat} {c c' : Cur K V} (h : Head P bc c c') : held P bc' c' = [] := by
  rcases h with ⟨v, pc, -, h⟩ | ⟨k, pc, -, h⟩ <;> rw [h] <;> rfl

/-- A thread that is not inside the free list waits at its front. -/
theorem Inv.front (h : Inv E xp s) {t : Thread K V} (ht : t ∈ s.threads) (hx : t.ex.todo = []) : t.ex.pc = .front .check :=
  (h.ex.shape t.ex (List.mem_map.2 ⟨t, ht, rfl⟩)).2.1 hx

/-- A thread that executes `insert` or `erase` can be brought to return or to the head of its loop. -/
theorem Inv.settleSys (h : Inv E xp s) (hl : KeyLaws P) (hx : ExIdle s) {i : Nat} {t : Thread K V}
    (ht : s.threads[i]? = some t) (hcur : (∃ v pc, t.cur = .ins v pc) ∨ ∃ k pc, t.cur = .era k pc) :
    ∃ σ m' t', run (UnorderedConc.step P) s σ = ⟨m', s.threads.set i t'⟩ ∧ t'.todo = t.todo ∧ t'.ex.todo = [] ∧
      (t'.cur = .idle ∨ Head P E.t₀.bc t.cur t'.cur) := by
  have hmem := List.mem_of_getElem? ht
  have hlt := (List.getElem?_eq_some_iff.1 ht).1
  have hex := hx t hmem
  have hothers : ∀ {t1 : Thread K V} (j : Nat) (u : Thread K V), j ≠ i → (s.threads.set i t1)[j]? = some u → u.ex.todo = [] := by
    intro t1 j u hj hu
    rcases getElem?_set_cases _ _ _ _ _ hu with ⟨e, -⟩ | ⟨-, hu⟩
    · exact absurd e hj
    · exact hx u (List.mem_of_getElem? hu)
  rcases hcur with ⟨v, pc, hcur⟩ | ⟨k, pc, hcur⟩
  · rcases h.settlesI hmem hcur hex with ⟨m1, t1, r1, r2, r3, r4⟩ | ⟨m1, t1, e, r1, r2, r3, r4⟩ | ⟨m1, t1, r1, r2, r3, r4⟩
    · obtain ⟨σ, h1⟩ := r1.run ht
      exact ⟨σ, m1, t1, h1, r2, by rw [r3]; exact hex, .inl r4⟩
    · obtain ⟨σ, h1⟩ := r1.run ht
      obtain ⟨x', h'⟩ := inv_runs hl h σ
      rw [h1] at h'
      obtain ⟨σ', m2, t2, k1, k2, k3, k4⟩ := h'.popped (i := i) (t := t1) (by simp [hlt]) hothers
        (by rw [r3]; exact h.front hmem hex) r4
      refine ⟨σ ++ σ', m2, t2, ?_, k2.trans r2, k3, k4.imp id (fun h => .inl ⟨v, pc, hcur, h.1⟩)⟩
      rw [run_append, h1, k1]; simp
    · obtain ⟨σ, h1⟩ := r1.run ht
      exact ⟨σ, m1, t1, h1, r2, by rw [r3]; exact hex, .inr (.inl ⟨v, pc, hcur, r4⟩)⟩
  · rcases h.settlesE hmem hcur hex with ⟨m1, t1, r1, r2, r3, r4⟩ | ⟨m1, t1, p, q, r1, r2, r3, r4⟩ | ⟨m1, t1, r1, r2, r3, r4⟩
    · obtain ⟨σ, h1⟩ := r1.run ht
      exact ⟨σ, m1, t1, h1, r2, by rw [r3]; exact hex, .inl r4⟩
    · obtain ⟨σ, h1⟩ := r1.run ht
      obtain ⟨x', h'⟩ := inv_runs hl h σ
      rw [h1] at h'
      obtain ⟨σ', m2, t2, k1, k2, k3, k4⟩ := h'.pushed (i := i) (t := t1) (by simp [hlt]) hothers r4
      refine ⟨σ ++ σ', m2, t2, ?_, k2.trans r2, k3, .inl k4⟩
      rw [run_append, h1, k1]; simp
    · obtain ⟨σ, h1⟩ := r1.run ht
      exact ⟨σ, m1, t1, h1, r2, by rw [r3]; exact hex, .inr (.inr ⟨k, pc, hcur, by rw [r4, Er.bK, h.g.bc]⟩)⟩

theorem Inv.free (h : Inv E xp s) (hn : ∀ t ∈ s.threads, held P E.t₀.bc t.cur = []) (p : Nat)
    (hp : p < s.shared.tab.total) : s.shared.tab.locks p = false := by
  rw [h.g.total] at hp
  have h1 := h.locks p hp
  have h2 : (s.threads.map (heldN E p)).sum = 0 := by
    rw [sum_map_eq_zero]
    intro t ht
    simp [heldN, hn t ht]
  rw [h2] at h1
  cases hh : s.shared.tab.locks p with
  | false => rfl
  | true => rw [hh] at h1; simp at h1

/-- Nobody holds a lock: a thread at the head of the loop of `insert` can be brought to return. -/
theorem Inv.freshI (hl : KeyLaws P) (n : Nat) : ∀ {xp : List (List (SlotConc.Op Unit Nat))} {s : Sys (Shared V) (Thread K V)},
    Inv E xp s → ExIdle s → (∀ t ∈ s.threads, held P E.t₀.bc t.cur = []) → s.shared.tab.excess.ctr.toNat ≤ n →
    ∀ {i : Nat} {t : Thread K V}, s.threads[i]? = some t → ∀ {v : V}, t.cur = .ins v .full →
    ∃ σ m' t', run (UnorderedConc.step P) s σ = ⟨m', s.threads.set i t'⟩ ∧ t'.todo = t.todo ∧ t'.ex.todo = [] ∧ t'.cur = .idle := by
  induction n with
  | zero =>
    intro xp s h hx hn hc i t ht v hcur
    have hmem := List.mem_of_getElem? ht
    have hlt := (List.getElem?_eq_some_iff.1 ht).1
    have he : Vector.empty s.shared.tab.excess = true := by
      unfold Vector.empty Vector.size Vector.clampSize
      split
      · rfl
      · rename_i h0
        have : s.shared.tab.excess.ctr = 0 := by omega
        rw [this]
        simp
    obtain ⟨m1, t1, r1, r2, r3, r4⟩ := fresh_empty (P := P) he hcur
    obtain ⟨σ, h1⟩ := r1.run ht
    exact ⟨σ, m1, t1, h1, r2, by rw [r3]; exact hx t hmem, r4⟩
  | succ n ih =>
    intro xp s h hx hn hc i t ht v hcur
    have hmem := List.mem_of_getElem? ht
    have hlt := (List.getElem?_eq_some_iff.1 ht).1
    have hex := hx t hmem
    have hb := E.bkt_lt (P.keyOf v)
    have hle := E.rep.bc_le
    have hothers : ∀ {t1 : Thread K V} (j : Nat) (u : Thread K V), j ≠ i → (s.threads.set i t1)[j]? = some u → u.ex.todo = [] := by
      intro t1 j u hj hu
      rcases getElem?_set_cases _ _ _ _ _ hu with ⟨e, -⟩ | ⟨-, hu⟩
      · exact absurd e hj
      · exact hx u (List.mem_of_getElem? hu)
    rcases UnorderedConc.fresh (P := P) (m := s.shared) (t := t) (tot_ins h.g _ _) (by rw [bOf, h.g.bc, h.g.total]; omega)
      (h.free hn) hcur with ⟨m1, t1, r1, r2, r3, r4⟩ | ⟨m1, t1, e, r1, r2, r3, r4⟩
    · obtain ⟨σ, h1⟩ := r1.run ht
      exact ⟨σ, m1, t1, h1, r2, by rw [r3]; exact hex, r4⟩
    · obtain ⟨σ, h1⟩ := r1.run ht
      obtain ⟨x', h'⟩ := inv_runs hl h σ
      rw [h1] at h'
      have hsame : m1.tab.excess.ctr = s.shared.tab.excess.ctr := by
        rcases Kept.reach r1 (.inr ⟨rfl, fun _ _ => rfl⟩) with h2 | ⟨-, h2⟩
        · rw [r3] at h2; exact absurd h2 (Nat.lt_irrefl _)
        · exact h2 .check (by rw [r3]; exact h.front hmem hex)
      obtain ⟨σ', m2, t2, k1, k2, k3, k4⟩ := h'.popped (i := i) (t := t1) (by simp [hlt]) hothers
        (by rw [r3]; exact h.front hmem hex) r4
      have h2 : run (UnorderedConc.step P) s (σ ++ σ') = ⟨m2, s.threads.set i t2⟩ := by rw [run_append, h1, k1]; simp
      rcases k4 with k4 | ⟨k4, k5 | ⟨k5, k6⟩⟩
      · exact ⟨σ ++ σ', m2, t2, h2, k2.trans r2, k3, k4⟩
      · obtain ⟨m3, t3, j1, j2, j3, j4⟩ := fresh_empty (P := P) k5 k4
        obtain ⟨σ'', h3⟩ := j1.run (s := ⟨m2, s.threads.set i t2⟩) (i := i) (by simp [hlt])
        refine ⟨σ ++ σ' ++ σ'', m3, t3, ?_, j2.trans (k2.trans r2), by rw [j3]; exact k3, j4⟩
        rw [run_append, h2, h3]; simp
      · obtain ⟨x2, h3⟩ := inv_runs hl h (σ ++ σ')
        rw [h2] at h3
        simp only at k5 k6
        rw [hsame] at k5 k6
        obtain ⟨σ'', m3, t3, j1, j2, j3, j4⟩ := ih h3 (hx.set k3) (by
          intro u hu
          rcases mem_set_cases _ _ _ _ hu with rfl | ⟨j, -, hj⟩
          · rw [k4]; rfl
          · exact hn u (List.mem_of_getElem? hj)) (by show m2.tab.excess.ctr.toNat ≤ n; omega) (i := i) (t := t2) (by simp [hlt]) k4
        refine ⟨σ ++ σ' ++ σ'', m3, t3, ?_, j2.trans (k2.trans r2), j3, j4⟩
        rw [run_append, h2, j1]; simp

/-- Nobody holds a lock: a thread that begins a try of `erase` can be brought to return. -/
theorem Inv.freshE (h : Inv E xp s) (hl : KeyLaws P) (hx : ExIdle s) (hn : ∀ t ∈ s.threads, held P E.t₀.bc t.cur = [])
    {i : Nat} {t : Thread K V} (ht : s.threads[i]? = some t) {k : K} (hcur : t.cur = .era k (.f1 (.occ (bkt P E.t₀.bc k)))) :
    ∃ σ m' t', run (UnorderedConc.step P) s σ = ⟨m', s.threads.set i t'⟩ ∧ t'.todo = t.todo ∧ t'.ex.todo = [] ∧ t'.cur = .idle := by
  have hmem := List.mem_of_getElem? ht
  have hlt := (List.getElem?_eq_some_iff.1 ht).1
  have hex := hx t hmem
  have hb := E.bkt_lt k
  have hle := E.rep.bc_le
  rcases Er.fresh (P := P) (m := s.shared) (t := t) (tot_era h.g k _) (by rw [Er.bK, h.g.bc, h.g.total]; omega) (h.free hn)
    (by rw [hcur, Er.bK, h.g.bc]) with ⟨m1, t1, r1, r2, r3, r4⟩ | ⟨m1, t1, p, q, r1, r2, r3, r4⟩
  · obtain ⟨σ, h1⟩ := r1.run ht
    exact ⟨σ, m1, t1, h1, r2, by rw [r3]; exact hex, r4⟩
  · obtain ⟨σ, h1⟩ := r1.run ht
    obtain ⟨x', h'⟩ := inv_runs hl h σ
    rw [h1] at h'
    obtain ⟨σ', m2, t2, k1, k2, k3, k4⟩ := h'.pushed (i := i) (t := t1) (by simp [hlt]) (by
      intro j u hj hu
      rcases getElem?_set_cases _ _ _ _ _ hu with ⟨e, -⟩ | ⟨-, hu⟩
      · exact absurd e hj
      · exact hx u (List.mem_of_getElem? hu)) r4
    exact ⟨σ ++ σ', m2, t2, by rw [run_append, h1, k1]; simp, k2.trans r2, k3, k4⟩

theorem Inv.freshSys (h : Inv E xp s) (hl : KeyLaws P) (hx : ExIdle s) (hn : ∀ t ∈ s.threads, held P E.t₀.bc t.cur = [])
    {i : Nat} {t : Thread K V} (ht : s.threads[i]? = some t) {c : Cur K V} (hcur : Head P E.t₀.bc c t.cur) :
    ∃ σ m' t', run (UnorderedConc.step P) s σ = ⟨m', s.threads.set i t'⟩ ∧ t'.todo = t.todo ∧ t'.ex.todo = [] ∧ t'.cur = .idle := by
  rcases hcur with ⟨v, pc, -, hc⟩ | ⟨k, pc, -, hc⟩
  · exact Inv.freshI hl _ h hx hn (Nat.le_refl _) ht hc
  · exact h.freshE hl hx hn ht hc

def holds (E : Start P) (t : Thread K V) : Nat := if held P E.t₀.bc t.cur = [] then 0 else 1

/-- All locks can be released, or an operation finishes on the way. -/
theorem Inv.release (hl : KeyLaws P) (n : Nat) : ∀ {xp : List (List (SlotConc.Op Unit Nat))}
    {s : Sys (Shared V) (Thread K V)}, Inv E xp s → ExIdle s → (s.threads.map (holds E)).sum = n →
    ∃ σ, opsS (run (UnorderedConc.step P) s σ) < opsS s ∨ (opsS (run (UnorderedConc.step P) s σ) = opsS s ∧
      ExIdle (run (UnorderedConc.step P) s σ) ∧ ∀ t ∈ (run (UnorderedConc.step P) s σ).threads, held P E.t₀.bc t.cur = []) := by
  induction n with
  | zero =>
    intro xp s h hx hn
    refine ⟨[], .inr ⟨rfl, hx, ?_⟩⟩
    intro t ht
    have := (sum_map_eq_zero _ _).1 hn t ht
    unfold holds at this
    split at this
    · assumption
    · simp at this
  | succ n ih =>
    intro xp s h hx hn
    obtain ⟨i, t, ht, hpos⟩ := exists_of_sum_pos (holds E) s.threads (by omega)
    have hmem := List.mem_of_getElem? ht
    have hcur : (∃ v pc, t.cur = .ins v pc) ∨ ∃ k pc, t.cur = .era k pc := by
      cases hcur : t.cur with
      | idle => simp [holds, hcur, held] at hpos
      | fnd k W => simp [holds, hcur, held] at hpos
      | ins v pc => exact .inl ⟨_, _, rfl⟩
      | era k pc => exact .inr ⟨_, _, rfl⟩
    have hni : t.cur ≠ .idle := by rcases hcur with ⟨v, pc, h⟩ | ⟨k, pc, h⟩ <;> rw [h] <;> simp
    obtain ⟨σ, m', t', k1, k2, k3, k4⟩ := h.settleSys hl hx ht hcur
    have hops := opsS_set (m' := m') (t' := t') ht
    rcases k4 with k4 | k4
    · refine ⟨σ, .inl ?_⟩
      rw [k1]
      have := opsT_idle k2 hni k4
      omega
    · obtain ⟨x', h'⟩ := inv_runs hl h σ
      rw [k1] at h'
      have h0 : holds E t' = 0 := by simp [holds, k4.held]
      have hsum := sum_map_set (holds E) s.threads i t t' ht
      have hle : holds E t ≤ 1 := by unfold holds; split <;> simp
      have heq := opsT_cur k2 (t := t) (t' := t') hni k4.not_idle
      obtain ⟨σ', h1⟩ := ih h' (hx.set k3) (by show ((s.threads.set i t').map _).sum = n; omega)
      refine ⟨σ ++ σ', ?_⟩
      rw [run_append, k1]
      rcases h1 with h1 | ⟨h1, h2⟩
      · left; omega
      · right; exact ⟨by omega, h2⟩

/-- Unless everything is finished, some operation can be finished. -/
theorem Inv.work (h : Inv E xp s) (hl : KeyLaws P) (hf : ¬ UFinished s) : ∃ σ, opsS (run (UnorderedConc.step P) s σ) < opsS s := by
  obtain ⟨σ0, h0, hd⟩ := drain P h.wellEx h.ex
  have hops0 : opsS (run (UnorderedConc.step P) s σ0) ≤ opsS s := by
    refine sum_congr_idx (length_run _ _ _) ?_
    intro j t t' ht ht'
    obtain ⟨u, h1, h2⟩ := hd j t ht
    rw [ht'] at h1; cases h1
    exact le_of_eq (h2.ops (h.wellEx t (List.mem_of_getElem? ht)))
  by_cases hlt : opsS (run (UnorderedConc.step P) s σ0) < opsS s
  · exact ⟨σ0, hlt⟩
  obtain ⟨x1, h1⟩ := inv_runs hl h σ0
  obtain ⟨σ1, hr⟩ := Inv.release hl _ h1 h0 rfl
  rcases hr with hr | ⟨hr1, hr2, hr3⟩
  · exact ⟨σ0 ++ σ1, by rw [run_append]; omega⟩
  obtain ⟨x2, h2⟩ := inv_runs hl h1 σ1
  have key : ∀ {s' : Sys (Shared V) (Thread K V)}, (∃ σ, run (UnorderedConc.step P) s σ = s') → opsS s' = opsS s →
      (∃ σ, opsS (run (UnorderedConc.step P) s' σ) < opsS s') → ∃ σ, opsS (run (UnorderedConc.step P) s σ) < opsS s := by
    rintro s' ⟨σ, e⟩ e1 ⟨σ', e2⟩
    exact ⟨σ ++ σ', by rw [run_append, e]; omega⟩
  refine key ⟨σ0 ++ σ1, run_append _ _ _ _⟩ (by omega) ?_
  have hnf : ¬ UFinished (run (UnorderedConc.step P) (run (UnorderedConc.step P) s σ0) σ1) := by
    intro hfin
    have hz : opsS (run (UnorderedConc.step P) (run (UnorderedConc.step P) s σ0) σ1) = 0 := by
      unfold opsS
      rw [sum_map_eq_zero]
      intro t ht
      obtain ⟨a, b⟩ := hfin t ht
      simp [opsT, a, b]
    have hz' : opsS s = 0 := by omega
    refine hf fun t ht => ?_
    have := (sum_map_eq_zero _ _).1 hz' t ht
    unfold opsT at this
    cases hc : t.cur <;> rw [hc] at this <;> simp at this
    exact ⟨this, rfl⟩
  generalize run (UnorderedConc.step P) (run (UnorderedConc.step P) s σ0) σ1 = s2 at *
  simp only [UFinished, not_forall] at hnf
  obtain ⟨t, htm, hnt⟩ := hnf
  obtain ⟨i, ht⟩ := List.mem_iff_getElem?.1 htm
  have hlt := (List.getElem?_eq_some_iff.1 ht).1
  have prog : ∀ {x : List (List (SlotConc.Op Unit Nat))} {s2 : Sys (Shared V) (Thread K V)}
      {t : Thread K V}, Inv E x s2 → ExIdle s2 → (∀ t ∈ s2.threads, held P E.t₀.bc t.cur = []) → s2.threads[i]? = some t →
      t.cur ≠ .idle → ∃ σ, opsS (run (UnorderedConc.step P) s2 σ) < opsS s2 := by
    intro x s2 t h2 hr2 hr3 ht hne
    have hmem := List.mem_of_getElem? ht
    have hlt := (List.getElem?_eq_some_iff.1 ht).1
    have op : ((∃ v pc, t.cur = .ins v pc) ∨ ∃ k pc, t.cur = .era k pc) → ∃ σ, opsS (run (UnorderedConc.step P) s2 σ) < opsS s2 := by
      intro hcur
      obtain ⟨σ, m', t', k1, k2, k3, k4⟩ := h2.settleSys hl hr2 ht hcur
      have hops := opsS_set (m' := m') (t' := t') ht
      rcases k4 with k4 | k4
      · refine ⟨σ, ?_⟩
        rw [k1]
        have := opsT_idle k2 hne k4
        omega
      · obtain ⟨x', h'⟩ := inv_runs hl h2 σ
        rw [k1] at h'
        obtain ⟨σ', m'', t'', j1, j2, j3, j4⟩ := h'.freshSys hl (hr2.set k3) (by
          intro u hu
          rcases mem_set_cases _ _ _ _ hu with rfl | ⟨j, -, hj⟩
          · exact k4.held
          · exact hr3 u (List.mem_of_getElem? hj)) (i := i) (t := t') (by simp [hlt]) k4
        refine ⟨σ ++ σ', ?_⟩
        rw [run_append, k1, j1]
        have e1 := opsS_set (s := ⟨m', s2.threads.set i t'⟩) (m' := m'') (t := t') (t' := t'') (i := i) (by simp [hlt])
        have e2 := opsT_idle j2 k4.not_idle j4
        have e3 := opsT_cur k2 (t := t) (t' := t') hne k4.not_idle
        omega
    cases hcur : t.cur with
    | idle => exact absurd hcur hne
    | ins v pc => exact op (.inl ⟨_, _, hcur⟩)
    | era k pc => exact op (.inr ⟨_, _, hcur⟩)
    | fnd k W =>
      have hk := h2.knows t hmem
      rw [hcur] at hk
      obtain ⟨r, hw⟩ := wt_of h2.g (E.bkt_lt k) (fun w => P.keyEq (P.keyOf w) k) hk.2
      obtain ⟨m', t', r1, r2, r3, r4⟩ := run_fnd hw hcur
      obtain ⟨σ, e⟩ := r1.run ht
      refine ⟨σ, ?_⟩
      rw [e]
      have := opsS_set (m' := m') (t' := t') ht
      have := opsT_idle r2 hne r4
      omega
  by_cases hc : t.cur = .idle
  · cases htodo : t.todo with
    | nil => exact absurd ⟨htodo, hc⟩ hnt
    | cons op rest =>
      have es : run (UnorderedConc.step P) s2 [i] = ⟨s2.shared, s2.threads.set i { t with todo := rest, cur := begin P s2.shared.tab op }⟩ := by
        rw [run_cons, run_nil, SlotConc.stepAt_eq _ _ _ _ ht]
        simp [UnorderedConc.step, hc, htodo]
      obtain ⟨x3, h3⟩ := inv_runs hl h2 [i]
      rw [es] at h3
      have hbi : begin P s2.shared.tab op ≠ .idle := by cases op <;> simp [begin]
      have hbh : held P E.t₀.bc (begin P s2.shared.tab op) = [] := by cases op <;> simp [begin, held, eheld, iheld]
      obtain ⟨σ, hσ⟩ := prog h3 (hr2.set (hr2 t htm)) (by
        intro u hu
        rcases mem_set_cases _ _ _ _ hu with rfl | ⟨j, -, hj⟩
        · exact hbh
        · exact hr3 u (List.mem_of_getElem? hj))
        (t := { t with todo := rest, cur := begin P s2.shared.tab op }) (by simp [hlt]) hbi
      refine ⟨[i] ++ σ, ?_⟩
      rw [run_append, es]
      have e1 := opsS_set (m' := s2.shared) (t' := { t with todo := rest, cur := begin P s2.shared.tab op }) ht
      have e2 : opsT ({ t with todo := rest, cur := begin P s2.shared.tab op } : Thread K V) = opsT t := by
        cases op <;> simp [opsT, begin, hc, htodo]
      omega
  · exact prog h2 hr2 hr3 ht hc

/-- Mixed operations with separated keys can always be finished. -/
theorem Inv.can_finish (h : Inv E xp s) (hl : KeyLaws P) : ∃ σ, UFinished (run (UnorderedConc.step P) s σ) :=
  finish_all (fun s => ∃ xp, Inv E xp s) (fun _ _ _ ⟨_, h⟩ ht => h.step hl ht)
    (fun _ ⟨_, h⟩ hf => h.work hl hf) s ⟨_, h⟩
end
end Stdgpu.UnorderedConc.Mx
