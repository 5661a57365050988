import Verif.Proof.UBndMix
/-! Progress of concurrent insertions, erasures and lookups when different keys have different buckets, with bounds on the number of
steps: the whole system. -/
namespace Stdgpu.UnorderedConc.Bd
open Stdgpu.Conc
open Stdgpu.SlotConc (upd)
open Stdgpu.Unordered
open Stdgpu.Vector (FPC vfront countBits VInv)
open Stdgpu.Spec
variable {K V : Type} {P : Params K V}

/-- Every execution of the calls on the free list is an execution of the container. -/
theorem lift (P : Params K V) (cap : Nat) (σ : List Nat) (s : Sys (Shared V) (Thread K V)) (hw : WellEx s)
    (hc : Vector.cap s.shared.tab.excess = cap) :
    ∃ σ' : List Nat, σ'.length ≤ σ.length ∧ exSys (run (UnorderedConc.step P) s σ') = run (SlotConc.step (vfront cap)) (exSys s) σ ∧
      ∀ (j : Nat) (t : Thread K V), s.threads[j]? = some t → ∃ t', (run (UnorderedConc.step P) s σ').threads[j]? = some t' ∧ Dr t t' := by
  induction σ generalizing s with
  | nil => exact ⟨[], by simp, rfl, fun j t ht => ⟨t, ht, .inl rfl⟩⟩
  | cons i σ ih =>
    rw [run_cons]
    cases ht : s.threads[i]? with
    | none =>
      have : stepAt (SlotConc.step (vfront cap)) (exSys s) i = exSys s := by simp [stepAt, exSys, ht]
      rw [this]
      obtain ⟨σ', h1, h2⟩ := ih s hw hc
      exact ⟨σ', h1.trans (by simp), h2⟩
    | some t =>
      have hxt : (exSys s).threads[i]? = some t.ex := by simp [exSys, ht]
      by_cases h0 : t.ex.todo = []
      · have : stepAt (SlotConc.step (vfront cap)) (exSys s) i = exSys s := by
          rw [SlotConc.stepAt_eq _ _ _ _ hxt]
          have : SlotConc.step (vfront cap) (exSys s).shared t.ex = ((exSys s).shared, t.ex) := by simp [SlotConc.step, h0]
          rw [this]
          show (⟨(exSys s).shared, (exSys s).threads.set i t.ex⟩ : Vector.VSys Nat) = exSys s
          rw [set_self _ _ _ hxt]
        rw [this]
        obtain ⟨σ', h1, h2⟩ := ih s hw hc
        exact ⟨σ', h1.trans (by simp), h2⟩
      · have hmem := List.mem_of_getElem? ht
        obtain ⟨e1, e2, e3, e4⟩ := exStep_big (P := P) (m := s.shared) (hw t hmem h0) h0
        have hlt := (List.getElem?_eq_some_iff.1 ht).1
        have es : exSys (stepAt (UnorderedConc.step P) s i) = stepAt (SlotConc.step (vfront cap)) (exSys s) i := by
          rw [SlotConc.stepAt_eq _ _ _ _ hxt, SlotConc.stepAt_eq _ _ _ _ ht]
          rw [hc] at e1 e2
          show (⟨(UnorderedConc.step P s.shared t).1.tab.excess, (s.threads.set i (UnorderedConc.step P s.shared t).2).map (·.ex)⟩ : Vector.VSys Nat) =
            ⟨(SlotConc.step (vfront cap) s.shared.tab.excess t.ex).1, (s.threads.map (·.ex)).set i
              (SlotConc.step (vfront cap) s.shared.tab.excess t.ex).2⟩
          rw [e1, List.map_set, e2]
        have hw' : WellEx (stepAt (UnorderedConc.step P) s i) := by
          rw [SlotConc.stepAt_eq _ _ _ _ ht]
          intro x hx
          rcases mem_set_cases _ _ _ _ hx with rfl | ⟨j, -, hj⟩
          · exact e4
          · exact hw x (List.mem_of_getElem? hj)
        have hc' : Vector.cap (stepAt (UnorderedConc.step P) s i).shared.tab.excess = cap := by
          rw [SlotConc.stepAt_eq _ _ _ _ ht]
          show (UnorderedConc.step P s.shared t).1.tab.excess.slots.cap = cap
          rw [e1, slot_cap]
          exact hc
        obtain ⟨σ', k0, k1, k2⟩ := ih _ hw' hc'
        refine ⟨i :: σ', by simpa using k0, ?_, ?_⟩
        · rw [run_cons, k1, es]
        · intro j u hu
          rw [run_cons]
          by_cases hji : j = i
          · subst hji
            rw [ht] at hu
            cases hu
            obtain ⟨u', h1, h2⟩ := k2 j (UnorderedConc.step P s.shared t).2 (by
              rw [SlotConc.stepAt_eq _ _ _ _ ht]
              simp [hlt])
            exact ⟨u', h1, e3.trans h2⟩
          · exact k2 j u (by
              rw [SlotConc.stepAt_eq _ _ _ _ ht]
              show (s.threads.set i _)[j]? = some u
              rw [List.getElem?_set_ne (fun e => hji e.symm)]
              exact hu)

/-- The number of steps in which the calls of `n` threads on the free list can be completed. -/
def dB (n : Nat) : Nat := 2 * (4 * n * (6 * n + 1) + 6 * n)

theorem dB_work (l : List Ex) (h : ∀ x ∈ l, x.todo.length ≤ 1) :
    (l.map (SlotConc.work (fun f => match f with | FPC.check => 1 | .rmw => 0) FPC.check)).sum ≤ 4 * l.length := by
  induction l with
  | nil => simp
  | cons x l ih =>
    have h1 := SlotConc.work_le (fun f => match f with | FPC.check => 1 | .rmw => 0) FPC.check (fun f => by cases f <;> simp) x
    have h2 := ih (fun y hy => h y (List.mem_cons_of_mem _ hy))
    have h3 := h x (by simp)
    simp only [List.map_cons, List.sum_cons, List.length_cons]
    simp only at h1
    omega

/-- `drain`, with the execution of the free list. -/
theorem drain_ex (P : Params K V) {cap : Nat} {c₀ : Multiset Nat} {xp : List (List (SlotConc.Op Unit Nat))}
    {s : Sys (Shared V) (Thread K V)} (hw : WellEx s) (hv : VInv cap c₀ xp (exSys s)) (hone : ∀ t ∈ s.threads, t.ex.todo.length ≤ 1) :
    ∃ σ' σ : List Nat, σ'.length ≤ dB s.threads.length ∧ exSys (run (step P) s σ') = run (SlotConc.step (vfront cap)) (exSys s) σ ∧
      (∀ t ∈ (run (step P) s σ').threads, t.ex.todo = []) ∧
      ∀ (j : Nat) (t : Thread K V), s.threads[j]? = some t → ∃ t', (run (step P) s σ').threads[j]? = some t' ∧ Dr t t' := by
  obtain ⟨σ, hb, hσ⟩ := SlotConc.can_finish_bounded (vfront cap) (fun f => match f with | .check => 1 | .rmw => 0) (by
      intro c b k f c' f' e
      rcases Vector.vfront_cases cap c b k f with ⟨h1, e', -⟩ | ⟨h1, e', -⟩ | ⟨h1, -, -, -, e'⟩ | ⟨h1, -, -, e'⟩ |
        ⟨h1, -, -, -, e'⟩ | ⟨h1, -, -, e'⟩ <;> rw [e] at e' <;> simp at e'
      rw [h1, e'.2]; simp)
    (VInv cap c₀ xp) (fun s i t hs ht => Vector.vinv_step s i t hs ht)
    (fun s hs => ⟨_, hs, fun p _ => by unfold Vector.vtick; split <;> simp⟩) (exSys s) hv
  obtain ⟨σ', h0, h1, h2⟩ := lift P cap σ s hw hv.hcap
  refine ⟨σ', σ, h0.trans (hb.trans ?_), h1, ?_, h2⟩
  · have h3 := dB_work (exSys s).threads (by
      intro x hx
      obtain ⟨t, ht, rfl⟩ := List.mem_map.1 hx
      exact hone t ht)
    have h4 := SlotConc.totalCS_le (exSys s)
    have h5 : (exSys s).threads.length = s.threads.length := by simp [exSys]
    have h6 : SlotConc.totalWork (fun f => match f with | FPC.check => 1 | .rmw => 0) (vfront cap).start (exSys s) ≤ 4 * (exSys s).threads.length := h3
    have h7 := Nat.mul_le_mul_right (6 * s.threads.length + 1) h6
    rw [h5] at h4 h7 ⊢
    unfold dB
    omega
  intro t ht
  rw [← h1] at hσ
  exact hσ t.ex (List.mem_map_of_mem ht)

/-- The call of one thread on the free list is completed. -/
theorem drain_one_ex (P : Params K V) {cap : Nat} {c₀ : Multiset Nat} {xp : List (List (SlotConc.Op Unit Nat))}
    {s : Sys (Shared V) (Thread K V)} (hw : WellEx s) (hv : VInv cap c₀ xp (exSys s))
    (hone : ∀ t ∈ s.threads, t.ex.todo.length ≤ 1) {i : Nat} {t : Thread K V}
    (ht : s.threads[i]? = some t) (ho : ∀ j u, j ≠ i → s.threads[j]? = some u → u.ex.todo = []) :
    ∃ (σ σx : List Nat) (m' : Shared V) (t' : Thread K V), σ.length ≤ dB s.threads.length ∧ run (UnorderedConc.step P) s σ = ⟨m', s.threads.set i t'⟩ ∧ Dr t t' ∧ t'.ex.todo = [] ∧
      exSys (⟨m', s.threads.set i t'⟩ : Sys (Shared V) (Thread K V)) = run (SlotConc.step (vfront cap)) (exSys s) σx := by
  obtain ⟨σ, σx, hb, h0, h1, h2⟩ := drain_ex P hw hv hone
  obtain ⟨t', h3, h4⟩ := h2 i t ht
  have : (run (UnorderedConc.step P) s σ).threads = s.threads.set i t' := by
    apply List.ext_getElem?
    intro j
    by_cases hj : j = i
    · subst hj
      rw [h3, List.getElem?_set_self (List.getElem?_eq_some_iff.1 ht).1]
    · rw [List.getElem?_set_ne (fun e => hj e.symm)]
      cases hu : s.threads[j]? with
      | none =>
        rw [List.getElem?_eq_none_iff] at hu ⊢
        rw [length_run]; exact hu
      | some u =>
        obtain ⟨u', h5, h6⟩ := h2 j u hu
        rcases h6 with rfl | ⟨h7, -⟩
        · exact h5
        · exact absurd (ho j u hj hu) h7
  refine ⟨σ, σx, (run (UnorderedConc.step P) s σ).shared, t', hb, by rw [← this], h4, h1 t' (List.mem_of_getElem? h3), ?_⟩
  rw [← h0, ← this]

section
variable {E : Mx.Start P} {xp : List (List (SlotConc.Op Unit Nat))} {s : Sys (Shared V) (Thread K V)} {D : Nat}

theorem inv_one (h : Mx.Inv E xp s) : ∀ t ∈ s.threads, t.ex.todo.length ≤ 1 := by
  intro t ht
  have hk := h.knows t ht
  cases hcur : t.cur with
  | idle => rw [hcur] at hk; have : t.ex.todo = [] := hk; simp [this]
  | fnd k W => rw [hcur] at hk; simp [hk.1]
  | ins v pc =>
    rw [hcur] at hk
    replace hk := hk.2
    cases pc <;> first
      | (have : t.ex.todo = [] := hk; simp [this]; done)
      | (have : t.ex.todo = [] := hk.1; simp [this]; done)
      | (have : t.ex.todo = [.pop ()] := hk.1; simp [this]; done)
  | era k pc =>
    rw [hcur] at hk
    simp only [Mx.Knows] at hk
    cases pc <;> first
      | (have : t.ex.todo = [] := hk.1; simp [this]; done)
      | (rename_i p q; have : t.ex.todo = [.push () p] := hk.1; simp [this]; done)
      | exact hk.elim

/-- From a call of `pop_back` the thread goes on to return or to try again; in the latter case the free list is empty or
its counter, which was too large, has become smaller. -/
theorem popped (h : Mx.Inv E xp s) (hD : dB s.threads.length ≤ D) {i : Nat} {t : Thread K V} (ht : s.threads[i]? = some t)
    (ho : ∀ j u, j ≠ i → s.threads[j]? = some u → u.ex.todo = []) {v : V} {e : Nat} (hpc : t.ex.pc = .front .check)
    (hcur : t.cur = .ins v (.pop e)) :
    ∃ (σ : List Nat) (m' : Shared V) (t' : Thread K V), σ.length ≤ D + 6 ∧ run (UnorderedConc.step P) s σ = ⟨m', s.threads.set i t'⟩ ∧ t'.todo = t.todo ∧ t'.ex.todo = [] ∧
      (t'.cur = .idle ∨ (t'.cur = .ins v .full ∧ (Vector.empty m'.tab.excess = true ∨
        (0 < s.shared.tab.excess.ctr ∧ m'.tab.excess.ctr = s.shared.tab.excess.ctr - 1)))) := by
  have hmem := List.mem_of_getElem? ht
  have hlt := (List.getElem?_eq_some_iff.1 ht).1
  obtain ⟨σ, σx, m1, t1, hb, h1, h2, h3, hx⟩ := drain_one_ex P h.wellEx h.ex (inv_one h) ht ho
  have htodo : t.ex.todo = [.pop ()] := by
    have hk := h.knows t hmem
    rw [hcur] at hk
    exact hk.2.1
  have hne : t.ex.todo ≠ [] := by rw [htodo]; simp
  have ht1 : (⟨m1, s.threads.set i t1⟩ : Sys (Shared V) (Thread K V)).threads[i]? = some t1 := by simp [hlt]
  rcases h2 with rfl | ⟨-, k2, k3, k4⟩
  · exact absurd h3 hne
  rcases k4 with ⟨k5, -⟩ | ⟨-, k5⟩
  · exact absurd h3 k5
  rw [hcur] at k5
  rcases k5.ins with ⟨n, hc⟩ | ⟨hc, op, res, hlast, hres⟩
  · obtain ⟨m2, t2, r1, r2, r3, r4⟩ := idle_cons (P := P) (m := m1) hc
    obtain ⟨σ', hb', h4⟩ := r1.run (s := ⟨m1, s.threads.set i t1⟩) ht1
    refine ⟨σ ++ σ', m2, t2, by rw [List.length_append]; omega, ?_, r2.trans k2, by rw [r3]; exact h3, .inl r4⟩
    rw [run_append, h1, h4]; simp
  · have e1 : UnorderedConc.step P m1 t1 = (setLock m1 e false, { t1 with cur := .ins v .full }) :=
      step_go (pc := .unlock e none) hc rfl
    refine ⟨σ ++ [i], setLock m1 e false, { t1 with cur := .ins v .full }, by simp only [List.length_append, List.length_singleton]; omega, ?_, k2, h3, .inr ⟨rfl, ?_⟩⟩
    · rw [run_append, h1, run_cons, run_nil, SlotConc.stepAt_eq _ _ _ _ ht1, e1]
      simp
    · have hp : Mx.Pop1 (E.t₀.total - E.t₀.bc) i s.shared.tab.excess.ctr (exSys s) := by
        refine ⟨t.ex, by simp [exSys, ht], ?_, .inl ⟨htodo, fun _ _ => rfl⟩⟩
        intro j y hj hy
        simp only [exSys, List.getElem?_map, Option.map_eq_some_iff] at hy
        obtain ⟨u, hu, rfl⟩ := hy
        exact ho j u hj hu
      have hp' := Mx.pop1_run _ h.ex hp σx
      rw [← hx] at hp'
      obtain ⟨x, hx1, -, hx2⟩ := hp'
      have hxt : x = t1.ex := by
        have : (exSys (⟨m1, s.threads.set i t1⟩ : Sys (Shared V) (Thread K V))).threads[i]? = some t1.ex := by simp [exSys, hlt]
        rw [hx1] at this
        exact Option.some.inj this
      subst hxt
      rcases hx2 with ⟨h4, -⟩ | ⟨-, h4⟩
      · rw [h3] at h4; simp at h4
      · have hcap : Vector.cap m1.tab.excess = E.t₀.total - E.t₀.bc := by
          have := h.ex.hcap
          have h5 : ∀ (σ : List Nat) (y : Vector.VSys Nat), y.shared.slots.cap = E.t₀.total - E.t₀.bc →
              (run (SlotConc.step (vfront (E.t₀.total - E.t₀.bc))) y σ).shared.slots.cap = E.t₀.total - E.t₀.bc := by
            intro σ y hy
            exact run_inv (f := SlotConc.step (vfront (E.t₀.total - E.t₀.bc))) (fun y => y.shared.slots.cap = E.t₀.total - E.t₀.bc)
              (fun y j z hy _ => by show (SlotConc.step _ y.shared z).1.slots.cap = _; rw [slot_cap]; exact hy) y hy σ
          have h6 := h5 σx (exSys s) this
          rw [← hx] at h6
          exact h6
        rcases h4 op res hlast hres with h4 | ⟨h4, h5⟩
        · left
          show Vector.empty m1.tab.excess = true
          unfold Vector.empty Vector.size
          rw [hcap]
          have h4' : Vector.clampSize (E.t₀.total - E.t₀.bc) m1.tab.excess.ctr = 0 := h4
          rw [h4']
          rfl
        · right
          exact ⟨by omega, h5⟩

/-- From a call of `push_back` the thread goes on to return. -/
theorem pushed (h : Mx.Inv E xp s) (hD : dB s.threads.length ≤ D) {i : Nat} {t : Thread K V} (ht : s.threads[i]? = some t)
    (ho : ∀ j u, j ≠ i → s.threads[j]? = some u → u.ex.todo = []) {k : K} {p q : Nat}
    (hcur : t.cur = .era k (.push p q)) :
    ∃ (σ : List Nat) (m' : Shared V) (t' : Thread K V), σ.length ≤ D + 2 ∧ run (UnorderedConc.step P) s σ = ⟨m', s.threads.set i t'⟩ ∧ t'.todo = t.todo ∧ t'.ex.todo = [] ∧ t'.cur = .idle := by
  have hmem := List.mem_of_getElem? ht
  have hlt := (List.getElem?_eq_some_iff.1 ht).1
  obtain ⟨σ, -, m1, t1, hb, h1, h2, h3, -⟩ := drain_one_ex P h.wellEx h.ex (inv_one h) ht ho
  have hne : t.ex.todo ≠ [] := by
    have hk := h.knows t hmem
    rw [hcur] at hk
    have : t.ex.todo = [.push () p] := hk.1
    rw [this]; simp
  have ht1 : (⟨m1, s.threads.set i t1⟩ : Sys (Shared V) (Thread K V)).threads[i]? = some t1 := by simp [hlt]
  rcases h2 with rfl | ⟨-, k2, k3, k4⟩
  · exact absurd h3 hne
  rcases k4 with ⟨k5, -⟩ | ⟨-, k5⟩
  · exact absurd h3 k5
  rw [hcur] at k5
  have hc : t1.cur = .era k (.unlock1 p q true) := k5
  obtain ⟨m2, t2, r1, r2, r3, r4⟩ := Bd.Er.idle_unlock1 (P := P) (m := m1) hc
  obtain ⟨σ', hb', h4⟩ := r1.run (s := ⟨m1, s.threads.set i t1⟩) ht1
  refine ⟨σ ++ σ', m2, t2, by rw [List.length_append]; omega, ?_, r2.trans k2, by rw [r3]; exact h3, r4⟩
  rw [run_append, h1, h4]; simp

/-- A thread that executes `insert` or `erase` can be brought to return or to the head of its loop. -/
theorem settleSys (h : Mx.Inv E xp s) (hD : dB s.threads.length ≤ D) (hl : KeyLaws P) (hx : ExIdle s) {i : Nat} {t : Thread K V}
    (ht : s.threads[i]? = some t) (hcur : (∃ v pc, t.cur = .ins v pc) ∨ ∃ k pc, t.cur = .era k pc) :
    ∃ (σ : List Nat) (m' : Shared V) (t' : Thread K V), σ.length ≤ D + 60 ∧ run (UnorderedConc.step P) s σ = ⟨m', s.threads.set i t'⟩ ∧ t'.todo = t.todo ∧ t'.ex.todo = [] ∧
      (t'.cur = .idle ∨ Mx.Head P E.t₀.bc t.cur t'.cur) := by
  have hmem := List.mem_of_getElem? ht
  have hlt := (List.getElem?_eq_some_iff.1 ht).1
  have hex := hx t hmem
  have hothers : ∀ {t1 : Thread K V} (j : Nat) (u : Thread K V), j ≠ i → (s.threads.set i t1)[j]? = some u → u.ex.todo = [] := by
    intro t1 j u hj hu
    rcases getElem?_set_cases _ _ _ _ _ hu with ⟨e, -⟩ | ⟨-, hu⟩
    · exact absurd e hj
    · exact hx u (List.mem_of_getElem? hu)
  rcases hcur with ⟨v, pc, hcur⟩ | ⟨k, pc, hcur⟩
  · rcases settlesI h hmem hcur hex with ⟨m1, t1, r1, r2, r3, r4⟩ | ⟨m1, t1, e, r1, r2, r3, r4⟩ | ⟨m1, t1, r1, r2, r3, r4⟩
    · obtain ⟨σ, hb, h1⟩ := r1.run ht
      exact ⟨σ, m1, t1, by omega, h1, r2, by rw [r3]; exact hex, .inl r4⟩
    · obtain ⟨σ, hb, h1⟩ := r1.run ht
      obtain ⟨x', h'⟩ := Mx.inv_runs hl h σ
      rw [h1] at h'
      obtain ⟨σ', m2, t2, hb', k1, k2, k3, k4⟩ := popped h' (D := D) (by simpa using hD) (i := i) (t := t1) (by simp [hlt]) hothers
        (by rw [r3]; exact h.front hmem hex) r4
      refine ⟨σ ++ σ', m2, t2, by rw [List.length_append]; omega, ?_, k2.trans r2, k3, k4.imp id (fun h => .inl ⟨v, pc, hcur, h.1⟩)⟩
      rw [run_append, h1, k1]; simp
    · obtain ⟨σ, hb, h1⟩ := r1.run ht
      exact ⟨σ, m1, t1, by omega, h1, r2, by rw [r3]; exact hex, .inr (.inl ⟨v, pc, hcur, r4⟩)⟩
  · rcases settlesE h hmem hcur hex with ⟨m1, t1, r1, r2, r3, r4⟩ | ⟨m1, t1, p, q, r1, r2, r3, r4⟩ | ⟨m1, t1, r1, r2, r3, r4⟩
    · obtain ⟨σ, hb, h1⟩ := r1.run ht
      exact ⟨σ, m1, t1, by omega, h1, r2, by rw [r3]; exact hex, .inl r4⟩
    · obtain ⟨σ, hb, h1⟩ := r1.run ht
      obtain ⟨x', h'⟩ := Mx.inv_runs hl h σ
      rw [h1] at h'
      obtain ⟨σ', m2, t2, hb', k1, k2, k3, k4⟩ := pushed h' (D := D) (by simpa using hD) (i := i) (t := t1) (by simp [hlt]) hothers r4
      refine ⟨σ ++ σ', m2, t2, by rw [List.length_append]; omega, ?_, k2.trans r2, k3, .inl k4⟩
      rw [run_append, h1, k1]; simp
    · obtain ⟨σ, hb, h1⟩ := r1.run ht
      exact ⟨σ, m1, t1, by omega, h1, r2, by rw [r3]; exact hex, .inr (.inr ⟨k, pc, hcur, by rw [r4, Er.bK, h.g.bc]⟩)⟩

/-- Nobody holds a lock: a thread at the head of the loop of `insert` can be brought to return. -/
theorem freshI (hl : KeyLaws P) (n : Nat) : ∀ {xp : List (List (SlotConc.Op Unit Nat))} {s : Sys (Shared V) (Thread K V)},
    Mx.Inv E xp s → dB s.threads.length ≤ D → ExIdle s → (∀ t ∈ s.threads, Mx.held P E.t₀.bc t.cur = []) → s.shared.tab.excess.ctr.toNat ≤ n →
    ∀ {i : Nat} {t : Thread K V}, s.threads[i]? = some t → ∀ {v : V}, t.cur = .ins v .full →
    ∃ (σ : List Nat) (m' : Shared V) (t' : Thread K V), σ.length ≤ (n + 1) * (D + 60) ∧ run (UnorderedConc.step P) s σ = ⟨m', s.threads.set i t'⟩ ∧ t'.todo = t.todo ∧ t'.ex.todo = [] ∧ t'.cur = .idle := by
  induction n with
  | zero =>
    intro xp s h hD hx hn hc i t ht v hcur
    have hmem := List.mem_of_getElem? ht
    have hlt := (List.getElem?_eq_some_iff.1 ht).1
    have he : Vector.empty s.shared.tab.excess = true := by
      unfold Vector.empty Vector.size Vector.clampSize
      split
      · rfl
      · rename_i h0
        have : s.shared.tab.excess.ctr = 0 := by omega
        rw [this]
        simp
    obtain ⟨m1, t1, r1, r2, r3, r4⟩ := fresh_empty (P := P) he hcur
    obtain ⟨σ, hb, h1⟩ := r1.run ht
    exact ⟨σ, m1, t1, by first | omega | (rw [Nat.succ_mul]; omega), h1, r2, by rw [r3]; exact hx t hmem, r4⟩
  | succ n ih =>
    intro xp s h hD hx hn hc i t ht v hcur
    have hmem := List.mem_of_getElem? ht
    have hlt := (List.getElem?_eq_some_iff.1 ht).1
    have hex := hx t hmem
    have hb := E.bkt_lt (P.keyOf v)
    have hle := E.rep.bc_le
    have hothers : ∀ {t1 : Thread K V} (j : Nat) (u : Thread K V), j ≠ i → (s.threads.set i t1)[j]? = some u → u.ex.todo = [] := by
      intro t1 j u hj hu
      rcases getElem?_set_cases _ _ _ _ _ hu with ⟨e, -⟩ | ⟨-, hu⟩
      · exact absurd e hj
      · exact hx u (List.mem_of_getElem? hu)
    rcases Bd.fresh (P := P) (m := s.shared) (t := t) (tot_ins h.g _ _) (by rw [bOf, h.g.bc, h.g.total]; omega)
      (h.free hn) hcur with ⟨m1, t1, r1, r2, r3, r4⟩ | ⟨m1, t1, e, r1, r2, r3, r4⟩
    · obtain ⟨σ, hb, h1⟩ := r1.run ht
      exact ⟨σ, m1, t1, by first | omega | (rw [Nat.succ_mul]; omega), h1, r2, by rw [r3]; exact hex, r4⟩
    · obtain ⟨σ, hb, h1⟩ := r1.run ht
      obtain ⟨x', h'⟩ := Mx.inv_runs hl h σ
      rw [h1] at h'
      have hsame : m1.tab.excess.ctr = s.shared.tab.excess.ctr := by
        rcases Mx.Kept.reach r1.reach (.inr ⟨rfl, fun _ _ => rfl⟩) with h2 | ⟨-, h2⟩
        · rw [r3] at h2; exact absurd h2 (Nat.lt_irrefl _)
        · exact h2 .check (by rw [r3]; exact h.front hmem hex)
      obtain ⟨σ', m2, t2, hb', k1, k2, k3, k4⟩ := popped h' (D := D) (by simpa using hD) (i := i) (t := t1) (by simp [hlt]) hothers
        (by rw [r3]; exact h.front hmem hex) r4
      have h2 : run (UnorderedConc.step P) s (σ ++ σ') = ⟨m2, s.threads.set i t2⟩ := by rw [run_append, h1, k1]; simp
      rcases k4 with k4 | ⟨k4, k5 | ⟨k5, k6⟩⟩
      · exact ⟨σ ++ σ', m2, t2, by rw [List.length_append, Nat.succ_mul, Nat.succ_mul]; omega, h2, k2.trans r2, k3, k4⟩
      · obtain ⟨m3, t3, j1, j2, j3, j4⟩ := fresh_empty (P := P) k5 k4
        obtain ⟨σ'', hb'', h3⟩ := j1.run (s := ⟨m2, s.threads.set i t2⟩) (i := i) (by simp [hlt])
        refine ⟨σ ++ σ' ++ σ'', m3, t3, by rw [List.length_append, List.length_append, Nat.succ_mul]; first | omega | (rw [Nat.succ_mul]; omega), ?_, j2.trans (k2.trans r2), by rw [j3]; exact k3, j4⟩
        rw [run_append, h2, h3]; simp
      · obtain ⟨x2, h3⟩ := Mx.inv_runs hl h (σ ++ σ')
        rw [h2] at h3
        simp only at k5 k6
        rw [hsame] at k5 k6
        obtain ⟨σ'', m3, t3, hb'', j1, j2, j3, j4⟩ := ih h3 (by simpa using hD) (hx.set k3) (by
          intro u hu
          rcases mem_set_cases _ _ _ _ hu with rfl | ⟨j, -, hj⟩
          · rw [k4]; rfl
          · exact hn u (List.mem_of_getElem? hj)) (by show m2.tab.excess.ctr.toNat ≤ n; omega) (i := i) (t := t2) (by simp [hlt]) k4
        refine ⟨σ ++ σ' ++ σ'', m3, t3, by rw [List.length_append, List.length_append, Nat.succ_mul]; first | omega | (rw [Nat.succ_mul]; omega), ?_, j2.trans (k2.trans r2), j3, j4⟩
        rw [run_append, h2, j1]; simp

/-- Nobody holds a lock: a thread that begins a try of `erase` can be brought to return. -/
theorem freshE (h : Mx.Inv E xp s) (hD : dB s.threads.length ≤ D) (hl : KeyLaws P) (hx : ExIdle s) (hn : ∀ t ∈ s.threads, Mx.held P E.t₀.bc t.cur = [])
    {i : Nat} {t : Thread K V} (ht : s.threads[i]? = some t) {k : K} (hcur : t.cur = .era k (.f1 (.occ (bkt P E.t₀.bc k)))) :
    ∃ (σ : List Nat) (m' : Shared V) (t' : Thread K V), σ.length ≤ D + 60 ∧ run (UnorderedConc.step P) s σ = ⟨m', s.threads.set i t'⟩ ∧ t'.todo = t.todo ∧ t'.ex.todo = [] ∧ t'.cur = .idle := by
  have hmem := List.mem_of_getElem? ht
  have hlt := (List.getElem?_eq_some_iff.1 ht).1
  have hex := hx t hmem
  have hb := E.bkt_lt k
  have hle := E.rep.bc_le
  rcases Bd.Er.fresh (P := P) (m := s.shared) (t := t) (tot_era h.g k _) (by rw [Er.bK, h.g.bc, h.g.total]; omega) (h.free hn)
    (by rw [hcur, Er.bK, h.g.bc]) with ⟨m1, t1, r1, r2, r3, r4⟩ | ⟨m1, t1, p, q, r1, r2, r3, r4⟩
  · obtain ⟨σ, hb, h1⟩ := r1.run ht
    exact ⟨σ, m1, t1, by omega, h1, r2, by rw [r3]; exact hex, r4⟩
  · obtain ⟨σ, hb, h1⟩ := r1.run ht
    obtain ⟨x', h'⟩ := Mx.inv_runs hl h σ
    rw [h1] at h'
    obtain ⟨σ', m2, t2, hb', k1, k2, k3, k4⟩ := pushed h' (D := D) (by simpa using hD) (i := i) (t := t1) (by simp [hlt]) (by
      intro j u hj hu
      rcases getElem?_set_cases _ _ _ _ _ hu with ⟨e, -⟩ | ⟨-, hu⟩
      · exact absurd e hj
      · exact hx u (List.mem_of_getElem? hu)) r4
    exact ⟨σ ++ σ', m2, t2, by rw [List.length_append]; omega, by rw [run_append, h1, k1]; simp, k2.trans r2, k3, k4⟩

theorem freshSys {C : Nat} (h : Mx.Inv E xp s) (hC : s.shared.tab.excess.ctr.toNat ≤ C) (hD : dB s.threads.length ≤ D) (hl : KeyLaws P) (hx : ExIdle s) (hn : ∀ t ∈ s.threads, Mx.held P E.t₀.bc t.cur = [])
    {i : Nat} {t : Thread K V} (ht : s.threads[i]? = some t) {c : Cur K V} (hcur : Mx.Head P E.t₀.bc c t.cur) :
    ∃ (σ : List Nat) (m' : Shared V) (t' : Thread K V), σ.length ≤ (C + 1) * (D + 60) ∧ run (UnorderedConc.step P) s σ = ⟨m', s.threads.set i t'⟩ ∧ t'.todo = t.todo ∧ t'.ex.todo = [] ∧ t'.cur = .idle := by
  rcases hcur with ⟨v, pc, -, hc⟩ | ⟨k, pc, -, hc⟩
  · exact freshI hl _ h hD hx hn hC ht hc
  · obtain ⟨σ, m', t', h1, h2⟩ := freshE h hD hl hx hn ht hc
    exact ⟨σ, m', t', by rw [Nat.succ_mul]; omega, h2⟩

/-- All locks can be released, or an operation finishes on the way. -/
theorem release (hl : KeyLaws P) (n : Nat) : ∀ {xp : List (List (SlotConc.Op Unit Nat))}
    {s : Sys (Shared V) (Thread K V)}, Mx.Inv E xp s → dB s.threads.length ≤ D → ExIdle s → (s.threads.map (Mx.holds E)).sum = n →
    ∃ σ : List Nat, σ.length ≤ n * (D + 60) ∧ (opsS (run (UnorderedConc.step P) s σ) < opsS s ∨ (opsS (run (UnorderedConc.step P) s σ) = opsS s ∧
      ExIdle (run (UnorderedConc.step P) s σ) ∧ ∀ t ∈ (run (UnorderedConc.step P) s σ).threads, Mx.held P E.t₀.bc t.cur = [])) := by
  induction n with
  | zero =>
    intro xp s h hD hx hn
    refine ⟨[], by simp, .inr ⟨rfl, hx, ?_⟩⟩
    intro t ht
    have := (sum_map_eq_zero _ _).1 hn t ht
    unfold Mx.holds at this
    split at this
    · assumption
    · simp at this
  | succ n ih =>
    intro xp s h hD hx hn
    obtain ⟨i, t, ht, hpos⟩ := exists_of_sum_pos (Mx.holds E) s.threads (by omega)
    have hmem := List.mem_of_getElem? ht
    have hcur : (∃ v pc, t.cur = .ins v pc) ∨ ∃ k pc, t.cur = .era k pc := by
      cases hcur : t.cur with
      | idle => simp [Mx.holds, hcur, Mx.held] at hpos
      | fnd k W => simp [Mx.holds, hcur, Mx.held] at hpos
      | ins v pc => exact .inl ⟨_, _, rfl⟩
      | era k pc => exact .inr ⟨_, _, rfl⟩
    have hni : t.cur ≠ .idle := by rcases hcur with ⟨v, pc, h⟩ | ⟨k, pc, h⟩ <;> rw [h] <;> simp
    obtain ⟨σ, m', t', hb, k1, k2, k3, k4⟩ := settleSys h hD hl hx ht hcur
    have hops := opsS_set (m' := m') (t' := t') ht
    rcases k4 with k4 | k4
    · refine ⟨σ, by rw [Nat.succ_mul]; omega, .inl ?_⟩
      rw [k1]
      have := opsT_idle k2 hni k4
      omega
    · obtain ⟨x', h'⟩ := Mx.inv_runs hl h σ
      rw [k1] at h'
      have h0 : Mx.holds E t' = 0 := by simp [Mx.holds, k4.held]
      have hsum := sum_map_set (Mx.holds E) s.threads i t t' ht
      have hle : Mx.holds E t ≤ 1 := by unfold Mx.holds; split <;> simp
      have heq := opsT_cur k2 (t := t) (t' := t') hni k4.not_idle
      obtain ⟨σ', hb', h1⟩ := ih h' (by simpa using hD) (hx.set k3) (by show ((s.threads.set i t').map _).sum = n; omega)
      refine ⟨σ ++ σ', by rw [List.length_append, Nat.succ_mul]; omega, ?_⟩
      rw [run_append, k1]
      rcases h1 with h1 | ⟨h1, h2⟩
      · left; omega
      · right; exact ⟨by omega, h2⟩

/-- Unless everything is finished, some operation can be finished. -/
theorem work {C : Nat} (h : Mx.Inv E xp s) (hC : ∀ σ, (run (UnorderedConc.step P) s σ).shared.tab.excess.ctr.toNat ≤ C)
    (hD : dB s.threads.length ≤ D) (hl : KeyLaws P) (hf : ¬ UFinished s) :
    ∃ σ : List Nat, σ.length ≤ (s.threads.length + C + 4) * (D + 60) ∧ opsS (run (UnorderedConc.step P) s σ) < opsS s := by
  have hW : (s.threads.length + C + 4) * (D + 60) = s.threads.length * (D + 60) + (C + 1) * (D + 60) + 3 * (D + 60) := by ring
  obtain ⟨σ0, -, hb0, -, h0, hd⟩ := drain_ex P h.wellEx h.ex (inv_one h)
  have hops0 : opsS (run (UnorderedConc.step P) s σ0) ≤ opsS s := by
    refine sum_congr_idx (length_run _ _ _) ?_
    intro j t t' ht ht'
    obtain ⟨u, h1, h2⟩ := hd j t ht
    rw [ht'] at h1; cases h1
    exact le_of_eq (h2.ops (h.wellEx t (List.mem_of_getElem? ht)))
  by_cases hlt : opsS (run (UnorderedConc.step P) s σ0) < opsS s
  · exact ⟨σ0, by omega, hlt⟩
  obtain ⟨x1, h1⟩ := Mx.inv_runs hl h σ0
  obtain ⟨σ1, hb1, hr⟩ := release (D := D) hl _ h1 (by rw [length_run]; exact hD) h0 rfl
  have hsum : ((run (UnorderedConc.step P) s σ0).threads.map (Mx.holds E)).sum ≤ s.threads.length := by
    rw [← length_run (UnorderedConc.step P) s σ0]
    generalize (run (UnorderedConc.step P) s σ0).threads = l
    induction l with
    | nil => simp
    | cons a l ih =>
      have : Mx.holds E a ≤ 1 := by unfold Mx.holds; split <;> simp
      simp only [List.map_cons, List.sum_cons, List.length_cons]; omega
  have hb1' := hb1.trans (Nat.mul_le_mul_right _ hsum)
  rcases hr with hr | ⟨hr1, hr2, hr3⟩
  · exact ⟨σ0 ++ σ1, by rw [List.length_append]; omega, by rw [run_append]; omega⟩
  obtain ⟨x2, h2⟩ := Mx.inv_runs hl h1 σ1
  have key : ∀ {s' : Sys (Shared V) (Thread K V)}, (∃ σ : List Nat, σ.length ≤ s.threads.length * (D + 60) + D ∧ run (UnorderedConc.step P) s σ = s') → opsS s' = opsS s →
      (∃ σ : List Nat, σ.length ≤ (C + 1) * (D + 60) + 2 * (D + 60) + 1 ∧ opsS (run (UnorderedConc.step P) s' σ) < opsS s') →
      ∃ σ : List Nat, σ.length ≤ (s.threads.length + C + 4) * (D + 60) ∧ opsS (run (UnorderedConc.step P) s σ) < opsS s := by
    rintro s' ⟨σ, eb, e⟩ e1 ⟨σ', eb', e2⟩
    exact ⟨σ ++ σ', by rw [List.length_append, hW]; omega, by rw [run_append, e]; omega⟩
  refine key ⟨σ0 ++ σ1, by rw [List.length_append]; omega, run_append _ _ _ _⟩ (by omega) ?_
  have hC2 : ∀ σ, (run (UnorderedConc.step P) (run (UnorderedConc.step P) (run (UnorderedConc.step P) s σ0) σ1) σ).shared.tab.excess.ctr.toNat ≤ C := by
    intro σ
    rw [← run_append, ← run_append]; exact hC _
  have hD2 : dB (run (UnorderedConc.step P) (run (UnorderedConc.step P) s σ0) σ1).threads.length ≤ D := by
    rw [length_run, length_run]; exact hD
  have hnf : ¬ UFinished (run (UnorderedConc.step P) (run (UnorderedConc.step P) s σ0) σ1) := by
    intro hfin
    have hz : opsS (run (UnorderedConc.step P) (run (UnorderedConc.step P) s σ0) σ1) = 0 := by
      unfold opsS
      rw [sum_map_eq_zero]
      intro t ht
      obtain ⟨a, b⟩ := hfin t ht
      simp [opsT, a, b]
    have hz' : opsS s = 0 := by omega
    refine hf fun t ht => ?_
    have := (sum_map_eq_zero _ _).1 hz' t ht
    unfold opsT at this
    cases hc : t.cur <;> rw [hc] at this <;> simp at this
    exact ⟨this, rfl⟩
  generalize run (UnorderedConc.step P) (run (UnorderedConc.step P) s σ0) σ1 = s2 at *
  simp only [UFinished, not_forall] at hnf
  obtain ⟨t, htm, hnt⟩ := hnf
  obtain ⟨i, ht⟩ := List.mem_iff_getElem?.1 htm
  have hlt := (List.getElem?_eq_some_iff.1 ht).1
  have prog : ∀ {x : List (List (SlotConc.Op Unit Nat))} {s2 : Sys (Shared V) (Thread K V)}
      {t : Thread K V}, Mx.Inv E x s2 → (∀ σ, (run (UnorderedConc.step P) s2 σ).shared.tab.excess.ctr.toNat ≤ C) →
      dB s2.threads.length ≤ D → ExIdle s2 → (∀ t ∈ s2.threads, Mx.held P E.t₀.bc t.cur = []) → s2.threads[i]? = some t →
      t.cur ≠ .idle → ∃ σ : List Nat, σ.length ≤ (C + 1) * (D + 60) + 2 * (D + 60) ∧ opsS (run (UnorderedConc.step P) s2 σ) < opsS s2 := by
    intro x s2 t h2 hC2 hD2 hr2 hr3 ht hne
    have hmem := List.mem_of_getElem? ht
    have hlt := (List.getElem?_eq_some_iff.1 ht).1
    have op : ((∃ v pc, t.cur = .ins v pc) ∨ ∃ k pc, t.cur = .era k pc) → ∃ σ : List Nat, σ.length ≤ (C + 1) * (D + 60) + 2 * (D + 60) ∧ opsS (run (UnorderedConc.step P) s2 σ) < opsS s2 := by
      intro hcur
      obtain ⟨σ, m', t', hb, k1, k2, k3, k4⟩ := settleSys h2 hD2 hl hr2 ht hcur
      have hops := opsS_set (m' := m') (t' := t') ht
      rcases k4 with k4 | k4
      · refine ⟨σ, by omega, ?_⟩
        rw [k1]
        have := opsT_idle k2 hne k4
        omega
      · obtain ⟨x', h'⟩ := Mx.inv_runs hl h2 σ
        rw [k1] at h'
        obtain ⟨σ', m'', t'', hb', j1, j2, j3, j4⟩ := freshSys (C := C) h' (by rw [← k1]; exact hC2 σ) (D := D) (by simpa using hD2) hl (hr2.set k3) (by
          intro u hu
          rcases mem_set_cases _ _ _ _ hu with rfl | ⟨j, -, hj⟩
          · exact k4.held
          · exact hr3 u (List.mem_of_getElem? hj)) (i := i) (t := t') (by simp [hlt]) k4
        refine ⟨σ ++ σ', by rw [List.length_append]; omega, ?_⟩
        rw [run_append, k1, j1]
        have e1 := opsS_set (s := ⟨m', s2.threads.set i t'⟩) (m' := m'') (t := t') (t' := t'') (i := i) (by simp [hlt])
        have e2 := opsT_idle j2 k4.not_idle j4
        have e3 := opsT_cur k2 (t := t) (t' := t') hne k4.not_idle
        omega
    cases hcur : t.cur with
    | idle => exact absurd hcur hne
    | ins v pc => exact op (.inl ⟨_, _, hcur⟩)
    | era k pc => exact op (.inr ⟨_, _, hcur⟩)
    | fnd k W =>
      have hk := h2.knows t hmem
      rw [hcur] at hk
      obtain ⟨r, hw⟩ := wt_of h2.g (E.bkt_lt k) (fun w => P.keyEq (P.keyOf w) k) hk.2
      obtain ⟨m', t', r1, r2, r3, r4⟩ := run_fnd hw hcur
      obtain ⟨σ, hb, e⟩ := r1.run ht
      refine ⟨σ, by omega, ?_⟩
      rw [e]
      have := opsS_set (m' := m') (t' := t') ht
      have := opsT_idle r2 hne r4
      omega
  by_cases hc : t.cur = .idle
  · cases htodo : t.todo with
    | nil => exact absurd ⟨htodo, hc⟩ hnt
    | cons op rest =>
      have es : run (UnorderedConc.step P) s2 [i] = ⟨s2.shared, s2.threads.set i { t with todo := rest, cur := begin P s2.shared.tab op }⟩ := by
        rw [run_cons, run_nil, SlotConc.stepAt_eq _ _ _ _ ht]
        simp [UnorderedConc.step, hc, htodo]
      obtain ⟨x3, h3⟩ := Mx.inv_runs hl h2 [i]
      rw [es] at h3
      have hbi : begin P s2.shared.tab op ≠ .idle := by cases op <;> simp [begin]
      have hbh : Mx.held P E.t₀.bc (begin P s2.shared.tab op) = [] := by cases op <;> simp [begin, Mx.held, Mx.eheld, Mx.iheld]
      obtain ⟨σ, hb, hσ⟩ := prog h3 (by intro σ; rw [← es, ← run_append]; exact hC2 _) (by simpa using hD2) (hr2.set (hr2 t htm)) (by
        intro u hu
        rcases mem_set_cases _ _ _ _ hu with rfl | ⟨j, -, hj⟩
        · exact hbh
        · exact hr3 u (List.mem_of_getElem? hj))
        (t := { t with todo := rest, cur := begin P s2.shared.tab op }) (by simp [hlt]) hbi
      refine ⟨[i] ++ σ, by rw [List.length_append, List.length_singleton]; omega, ?_⟩
      rw [run_append, es]
      have e1 := opsS_set (m' := s2.shared) (t' := { t with todo := rest, cur := begin P s2.shared.tab op }) ht
      have e2 : opsT ({ t with todo := rest, cur := begin P s2.shared.tab op } : Thread K V) = opsT t := by
        cases op <;> simp [opsT, begin, hc, htodo]
      omega
  · obtain ⟨σ, hb, hσ⟩ := prog h2 hC2 hD2 hr2 hr3 ht hc
    exact ⟨σ, by omega, hσ⟩

theorem opsS_step (hs : Sys (Shared V) (Thread K V)) (σ : List Nat) : opsS (run (UnorderedConc.step P) hs σ) ≤ opsS hs := by
  induction σ generalizing hs with
  | nil => exact Nat.le_refl _
  | cons i σ ih =>
    rw [run_cons]
    refine (ih _).trans ?_
    cases ht : hs.threads[i]? with
    | none => simp [stepAt, ht]
    | some t =>
      rw [SlotConc.stepAt_eq _ _ _ _ ht]
      have h1 := opsS_set (m' := (UnorderedConc.step P hs.shared t).1) (t' := (UnorderedConc.step P hs.shared t).2) ht
      have h2 : opsT (UnorderedConc.step P hs.shared t).2 ≤ opsT t := by
        obtain ⟨todo, cur, ex, done⟩ := t
        cases cur with
        | idle => cases todo with
          | nil => simp [UnorderedConc.step]
          | cons op rest => cases op <;> simp [UnorderedConc.step, opsT, begin]
        | fnd k W => simp only [UnorderedConc.step]; split <;> simp [opsT]
        | ins v pc => simp only [UnorderedConc.step]; split <;> simp [opsT]
        | era k pc => simp only [UnorderedConc.step]; split <;> simp [opsT]
      omega

/-- Mixed operations with separated keys can be finished within a number of steps that depends on the number of threads, the
number of remaining operations and a bound for the counter of the free list. -/
theorem can_finish {C : Nat} (hl : KeyLaws P) (k : Nat) : ∀ {xp : List (List (SlotConc.Op Unit Nat))} {s : Sys (Shared V) (Thread K V)},
    Mx.Inv E xp s → (∀ σ, (run (UnorderedConc.step P) s σ).shared.tab.excess.ctr.toNat ≤ C) → dB s.threads.length ≤ D → opsS s ≤ k →
    ∃ σ : List Nat, σ.length ≤ k * ((s.threads.length + C + 4) * (D + 60)) ∧ UFinished (run (UnorderedConc.step P) s σ) := by
  induction k with
  | zero =>
    intro xp s h hC hD hk
    refine ⟨[], by simp, ?_⟩
    by_contra hf
    obtain ⟨σ, -, h1⟩ := work h hC hD hl hf
    omega
  | succ k ih =>
    intro xp s h hC hD hk
    by_cases hf : UFinished s
    · exact ⟨[], by simp, hf⟩
    · obtain ⟨σ, hb, h1⟩ := work h hC hD hl hf
      obtain ⟨x', h'⟩ := Mx.inv_runs hl h σ
      obtain ⟨σ', hb', h2⟩ := ih h' (by intro σ'; rw [← run_append]; exact hC _) (by rw [length_run]; exact hD) (by omega)
      rw [length_run] at hb'
      refine ⟨σ ++ σ', ?_, by rw [run_append]; exact h2⟩
      rw [List.length_append, Nat.succ_mul]
      omega
end
end Stdgpu.UnorderedConc.Bd
