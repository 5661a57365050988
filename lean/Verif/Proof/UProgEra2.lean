import Verif.Proof.UProgEra
/-! Progress of concurrent erases and lookups: the whole system. -/
namespace Stdgpu.UnorderedConc.Er
open Stdgpu.Conc
open Stdgpu.SlotConc (upd)
open Stdgpu.Unordered
open Stdgpu.Vector (FPC vfront countBits VInv)
open Stdgpu.Spec (KeyLaws UFinished)
variable {K V : Type}

section
variable {P : Params K V} {E : Start P} {path : Nat → List Nat} {xp : List (List (SlotConc.Op Unit Nat))}
  {s : Sys (Shared V) (Thread K V)}

theorem G.line {tab : Tab V} (g : G E tab path) {b w : Nat} (hb : b < E.t₀.bc) (hw : w ∈ b :: E.chain₀ b) :
    Linked tab.off w (path w) ∧ (∀ u ∈ w :: path w, u < tab.total) ∧
      (∀ u ∈ w :: path w, tab.occ u = true → (tab.val u).isSome = true) := by
  have hr : ∀ u ∈ w :: path w, u < E.t₀.total := by
    intro u hu
    rcases List.mem_cons.1 hu with rfl | hu
    · exact E.lt hb hw
    · exact E.lt hb (List.mem_cons_of_mem _ (g.sub b hb w hw u hu))
  refine ⟨g.linked b hb w hw, fun u hu => by rw [g.total]; exact hr u hu, fun u hu ho => ?_⟩
  rw [g.val]
  exact E.rep.val u (hr u hu) (g.occM u ho)

theorem wt_of {tab : Tab V} (g : G E tab path) {k : K} {W : Walk} (eq : V → Bool) (h : WalkK E tab path k W) :
    ∃ r, WT tab eq W r := by
  have hb := E.bkt_lt k
  obtain ⟨k1, k2, k3⟩ := g.line hb h.node
  cases W with
  | occ w => exact walk_total _ (.inl rfl) eq k1 k2 k3 (by simp)
  | val w =>
    refine walk_total _ (.inr (.inl rfl)) eq k1 k2 k3 (fun _ => ?_)
    rw [g.val]
    exact E.rep.val w (E.lt hb h.1) h.2.1
  | off1 w => exact walk_total _ (.inr (.inr (.inl rfl))) eq k1 k2 k3 (by simp)
  | off2 w => exact walk_total _ (.inr (.inr (.inr rfl))) eq k1 k2 k3 (by simp)

theorem pt_of {tab : Tab V} (g : G E tab path) {b p : Nat} (hb : b < E.t₀.bc) {W : Hop} (h : W.pos ∈ b :: E.chain₀ b) :
    ∃ r, PT tab p W r := by
  obtain ⟨k1, k2, -⟩ := g.line hb h
  cases W with
  | off1 w => exact prev_total p _ (.inl rfl) k1 k2
  | off2 w => exact prev_total p _ (.inr rfl) k1 k2

theorem tot_of {tab : Tab V} (g : G E tab path) (k : K) (eq : V → Bool) : Tot tab eq (bkt P tab.bc k) := by
  rw [g.bc]
  exact ⟨wt_of g (k := k) eq (WalkK.start k), fun p => pt_of g (E.bkt_lt k) (by simp [Hop.pos])⟩

theorem Inv.wellEx (h : Inv E path xp s) : WellEx s := by
  intro t ht hne
  have hk := h.knows t ht
  cases hcur : t.cur with
  | idle => rw [hcur] at hk; exact absurd hk hne
  | fnd k W => rw [hcur] at hk; exact absurd hk.1 hne
  | ins v pc => rw [hcur] at hk; exact hk.elim
  | era k pc =>
    rw [hcur] at hk
    simp only [Knows] at hk
    cases pc <;> first | rfl | exact absurd hk.1 hne

theorem Inv.settles (h : Inv E path xp s) {t : Thread K V} (ht : t ∈ s.threads) {k : K} {pc : EPC}
    (hcur : t.cur = .era k pc) (hex : t.ex.todo = []) : Settles P k s.shared t := by
  have hk := h.knows t ht
  rw [hcur] at hk
  simp only [Knows] at hk
  have hb := E.bkt_lt k
  have htot : Tot s.shared.tab (eqK P k) (bK P s.shared k) := tot_of h.g k _
  cases pc with
  | f1 W => obtain ⟨r, hr⟩ := wt_of h.g (eqK P k) hk.2; exact settles_f1 htot hr hcur
  | lockB p => exact settles_lockB htot hcur
  | f2 p W => obtain ⟨r, hr⟩ := wt_of h.g (eqK P k) hk.2.2.2.1; exact settles_f2 hr hcur
  | resetB p => exact .inl (idle_resetB hcur)
  | cntB p => exact .inl (idle_cntB hcur)
  | desB p => exact .inl (idle_desB hcur)
  | unlockB p ok =>
    cases ok with
    | true => exact .inl (idle_unlockB hcur)
    | false => exact .inr (.inr (again_unlockB hcur))
  | p1 p W => obtain ⟨r, hr⟩ := pt_of (p := p) h.g hb hk.2.2.2.1; exact settles_p1 htot hr hcur
  | lock1 p q => exact settles_lock1 htot hcur
  | lock2 p q => exact settles_lock2 htot hcur
  | undo1 p => exact .inr (.inr (again_undo1 hcur))
  | f3 p q W => obtain ⟨r, hr⟩ := wt_of h.g (eqK P k) hk.2.2.1; exact settles_f3 htot hr hcur
  | p2 p q it W => obtain ⟨r, hr⟩ := pt_of (p := p) h.g hb hk.2.2.1.1; exact settles_p2 hr hcur
  | rd1 p q => exact .inr (.inl (pushes_rd1 hcur))
  | rd2 p q => exact .inr (.inl (pushes_rd2 hcur))
  | rd3 p q o => exact .inr (.inl (pushes_rd3 hcur))
  | wr p q o => exact .inr (.inl (pushes_wr hcur))
  | zero p q => exact .inr (.inl (pushes_zero hcur))
  | reset p q => exact .inr (.inl (pushes_reset hcur))
  | cnt p q => exact .inr (.inl (pushes_cnt hcur))
  | des p q => exact .inr (.inl (pushes_des hcur))
  | push p q =>
    have : t.ex.todo = [.push () p] := hk.1
    rw [hex] at this
    simp at this
  | unlock1 p q ok =>
    cases ok with
    | true => exact .inl (idle_unlock1 hcur)
    | false => exact .inr (.inr (again_unlock1 hcur))
  | unlock2 q ok =>
    cases ok with
    | true => exact .inl (idle_unlock2 hcur)
    | false => exact .inr (.inr (again_unlock2 hcur))

theorem inv_runs (h : Inv E path xp s) (σ : List Nat) : ∃ path xp, Inv E path xp (run (step P) s σ) :=
  run_inv (f := step P) (fun s => ∃ path xp, Inv E path xp s)
    (fun _ _ _ ⟨_, _, h⟩ ht => let ⟨c, x, h', _⟩ := h.stepOK0 ht; ⟨c, x, h'⟩) _ ⟨_, _, h⟩ σ

/-- From a call of `push_back` the thread goes on to return. -/
theorem Inv.pushed (h : Inv E path xp s) {i : Nat} {t : Thread K V} (ht : s.threads[i]? = some t)
    (ho : ∀ j u, j ≠ i → s.threads[j]? = some u → u.ex.todo = []) {k : K} {p q : Nat}
    (hcur : t.cur = .era k (.push p q)) :
    ∃ σ m' t', run (step P) s σ = ⟨m', s.threads.set i t'⟩ ∧ t'.todo = t.todo ∧ t'.ex.todo = [] ∧ t'.cur = .idle := by
  have hmem := List.mem_of_getElem? ht
  have hlt := (List.getElem?_eq_some_iff.1 ht).1
  obtain ⟨σ, m1, t1, h1, h2, h3⟩ := drain_one P h.wellEx h.excess.v ht ho
  have hne : t.ex.todo ≠ [] := by
    have hk := h.knows t hmem
    rw [hcur] at hk
    have : t.ex.todo = [.push () p] := hk.1
    rw [this]; simp
  have ht1 : (⟨m1, s.threads.set i t1⟩ : Sys (Shared V) (Thread K V)).threads[i]? = some t1 := by simp [hlt]
  rcases h2 with rfl | ⟨-, k2, k3, k4⟩
  · exact absurd h3 hne
  rcases k4 with ⟨k5, -⟩ | ⟨-, k5⟩
  · exact absurd h3 k5
  rw [hcur] at k5
  have hc : t1.cur = .era k (.unlock1 p q true) := k5
  obtain ⟨m2, t2, r1, r2, r3, r4⟩ := idle_unlock1 (P := P) (m := m1) hc
  obtain ⟨σ', h4⟩ := r1.run (s := ⟨m1, s.threads.set i t1⟩) ht1
  refine ⟨σ ++ σ', m2, t2, ?_, r2.trans k2, by rw [r3]; exact h3, r4⟩
  rw [run_append, h1, h4]; simp

/-- A thread that executes `erase` can be brought to return or to a new try. -/
theorem Inv.settleSys (h : Inv E path xp s) (hx : ExIdle s) {i : Nat} {t : Thread K V}
    (ht : s.threads[i]? = some t) {k : K} {pc : EPC} (hcur : t.cur = .era k pc) :
    ∃ σ m' t', run (step P) s σ = ⟨m', s.threads.set i t'⟩ ∧ t'.todo = t.todo ∧ t'.ex.todo = [] ∧
      (t'.cur = .idle ∨ t'.cur = .era k (.f1 (.occ (bkt P E.t₀.bc k)))) := by
  have hmem := List.mem_of_getElem? ht
  have hlt := (List.getElem?_eq_some_iff.1 ht).1
  have hex := hx t hmem
  rcases h.settles hmem hcur hex with ⟨m1, t1, r1, r2, r3, r4⟩ | ⟨m1, t1, p, q, r1, r2, r3, r4⟩ | ⟨m1, t1, r1, r2, r3, r4⟩
  · obtain ⟨σ, h1⟩ := r1.run ht
    exact ⟨σ, m1, t1, h1, r2, by rw [r3]; exact hex, .inl r4⟩
  · obtain ⟨σ, h1⟩ := r1.run ht
    obtain ⟨c', x', h'⟩ := inv_runs h σ
    rw [h1] at h'
    obtain ⟨σ', m2, t2, k1, k2, k3, k4⟩ := h'.pushed (i := i) (t := t1) (by simp [hlt]) (by
      intro j u hj hu
      rcases getElem?_set_cases _ _ _ _ _ hu with ⟨e, -⟩ | ⟨-, hu⟩
      · exact absurd e hj
      · exact hx u (List.mem_of_getElem? hu)) r4
    refine ⟨σ ++ σ', m2, t2, ?_, k2.trans r2, k3, .inl k4⟩
    rw [run_append, h1, k1]; simp
  · obtain ⟨σ, h1⟩ := r1.run ht
    exact ⟨σ, m1, t1, h1, r2, by rw [r3]; exact hex, .inr (by rw [r4, bK, h.g.bc])⟩

theorem Inv.free (h : Inv E path xp s) (hn : ∀ t ∈ s.threads, held t.cur = []) (p : Nat)
    (hp : p < s.shared.tab.total) : s.shared.tab.locks p = false := by
  rw [h.g.total] at hp
  have h1 := h.locks p hp
  have h2 : (s.threads.map (heldN p)).sum = 0 := by
    rw [sum_map_eq_zero]
    intro t ht
    simp [heldN, hn t ht]
  rw [h2] at h1
  cases hh : s.shared.tab.locks p with
  | false => rfl
  | true => rw [hh] at h1; simp at h1

/-- Nobody holds a lock: a thread that begins a try of `erase` can be brought to return. -/
theorem Inv.freshSys (h : Inv E path xp s) (hx : ExIdle s) (hn : ∀ t ∈ s.threads, held t.cur = [])
    {i : Nat} {t : Thread K V} (ht : s.threads[i]? = some t) {k : K} (hcur : t.cur = .era k (.f1 (.occ (bkt P E.t₀.bc k)))) :
    ∃ σ m' t', run (step P) s σ = ⟨m', s.threads.set i t'⟩ ∧ t'.todo = t.todo ∧ t'.ex.todo = [] ∧ t'.cur = .idle := by
  have hmem := List.mem_of_getElem? ht
  have hlt := (List.getElem?_eq_some_iff.1 ht).1
  have hex := hx t hmem
  have hb := E.bkt_lt k
  have hle := E.rep.bc_le
  rcases fresh (P := P) (m := s.shared) (t := t) (tot_of h.g k _) (by rw [bK, h.g.bc, h.g.total]; omega) (h.free hn)
    (by rw [hcur, bK, h.g.bc]) with ⟨m1, t1, r1, r2, r3, r4⟩ | ⟨m1, t1, p, q, r1, r2, r3, r4⟩
  · obtain ⟨σ, h1⟩ := r1.run ht
    exact ⟨σ, m1, t1, h1, r2, by rw [r3]; exact hex, r4⟩
  · obtain ⟨σ, h1⟩ := r1.run ht
    obtain ⟨c', x', h'⟩ := inv_runs h σ
    rw [h1] at h'
    obtain ⟨σ', m2, t2, k1, k2, k3, k4⟩ := h'.pushed (i := i) (t := t1) (by simp [hlt]) (by
      intro j u hj hu
      rcases getElem?_set_cases _ _ _ _ _ hu with ⟨e, -⟩ | ⟨-, hu⟩
      · exact absurd e hj
      · exact hx u (List.mem_of_getElem? hu)) r4
    exact ⟨σ ++ σ', m2, t2, by rw [run_append, h1, k1]; simp, k2.trans r2, k3, k4⟩

def holds (t : Thread K V) : Nat := if held t.cur = [] then 0 else 1

/-- All locks can be released, or an operation finishes on the way. -/
theorem Inv.release (n : Nat) : ∀ {path : Nat → List Nat} {xp : List (List (SlotConc.Op Unit Nat))}
    {s : Sys (Shared V) (Thread K V)}, Inv E path xp s → ExIdle s → (s.threads.map holds).sum = n →
    ∃ σ, opsS (run (step P) s σ) < opsS s ∨ (opsS (run (step P) s σ) = opsS s ∧ ExIdle (run (step P) s σ) ∧
      ∀ t ∈ (run (step P) s σ).threads, held t.cur = []) := by
  induction n with
  | zero =>
    intro path xp s h hx hn
    refine ⟨[], .inr ⟨rfl, hx, ?_⟩⟩
    intro t ht
    have := (sum_map_eq_zero _ _).1 hn t ht
    unfold holds at this
    split at this
    · assumption
    · simp at this
  | succ n ih =>
    intro path xp s h hx hn
    obtain ⟨i, t, ht, hpos⟩ := exists_of_sum_pos holds s.threads (by omega)
    have hmem := List.mem_of_getElem? ht
    cases hcur : t.cur with
    | idle => simp [holds, hcur, held] at hpos
    | fnd k W => simp [holds, hcur, held] at hpos
    | ins v pc => simp [holds, hcur, held] at hpos
    | era k pc =>
      obtain ⟨σ, m', t', k1, k2, k3, k4⟩ := h.settleSys hx ht hcur
      have hops := opsS_set (m' := m') (t' := t') ht
      rcases k4 with k4 | k4
      · refine ⟨σ, .inl ?_⟩
        rw [k1]
        have := opsT_idle k2 (by rw [hcur]; simp) k4
        omega
      · obtain ⟨c', x', h'⟩ := inv_runs h σ
        rw [k1] at h'
        have h0 : holds t' = 0 := by simp [holds, k4, held, eheld]
        have hsum := sum_map_set holds s.threads i t t' ht
        have hle : holds t ≤ 1 := by unfold holds; split <;> simp
        have heq := opsT_cur k2 (t := t) (t' := t') (by rw [hcur]; simp) (by rw [k4]; simp)
        obtain ⟨σ', h1⟩ := ih h' (hx.set k3) (by show ((s.threads.set i t').map _).sum = n; omega)
        refine ⟨σ ++ σ', ?_⟩
        rw [run_append, k1]
        rcases h1 with h1 | ⟨h1, h2⟩
        · left; omega
        · right; exact ⟨by omega, h2⟩

/-- Unless everything is finished, some operation can be finished. -/
theorem Inv.work (h : Inv E path xp s) (hf : ¬ UFinished s) : ∃ σ, opsS (run (step P) s σ) < opsS s := by
  obtain ⟨σ0, h0, hd⟩ := drain P h.wellEx h.excess.v
  have hops0 : opsS (run (step P) s σ0) ≤ opsS s := by
    refine sum_congr_idx (length_run _ _ _) ?_
    intro j t t' ht ht'
    obtain ⟨u, h1, h2⟩ := hd j t ht
    rw [ht'] at h1; cases h1
    exact le_of_eq (h2.ops (h.wellEx t (List.mem_of_getElem? ht)))
  by_cases hlt : opsS (run (step P) s σ0) < opsS s
  · exact ⟨σ0, hlt⟩
  obtain ⟨c1, x1, h1⟩ := inv_runs h σ0
  obtain ⟨σ1, hr⟩ := Inv.release _ h1 h0 rfl
  rcases hr with hr | ⟨hr1, hr2, hr3⟩
  · exact ⟨σ0 ++ σ1, by rw [run_append]; omega⟩
  obtain ⟨c2, x2, h2⟩ := inv_runs h1 σ1
  have key : ∀ {s' : Sys (Shared V) (Thread K V)}, (∃ σ, run (step P) s σ = s') → opsS s' = opsS s → (∃ σ, opsS (run (step P) s' σ) < opsS s') →
      ∃ σ, opsS (run (step P) s σ) < opsS s := by
    rintro s' ⟨σ, e⟩ e1 ⟨σ', e2⟩
    exact ⟨σ ++ σ', by rw [run_append, e]; omega⟩
  refine key ⟨σ0 ++ σ1, run_append _ _ _ _⟩ (by omega) ?_
  have hnf : ¬ UFinished (run (step P) (run (step P) s σ0) σ1) := by
    intro hfin
    have hz : opsS (run (step P) (run (step P) s σ0) σ1) = 0 := by
      unfold opsS
      rw [sum_map_eq_zero]
      intro t ht
      obtain ⟨a, b⟩ := hfin t ht
      simp [opsT, a, b]
    have hz' : opsS s = 0 := by omega
    refine hf fun t ht => ?_
    have := (sum_map_eq_zero _ _).1 hz' t ht
    unfold opsT at this
    cases hc : t.cur <;> rw [hc] at this <;> simp at this
    exact ⟨this, rfl⟩
  generalize run (step P) (run (step P) s σ0) σ1 = s2 at *
  simp only [UFinished, not_forall] at hnf
  obtain ⟨t, htm, hnt⟩ := hnf
  obtain ⟨i, ht⟩ := List.mem_iff_getElem?.1 htm
  have hlt := (List.getElem?_eq_some_iff.1 ht).1
  have prog : ∀ {c : Nat → List Nat} {x : List (List (SlotConc.Op Unit Nat))} {s2 : Sys (Shared V) (Thread K V)}
      {t : Thread K V}, Inv E c x s2 → ExIdle s2 → (∀ t ∈ s2.threads, held t.cur = []) → s2.threads[i]? = some t →
      t.cur ≠ .idle → ∃ σ, opsS (run (step P) s2 σ) < opsS s2 := by
    intro c x s2 t h2 hr2 hr3 ht hne
    have hmem := List.mem_of_getElem? ht
    have hlt := (List.getElem?_eq_some_iff.1 ht).1
    cases hcur : t.cur with
    | idle => exact absurd hcur hne
    | ins v pc => have hk := h2.knows t hmem; rw [hcur] at hk; exact hk.elim
    | fnd k W =>
      have hk := h2.knows t hmem
      rw [hcur] at hk
      obtain ⟨r, hw⟩ := wt_of h2.g (fun w => P.keyEq (P.keyOf w) k) hk.2
      obtain ⟨m', t', r1, r2, r3, r4⟩ := run_fnd hw hcur
      obtain ⟨σ, e⟩ := r1.run ht
      refine ⟨σ, ?_⟩
      rw [e]
      have := opsS_set (m' := m') (t' := t') ht
      have := opsT_idle r2 hne r4
      omega
    | era k pc =>
      obtain ⟨σ, m', t', k1, k2, k3, k4⟩ := h2.settleSys hr2 ht hcur
      have hops := opsS_set (m' := m') (t' := t') ht
      rcases k4 with k4 | k4
      · refine ⟨σ, ?_⟩
        rw [k1]
        have := opsT_idle k2 hne k4
        omega
      · obtain ⟨c', x', h'⟩ := inv_runs h2 σ
        rw [k1] at h'
        obtain ⟨σ', m'', t'', j1, j2, j3, j4⟩ := h'.freshSys (hr2.set k3) (by
          intro u hu
          rcases mem_set_cases _ _ _ _ hu with rfl | ⟨j, -, hj⟩
          · simp [k4, held, eheld]
          · exact hr3 u (List.mem_of_getElem? hj)) (i := i) (t := t') (by simp [hlt]) k4
        refine ⟨σ ++ σ', ?_⟩
        rw [run_append, k1, j1]
        have e1 := opsS_set (s := ⟨m', s2.threads.set i t'⟩) (m' := m'') (t := t') (t' := t'') (i := i) (by simp [hlt])
        have e2 := opsT_idle j2 (by rw [k4]; simp) j4
        have e3 := opsT_cur k2 (t := t) (t' := t') hne (by rw [k4]; simp)
        omega
  by_cases hc : t.cur = .idle
  · cases htodo : t.todo with
    | nil => exact absurd ⟨htodo, hc⟩ hnt
    | cons op rest =>
      have es : run (step P) s2 [i] = ⟨s2.shared, s2.threads.set i { t with todo := rest, cur := begin P s2.shared.tab op }⟩ := by
        rw [run_cons, run_nil, SlotConc.stepAt_eq _ _ _ _ ht]
        simp [step, hc, htodo]
      obtain ⟨c3, x3, h3⟩ := inv_runs h2 [i]
      rw [es] at h3
      have hbi : begin P s2.shared.tab op ≠ .idle := by cases op <;> simp [begin]
      have hbh : held (begin P s2.shared.tab op) = [] := by cases op <;> simp [begin, held, eheld]
      obtain ⟨σ, hσ⟩ := prog h3 (hr2.set (hr2 t htm)) (by
        intro u hu
        rcases mem_set_cases _ _ _ _ hu with rfl | ⟨j, -, hj⟩
        · exact hbh
        · exact hr3 u (List.mem_of_getElem? hj))
        (t := { t with todo := rest, cur := begin P s2.shared.tab op }) (by simp [hlt]) hbi
      refine ⟨[i] ++ σ, ?_⟩
      rw [run_append, es]
      have e1 := opsS_set (m' := s2.shared) (t' := { t with todo := rest, cur := begin P s2.shared.tab op }) ht
      have e2 : opsT ({ t with todo := rest, cur := begin P s2.shared.tab op } : Thread K V) = opsT t := by
        cases op <;> simp [opsT, begin, hc, htodo]
      omega
  · exact prog h2 hr2 hr3 ht hc

/-- Concurrent erases and lookups can always be finished. -/
theorem Inv.can_finish0 (h : Inv E path xp s) : ∃ σ, UFinished (run (step P) s σ) :=
  finish_all (fun s => ∃ path xp, Inv E path xp s)
    (fun _ _ _ ⟨_, _, h⟩ ht => let ⟨c, x, h', _⟩ := h.stepOK0 ht; ⟨c, x, h'⟩)
    (fun _ ⟨_, _, h⟩ hf => h.work hf) s ⟨_, _, h⟩

theorem Inv.can_finish (h : Inv E path xp s) (_ : KeyLaws P) : ∃ σ, UFinished (run (step P) s σ) := h.can_finish0

end

end Stdgpu.UnorderedConc.Er
