import Verif.Proof.UProgIns
/-! Progress of concurrent inserts and lookups: the whole system. -/
namespace Stdgpu.UnorderedConc
open Stdgpu.Conc
open Stdgpu.SlotConc (upd)
open Stdgpu.Unordered
open Stdgpu.Vector (FPC vfront countBits PopInv VInv)
open Stdgpu.Spec (KeyLaws UFinished)
variable {K V : Type}

/-- No thread is inside a call on the free list. -/
def ExIdle (s : Sys (Shared V) (Thread K V)) : Prop := ∀ t ∈ s.threads, t.ex.todo = []

theorem ExIdle.set {s : Sys (Shared V) (Thread K V)} (h : ExIdle s) {m' : Shared V} {i : Nat} {t' : Thread K V}
    (h' : t'.ex.todo = []) : ExIdle ⟨m', s.threads.set i t'⟩ := by
  intro x hx
  rcases mem_set_cases _ _ _ _ hx with rfl | ⟨j, -, hj⟩
  · exact h'
  · exact h x (List.mem_of_getElem? hj)

/-- The call of one thread on the free list is completed. -/
theorem drain_one (P : Params K V) {cap : Nat} {c₀ : Multiset Nat} {xp : List (List (SlotConc.Op Unit Nat))}
    {s : Sys (Shared V) (Thread K V)} (hw : WellEx s) (hv : VInv cap c₀ xp (exSys s)) {i : Nat} {t : Thread K V}
    (ht : s.threads[i]? = some t) (ho : ∀ j u, j ≠ i → s.threads[j]? = some u → u.ex.todo = []) :
    ∃ σ m' t', run (step P) s σ = ⟨m', s.threads.set i t'⟩ ∧ Dr t t' ∧ t'.ex.todo = [] := by
  obtain ⟨σ, h1, h2⟩ := drain P hw hv
  obtain ⟨t', h3, h4⟩ := h2 i t ht
  refine ⟨σ, (run (step P) s σ).shared, t', ?_, h4, h1 t' (List.mem_of_getElem? h3)⟩
  have : (run (step P) s σ).threads = s.threads.set i t' := by
    apply List.ext_getElem?
    intro j
    by_cases hj : j = i
    · subst hj
      rw [h3, List.getElem?_set_self (List.getElem?_eq_some_iff.1 ht).1]
    · rw [List.getElem?_set_ne (fun e => hj e.symm)]
      cases hu : s.threads[j]? with
      | none =>
        rw [List.getElem?_eq_none_iff] at hu ⊢
        rw [length_run]; exact hu
      | some u =>
        obtain ⟨u', h5, h6⟩ := h2 j u hu
        rcases h6 with rfl | ⟨h7, -⟩
        · exact h5
        · exact absurd (ho j u hj hu) h7
  rw [← this]

section
variable {P : Params K V} {I : Start P} {chain : Nat → List Nat} {xp : List (List (SlotConc.Op Unit Nat))}
  {s : Sys (Shared V) (Thread K V)}

theorem wt_of {tab : Tab V} (g : G P tab chain) {b : Nat} (hb : b < tab.bc) {Q : Nat → Prop} {W : Walk} (eq : V → Bool)
    (h : WalkOK Q tab.occ b (chain b) W) : ∃ r, WT tab eq W r := by
  have key : ∀ {w : Nat} {l1 l2 : List Nat}, b :: chain b = l1 ++ w :: l2 → Linked tab.off w l2 ∧
      (∀ u ∈ w :: l2, u < tab.total) ∧ (∀ u ∈ w :: l2, tab.occ u = true → (tab.val u).isSome = true) := by
    intro w l1 l2 e
    have hm : ∀ u ∈ w :: l2, u < tab.total := fun u hu => g.lt hb (by rw [e]; exact List.mem_append_right _ hu)
    exact ⟨linked_at (g.linked b hb) e, hm, fun u hu ho => (g.live u (hm u hu) ho).2⟩
  cases W with
  | occ w =>
    obtain ⟨l1, l2, e, -⟩ := h
    obtain ⟨k1, k2, k3⟩ := key e
    exact walk_total _ (.inl rfl) eq k1 k2 k3 (by simp)
  | val w =>
    obtain ⟨⟨l1, l2, e, -⟩, ho⟩ := h
    obtain ⟨k1, k2, k3⟩ := key e
    exact walk_total _ (.inr (.inl rfl)) eq k1 k2 k3 (fun _ => k3 w (by simp) ho)
  | off1 w =>
    obtain ⟨l1, l2, e, -⟩ := h
    obtain ⟨k1, k2, k3⟩ := key e
    exact walk_total _ (.inr (.inr (.inl rfl))) eq k1 k2 k3 (by simp)
  | off2 w =>
    obtain ⟨l1, l2, e, -⟩ := h
    obtain ⟨k1, k2, k3⟩ := key e
    exact walk_total _ (.inr (.inr (.inr rfl))) eq k1 k2 k3 (by simp)

theorem ht_of {tab : Tab V} (g : G P tab chain) {b : Nat} (hb : b < tab.bc) {W : Hop}
    (h : HopOK b (chain b) W) : ∃ r, HT tab W r := by
  have key : ∀ {w : Nat}, w ∈ b :: chain b → ∃ l2, Linked tab.off w l2 ∧ (∀ u ∈ w :: l2, u < tab.total) := by
    intro w hw
    obtain ⟨l1, l2, e⟩ := List.append_of_mem hw
    exact ⟨l2, linked_at (g.linked b hb) e, fun u hu => g.lt hb (by rw [e]; exact List.mem_append_right _ hu)⟩
  cases W with
  | off1 w => obtain ⟨l2, k1, k2⟩ := key h; exact hop_total _ (.inl rfl) k1 k2
  | off2 w => obtain ⟨l2, k1, k2⟩ := key h; exact hop_total _ (.inr rfl) k1 k2

theorem tot_of {tab : Tab V} (g : G P tab chain) {b : Nat} (hb : b < tab.bc) (eq : V → Bool) : Tot tab eq b :=
  ⟨wt_of g hb (Q := fun _ => True) eq ⟨[], chain b, rfl, by simp⟩, ht_of g hb (by simp [HopOK])⟩

theorem Inv.wellEx (h : Inv I chain xp s) : WellEx s := by
  intro t ht hne
  have hk := h.knows t ht
  cases hcur : t.cur with
  | idle => rw [hcur] at hk; exact absurd hk hne
  | fnd k W => rw [hcur] at hk; exact absurd hk.1 hne
  | era k pc => rw [hcur] at hk; exact hk.elim
  | ins v pc =>
    rw [hcur] at hk
    simp only [Knows] at hk
    cases pc <;> first | rfl | exact absurd hk hne | exact absurd hk.1 hne

theorem Inv.settles (h : Inv I chain xp s) {t : Thread K V} (ht : t ∈ s.threads) {v : V} {pc : IPC}
    (hcur : t.cur = .ins v pc) (hex : t.ex.todo = []) : Settles P v s.shared t := by
  have hk := h.knows t ht
  rw [hcur] at hk
  simp only [Knows] at hk
  have hb := bkt_lt P s.shared.tab.bc (P.keyOf v) h.g.bc_pos h.g.bc_lt
  have htot : Tot s.shared.tab (eqOf P v) (bOf P s.shared v) := tot_of h.g hb _
  cases pc with
  | full => exact .inr (.inr ⟨_, _, .refl _ _ _, rfl, rfl, hcur⟩)
  | exc => exact settles_exc htot hcur
  | c1 W => obtain ⟨r, hr⟩ := wt_of h.g hb (eqOf P v) hk.2; exact settles_c1 htot hr hcur
  | occ1 => exact settles_occ1 htot hcur
  | lockB => exact settles_lockB htot hcur
  | c2 W => obtain ⟨r, hr⟩ := wt_of h.g hb (eqOf P v) hk.2; exact settles_c2 hr hcur
  | occ2 => exact settles_occ2 hcur
  | consB => exact .inl (idle_consB hcur)
  | cntB => exact .inl (idle_cntB hcur)
  | setB => exact .inl (idle_setB hcur)
  | e1 W => obtain ⟨r, hr⟩ := ht_of h.g hb hk.2.2; exact settles_e1 htot hr hcur
  | lockE e => exact settles_lockE htot hcur
  | e2 e W => obtain ⟨r, hr⟩ := ht_of h.g hb hk.2.2.2; exact settles_e2 htot hr hcur
  | c3 e e' W => obtain ⟨r, hr⟩ := wt_of h.g hb (eqOf P v) hk.2.2.2.2; exact settles_c3 hr hcur
  | pop e =>
    have : t.ex.todo = [.pop ()] := hk.1
    rw [hex] at this
    simp at this
  | cons e n => exact .inl (idle_cons hcur)
  | off e n => exact .inl (idle_off hcur)
  | cnt e n => exact .inl (idle_cnt hcur)
  | set e n => exact .inl (idle_set hcur)
  | link e n => exact .inl (idle_link hcur)
  | unlock p r =>
    cases r with
    | none => exact .inr (.inr (again_unlock hcur))
    | some n => exact .inl (idle_unlock hcur)

theorem inv_runs (h : Inv I chain xp s) (σ : List Nat) : ∃ chain xp, Inv I chain xp (run (step P) s σ) :=
  run_inv (f := step P) (fun s => ∃ chain xp, Inv I chain xp s)
    (fun _ _ _ ⟨_, _, h⟩ ht => let ⟨c, x, h', _⟩ := h.stepOK0 ht; ⟨c, x, h'⟩) _ ⟨_, _, h⟩ σ

theorem After.ins {v : V} {e : Nat} {t' : Thread K V} (h : After (.ins v (.pop e) : Cur K V) t') :
    (∃ n, t'.cur = .ins v (.cons e n)) ∨ (t'.cur = .ins v (.unlock e none) ∧
      ∃ op res, t'.ex.done.getLast? = some (op, res) ∧ ∀ n, res ≠ .popped n) := h

/-- From a call of `pop_back` the thread goes on to return or to try again; in the latter case the free list is empty. -/
theorem Inv.popped (h : Inv I chain xp s) {i : Nat} {t : Thread K V} (ht : s.threads[i]? = some t)
    (ho : ∀ j u, j ≠ i → s.threads[j]? = some u → u.ex.todo = []) {v : V} {e : Nat}
    (hcur : t.cur = .ins v (.pop e)) :
    ∃ σ m' t', run (step P) s σ = ⟨m', s.threads.set i t'⟩ ∧ t'.todo = t.todo ∧ t'.ex.todo = [] ∧
      (t'.cur = .idle ∨ (t'.cur = .ins v .full ∧ Vector.empty m'.tab.excess = true)) := by
  have hmem := List.mem_of_getElem? ht
  have hlt := (List.getElem?_eq_some_iff.1 ht).1
  obtain ⟨σ, m1, t1, h1, h2, h3⟩ := drain_one P h.wellEx h.excess.v ht ho
  have hne : t.ex.todo ≠ [] := by
    have hk := h.knows t hmem
    rw [hcur] at hk
    have : t.ex.todo = [.pop ()] := hk.1
    rw [this]; simp
  have ht1 : (⟨m1, s.threads.set i t1⟩ : Sys (Shared V) (Thread K V)).threads[i]? = some t1 := by simp [hlt]
  rcases h2 with rfl | ⟨-, k2, k3, k4⟩
  · exact absurd h3 hne
  rcases k4 with ⟨k5, -⟩ | ⟨-, k5⟩
  · exact absurd h3 k5
  rw [hcur] at k5
  rcases k5.ins with ⟨n, hc⟩ | ⟨hc, op, res, hlast, hres⟩
  · obtain ⟨m2, t2, r1, r2, r3, r4⟩ := idle_cons (P := P) (m := m1) hc
    obtain ⟨σ', h4⟩ := r1.run (s := ⟨m1, s.threads.set i t1⟩) ht1
    refine ⟨σ ++ σ', m2, t2, ?_, r2.trans k2, by rw [r3]; exact h3, .inl r4⟩
    rw [run_append, h1, h4]; simp
  · obtain ⟨m2, t2, r1, r2, r3, r4⟩ := again_unlock (P := P) (m := m1) hc
    obtain ⟨σ', h4⟩ := r1.run (s := ⟨m1, s.threads.set i t1⟩) ht1
    have h5 : run (step P) s (σ ++ σ') = ⟨m2, s.threads.set i t2⟩ := by
      rw [run_append, h1, h4]; simp
    refine ⟨σ ++ σ', m2, t2, h5, r2.trans k2, by rw [r3]; exact h3, .inr ⟨r4, ?_⟩⟩
    obtain ⟨c', x', h'⟩ := inv_runs h (σ ++ σ')
    rw [h5] at h'
    have hm2 : t2 ∈ s.threads.set i t2 := List.mem_of_getElem? (i := i) (by simp [hlt])
    have hin : (op, res) ∈ t2.ex.done := by rw [r3]; exact List.mem_of_getLast? hlast
    have hxm : t2.ex ∈ (exSys (⟨m2, s.threads.set i t2⟩ : Sys (Shared V) (Thread K V))).threads := List.mem_map_of_mem hm2
    have hfits := (h'.excess.v.shape t2.ex hxm).2.2 _ hin
    have hop : op.isPush = false := by
      obtain ⟨p, hp', e'⟩ := SlotConc.prog_mem h'.excess.v t2.ex hxm
      refine h'.xpops p hp' op ?_
      rw [e']
      exact List.mem_append_left _ (List.mem_map_of_mem (f := (·.1)) hin)
    have hpf : res = .popFailed := by
      cases op with
      | push k x => simp [SlotConc.Op.isPush] at hop
      | pop k =>
        cases res with
        | popped n => exact absurd rfl (hres n)
        | popFailed => rfl
        | pushed => simp [SlotConc.resFits] at hfits
        | pushFailed => simp [SlotConc.resFits] at hfits
    have hctr : m2.tab.excess.ctr ≤ 0 := h'.excess.failed t2.ex hxm op (by rw [← hpf]; exact hin)
    simp [Vector.empty, Vector.size, Vector.clampSize]
    omega

/-- A thread that executes `insert` can be brought to return or to the head of the loop. -/
theorem Inv.settleSys (h : Inv I chain xp s) (hx : ExIdle s) {i : Nat} {t : Thread K V}
    (ht : s.threads[i]? = some t) {v : V} {pc : IPC} (hcur : t.cur = .ins v pc) :
    ∃ σ m' t', run (step P) s σ = ⟨m', s.threads.set i t'⟩ ∧ t'.todo = t.todo ∧ t'.ex.todo = [] ∧
      (t'.cur = .idle ∨ t'.cur = .ins v .full) := by
  have hmem := List.mem_of_getElem? ht
  have hlt := (List.getElem?_eq_some_iff.1 ht).1
  have hex := hx t hmem
  rcases h.settles hmem hcur hex with ⟨m1, t1, r1, r2, r3, r4⟩ | ⟨m1, t1, e, r1, r2, r3, r4⟩ | ⟨m1, t1, r1, r2, r3, r4⟩
  · obtain ⟨σ, h1⟩ := r1.run ht
    exact ⟨σ, m1, t1, h1, r2, by rw [r3]; exact hex, .inl r4⟩
  · obtain ⟨σ, h1⟩ := r1.run ht
    obtain ⟨c', x', h'⟩ := inv_runs h σ
    rw [h1] at h'
    obtain ⟨σ', m2, t2, k1, k2, k3, k4⟩ := h'.popped (i := i) (t := t1) (by simp [hlt]) (by
      intro j u hj hu
      rcases getElem?_set_cases _ _ _ _ _ hu with ⟨e, -⟩ | ⟨-, hu⟩
      · exact absurd e hj
      · exact hx u (List.mem_of_getElem? hu)) r4
    refine ⟨σ ++ σ', m2, t2, ?_, k2.trans r2, k3, k4.imp id (·.1)⟩
    rw [run_append, h1, k1]; simp
  · obtain ⟨σ, h1⟩ := r1.run ht
    exact ⟨σ, m1, t1, h1, r2, by rw [r3]; exact hex, .inr r4⟩

theorem Inv.free (h : Inv I chain xp s) (hn : ∀ t ∈ s.threads, t.cur.held P I.t₀.bc = none) (p : Nat)
    (hp : p < s.shared.tab.total) : s.shared.tab.locks p = false := by
  rw [h.total] at hp
  have h1 := h.locks p hp
  have h2 : (s.threads.map (holdN P I.t₀.bc p)).sum = 0 := by
    rw [sum_map_eq_zero]
    intro t ht
    simp [holdN, hn t ht]
  rw [h2] at h1
  cases hh : s.shared.tab.locks p with
  | false => rfl
  | true => rw [hh] at h1; simp at h1

/-- Nobody holds a lock: a thread at the head of the loop of `insert` can be brought to return. -/
theorem Inv.freshSys (h : Inv I chain xp s) (hx : ExIdle s) (hn : ∀ t ∈ s.threads, t.cur.held P I.t₀.bc = none)
    {i : Nat} {t : Thread K V} (ht : s.threads[i]? = some t) {v : V} (hcur : t.cur = .ins v .full) :
    ∃ σ m' t', run (step P) s σ = ⟨m', s.threads.set i t'⟩ ∧ t'.todo = t.todo ∧ t'.ex.todo = [] ∧ t'.cur = .idle := by
  have hmem := List.mem_of_getElem? ht
  have hlt := (List.getElem?_eq_some_iff.1 ht).1
  have hex := hx t hmem
  have hb := bkt_lt P s.shared.tab.bc (P.keyOf v) h.g.bc_pos h.g.bc_lt
  rcases fresh (P := P) (m := s.shared) (t := t) (tot_of h.g hb _) (lt_of_lt_of_le hb h.g.bc_le) (h.free hn) hcur with
    ⟨m1, t1, r1, r2, r3, r4⟩ | ⟨m1, t1, e, r1, r2, r3, r4⟩
  · obtain ⟨σ, h1⟩ := r1.run ht
    exact ⟨σ, m1, t1, h1, r2, by rw [r3]; exact hex, r4⟩
  · obtain ⟨σ, h1⟩ := r1.run ht
    obtain ⟨c', x', h'⟩ := inv_runs h σ
    rw [h1] at h'
    obtain ⟨σ', m2, t2, k1, k2, k3, k4⟩ := h'.popped (i := i) (t := t1) (by simp [hlt]) (by
      intro j u hj hu
      rcases getElem?_set_cases _ _ _ _ _ hu with ⟨e, -⟩ | ⟨-, hu⟩
      · exact absurd e hj
      · exact hx u (List.mem_of_getElem? hu)) r4
    have h2 : run (step P) s (σ ++ σ') = ⟨m2, s.threads.set i t2⟩ := by rw [run_append, h1, k1]; simp
    rcases k4 with k4 | ⟨k4, k5⟩
    · exact ⟨σ ++ σ', m2, t2, h2, k2.trans r2, k3, k4⟩
    · obtain ⟨m3, t3, j1, j2, j3, j4⟩ := fresh_empty (P := P) k5 k4
      obtain ⟨σ'', h3⟩ := j1.run (s := ⟨m2, s.threads.set i t2⟩) (i := i) (by simp [hlt])
      refine ⟨σ ++ σ' ++ σ'', m3, t3, ?_, j2.trans (k2.trans r2), by rw [j3]; exact k3, j4⟩
      rw [run_append, h2, h3]; simp

def heldN (P : Params K V) (bc : Nat) (t : Thread K V) : Nat := if t.cur.held P bc = none then 0 else 1

theorem opsS_set {m' : Shared V} {i : Nat} {t t' : Thread K V} (ht : s.threads[i]? = some t) :
    opsS (⟨m', s.threads.set i t'⟩ : Sys (Shared V) (Thread K V)) + opsT t = opsS s + opsT t' :=
  sum_map_set opsT s.threads i t t' ht

/-- All locks can be released, or an operation finishes on the way. -/
theorem Inv.release (n : Nat) : ∀ {chain : Nat → List Nat} {xp : List (List (SlotConc.Op Unit Nat))}
    {s : Sys (Shared V) (Thread K V)}, Inv I chain xp s → ExIdle s → (s.threads.map (heldN P I.t₀.bc)).sum = n →
    ∃ σ, opsS (run (step P) s σ) < opsS s ∨ (opsS (run (step P) s σ) = opsS s ∧ ExIdle (run (step P) s σ) ∧
      ∀ t ∈ (run (step P) s σ).threads, t.cur.held P I.t₀.bc = none) := by
  induction n with
  | zero =>
    intro chain xp s h hx hn
    refine ⟨[], .inr ⟨rfl, hx, ?_⟩⟩
    intro t ht
    have := (sum_map_eq_zero _ _).1 hn t ht
    unfold heldN at this
    split at this
    · assumption
    · simp at this
  | succ n ih =>
    intro chain xp s h hx hn
    obtain ⟨i, t, ht, hpos⟩ := exists_of_sum_pos (heldN P I.t₀.bc) s.threads (by omega)
    have hmem := List.mem_of_getElem? ht
    cases hcur : t.cur with
    | idle => simp [heldN, hcur, Cur.held] at hpos
    | fnd k W => simp [heldN, hcur, Cur.held] at hpos
    | era k pc => simp [heldN, hcur, Cur.held] at hpos
    | ins v pc =>
      obtain ⟨σ, m', t', k1, k2, k3, k4⟩ := h.settleSys hx ht hcur
      have hops := opsS_set (m' := m') (t' := t') ht
      rcases k4 with k4 | k4
      · refine ⟨σ, .inl ?_⟩
        rw [k1]
        have := opsT_idle k2 (by rw [hcur]; simp) k4
        omega
      · obtain ⟨c', x', h'⟩ := inv_runs h σ
        rw [k1] at h'
        have h0 : heldN P I.t₀.bc t' = 0 := by simp [heldN, k4, Cur.held, IPC.held]
        have hsum := sum_map_set (heldN P I.t₀.bc) s.threads i t t' ht
        have hle : heldN P I.t₀.bc t ≤ 1 := by unfold heldN; split <;> simp
        have heq := opsT_cur k2 (t := t) (t' := t') (by rw [hcur]; simp) (by rw [k4]; simp)
        obtain ⟨σ', h1⟩ := ih h' (hx.set k3) (by show ((s.threads.set i t').map _).sum = n; omega)
        refine ⟨σ ++ σ', ?_⟩
        rw [run_append, k1]
        rcases h1 with h1 | ⟨h1, h2⟩
        · left; omega
        · right; exact ⟨by omega, h2⟩

/-- Unless everything is finished, some operation can be finished. -/
theorem Inv.work (h : Inv I chain xp s) (hf : ¬ UFinished s) : ∃ σ, opsS (run (step P) s σ) < opsS s := by
  obtain ⟨σ0, h0, hd⟩ := drain P h.wellEx h.excess.v
  have hops0 : opsS (run (step P) s σ0) ≤ opsS s := by
    refine sum_congr_idx (length_run _ _ _) ?_
    intro j t t' ht ht'
    obtain ⟨u, h1, h2⟩ := hd j t ht
    rw [ht'] at h1; cases h1
    exact le_of_eq (h2.ops (h.wellEx t (List.mem_of_getElem? ht)))
  by_cases hlt : opsS (run (step P) s σ0) < opsS s
  · exact ⟨σ0, hlt⟩
  obtain ⟨c1, x1, h1⟩ := inv_runs h σ0
  obtain ⟨σ1, hr⟩ := Inv.release _ h1 h0 rfl
  rcases hr with hr | ⟨hr1, hr2, hr3⟩
  · exact ⟨σ0 ++ σ1, by rw [run_append]; omega⟩
  obtain ⟨c2, x2, h2⟩ := inv_runs h1 σ1
  have key : ∀ {s' : Sys (Shared V) (Thread K V)}, (∃ σ, run (step P) s σ = s') → opsS s' = opsS s → (∃ σ, opsS (run (step P) s' σ) < opsS s') →
      ∃ σ, opsS (run (step P) s σ) < opsS s := by
    rintro s' ⟨σ, e⟩ e1 ⟨σ', e2⟩
    exact ⟨σ ++ σ', by rw [run_append, e]; omega⟩
  refine key ⟨σ0 ++ σ1, run_append _ _ _ _⟩ (by omega) ?_
  have hnf : ¬ UFinished (run (step P) (run (step P) s σ0) σ1) := by
    intro hfin
    have hz : opsS (run (step P) (run (step P) s σ0) σ1) = 0 := by
      unfold opsS
      rw [sum_map_eq_zero]
      intro t ht
      obtain ⟨a, b⟩ := hfin t ht
      simp [opsT, a, b]
    have hz' : opsS s = 0 := by omega
    refine hf fun t ht => ?_
    have := (sum_map_eq_zero _ _).1 hz' t ht
    unfold opsT at this
    cases hc : t.cur <;> rw [hc] at this <;> simp at this
    exact ⟨this, rfl⟩
  generalize run (step P) (run (step P) s σ0) σ1 = s2 at *
  -- nobody holds a lock and nobody is inside the free list
  simp only [UFinished, not_forall] at hnf
  obtain ⟨t, htm, hnt⟩ := hnf
  obtain ⟨i, ht⟩ := List.mem_iff_getElem?.1 htm
  have hlt := (List.getElem?_eq_some_iff.1 ht).1
  -- an operation in progress can be finished
  have prog : ∀ {c : Nat → List Nat} {x : List (List (SlotConc.Op Unit Nat))} {s2 : Sys (Shared V) (Thread K V)}
      {t : Thread K V}, Inv I c x s2 → ExIdle s2 → (∀ t ∈ s2.threads, t.cur.held P I.t₀.bc = none) → s2.threads[i]? = some t →
      t.cur ≠ .idle → ∃ σ, opsS (run (step P) s2 σ) < opsS s2 := by
    intro c x s2 t h2 hr2 hr3 ht hne
    have hmem := List.mem_of_getElem? ht
    have hlt := (List.getElem?_eq_some_iff.1 ht).1
    cases hcur : t.cur with
    | idle => exact absurd hcur hne
    | era k pc => have hk := h2.knows t hmem; rw [hcur] at hk; exact hk.elim
    | fnd k W =>
      have hk := h2.knows t hmem
      rw [hcur] at hk
      obtain ⟨r, hw⟩ := wt_of h2.g (bkt_lt P _ k h2.g.bc_pos h2.g.bc_lt) (fun w => P.keyEq (P.keyOf w) k) hk.2
      obtain ⟨m', t', r1, r2, r3, r4⟩ := run_fnd hw hcur
      obtain ⟨σ, e⟩ := r1.run ht
      refine ⟨σ, ?_⟩
      rw [e]
      have := opsS_set (m' := m') (t' := t') ht
      have := opsT_idle r2 hne r4
      omega
    | ins v pc =>
      obtain ⟨σ, m', t', k1, k2, k3, k4⟩ := h2.settleSys hr2 ht hcur
      have hops := opsS_set (m' := m') (t' := t') ht
      rcases k4 with k4 | k4
      · refine ⟨σ, ?_⟩
        rw [k1]
        have := opsT_idle k2 hne k4
        omega
      · obtain ⟨c', x', h'⟩ := inv_runs h2 σ
        rw [k1] at h'
        have hlt' : i < (s2.threads.set i t').length := by simpa using hlt
        obtain ⟨σ', m'', t'', j1, j2, j3, j4⟩ := h'.freshSys (hr2.set k3) (by
          intro u hu
          rcases mem_set_cases _ _ _ _ hu with rfl | ⟨j, -, hj⟩
          · simp [k4, Cur.held, IPC.held]
          · exact hr3 u (List.mem_of_getElem? hj)) (i := i) (t := t') (by simp [hlt]) k4
        refine ⟨σ ++ σ', ?_⟩
        rw [run_append, k1, j1]
        have e1 := opsS_set (s := ⟨m', s2.threads.set i t'⟩) (m' := m'') (t := t') (t' := t'') (i := i) (by simp [hlt])
        have e2 := opsT_idle j2 (by rw [k4]; simp) j4
        have e3 := opsT_cur k2 (t := t) (t' := t') hne (by rw [k4]; simp)
        omega
  by_cases hc : t.cur = .idle
  · cases htodo : t.todo with
    | nil => exact absurd ⟨htodo, hc⟩ hnt
    | cons op rest =>
      have es : run (step P) s2 [i] = ⟨s2.shared, s2.threads.set i { t with todo := rest, cur := begin P s2.shared.tab op }⟩ := by
        rw [run_cons, run_nil, SlotConc.stepAt_eq _ _ _ _ ht]
        simp [step, hc, htodo]
      obtain ⟨c3, x3, h3⟩ := inv_runs h2 [i]
      rw [es] at h3
      have hbi : begin P s2.shared.tab op ≠ .idle := by cases op <;> simp [begin]
      have hbh : (begin P s2.shared.tab op).held P I.t₀.bc = none := by cases op <;> simp [begin, Cur.held, IPC.held]
      obtain ⟨σ, hσ⟩ := prog h3 (hr2.set (hr2 t htm)) (by
        intro u hu
        rcases mem_set_cases _ _ _ _ hu with rfl | ⟨j, -, hj⟩
        · exact hbh
        · exact hr3 u (List.mem_of_getElem? hj))
        (t := { t with todo := rest, cur := begin P s2.shared.tab op }) (by simp [hlt]) hbi
      refine ⟨[i] ++ σ, ?_⟩
      rw [run_append, es]
      have e1 := opsS_set (m' := s2.shared) (t' := { t with todo := rest, cur := begin P s2.shared.tab op }) ht
      have e2 : opsT ({ t with todo := rest, cur := begin P s2.shared.tab op } : Thread K V) = opsT t := by
        cases op <;> simp [opsT, begin, hc, htodo]
      omega
  · exact prog h2 hr2 hr3 ht hc

/-- Concurrent inserts and lookups can always be finished. -/
theorem Inv.can_finish0 (h : Inv I chain xp s) : ∃ σ, UFinished (run (step P) s σ) :=
  finish_all (fun s => ∃ chain xp, Inv I chain xp s)
    (fun _ _ _ ⟨_, _, h⟩ ht => let ⟨c, x, h', _⟩ := h.stepOK0 ht; ⟨c, x, h'⟩)
    (fun _ ⟨_, _, h⟩ hf => h.work hf) s ⟨_, _, h⟩

theorem Inv.can_finish (h : Inv I chain xp s) (_ : KeyLaws P) : ∃ σ, UFinished (run (step P) s σ) := h.can_finish0

end

end Stdgpu.UnorderedConc
