import Verif.Proof.WaveS
import Verif.Proof.Conc
import Verif.Spec.SlotConc
import Mathlib.Data.List.Induction
/-! Executions of wavefronts that push or pop, as executions of independent threads. -/
namespace Stdgpu.Execution
open Stdgpu.SlotConc (Mem Thread Op Res Front)
open Stdgpu.Conc Stdgpu.Spec

variable {C K F α : Type}

/-- The threads that the wavefronts correspond to. -/
def threadsOf (fr : Front C K F) (ws : List (SWave K F α)) : List (Thread K F α) :=
  (List.range (64 * ws.length)).map (fun j =>
    match ws[j / 64]? with | some w => thr fr w (j % 64) | none => ⟨[], .front fr.start, []⟩)

theorem threadsOf_get {fr : Front C K F} {ws : List (SWave K F α)} {k : Nat} {w : SWave K F α} (h : ws[k]? = some w) {i : Nat}
    (hi : i < 64) : (threadsOf fr ws)[64 * k + i]? = some (thr fr w i) := by
  have hk := (List.getElem?_eq_some_iff.1 h).1
  unfold threadsOf
  rw [List.getElem?_map, List.getElem?_range (by omega), Option.map_some]
  have e1 : (64 * k + i) / 64 = k := by omega
  have e2 : (64 * k + i) % 64 = i := by omega
  rw [e1, e2, h]

theorem threadsOf_set {fr : Front C K F} {ws : List (SWave K F α)} {k : Nat} {w w' : SWave K F α} (h : ws[k]? = some w) {i : Nat}
    (hi : i < 64) (ho : ∀ j, j ≠ i → thr fr w' j = thr fr w j) :
    threadsOf fr (ws.set k w') = (threadsOf fr ws).set (64 * k + i) (thr fr w' i) := by
  have hk := (List.getElem?_eq_some_iff.1 h).1
  unfold threadsOf
  rw [List.length_set]
  apply List.ext_getElem?
  intro j
  rw [List.getElem?_set, List.length_map, List.length_range]
  by_cases hj : j < 64 * ws.length
  · rw [List.getElem?_map, List.getElem?_map, List.getElem?_range hj, Option.map_some, Option.map_some, List.getElem?_set]
    by_cases hjk : k = j / 64
    · rw [if_pos hjk, if_pos (by omega)]
      by_cases hji : 64 * k + i = j
      · rw [if_pos hji, if_pos (by omega)]
        dsimp only
        rw [show j % 64 = i by omega]
      · rw [if_neg hji, ← hjk, h]
        dsimp only
        rw [ho _ (by omega)]
    · rw [if_neg hjk, if_neg (by omega)]
  · rw [List.getElem?_eq_none (by simp; omega)]
    by_cases hji : 64 * k + i = j
    · omega
    · rw [if_neg hji, List.getElem?_eq_none (by simp; omega)]

theorem threadsOf_same {fr : Front C K F} {ws : List (SWave K F α)} {k : Nat} {w w' : SWave K F α} (h : ws[k]? = some w)
    (ho : ∀ j, thr fr w' j = thr fr w j) : threadsOf fr (ws.set k w') = threadsOf fr ws := by
  rw [threadsOf_set h (i := 0) (by omega) (fun j _ => ho j), ho 0]
  have := threadsOf_get (fr := fr) h (i := 0) (by omega)
  apply List.ext_getElem?
  intro j
  rw [List.getElem?_set]
  split
  · next h1 => subst h1; rw [if_pos (List.getElem?_eq_some_iff.1 this).1, this]
  · rfl

theorem done_lt_step {fr : Front C K F} {A : BitVec 64} {w : SWave K F α} (he : EInv (sLane fr) A w) (m : Mem C α) (c : Nat)
    (h : ∀ x ∈ w.done, x.1 < 64) : ∀ x ∈ (waveStep true (sLane fr) m w c).2.done, x.1 < 64 := by
  rcases waveStep_cases true (sLane fr) m w c with ⟨i, l, hl, hph, e⟩ | ⟨hph, hno, e⟩ | ⟨hph, h0, hc, e⟩ |
    ⟨hph, h0, call, calls, hcs, e⟩ | ⟨hph, ⟨i0, l0, hl0, ha0⟩, e⟩ | ⟨hph, hno, e⟩ <;> rw [e]
  · have hi64 : i < 64 := Nat.lt_of_lt_of_le (laneAt_lt hl) he.len
    rcases stepLane_eq (L := sLane fr) (m := m) (w := w) hl with ⟨r, h4, h5⟩ | ⟨h4, h5⟩ <;> rw [h5]
    · intro x hx
      rcases List.mem_append.1 hx with hx | hx
      · exact h x hx
      · rw [List.mem_singleton] at hx; subst hx; exact hi64
    · exact h
  all_goals exact h

theorem wave_over_stays {σ O R β : Type} {L : LaneProg σ O R β} (elect : Bool) (m : σ) (c : Nat) {w : Wave O R β} (h : WaveOver w) :
    (waveStep elect L m w c).2 = w := by
  unfold waveStep
  rw [h.1]
  dsimp only
  rw [if_pos (lanesWith_nil.2 (fun i l hl => by simp [h.2.2 i l hl])), h.2.1]

/-- What holds of the wavefronts `s` after the schedule `sched`, with the corresponding schedule `τ` of the threads. -/
structure SSim (fr : Front C K F) (m : Mem C α) (progs : List (List (List (Option (Op K α))))) (sched : List (Nat × Nat))
    (s : Waves (Mem C α) (Op K α) (Res α) (Thread K F α)) (τ : List Nat) : Prop where
  len : s.waves.length = progs.length
  inv : ∀ w ∈ s.waves, (∃ A, EInv (sLane fr) A w) ∧ LOk w ∧ ∀ x ∈ w.done, x.1 < 64
  sim : run (SlotConc.step fr) (SlotConc.init fr m (laneProgs progs)) τ = ⟨s.shared, threadsOf fr s.waves⟩
  live : ∀ (pre : List Nat) (j : Nat) (post : List Nat), τ = pre ++ j :: post →
    ∃ t, (run (SlotConc.step fr) (SlotConc.init fr m (laneProgs progs)) pre).threads[j]? = some t ∧ t.todo ≠ []
  acct : ∀ (k : Nat) (w : SWave K F α) (p : List (List (Option (Op K α)))), s.waves[k]? = some w → progs[k]? = some p →
    WaveOver w ∨ waveSteps sched k + psi w ≤ (p.map (fun c => 2 + 2 * activeLanes c)).sum + τ.countP (fun j => j / 64 == k)

theorem waveSteps_snoc (sched : List (Nat × Nat)) (a : Nat × Nat) (k : Nat) :
    waveSteps (sched ++ [a]) k = waveSteps sched k + if a.1 = k then 1 else 0 := by
  unfold waveSteps
  rw [List.map_append, List.count_append]
  simp only [List.map_cons, List.map_nil, List.count_cons, List.count_nil, beq_iff_eq, Nat.zero_add]

theorem live_snoc {f : Mem C α → Thread K F α → Mem C α × Thread K F α} {s0 : Sys (Mem C α) (Thread K F α)} {τ : List Nat} {j : Nat}
    (h : ∀ (pre : List Nat) (j : Nat) (post : List Nat), τ = pre ++ j :: post → ∃ t, (run f s0 pre).threads[j]? = some t ∧ t.todo ≠ [])
    (hj : ∃ t, (run f s0 τ).threads[j]? = some t ∧ t.todo ≠ []) :
    ∀ (pre : List Nat) (j' : Nat) (post : List Nat), τ ++ [j] = pre ++ j' :: post →
      ∃ t, (run f s0 pre).threads[j']? = some t ∧ t.todo ≠ [] := by
  intro pre j' post e
  rcases List.eq_nil_or_concat post with rfl | ⟨post', x, rfl⟩
  · obtain ⟨h1, h2⟩ := List.append_inj_left' e rfl, List.append_inj_right' e rfl
    cases h2
    rw [← h1]; exact hj
  · rw [List.concat_eq_append, ← List.cons_append, ← List.append_assoc] at e
    exact h pre j' post' (List.append_inj_left' e rfl)

theorem ssim_run (fr : Front C K F) (m : Mem C α) {progs : List (List (List (Option (Op K α))))}
    (hp : ∀ p ∈ progs, ∀ c ∈ p, c.length ≤ 64) (sched : List (Nat × Nat)) :
    ∃ τ, SSim fr m progs sched (execWaves true (sLane fr) m progs sched) τ := by
  induction sched using List.reverseRecOn with
  | nil =>
    refine ⟨[], by simp [execWaves, initWaves], ?_, ?_, by simp, ?_⟩
    · intro w hw
      simp only [execWaves, List.foldl_nil, initWaves, List.mem_map] at hw
      obtain ⟨p, hp', rfl⟩ := hw
      refine ⟨⟨_, einv_init (hp p hp')⟩, ?_, by simp⟩
      intro i l hl; simp [laneAt] at hl
    · simp only [run, List.foldl_nil, SlotConc.init, execWaves, initWaves]
      congr 1
      unfold threadsOf laneProgs
      rw [List.map_map, List.length_map]
      refine List.map_congr_left fun j hj => ?_
      simp only [Function.comp, List.getElem?_map]
      cases hpj : progs[j / 64]? with
      | none => rfl
      | some p => simp [thr, laneAt]
    · intro k w p hw hpk
      right
      simp only [execWaves, List.foldl_nil, initWaves, List.getElem?_map, hpk, Option.map_some, Option.some.injEq] at hw
      subst hw
      have : cnt (busyAt ([] : List (Option (SLane K F α)))) = 0 := by
        unfold cnt; rw [List.countP_eq_zero]; intro i _; simp [busyAt, laneAt]
      simp [waveSteps, psi, this]
  | append_singleton sched a ih =>
    obtain ⟨τ, h⟩ := ih
    have hex : execWaves true (sLane fr) m progs (sched ++ [a]) =
        wavesStep true (sLane fr) (execWaves true (sLane fr) m progs sched) a := by
      unfold execWaves; rw [List.foldl_append]; rfl
    rw [hex]
    generalize execWaves true (sLane fr) m progs sched = s at h
    unfold wavesStep
    cases hw : s.waves[a.1]? with
    | none =>
      refine ⟨τ, h.len, h.inv, h.sim, h.live, ?_⟩
      intro k w p hk hpk
      rw [waveSteps_snoc, if_neg (by rintro rfl; rw [hw] at hk; cases hk)]
      exact h.acct k w p hk hpk
    | some w =>
      obtain ⟨⟨A, he⟩, hlok, hdl⟩ := h.inv w (List.mem_of_getElem? hw)
      obtain ⟨h1, h2⟩ := wave_sim he hlok s.shared a.2
      have hinv : ∀ x ∈ s.waves.set a.1 (waveStep true (sLane fr) s.shared w a.2).2,
          (∃ A, EInv (sLane fr) A x) ∧ LOk x ∧ ∀ y ∈ x.done, y.1 < 64 := by
        intro x hx
        rcases List.mem_or_eq_of_mem_set hx with hx | rfl
        · exact h.inv x hx
        · exact ⟨einv_step (sLaws fr) he _ _, h1, done_lt_step he _ _ hdl⟩
      have hlt := (List.getElem?_eq_some_iff.1 hw).1
      rcases h2 with ⟨i, hi, htd, hst, hoth, hpsi⟩ | ⟨hm, hsame, hov⟩
      · refine ⟨τ ++ [64 * a.1 + i], by simpa using h.len, hinv, ?_, ?_, ?_⟩
        · rw [run_append, h.sim]
          show stepAt _ _ _ = _
          unfold stepAt
          simp only
          rw [threadsOf_get hw hi]
          simp only [hst]
          rw [threadsOf_set hw hi hoth]
        · refine live_snoc h.live ?_
          rw [h.sim]
          exact ⟨_, threadsOf_get hw hi, htd⟩
        · intro k x p hx hpk
          dsimp only at hx
          rw [waveSteps_snoc, List.countP_append, List.countP_singleton]
          rcases getElem?_set_cases _ _ _ _ _ hx with ⟨rfl, rfl⟩ | ⟨hne, hx⟩
          · rcases h.acct _ w p hw hpk with h3 | h3
            · exfalso
              have : (thr fr w i).todo = [] := by
                have hA : A = 0#64 := by
                  by_contra hcA
                  obtain ⟨-, h2, -⟩ := elected_spec hcA
                  obtain ⟨l, h4, h5⟩ := he.mem _ h2
                  rw [h3.2.2 _ l h4] at h5
                  exact hcA h5.symm
                unfold thr
                rw [h3.2.1]
                cases hl : laneAt w.lanes i with
                | none => rfl
                | some l =>
                  dsimp only
                  cases hd : l.st.done with
                  | cons _ _ => rfl
                  | nil =>
                    have := (he.crit (by simp [h3.1]) i l hl (crit_of_busy hd (he.nofree (by simp [h3.1]) i l hl))).1
                    rw [hA] at this
                    simp at this
              exact htd this
            · right
              rw [if_pos rfl, if_pos (by rw [beq_iff_eq]; omega)]
              omega
          · rw [if_neg (fun h => hne h.symm)]
            rcases h.acct _ x p hx hpk with h3 | h3
            · exact .inl h3
            · right; omega
      · refine ⟨τ, by simpa using h.len, hinv, ?_, h.live, ?_⟩
        · rw [h.sim]
          simp only
          rw [hm, threadsOf_same hw hsame]
        · intro k x p hx hpk
          dsimp only at hx
          rw [waveSteps_snoc]
          rcases getElem?_set_cases _ _ _ _ _ hx with ⟨rfl, rfl⟩ | ⟨hne, hx⟩
          · rcases hov with hlt | ⟨ho, e⟩
            · rcases h.acct _ w p hw hpk with h3 | h3
              · have := wave_over_stays (L := sLane fr) true s.shared a.2 h3
                rw [this]; exact .inl h3
              · right; rw [if_pos rfl]; omega
            · rw [e]; exact .inl ho
          · rw [if_neg (fun h => hne h.symm)]
            exact h.acct _ x p hx hpk

theorem sprogs_kept (fr : Front C K F) (m : Mem C α) (programs : List (List (Op K α))) (τ : List Nat) :
    (run (SlotConc.step fr) (SlotConc.init fr m programs) τ).threads.map (fun t => t.done.map (·.1) ++ t.todo) = programs := by
  refine run_inv (f := SlotConc.step fr) (fun s => s.threads.map (fun t => t.done.map (·.1) ++ t.todo) = programs) ?_ _ ?_ τ
  · intro s i u hs hu
    have hu' : (SlotConc.step fr s.shared u).2.done.map (·.1) ++ (SlotConc.step fr s.shared u).2.todo = u.done.map (·.1) ++ u.todo := by
      obtain ⟨todo, pc, done⟩ := u
      cases todo with
      | nil => rfl
      | cons op rest =>
        rcases sStep_frame fr s.shared op rest pc done with ⟨-, -, e⟩ | ⟨res, -, e⟩ <;> rw [e] <;> simp
    show (s.threads.set i _).map _ = programs
    rw [List.map_set, hu', ← hs]
    apply List.ext_getElem?
    intro j
    rw [List.getElem?_set]
    split
    · subst_vars
      rw [List.getElem?_map, hu, if_pos (by simpa using (List.getElem?_eq_some_iff.1 hu).1)]; rfl
    · rfl
  · simp only [SlotConc.init, List.map_map]
    exact (List.map_congr_left (fun p _ => by simp)).trans (List.map_id _)

theorem sum_ite_add {β : Type} (l : List β) (q : β → Bool) (f : β → Nat) :
    (l.map (fun i => (if q i then 1 else 0) + f i)).sum = l.countP q + (l.map f).sum := by
  induction l with
  | nil => rfl
  | cons a l ih =>
    simp only [List.map_cons, List.sum_cons, ih, List.countP_cons]
    omega

/-- The operations of all lanes, counted by lanes and by calls. -/
theorem laneOps_sum (p : List (List (Option (Op K α)))) (hp : ∀ c ∈ p, c.length ≤ 64) :
    ((List.range 64).map (fun i => (laneOps p i).length)).sum = (p.map activeLanes).sum := by
  induction p with
  | nil => simp [laneOps]
  | cons c p ih =>
    rw [List.map_cons, List.sum_cons, ← ih (fun c' h => hp c' (by simp [h])), ← cnt_call c (hp c (by simp))]
    unfold cnt
    rw [← sum_ite_add]
    congr 1
    refine List.map_congr_left fun i _ => ?_
    unfold laneOps
    rw [List.filterMap_cons]
    cases (c[i]?).join <;> simp
    omega

theorem countP_lanes (τ : List Nat) (k n : Nat) (hn : n ≤ 64) :
    τ.countP (fun j => j / 64 == k && decide (j % 64 < n)) = ((List.range n).map (fun i => τ.count (64 * k + i))).sum := by
  induction n with
  | zero => simp
  | succ n ih =>
    rw [List.range_succ, List.map_append, List.sum_append, ← ih (by omega)]
    simp only [List.map_cons, List.map_nil, List.sum_cons, List.sum_nil, Nat.add_zero]
    clear ih
    induction τ with
    | nil => rfl
    | cons j τ ih =>
      simp only [List.countP_cons, List.count_cons, ih, Bool.and_eq_true, beq_iff_eq, decide_eq_true_eq]
      by_cases h1 : j / 64 = k <;> by_cases h2 : j % 64 < n <;> by_cases h3 : j = 64 * k + n
      · omega
      · rw [if_pos ⟨h1, by omega⟩, if_pos ⟨h1, h2⟩, if_neg h3]; omega
      · rw [if_pos ⟨h1, by omega⟩, if_neg (fun h => h2 h.2), if_pos h3]; omega
      · rw [if_neg (fun h => by omega), if_neg (fun h => h2 h.2), if_neg h3]; omega
      · omega
      · rw [if_neg (fun h => h1 h.1), if_neg (fun h => h1 h.1), if_neg h3]; omega
      · omega
      · rw [if_neg (fun h => h1 h.1), if_neg (fun h => h1 h.1), if_neg h3]; omega

/-- If every thread completes an operation with every `c` of its steps, no thread that follows its lane makes more than `c` steps
for each of its operations. -/
theorem count_le {fr : Front C K F} {m : Mem C α} {progs : List (List (List (Option (Op K α))))} {c : Nat}
    (hc : 0 < c) (hb : ∀ (τ : List Nat) (i : Nat) (p : List (Op K α)), (laneProgs progs)[i]? = some p →
      ∃ t, (run (SlotConc.step fr) (SlotConc.init fr m (laneProgs progs)) τ).threads[i]? = some t ∧
        min p.length (τ.count i / c) ≤ t.done.length)
    {τ : List Nat} (hlive : ∀ (pre : List Nat) (j : Nat) (post : List Nat), τ = pre ++ j :: post →
      ∃ t, (run (SlotConc.step fr) (SlotConc.init fr m (laneProgs progs)) pre).threads[j]? = some t ∧ t.todo ≠ [])
    (i : Nat) (p : List (Op K α)) (hp : (laneProgs progs)[i]? = some p) : τ.count i ≤ c * p.length := by
  induction τ using List.reverseRecOn with
  | nil => simp
  | append_singleton τ j ih =>
    have ih := ih (fun pre j' post e => hlive pre j' (post ++ [j]) (by rw [e]; simp))
    rw [List.count_append]
    by_cases hj : j = i
    · subst hj
      obtain ⟨t, h1, h2⟩ := hlive τ j [] rfl
      obtain ⟨t', h3, h4⟩ := hb τ j p hp
      rw [h1] at h3; cases h3
      have h5 := congrArg (fun l => l[j]?) (sprogs_kept fr m (laneProgs progs) τ)
      simp only [List.getElem?_map, h1, Option.map_some, hp, Option.some.injEq] at h5
      have h6 : t.done.length < p.length := by
        rw [← h5]
        have := List.length_pos_iff.2 h2
        simp only [List.length_append, List.length_map]; omega
      have h7 : τ.count j / c < p.length := by omega
      have h8 := (Nat.div_lt_iff_lt_mul hc).1 h7
      have e : p.length * c = c * p.length := Nat.mul_comm _ _
      simp; omega
    · have : List.count i [j] = 0 := by simp [List.count_cons, hj]
      omega

theorem psi_zero {fr : Front C K F} {A : BitVec 64} {w : SWave K F α} (he : EInv (sLane fr) A w) (h : psi w = 0) : WaveOver w := by
  unfold psi at h
  have h1 : w.phase = .head := by
    cases hph : w.phase with
    | free => rw [hph] at h; simp at h
    | head => rfl
    | branch => rw [hph] at h; simp at h
  rw [h1] at h
  dsimp only at h
  refine ⟨h1, ?_, ?_⟩
  · cases hcs : w.calls with
    | nil => rfl
    | cons c cs => rw [hcs] at h; simp at h
  · have hA : A = 0#64 := by
      by_contra hcA
      obtain ⟨h2, h3, -⟩ := elected_spec hcA
      obtain ⟨l, h4, -⟩ := he.mem _ h3
      have hd : l.st.done = [] := by
        rcases he.bit _ l h3 h4 with h | h
        · exact busy_of_kind (.inl h)
        · rw [h1] at h; cases h.1
      have h5 : cnt (busyAt w.lanes) = 0 := by omega
      unfold cnt at h5
      rw [List.countP_eq_zero] at h5
      have := h5 (elected A) (List.mem_range.2 h2)
      unfold busyAt at this
      rw [h4] at this
      simp [hd] at this
    intro i l hl
    rcases he.reg i l hl with h | h
    · rw [h, hA]
    · exact h

theorem over_todo {fr : Front C K F} {A : BitVec 64} {w : SWave K F α} (he : EInv (sLane fr) A w) (h3 : WaveOver w) (i : Nat) :
    (thr fr w i).todo = [] := by
  have hA : A = 0#64 := by
    by_contra hcA
    obtain ⟨-, h2, -⟩ := elected_spec hcA
    obtain ⟨l, h4, h5⟩ := he.mem _ h2
    rw [h3.2.2 _ l h4] at h5
    exact hcA h5.symm
  unfold thr
  rw [h3.2.1]
  cases hl : laneAt w.lanes i with
  | none => rfl
  | some l =>
    dsimp only
    cases hd : l.st.done with
    | cons _ _ => rfl
    | nil =>
      have := (he.crit (by simp [h3.1]) i l hl (crit_of_busy hd (he.nofree (by simp [h3.1]) i l hl))).1
      rw [hA] at this
      simp at this

theorem laneProgs_get {O : Type} {progs : List (List (List (Option O)))} {k : Nat} {p : List (List (Option O))} (h : progs[k]? = some p)
    {i : Nat} (hi : i < 64) : (laneProgs progs)[64 * k + i]? = some (laneOps p i) := by
  have hk := (List.getElem?_eq_some_iff.1 h).1
  unfold laneProgs
  rw [List.getElem?_map, List.getElem?_range (by omega), Option.map_some]
  have e1 : (64 * k + i) / 64 = k := by omega
  have e2 : (64 * k + i) % 64 = i := by omega
  rw [e1, e2, h]

/-- A wavefront whose lanes never wait for others returns after a bounded number of its own steps. -/
theorem wave_bound {fr : Front C K F} {m : Mem C α} {progs : List (List (List (Option (Op K α))))} {c : Nat}
    (hc : 0 < c) (hb : ∀ (τ : List Nat) (i : Nat) (p : List (Op K α)), (laneProgs progs)[i]? = some p →
      ∃ t, (run (SlotConc.step fr) (SlotConc.init fr m (laneProgs progs)) τ).threads[i]? = some t ∧
        min p.length (τ.count i / c) ≤ t.done.length)
    (hp : ∀ p ∈ progs, ∀ c ∈ p, c.length ≤ 64) (sched : List (Nat × Nat)) (k : Nat) (p : List (List (Option (Op K α))))
    (hpk : progs[k]? = some p) (hs : (p.map (fun a => 2 + (2 + c) * activeLanes a)).sum ≤ waveSteps sched k) :
    ∃ w, (execWaves true (sLane fr) m progs sched).waves[k]? = some w ∧ WaveOver w := by
  obtain ⟨τ, h⟩ := ssim_run fr m hp sched
  have hk : k < (execWaves true (sLane fr) m progs sched).waves.length := by
    rw [h.len]; exact (List.getElem?_eq_some_iff.1 hpk).1
  obtain ⟨w, hw⟩ : ∃ w, (execWaves true (sLane fr) m progs sched).waves[k]? = some w := ⟨_, List.getElem?_eq_getElem hk⟩
  refine ⟨w, hw, ?_⟩
  rcases h.acct k w p hw hpk with h1 | h1
  · exact h1
  · obtain ⟨A, he⟩ := (h.inv w (List.mem_of_getElem? hw)).1
    apply psi_zero he
    have h2 : τ.countP (fun j => j / 64 == k) = ((List.range 64).map (fun i => τ.count (64 * k + i))).sum := by
      rw [← countP_lanes τ k 64 (Nat.le_refl _)]
      apply List.countP_congr
      intro j _
      have : j % 64 < 64 := Nat.mod_lt _ (by omega)
      simp [this]
    have h3 : ((List.range 64).map (fun i => τ.count (64 * k + i))).sum ≤
        ((List.range 64).map (fun i => c * (laneOps p i).length)).sum := by
      have : ∀ l : List Nat, (∀ i ∈ l, i < 64) → (l.map (fun i => τ.count (64 * k + i))).sum ≤ (l.map (fun i => c * (laneOps p i).length)).sum := by
        intro l
        induction l with
        | nil => simp
        | cons i l ih =>
          intro hl
          have h4 := ih (fun j hj => hl j (by simp [hj]))
          have h5 := count_le hc hb h.live (64 * k + i) _ (laneProgs_get hpk (hl i (by simp)))
          simp only [List.map_cons, List.sum_cons]; omega
      exact this _ (fun i hi => List.mem_range.1 hi)
    have h4 : ∀ l : List Nat, (l.map (fun i => c * (laneOps p i).length)).sum = c * (l.map (fun i => (laneOps p i).length)).sum := by
      intro l
      induction l with
      | nil => rfl
      | cons i l ih => simp only [List.map_cons, List.sum_cons, ih, Nat.mul_add]
    have h5 : ∀ q : List (List (Option (Op K α))), (q.map (fun a => 2 + (2 + c) * activeLanes a)).sum =
        (q.map (fun a => 2 + 2 * activeLanes a)).sum + c * (q.map activeLanes).sum := by
      intro q
      induction q with
      | nil => rfl
      | cons a q ih =>
        have e : (2 + c) * activeLanes a = 2 * activeLanes a + c * activeLanes a := Nat.add_mul _ _ _
        rw [List.map_cons, List.sum_cons, ih, e, List.map_cons, List.sum_cons, List.map_cons, List.sum_cons, Nat.mul_add]; omega
    rw [h4, laneOps_sum p (hp p (List.mem_of_getElem? hpk))] at h3
    rw [h5] at hs
    omega

end Stdgpu.Execution
