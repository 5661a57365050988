import Verif.Proof.WaveU
import Verif.Proof.Conc
/-! Executions of wavefronts that insert or erase. -/
namespace Stdgpu.Execution
open Stdgpu.UnorderedConc
open Stdgpu.Unordered (Params Tab)
open Stdgpu.Conc (Sys stepAt run)
open Stdgpu.Spec (upTo Fair uexec UFinished)

variable {K V : Type}

/-- The wavefront corresponds to a thread, for all wavefronts. -/
structure SysSim (P : Params K V) (s : Waves (Shared V) (Op K V) Res (Thread K V)) (u : Sys (Shared V) (Thread K V)) : Prop where
  shared : u.shared = s.shared
  len : u.threads.length = s.waves.length
  sim : ∀ (i : Nat) (w : UWave K V), s.waves[i]? = some w → ∃ t, u.threads[i]? = some t ∧ WSim P w t

/-- The next step of wavefront `i` is a step of a call, or it has finished. -/
def Real (s : Waves (Shared V) (Op K V) Res (Thread K V)) (i : Nat) : Prop :=
  ∃ w, s.waves[i]? = some w ∧ (BusyWave w ∨ WaveOver w)

theorem over_thread {P : Params K V} {w : UWave K V} {t : Thread K V} (h : WSim P w t) (ho : WaveOver w) :
    t.todo = [] ∧ t.cur = .idle := by
  obtain ⟨A, he⟩ := h.e
  have hout := he.out (by rw [ho.1]; simp)
  have hA : A = 0#64 := by
    by_contra hc
    obtain ⟨-, h2, -⟩ := elected_spec hc
    obtain ⟨l, h3, h4⟩ := he.mem _ h2
    rw [ho.2.2 _ l h3] at h4
    exact hc h4.symm
  have hpend0 : pend P w.lanes = [] := by
    unfold pend
    rw [List.filterMap_eq_nil_iff]
    intro j _
    cases hl : laneAt w.lanes j with
    | none => rfl
    | some l =>
      simp only [Option.bind_some, waits]
      rw [if_neg]
      rintro ⟨h1, -⟩
      have := (he.crit (by rw [ho.1]; simp) j l hl h1).1
      rw [hA] at this; simp at this
  rcases h.abs with ⟨-, h2, -, h4, -⟩ | ⟨i', l', -, hl', hin', -⟩
  · refine ⟨?_, h2⟩
    rw [h4, hpend0, ho.2.1]; rfl
  · rw [hout i' l' hl'] at hin'; cases hin'

theorem sim_step {P : Params K V} {s : Waves (Shared V) (Op K V) Res (Thread K V)} {u : Sys (Shared V) (Thread K V)}
    (h : SysSim P s u) (a : Nat × Nat) :
    (Real s a.1 → SysSim P (wavesStep true (uLane P) s a) (stepAt (step P) u a.1)) ∧
    (¬ Real s a.1 → SysSim P (wavesStep true (uLane P) s a) u) := by
  unfold wavesStep
  cases hw : s.waves[a.1]? with
  | none =>
    have hu : u.threads[a.1]? = none := by
      rw [List.getElem?_eq_none_iff] at hw ⊢
      rw [h.len]; exact hw
    have : stepAt (step P) u a.1 = u := by unfold stepAt; rw [hu]
    rw [this]
    exact ⟨fun _ => h, fun _ => h⟩
  | some w =>
    obtain ⟨t, ht, hs⟩ := h.sim a.1 w hw
    have hlt : a.1 < s.waves.length := (List.getElem?_eq_some_iff.1 hw).1
    have hst : stepAt (step P) u a.1 = ⟨(step P u.shared t).1, u.threads.set a.1 (step P u.shared t).2⟩ := by
      unfold stepAt; rw [ht]
    have key := wsim_step hs s.shared a.2
    rw [← h.shared] at key
    refine ⟨fun hr => ?_, fun hr => ?_⟩
    · rw [hst]
      rcases key with ⟨-, h1, h2⟩ | ⟨h1, h2⟩ | ⟨h1, h2, -⟩
      · rw [h.shared] at h1 h2 ⊢
        refine ⟨h1, by simp [h.len], ?_⟩
        intro j w' hj
        show ∃ t', (u.threads.set a.1 _)[j]? = some t' ∧ _
        by_cases hja : j = a.1
        · subst hja
          simp only [List.getElem?_set_self hlt, Option.some.injEq] at hj
          subst hj
          exact ⟨_, List.getElem?_set_self (by rw [h.len]; exact hlt), h2⟩
        · simp only [List.getElem?_set_ne (Ne.symm hja)] at hj
          obtain ⟨t', h3, h4⟩ := h.sim j w' hj
          exact ⟨t', by rw [List.getElem?_set_ne (Ne.symm hja)]; exact h3, h4⟩
      · have h3 := over_thread hs h1
        have h4 : step P u.shared t = (u.shared, t) := by
          obtain ⟨todo, cur, ex, done⟩ := t
          simp only at h3
          obtain ⟨rfl, rfl⟩ := h3
          rfl
        rw [h.shared] at h2 h4 ⊢
        simp only [h2, h4]
        rw [show u.threads.set a.1 t = u.threads by
          apply List.ext_getElem?; intro j
          by_cases hja : j = a.1
          · subst hja; rw [List.getElem?_set_self (by rw [h.len]; exact hlt), ht]
          · rw [List.getElem?_set_ne (Ne.symm hja)]]
        rw [show s.waves.set a.1 w = s.waves by
          apply List.ext_getElem?; intro j
          by_cases hja : j = a.1
          · subst hja; rw [List.getElem?_set_self hlt, hw]
          · rw [List.getElem?_set_ne (Ne.symm hja)]]
        exact ⟨rfl, h.len, h.sim⟩
      · obtain ⟨w', h3, h4⟩ := hr
        rw [hw] at h3; cases h3
        rcases h4 with h4 | h4
        · exact absurd h4 h1
        · exact absurd h4 h2
    · rcases key with ⟨h1, -⟩ | ⟨h1, -⟩ | ⟨-, -, h1, h2, -⟩
      · exact absurd ⟨w, hw, .inl h1⟩ hr
      · exact absurd ⟨w, hw, .inr h1⟩ hr
      · rw [h.shared] at h1 h2
        refine ⟨by rw [h.shared]; exact h1.symm, by simp [h.len], ?_⟩
        intro j w' hj
        by_cases hja : j = a.1
        · subst hja
          simp only [List.getElem?_set_self hlt, Option.some.injEq] at hj
          subst hj
          exact ⟨t, ht, h2⟩
        · simp only [List.getElem?_set_ne (Ne.symm hja)] at hj
          exact h.sim j w' hj

theorem sim_init (P : Params K V) (t : Tab V) (progs : List (List (List (Option (Op K V)))))
    (hp : ∀ p ∈ progs, ∀ c ∈ p, c.length ≤ 64) :
    SysSim P (initWaves ⟨t, false, false⟩ progs) (UnorderedConc.init t (progs.map opsOf)) := by
  refine ⟨rfl, by simp [UnorderedConc.init, initWaves], ?_⟩
  intro i w hw
  simp only [initWaves, List.getElem?_map] at hw
  cases hpi : progs[i]? with
  | none => simp [hpi] at hw
  | some p =>
    simp only [hpi, Option.map_some, Option.some.injEq] at hw
    subst hw
    refine ⟨{ todo := opsOf p, cur := .idle, ex := ⟨[], .front .check, []⟩, done := [] },
      by simp [UnorderedConc.init, hpi], ⟨_, einv_init (hp p (List.mem_of_getElem? hpi))⟩, ?_, ?_, .inl ⟨?_, rfl, ⟨rfl, rfl⟩, ?_, rfl⟩⟩
    · intro i l hl; simp [laneAt] at hl
    · intro i l hl; simp [laneAt] at hl
    · intro i l hl; simp [laneAt] at hl
    · simp [pend, laneAt]

section
variable (P : Params K V) (t : Tab V) (progs : List (List (List (Option (Op K V))))) (s : Nat → Nat × Nat)

/-- The wavefronts after `n` steps. -/
def stateW (n : Nat) : Waves (Shared V) (Op K V) Res (Thread K V) :=
  execWaves true (uLane P) ⟨t, false, false⟩ progs (firstSteps s n)

open Classical in
/-- The corresponding schedule of the threads. A step of the election is a step of a thread that does not exist. -/
noncomputable def tau (n : Nat) : Nat := if Real (stateW P t progs s n) (s n).1 then (s n).1 else progs.length

theorem stateW_succ (n : Nat) : stateW P t progs s (n + 1) = wavesStep true (uLane P) (stateW P t progs s n) (s n) := by
  unfold stateW execWaves firstSteps
  rw [List.range_succ, List.map_append, List.foldl_append]
  rfl

theorem upTo_succ (σ : Nat → Nat) (n : Nat) : upTo σ (n + 1) = upTo σ n ++ [σ n] := by
  unfold upTo
  rw [List.range_succ, List.map_append]; rfl

theorem len_stateW (n : Nat) : (stateW P t progs s n).waves.length = progs.length := by
  induction n with
  | zero => simp [stateW, execWaves, firstSteps, initWaves]
  | succ n ih =>
    rw [stateW_succ]
    unfold wavesStep
    split
    · exact ih
    · simp [ih]

theorem sim_all (hp : ∀ p ∈ progs, ∀ c ∈ p, c.length ≤ 64) (n : Nat) :
    SysSim P (stateW P t progs s n) (uexec P t (progs.map opsOf) (upTo (tau P t progs s) n)) := by
  induction n with
  | zero => exact sim_init P t progs hp
  | succ n ih =>
    rw [stateW_succ, upTo_succ]
    have hu : uexec P t (progs.map opsOf) (upTo (tau P t progs s) n ++ [tau P t progs s n]) =
        stepAt (step P) (uexec P t (progs.map opsOf) (upTo (tau P t progs s) n)) (tau P t progs s n) := by
      unfold uexec run
      rw [List.foldl_append]; rfl
    rw [hu]
    by_cases hr : Real (stateW P t progs s n) (s n).1
    · have : tau P t progs s n = (s n).1 := by unfold tau; rw [if_pos hr]
      rw [this]
      exact (sim_step ih (s n)).1 hr
    · have : tau P t progs s n = progs.length := by unfold tau; rw [if_neg hr]
      rw [this]
      have h2 : stepAt (step P) (uexec P t (progs.map opsOf) (upTo (tau P t progs s) n)) progs.length =
          uexec P t (progs.map opsOf) (upTo (tau P t progs s) n) := by
        unfold stepAt
        rw [List.getElem?_eq_none (by rw [ih.len, len_stateW])]
      rw [h2]
      exact (sim_step ih (s n)).2 hr

/-- Wavefront `i` does not change between its steps. -/
theorem wave_same {i n m : Nat} (hnm : n ≤ m) (h : ∀ k, n ≤ k → k < m → (s k).1 ≠ i) :
    (stateW P t progs s m).waves[i]? = (stateW P t progs s n).waves[i]? := by
  induction m, hnm using Nat.le_induction with
  | base => rfl
  | succ m hnm ih =>
    rw [← ih (fun k h1 h2 => h k h1 (by omega)), stateW_succ]
    unfold wavesStep
    split
    · rfl
    · exact List.getElem?_set_ne (h m hnm (by omega))

/-- The next step of wavefront `i`. -/
theorem next_step {k : Nat} (hf : WaveFair k s) {i : Nat} (hi : i < k) (n : Nat) :
    ∃ m, n ≤ m ∧ (s m).1 = i ∧ ∀ j, n ≤ j → j < m → (s j).1 ≠ i := by
  have hex : ∃ d, (s (n + d)).1 = i := by
    obtain ⟨m, h1, h2⟩ := hf i hi n
    exact ⟨m - n, by rw [show n + (m - n) = m by omega]; exact h2⟩
  classical
  refine ⟨n + Nat.find hex, by omega, Nat.find_spec hex, ?_⟩
  intro j h1 h2 h3
  refine Nat.find_min hex (m := j - n) (by omega) ?_
  rw [show n + (j - n) = j by omega]; exact h3

/-- Every wavefront is busy or over infinitely often when it is given a step. -/
theorem real_again (hp : ∀ p ∈ progs, ∀ c ∈ p, c.length ≤ 64) (hf : WaveFair progs.length s) {i : Nat} (hi : i < progs.length) :
    ∀ (r n : Nat) (w : UWave K V), (stateW P t progs s n).waves[i]? = some w → (¬ BusyWave w → rank w ≤ r) →
    ∃ m, n ≤ m ∧ (s m).1 = i ∧ Real (stateW P t progs s m) i := by
  intro r
  induction r with
  | zero =>
    intro n w hw hr
    obtain ⟨m, h1, h2, h3⟩ := next_step s hf hi n
    refine ⟨m, h1, h2, w, by rw [wave_same P t progs s h1 h3]; exact hw, .inl ?_⟩
    by_contra hc
    have := hr hc
    unfold rank at this
    split at this <;> omega
  | succ r ih =>
    intro n w hw hr
    obtain ⟨m, h1, h2, h3⟩ := next_step s hf hi n
    have hwm : (stateW P t progs s m).waves[i]? = some w := by rw [wave_same P t progs s h1 h3]; exact hw
    by_cases hb : BusyWave w ∨ WaveOver w
    · exact ⟨m, h1, h2, w, hwm, hb⟩
    · obtain ⟨th, -, hs⟩ := (sim_all P t progs s hp m).sim i w hwm
      have key := wsim_step hs (stateW P t progs s m).shared (s m).2
      rcases key with ⟨h4, -⟩ | ⟨h4, -⟩ | ⟨h4, -, -, -, h5⟩
      · exact absurd (.inl h4) hb
      · exact absurd (.inr h4) hb
      · have hlt : i < (stateW P t progs s m).waves.length := (List.getElem?_eq_some_iff.1 hwm).1
        have hw' : (stateW P t progs s (m + 1)).waves[i]? =
            some (waveStep true (uLane P) (stateW P t progs s m).shared w (s m).2).2 := by
          rw [stateW_succ]
          unfold wavesStep
          rw [h2, hwm]
          exact List.getElem?_set_self hlt
        obtain ⟨m', h6, h7, h8⟩ := ih (m + 1) _ hw' (by
          intro hnb
          have := hr h4
          rcases h5 with h5 | h5
          · exact absurd h5 hnb
          · omega)
        exact ⟨m', by omega, h7, h8⟩

theorem tau_fair (hp : ∀ p ∈ progs, ∀ c ∈ p, c.length ≤ 64) (hf : WaveFair progs.length s) :
    Fair (progs.map opsOf).length (tau P t progs s) := by
  rw [List.length_map]
  intro i hi n
  have hlt : i < (stateW P t progs s n).waves.length := by rw [len_stateW]; exact hi
  obtain ⟨m, h1, h2, h3⟩ := real_again P t progs s hp hf hi (rank (stateW P t progs s n).waves[i]) n _
    (List.getElem?_eq_getElem hlt) (fun _ => Nat.le_refl _)
  refine ⟨m, h1, ?_⟩
  unfold tau
  rw [h2, if_pos h3]

/-- A wavefront that is over does not change any more. -/
theorem over_stays {i n m : Nat} {w : UWave K V} (hnm : n ≤ m) (hw : (stateW P t progs s n).waves[i]? = some w)
    (ho : WaveOver w) : (stateW P t progs s m).waves[i]? = some w := by
  induction m, hnm using Nat.le_induction with
  | base => exact hw
  | succ m hnm ih =>
    rw [stateW_succ]
    unfold wavesStep
    split
    · exact ih
    · rename_i w' hw'
      by_cases hi : (s m).1 = i
      · rw [hi] at hw' ⊢
        rw [ih] at hw'
        cases hw'
        have hlt : i < (stateW P t progs s m).waves.length := (List.getElem?_eq_some_iff.1 ih).1
        show (List.set _ _ _)[i]? = _
        rw [List.getElem?_set_self hlt]
        rcases waveStep_cases true (uLane P) (stateW P t progs s m).shared w (s m).2 with ⟨j, l, hl, hph, e⟩ | ⟨hph, -, -⟩ | ⟨-, -, -, e⟩ |
          ⟨-, -, call, calls, hcs, -⟩ | ⟨-, ⟨i0, l0, hl0, ha0⟩, -⟩ | ⟨hph, -, -⟩
        · rcases hph with hph | hph <;> rw [ho.1] at hph <;> cases hph.1
        · rw [ho.1] at hph; cases hph
        · rw [e]
        · rw [ho.2.1] at hcs; cases hcs
        · exact absurd (ho.2.2 i0 l0 hl0) ha0
        · rw [ho.1] at hph; cases hph
      · show (List.set _ _ _)[i]? = _
        rw [List.getElem?_set_ne hi]; exact ih

/-- When the threads have finished, so have the wavefronts, a little later. -/
theorem all_return (hp : ∀ p ∈ progs, ∀ c ∈ p, c.length ≤ 64) (hf : WaveFair progs.length s)
    (hfin : ∃ N, ∀ n, N ≤ n → UFinished (uexec P t (progs.map opsOf) (upTo (tau P t progs s) n))) :
    ∃ N, ∀ n, N ≤ n → AllReturned (stateW P t progs s n) ∧
      UFinished (uexec P t (progs.map opsOf) (upTo (tau P t progs s) n)) := by
  obtain ⟨N, hN⟩ := hfin
  have hnb : ∀ n, N ≤ n → ∀ (i : Nat) (w : UWave K V), (stateW P t progs s n).waves[i]? = some w → ¬ BusyWave w := by
    rintro n hn i w hw ⟨j, l, hl, hin⟩
    obtain ⟨th, hth, hs⟩ := (sim_all P t progs s hp n).sim i w hw
    have h1 := hN n hn th (List.mem_of_getElem? hth)
    obtain ⟨A, he⟩ := hs.e
    rcases hs.abs with ⟨h2, -⟩ | ⟨i', l', hist, hl', hin', ht⟩
    · rw [h2 j l hl] at hin; cases hin
    · obtain ⟨-, hb, -⟩ := hs.ins i' l' hl' hin'
      rw [ht] at h1
      simp only [lift, List.append_eq_nil_iff] at h1
      rcases hb.2 with ⟨⟨o, h3⟩, -⟩ | ⟨-, h3⟩
      · rw [h1.1.1] at h3; cases h3
      · exact h3 h1.2
  have hone : ∀ i, i < progs.length → ∃ M, ∀ n, M ≤ n → ∀ w : UWave K V, (stateW P t progs s n).waves[i]? = some w → WaveOver w := by
    intro i hi
    have hlt : i < (stateW P t progs s N).waves.length := by rw [len_stateW]; exact hi
    obtain ⟨m, h1, h2, w, h3, h4⟩ := real_again P t progs s hp hf hi (rank (stateW P t progs s N).waves[i]) N _
      (List.getElem?_eq_getElem hlt) (fun _ => Nat.le_refl _)
    have ho : WaveOver w := by
      rcases h4 with h4 | h4
      · exact absurd h4 (hnb m h1 i w h3)
      · exact h4
    refine ⟨m, fun n hn w' hw' => ?_⟩
    rw [over_stays P t progs s hn h3 ho] at hw'
    cases hw'; exact ho
  have hall : ∀ k, k ≤ progs.length → ∃ M, ∀ n, M ≤ n → ∀ i, i < k → ∀ w : UWave K V,
      (stateW P t progs s n).waves[i]? = some w → WaveOver w := by
    intro k
    induction k with
    | zero => intro _; exact ⟨0, fun n _ i hi => absurd hi (by omega)⟩
    | succ k ih =>
      intro hk
      obtain ⟨M1, h1⟩ := ih (by omega)
      obtain ⟨M2, h2⟩ := hone k (by omega)
      refine ⟨max M1 M2, fun n hn i hi => ?_⟩
      by_cases hik : i = k
      · rw [hik]; exact h2 n (by omega)
      · exact h1 n (by omega) i (by omega)
  obtain ⟨M, hM⟩ := hall progs.length (Nat.le_refl _)
  refine ⟨max N M, fun n hn => ⟨?_, hN n (by omega)⟩⟩
  intro w hw
  obtain ⟨i, hi⟩ := List.mem_iff_getElem?.1 hw
  have hlt := (List.getElem?_eq_some_iff.1 hi).1
  rw [len_stateW] at hlt
  exact hM n (by omega) i hlt w hi

end
end Stdgpu.Execution
