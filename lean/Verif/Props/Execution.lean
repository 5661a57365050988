import Verif.Proof.WaveRun
import Verif.Props.UFairness
/-!
C72: on a GPU without independent forward progress of the lanes of a wavefront (HIP backend), the election in
`warp_convergent_execute` (hip/execution.h:34-54) makes the lanes execute their critical sections one after the other, so
that a lane that waits for a lock never keeps the holder of the lock, a lane of the same wavefront, from going on.
-/
namespace Stdgpu.Props
open Stdgpu.Execution Stdgpu.UnorderedConc Stdgpu.Spec Stdgpu.Conc
open Stdgpu.Unordered (Params Tab)

/-- C72. The loop elects the lanes of the mask, each one once, in increasing order, and no other lane. -/
theorem C72_election (active : BitVec 64) :
    (electionOrder active).Pairwise (· < ·) ∧ ∀ i, i ∈ electionOrder active ↔ active.getLsbD i = true := by
  rw [electionOrder_eq]
  refine ⟨?_, fun i => mem_bits⟩
  exact List.Pairwise.filter _ List.pairwise_lt_range

/-- C72. The mask has exactly the bits of the active lanes. -/
theorem C72_mask (p : Nat → Bool) (i : Nat) (hi : i < 64) : (activemask p 64).getLsbD i = p i := by
  rw [activemask_bit _ _ _ hi]; simp [hi]

/-- The number of a thread in its block, `threadIdx.x` first. -/
def threadNumber (x y z dimX dimY : Nat) : Nat := (z * dimY + y) * dimX + x

theorem threadNumber_lt {x y z dimX dimY dimZ : Nat} (hx : x < dimX) (hy : y < dimY) (hz : z < dimZ) :
    threadNumber x y z dimX dimY < dimX * dimY * dimZ := by
  unfold threadNumber
  have h1 : z * dimY + y + 1 ≤ dimZ * dimY := by
    have := Nat.mul_le_mul_right dimY (show z + 1 ≤ dimZ from hz)
    rw [Nat.succ_mul] at this; omega
  have h2 := Nat.mul_le_mul_right dimX h1
  rw [Nat.succ_mul] at h2
  have e : dimX * dimY * dimZ = dimZ * dimY * dimX := by rw [Nat.mul_comm, Nat.mul_comm dimX, Nat.mul_assoc]
  omega

theorem threadNumber_inj {x y z x' y' z' dimX dimY : Nat} (hx : x < dimX) (hy : y < dimY) (hx' : x' < dimX) (hy' : y' < dimY)
    (h : threadNumber x y z dimX dimY = threadNumber x' y' z' dimX dimY) : x = x' ∧ y = y' ∧ z = z' := by
  unfold threadNumber at h
  have h1 : ((z * dimY + y) * dimX + x) % dimX = x := by
    rw [Nat.add_comm, Nat.add_mul_mod_self_right, Nat.mod_eq_of_lt hx]
  have h2 : ((z' * dimY + y') * dimX + x') % dimX = x' := by
    rw [Nat.add_comm, Nat.add_mul_mod_self_right, Nat.mod_eq_of_lt hx']
  have e1 : x = x' := by rw [← h1, h, h2]
  subst e1
  have e2 : z * dimY + y = z' * dimY + y' := Nat.eq_of_mul_eq_mul_right (by omega) (by omega : (z * dimY + y) * dimX = _)
  have h3 : (z * dimY + y) % dimY = y := by rw [Nat.add_comm, Nat.add_mul_mod_self_right, Nat.mod_eq_of_lt hy]
  have h4 : (z' * dimY + y') % dimY = y' := by rw [Nat.add_comm, Nat.add_mul_mod_self_right, Nat.mod_eq_of_lt hy']
  have e3 : y = y' := by rw [← h3, e2, h4]
  subst e3
  exact ⟨rfl, rfl, Nat.eq_of_mul_eq_mul_right (by omega) (by omega : z * dimY = _)⟩

/-- C72. In a block of at most 2^32 threads the computed lane is the position of the thread in its wavefront (no overflow),
so two different threads of the same wavefront have different lanes. -/
theorem C72_lane_ids {dimX dimY dimZ warpSize : Nat} (hw0 : 0 < warpSize) (hw : warpSize < 2 ^ 32)
    (hd : dimX * dimY * dimZ ≤ 2 ^ 32) (hdx : dimX < 2 ^ 32) (hdy : dimY < 2 ^ 32) :
    (∀ x y z, x < dimX → y < dimY → z < dimZ →
      (laneId x y z dimX dimY warpSize).toNat = threadNumber x y z dimX dimY % warpSize) ∧
    (∀ x y z x' y' z', x < dimX → y < dimY → z < dimZ → x' < dimX → y' < dimY → z' < dimZ →
      threadNumber x y z dimX dimY / warpSize = threadNumber x' y' z' dimX dimY / warpSize →
      laneId x y z dimX dimY warpSize = laneId x' y' z' dimX dimY warpSize → x = x' ∧ y = y' ∧ z = z') := by
  have key : ∀ x y z, x < dimX → y < dimY → z < dimZ →
      (laneId x y z dimX dimY warpSize).toNat = threadNumber x y z dimX dimY % warpSize := by
    intro x y z hx hy hz
    have hlt := threadNumber_lt hx hy hz
    unfold laneId
    have hn : ((BitVec.ofNat 32 z * BitVec.ofNat 32 dimY + BitVec.ofNat 32 y) * BitVec.ofNat 32 dimX + BitVec.ofNat 32 x).toNat =
        threadNumber x y z dimX dimY := by
      rw [← BitVec.ofNat_mul, ← BitVec.ofNat_add, ← BitVec.ofNat_mul, ← BitVec.ofNat_add, BitVec.toNat_ofNat]
      exact Nat.mod_eq_of_lt (Nat.lt_of_lt_of_le hlt hd)
    show (((BitVec.ofNat 32 z * BitVec.ofNat 32 dimY + BitVec.ofNat 32 y) * BitVec.ofNat 32 dimX + BitVec.ofNat 32 x) %
      BitVec.ofNat 32 warpSize).toNat = _
    rw [BitVec.toNat_umod, hn, BitVec.toNat_ofNat, Nat.mod_eq_of_lt hw]
  refine ⟨key, ?_⟩
  intro x y z x' y' z' hx hy hz hx' hy' hz' hwv hid
  have h := congrArg BitVec.toNat hid
  rw [key x y z hx hy hz, key x' y' z' hx' hy' hz'] at h
  apply threadNumber_inj hx hy hx' hy'
  rw [← Nat.div_add_mod (threadNumber x y z dimX dimY) warpSize, hwv, h, Nat.div_add_mod]

variable {σ O R β : Type}

/-- C72. Whatever the lanes execute: with any number of wavefronts, under every schedule and every choice of the hardware
between divergent lanes, at most one lane of a wavefront is in the critical section, and when it enters it, every lower lane
of the same call has already returned from its call. -/
theorem C72_one_at_a_time {L : LaneProg σ O R β} (h1 : ∀ op r, L.kind (L.start op) ≠ .ret r)
    (h2 : ∀ m b, L.kind b = .crit → L.kind (L.step m b).2 ≠ .free) (m : σ) {progs : List (List (List (Option O)))}
    (hp : ∀ p ∈ progs, ∀ c ∈ p, c.length ≤ 64) (sched : List (Nat × Nat)) :
    ∀ w ∈ (execWaves true L m progs sched).waves, ∀ j l', laneAt w.lanes j = some l' → l'.inside = true →
      ∀ i l, laneAt w.lanes i = some l → (l.inside = true → i = j) ∧ (i < j → ∃ r, L.kind l.st = .ret r) := by
  intro w hw j l' hj hin' i l hi
  obtain ⟨A, he⟩ := einv_run ⟨h1, h2⟩ m hp sched w hw
  have ej := (he.ins j l' hj hin').1
  refine ⟨fun hin => by rw [ej]; exact (he.ins i l hi hin).1, fun hlt => ?_⟩
  have hph : w.phase = .branch := by
    cases hph : w.phase with
    | branch => rfl
    | free => have := he.out (by simp [hph]) j l' hj; rw [hin'] at this; cases this
    | head => have := he.out (by simp [hph]) j l' hj; rw [hin'] at this; cases this
  have hlow := (elected_spec (he.br hph)).2.2 i (by rw [← ej]; exact hlt)
  cases hk : L.kind l.st with
  | ret r => exact ⟨r, rfl⟩
  | free =>
    have := he.nofree (by simp [hph]) i l hi
    rw [isFree_iff.2 hk] at this; cases this
  | crit =>
    have := (he.crit (by simp [hph]) i l hi (isCrit_iff.2 hk)).1
    rw [hlow] at this; cases this

variable {K V : Type} {P : Params K V} {bc ec : Nat} {t : Tab V} {progs : List (List (List (Option (Op K V))))}

/-- What the wavefronts have returned, with the operations. -/
def waveResults (s : Waves (Shared V) (Op K V) Res (Thread K V)) : List (Op K V × Res) :=
  s.waves.flatMap (fun w => w.done.map (·.2))

theorem sim_results {s : Waves (Shared V) (Op K V) Res (Thread K V)} {u : Sys (Shared V) (Thread K V)} (h : SysSim P s u)
    (hf : UFinished u) : u.threads.map (·.done) = s.waves.map (fun w => w.done.map (·.2)) := by
  apply List.ext_getElem?
  intro i
  rw [List.getElem?_map, List.getElem?_map]
  cases hw : s.waves[i]? with
  | none =>
    have : u.threads[i]? = none := by
      rw [List.getElem?_eq_none_iff] at hw ⊢
      rw [h.len]; exact hw
    rw [this]; rfl
  | some w =>
    obtain ⟨th, h1, h2⟩ := h.sim i w hw
    rw [h1]
    simp only [Option.map_some, Option.some.injEq]
    rcases h2.abs with ⟨-, -, -, -, h3⟩ | ⟨j, l, hist, hl, hin, ht⟩
    · exact h3
    · obtain ⟨-, hb, -⟩ := h2.ins j l hl hin
      have h4 := hf th (List.mem_of_getElem? h1)
      rw [ht] at h4
      simp only [Execution.lift, List.append_eq_nil_iff] at h4
      rcases hb.2 with ⟨⟨o, h5⟩, -⟩ | ⟨-, h5⟩
      · rw [h4.1.1] at h5; cases h5
      · exact absurd h4.2 h5

theorem uresults_eq (u : Sys (Shared V) (Thread K V)) (s : Waves (Shared V) (Op K V) Res (Thread K V))
    (h : u.threads.map (·.done) = s.waves.map (fun w => w.done.map (·.2))) : uresults u = waveResults s := by
  unfold uresults waveResults
  rw [List.flatMap_def, List.flatMap_def, h]

theorem ops_kept (sched : List Nat) {s : Waves (Shared V) (Op K V) Res (Thread K V)}
    (h : (uexec P t (progs.map opsOf) sched).threads.map (·.done) = s.waves.map (fun w => w.done.map (·.2)))
    (hf : UFinished (uexec P t (progs.map opsOf) sched)) : s.waves.map (fun w => w.done.map (·.2.1)) = progs.map opsOf := by
  rw [← progs_kept (P := P) (t := t) (progs := progs.map opsOf) sched]
  have h2 : s.waves.map (fun w => w.done.map (·.2.1)) = (s.waves.map (fun w => w.done.map (·.2))).map (List.map (·.1)) := by
    rw [List.map_map]; congr 1; funext w; simp
  rw [h2, ← h, List.map_map]
  refine List.map_congr_left fun u hu => ?_
  obtain ⟨h3, h4⟩ := hf u hu
  simp [progOf, h3, h4, Cur.ops]

/-- Every lane inserts in every call. -/
def OnlyInserts (progs : List (List (List (Option (Op K V))))) : Prop :=
  ∀ p ∈ progs, ∀ c ∈ p, ∀ op, some op ∈ c → ∃ v, op = .insert v

/-- Every lane erases in every call. -/
def OnlyErases (progs : List (List (List (Option (Op K V))))) : Prop :=
  ∀ p ∈ progs, ∀ c ∈ p, ∀ op, some op ∈ c → ∃ k, op = .erase k

/-- The values of the insertions that returned true. -/
def waveInserted (s : Waves (Shared V) (Op K V) Res (Thread K V)) : List V := (waveResults s).filterMap insertedVal

theorem mem_opsOf {p : List (List (Option (Op K V)))} {op : Op K V} : op ∈ opsOf p ↔ ∃ c ∈ p, some op ∈ c := by
  unfold opsOf
  simp only [List.mem_flatMap, List.mem_filterMap, id_eq, exists_eq_right]

/-- C72. Any number of wavefronts, each with any number of calls by up to 64 lanes, some of them inactive, insert into an
unordered container. If the hardware goes on giving steps to every wavefront, then, whatever it chooses between the lanes of
a wavefront, from some moment on all calls of all lanes have returned, and the container holds what it held before and the
values of the successful insertions. -/
theorem C72_wave_inserts (hl : KeyLaws P) (h0 : 0 < bc) (h1 : bc < 2 ^ 63) (hr : PReachable P bc ec t)
    (hp : ∀ p ∈ progs, ∀ c ∈ p, c.length ≤ 64) (hi : OnlyInserts progs) (s : Nat → Nat × Nat) (hf : WaveFair progs.length s) :
    ∃ N, ∀ n, N ≤ n → ∀ e, e = execWaves true (uLane P) ⟨t, false, false⟩ progs (firstSteps s n) →
      AllReturned e ∧ e.waves.map (fun w => w.done.map (·.2.1)) = progs.map opsOf ∧
      (contents e.shared.tab).Perm (contents t ++ waveInserted e) ∧
      Unordered.size e.shared.tab = (contents e.shared.tab).length := by
  have hn : NoErase (progs.map opsOf) := by
    intro p hp' k hk
    obtain ⟨q, hq, rfl⟩ := List.mem_map.1 hp'
    obtain ⟨c, hc, hm⟩ := mem_opsOf.1 hk
    obtain ⟨v, hv⟩ := hi q hq c hc _ hm
    cases hv
  obtain ⟨N, hN⟩ := all_return P t progs s hp hf
    (C69_inserts_fair hl h0 h1 hr hn (tau P t progs s) (tau_fair P t progs s hp hf))
  refine ⟨N, fun n hn' e he => ?_⟩
  obtain ⟨ha, hu⟩ := hN n hn'
  have hsim := sim_all P t progs s hp n
  have hres := sim_results hsim hu
  have hfin := C38_final hl h0 h1 hr hn (upTo (tau P t progs s) n) hu
  have hrs := uresults_eq _ _ hres
  replace he : e = stateW P t progs s n := he
  subst he
  refine ⟨ha, ops_kept _ hres hu, ?_, ?_⟩
  · have := hfin.1
    rw [hsim.shared] at this
    unfold waveInserted
    rw [← hrs]; exact this
  · have := hfin.2.1
    rw [hsim.shared] at this
    exact this

/-- C72. The same for erasures: exactly the elements are left whose key no lane has erased. -/
theorem C72_wave_erases (hl : KeyLaws P) (h0 : 0 < bc) (h1 : bc < 2 ^ 63) (hr : PReachable P bc ec t)
    (hp : ∀ p ∈ progs, ∀ c ∈ p, c.length ≤ 64) (hi : OnlyErases progs) (s : Nat → Nat × Nat) (hf : WaveFair progs.length s) :
    ∃ N, ∀ n, N ≤ n → ∀ e, e = execWaves true (uLane P) ⟨t, false, false⟩ progs (firstSteps s n) →
      AllReturned e ∧ e.waves.map (fun w => w.done.map (·.2.1)) = progs.map opsOf ∧
      contents e.shared.tab = (contents t).filter (fun v => !erases P (progs.map opsOf) (P.keyOf v)) ∧
      Unordered.size e.shared.tab = (contents e.shared.tab).length := by
  have hn : NoInsert (progs.map opsOf) := by
    intro p hp' k hk
    obtain ⟨q, hq, rfl⟩ := List.mem_map.1 hp'
    obtain ⟨c, hc, hm⟩ := mem_opsOf.1 hk
    obtain ⟨v, hv⟩ := hi q hq c hc _ hm
    cases hv
  obtain ⟨N, hN⟩ := all_return P t progs s hp hf
    (C69_erases_fair hl h0 h1 hr hn (tau P t progs s) (tau_fair P t progs s hp hf))
  refine ⟨N, fun n hn' e he => ?_⟩
  obtain ⟨ha, hu⟩ := hN n hn'
  have hsim := sim_all P t progs s hp n
  have hres := sim_results hsim hu
  have hfin := C39_final hl h0 h1 hr hn (upTo (tau P t progs s) n) hu
  replace he : e = stateW P t progs s n := he
  subst he
  refine ⟨ha, ops_kept _ hres hu, ?_, ?_⟩
  · have := hfin.1
    rw [hsim.shared] at this; exact this
  · have := hfin.2.1
    rw [hsim.shared] at this; exact this

/-! ### Without the election -/

theorem waits_crit {m : Shared (Nat × Nat)} {th : Thread Nat (Nat × Nat)} (h : Waits th) :
    (uLane Stdgpu.Props.exC).kind th = .crit := by
  simp only [uLane]
  split
  · rename_i h1; rw [h.1] at h1; cases h1
  · rfl

theorem spin_step {m : Shared (Nat × Nat)} {l0 l1 : ULane Nat (Nat × Nat)} {calls : List (List (Option (Op Nat (Nat × Nat))))}
    (hb : Blk m.tab) (h0 : l0.inside = true) (h1 : l1.inside = true) (hw : Waits l1.st) :
    ∃ m' l1', Blk m'.tab ∧ l1'.inside = true ∧ Waits l1'.st ∧
      wavesStep false (uLane exC) ⟨m, [⟨calls, [some l0, some l1], .branch, []⟩]⟩ (0, 1) =
        ⟨m', [⟨calls, [some l0, some l1'], .branch, []⟩]⟩ := by
  obtain ⟨e1, e2⟩ := waits_step hb hw
  refine ⟨(step exC m l1.st).1, { l1 with st := (step exC m l1.st).2 }, by rw [e1]; exact hb, h1, e2, ?_⟩
  have hk := waits_crit (m := m) e2
  have hs : (uLane exC).step = step exC := rfl
  have hc : choose (lanesWith [some l0, some l1] (fun l => l.inside)) 1 = some 1 := by
    have h01 : List.range 2 = [0, 1] := rfl
    simp [lanesWith, h01, laneAt, List.filter, h0, h1, choose]
  simp only [wavesStep, List.getElem?_cons_zero, waveStep, hc]
  simp only [stepLane, laneAt, List.getElem?_cons_succ, List.getElem?_cons_zero, Option.join_some, hs, hk]
  rfl

theorem spin_forever (n : Nat) : ∀ (m : Shared (Nat × Nat)) (l0 l1 : ULane Nat (Nat × Nat))
    (calls : List (List (Option (Op Nat (Nat × Nat))))), Blk m.tab → l0.inside = true → l1.inside = true → Waits l1.st →
    waveResults ((List.replicate n (0, 1)).foldl (wavesStep false (uLane exC))
      ⟨m, [⟨calls, [some l0, some l1], .branch, []⟩]⟩) = [] := by
  induction n with
  | zero => intro m l0 l1 calls _ _ _ _; rfl
  | succ n ih =>
    intro m l0 l1 calls hb h0 h1 hw
    obtain ⟨m', l1', h2, h3, h4, h5⟩ := spin_step (calls := calls) hb h0 h1 hw
    rw [List.replicate_succ, List.foldl_cons, h5]
    exact ih m' l0 l1' calls h2 h0 h3 h4

/-- C72: the election is needed. Without it, two lanes of one wavefront insert two keys into the same bucket; the hardware
goes on with the lane that waits for the lock which the other lane holds. No call ever returns although the wavefront is
given all steps. -/
theorem C72_counterexample_no_election :
    ∃ (t : Tab (Nat × Nat)) (s : Nat → Nat × Nat), PReachable exC 1 3 t ∧ WaveFair 1 s ∧ ∀ n,
      waveResults (execWaves false (uLane exC) ⟨t, false, false⟩
        [[[some (.insert (2, 20)), some (.insert (3, 30))]]] (firstSteps s n)) = [] := by
  refine ⟨exTab exC 1 3 [.insert (1, 10)], fun n => (0, if n < 16 then 0 else 1), exTab_reachable _ _ _ _, ?_, ?_⟩
  · intro i hi n
    exact ⟨n, Nat.le_refl _, by show 0 = i; omega⟩
  · intro n
    by_cases hn : n < 17
    · have key : ∀ n < 17, waveResults (execWaves false (uLane exC) ⟨exTab exC 1 3 [.insert (1, 10)], false, false⟩
          [[[some (.insert (2, 20)), some (.insert (3, 30))]]]
          (firstSteps (fun n => (0, if n < 16 then 0 else 1)) n)) = [] := by decide +kernel
      exact key n hn
    · obtain ⟨k, rfl⟩ := Nat.exists_eq_add_of_le (show 16 ≤ n by omega)
      have hs : firstSteps (fun n => (0, if n < 16 then 0 else 1)) (16 + k) =
          List.replicate 16 (0, 0) ++ List.replicate k (0, 1) := by
        apply List.ext_getElem?
        intro i
        unfold firstSteps
        rw [List.getElem?_append, List.length_replicate, List.getElem?_replicate]
        by_cases h1 : i < 16
        · rw [if_pos h1, if_pos h1]; simp [h1, show i < 16 + k by omega]
        · by_cases h2 : i < 16 + k
          · simp [h1, h2, show i - 16 < k by omega]
          · rw [if_neg (by simpa using h1), List.getElem?_eq_none (by simp; omega), List.getElem?_eq_none (by simp; omega)]
      have h0 : (execWaves false (uLane exC) ⟨exTab exC 1 3 [.insert (1, 10)], false, false⟩
          [[[some (.insert (2, 20)), some (.insert (3, 30))]]] (List.replicate 16 (0, 0))).waves.map (fun w =>
            (w.lanes.map (Option.map (fun l => (l.inside, l.st.done.length))), w.phase, w.done.length)) =
          [([some (true, 0), some (true, 0)], .branch, 0)] := by decide +kernel
      have h2 : (execWaves false (uLane exC) ⟨exTab exC 1 3 [.insert (1, 10)], false, false⟩
          [[[some (.insert (2, 20)), some (.insert (3, 30))]]] (List.replicate 16 (0, 0))).waves.flatMap (fun w =>
            w.lanes.flatMap (fun o => o.toList.map (fun l => l.st.todo))) = [[], [.insert (3, 30)]] := by decide +kernel
      have h3 : (execWaves false (uLane exC) ⟨exTab exC 1 3 [.insert (1, 10)], false, false⟩
          [[[some (.insert (2, 20)), some (.insert (3, 30))]]] (List.replicate 16 (0, 0))).waves.flatMap (fun w =>
            w.lanes.flatMap (fun o => o.toList.map (fun l => l.st.cur))) = [.ins (2, 20) (.pop 0), .idle] := by decide +kernel
      have hb : Blk (execWaves false (uLane exC) ⟨exTab exC 1 3 [.insert (1, 10)], false, false⟩
          [[[some (.insert (2, 20)), some (.insert (3, 30))]]] (List.replicate 16 (0, 0))).shared.tab :=
        ⟨by decide +kernel, by decide +kernel, by decide +kernel, by decide +kernel, by decide +kernel, by decide +kernel,
          by decide +kernel⟩
      rw [hs]
      unfold execWaves at h0 h2 h3 hb ⊢
      rw [List.foldl_append]
      generalize (List.replicate 16 (0, 0)).foldl (wavesStep false (uLane exC))
        (initWaves ⟨exTab exC 1 3 [.insert (1, 10)], false, false⟩
          [[[some (.insert (2, 20)), some (.insert (3, 30))]]]) = e at h0 h2 h3 hb
      obtain ⟨m, ws⟩ := e
      replace h0 : ws.map (fun w =>
            (w.lanes.map (Option.map (fun l => (l.inside, l.st.done.length))), w.phase, w.done.length)) = _ := h0
      replace h2 : ws.flatMap (fun w => w.lanes.flatMap (fun o => o.toList.map (fun l => l.st.todo))) = _ := h2
      replace h3 : ws.flatMap (fun w => w.lanes.flatMap (fun o => o.toList.map (fun l => l.st.cur))) = _ := h3
      replace hb : Blk m.tab := hb
      rcases ws with _ | ⟨⟨calls, lanes, ph, dn⟩, _ | ⟨w2, ws⟩⟩ <;> simp at h0
      obtain ⟨h1, rfl, rfl⟩ := h0
      rcases lanes with _ | ⟨_ | l0, _ | ⟨_ | l1, _ | ⟨l2, ls⟩⟩⟩ <;> simp at h1
      simp at h2 h3
      exact spin_forever k m l0 l1 calls hb h1.1.1 h1.2.1 ⟨h1.2.2, .inl ⟨h2.2, h3.2⟩⟩

/-! ### The hypotheses are met -/

/-- Lanes 1, 4 and 63 are active. -/
example : electionOrder 0x8000000000000012#64 = [1, 4, 63] := by rw [electionOrder_eq]; decide +kernel

/-- A block of 8 × 8 × 4 threads in wavefronts of 64: thread (3, 2, 1) is lane 19 of wavefront 1. -/
example : (laneId 3 2 1 8 8 64).toNat = 19 ∧ threadNumber 3 2 1 8 8 = 83 ∧ 8 * 8 * 4 ≤ 2 ^ 32 := by decide +kernel

/-- Two wavefronts in turn; the second one has two calls, with inactive lanes. All keys are in one bucket. -/
def exWaves : List (List (List (Option (Op Nat (Nat × Nat))))) :=
  [[[some (.insert (2, 20)), some (.insert (3, 30))]],
   [[none, some (.insert (3, 31)), none, some (.insert (4, 40))], [some (.insert (2, 21))]]]

example : OnlyInserts exWaves ∧ (∀ p ∈ exWaves, ∀ c ∈ p, c.length ≤ 64) ∧
    WaveFair exWaves.length (fun n => (n % 2, if n < 16 then 0 else 1)) ∧
    PReachable exC 1 4 (exTab exC 1 4 [.insert (1, 10)]) := by
  refine ⟨?_, by decide, ?_, exTab_reachable _ _ _ _⟩
  · intro p hp c hc op ho
    simp only [exWaves, List.mem_cons, List.not_mem_nil, or_false] at hp
    rcases hp with rfl | rfl
    · simp only [List.mem_cons, List.not_mem_nil, or_false] at hc
      subst hc
      simp at ho
      rcases ho with rfl | rfl <;> exact ⟨_, rfl⟩
    · simp only [List.mem_cons, List.not_mem_nil, or_false] at hc
      rcases hc with rfl | rfl
      · simp at ho
        rcases ho with rfl | rfl <;> exact ⟨_, rfl⟩
      · simp at ho
        subst ho; exact ⟨_, rfl⟩
  · intro i hi n
    obtain ⟨m, h1, h2⟩ := fair_mod 2 i hi n
    exact ⟨m, h1, h2⟩

/-- Its conclusion after 400 steps. -/
example : (execWaves true (uLane exC) ⟨exTab exC 1 4 [.insert (1, 10)], false, false⟩ exWaves
    (firstSteps (fun n => (n % 2, if n < 16 then 0 else 1)) 400)).waves.map (fun w => w.done) =
    [[(0, .insert (2, 20), .inserted 4), (1, .insert (3, 30), .notInserted)],
     [(1, .insert (3, 31), .inserted 3), (3, .insert (4, 40), .inserted 2), (0, .insert (2, 21), .notInserted)]] := by
  decide +kernel

/-- Erasures by the lanes of one wavefront, with the conclusion after 300 steps. -/
example : OnlyErases [[[some (.erase 2), some (.erase 3), some (.erase 2), (some (.erase 1) : Option (Op Nat (Nat × Nat)))]]] ∧
    WaveFair 1 (fun n => (0, n)) ∧
    contents (execWaves true (uLane exC) ⟨exTab exC 1 4 [.insert (1, 10), .insert (2, 20), .insert (3, 30), .insert (4, 40)],
      false, false⟩ [[[some (.erase 2), some (.erase 3), some (.erase 2), some (.erase 1)]]]
      (firstSteps (fun n => (0, n)) 300)).shared.tab = [(4, 40)] := by
  refine ⟨?_, fun i hi n => ⟨n, Nat.le_refl _, by show 0 = i; omega⟩, by decide +kernel⟩
  intro p hp c hc op ho
  simp only [List.mem_cons, List.not_mem_nil, or_false] at hp
  subst hp
  simp only [List.mem_cons, List.not_mem_nil, or_false] at hc
  subst hc
  simp at ho
  rcases ho with rfl | rfl | rfl | rfl <;> exact ⟨_, rfl⟩

end Stdgpu.Props
