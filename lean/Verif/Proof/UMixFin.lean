import Verif.Proof.UMixRoom2
/-! Concurrent insertions, erasures and lookups when different keys have different buckets: the state when all threads
have finished. -/
namespace Stdgpu.UnorderedConc.Mx
open Stdgpu.Conc
open Stdgpu.SlotConc (upd inM outM pushedOf poppedOf liveIn_length liveIn_get liveIn_none liveIn_split)
open Stdgpu.Unordered
open Stdgpu.Vector (FPC vfront countBits VInv vtick)
open Stdgpu.Spec
variable {K V : Type} {P : Params K V}

section
variable {E : Start P} {xp : List (List (SlotConc.Op Unit Nat))} {s : Sys (Shared V) (Thread K V)}

theorem Inv.exFinished (h : Inv E xp s) (hf : UFinished s) : Finished (exSys s) := by
  intro x hx
  simp only [exSys, List.mem_map] at hx
  obtain ⟨t, ht, rfl⟩ := hx
  have := h.knows t ht
  rw [(hf t ht).2] at this
  exact this

/-- An occupied excess entry is in a chain when all threads have finished. -/
theorem Inv.final_lk (h : Inv E xp s) (hf : UFinished s) {n : Nat} (hn : Exc E n) (ho : s.shared.tab.occ n = true) :
    ∃ b, Lk E s.shared.tab b n := by
  have hw := h.weight n hn
  have hd := h.dead n
  have hz : (s.threads.map (wN n)).sum = (s.threads.map (fun t => exW n t.ex)).sum := by
    congr 1
    apply List.map_congr_left
    intro t ht
    unfold wN
    rw [(hf t ht).2]
    simp [own]
  by_cases hp : 0 < (s.threads.map (fun t => exW n t.ex)).sum + cntN E n s.shared.tab
  · have := (hd hp).2.2
    rw [ho] at this; simp at this
  · by_contra hc
    unfold lnkN at hw
    rw [if_neg hc] at hw
    omega

theorem Inv.final_in (h : Inv E xp s) (hf : UFinished s) (p : Nat) (v : V) :
    In E s.shared.tab p v ↔ (p, v) ∈ entries s.shared.tab := by
  rw [mem_entries, h.g.total]
  constructor
  · intro hi
    obtain ⟨-, h1, h2, -⟩ := hi.home h.g
    exact ⟨h1, h2, hi.1⟩
  · rintro ⟨h1, h2, h3⟩
    refine ⟨h3, ?_⟩
    by_cases hb : p < E.t₀.bc
    · exact .inl ⟨hb, h2⟩
    · exact .inr (h.final_lk hf ⟨by omega, h1⟩ h2)

/-- No lock is taken when all threads have finished. -/
theorem Inv.final_locks (h : Inv E xp s) (hf : UFinished s) {p : Nat} (hp : p < E.t₀.total) : s.shared.tab.locks p = false := by
  have := h.locks p hp
  rw [(sum_map_eq_zero _ _).2] at this
  · cases hl : s.shared.tab.locks p with
    | false => rfl
    | true => rw [hl] at this; simp at this
  · intro t ht
    unfold heldN
    rw [(hf t ht).2]
    simp [held]

/-- The free list is a proper vector when all threads have finished. -/
theorem Inv.final_holds (h : Inv E xp s) (hR : Room E s) (hf : UFinished s) :
    ∃ l, Vector.Holds s.shared.tab.excess l ∧ ∀ n, l.count n = cntN E n s.shared.tab := by
  have hfx := h.exFinished hf
  have hq := SlotConc.quiet_of_finished h.ex hfx
  have h0 := hR.ctr_ge
  have h1 := h.ctr_le hR
  have hcap : Vector.cap s.shared.tab.excess = E.t₀.total - E.t₀.bc := h.ex.hcap
  obtain ⟨c, hc⟩ : ∃ c, c = s.shared.tab.excess.ctr.toNat := ⟨_, rfl⟩
  have hocc : ∀ p, p < E.t₀.total - E.t₀.bc → s.shared.tab.excess.slots.occ p = decide (p < c) := by
    intro p hp
    have : ((s.shared.tab.excess.slots.occ p).toNat : Int) = vtick s.shared.tab.excess.ctr p := SlotConc.quiet_occ h.ex hq p hp
    unfold vtick at this
    cases hb : s.shared.tab.excess.slots.occ p <;> rw [hb] at this <;> split at this <;> simp at this ⊢ <;> omega
  have hlive : ∀ p, p < E.t₀.total - E.t₀.bc → (s.shared.tab.excess.slots.data p).isSome = s.shared.tab.excess.slots.occ p :=
    fun p hp => SlotConc.quiet_live h.ex hq p hp
  have hsome : ∀ p, 0 ≤ p → p < c → (s.shared.tab.excess.slots.data p).isSome := by
    intro p _ hp; rw [hlive p (by omega), hocc p (by omega)]; simpa using hp
  have hnone : ∀ p, c ≤ p → p < E.t₀.total - E.t₀.bc → s.shared.tab.excess.slots.data p = none := by
    intro p h1 h2
    have := hlive p h2
    rw [hocc p h2] at this
    have hd : decide (p < c) = false := by simp; omega
    rw [hd] at this
    simpa using this
  have hlen := liveIn_length _ 0 c hsome
  refine ⟨liveIn s.shared.tab.excess.slots.data 0 c, ⟨?_, ?_, ?_, ?_, h.ex.err, ?_⟩, ?_⟩
  · omega
  · rw [hlen]; omega
  · rw [hcap]; exact fun p hp => SlotConc.quiet_locks h.ex hq p hp
  · rw [hcap, hlen]; intro p hp; rw [hocc p hp]; simp
  · rw [hcap]
    intro p hp
    by_cases hpc : p < c
    · rw [liveIn_get _ _ _ hsome _ (by omega)]; simp
    · rw [List.getElem?_eq_none (by omega)]; exact hnone p (by omega) hp
  · intro n
    unfold cntN
    rw [SlotConc.contents_eq, liveIn_split _ 0 c (E.t₀.total - E.t₀.bc) (by omega) (by omega), liveIn_none _ c _ hnone,
      List.append_nil, Multiset.coe_count]

theorem leak_zero (n : Nat) (l : List (SlotConc.Op Unit Nat × SlotConc.Res Nat))
    (h : ∀ e ∈ l, e.2 ≠ SlotConc.Res.pushFailed ∧ e.2 ≠ SlotConc.Res.popFailed) : leakN n l = 0 := by
  induction l with
  | nil => rfl
  | cons e l ih =>
    have i1 := ih (fun e he => h e (List.mem_cons_of_mem _ he))
    have a := h e (by simp)
    obtain ⟨op, r⟩ := e
    cases op <;> cases r <;> simp_all [leakN]

/-- The chain of a bucket. -/
def chainOf (t : Tab V) (b : Nat) : List Nat := if t.off b = 0 then [] else [((b : Int) + t.off b).toNat]

theorem mem_chainOf (g : G E s.shared.tab) {b n : Nat} (hb : b < E.t₀.bc) : n ∈ chainOf s.shared.tab b ↔ Lk E s.shared.tab b n := by
  unfold chainOf
  rcases g.offB b hb with h0 | ⟨m, hm⟩
  · rw [if_pos h0]
    simp only [List.not_mem_nil, false_iff]
    exact fun h => h.ne0 h0
  · rw [if_neg hm.ne0, hm.2.2]
    simp only [Int.toNat_natCast, List.mem_singleton]
    exact ⟨fun e => e ▸ hm, fun h => h.fn hm⟩

theorem Inv.final_rep (h : Inv E xp s) (hl : KeyLaws P) (hR : Room E s) (hf : UFinished s)
    (hoff : ∀ n, Exc E n → s.shared.tab.off n = E.t₀.off n ∨ s.shared.tab.off n = 0) :
    ∃ free, Rep P s.shared.tab (chainOf s.shared.tab) free := by
  have hr := E.rep
  have g := h.g
  have hbc := g.bc
  have htot := g.total
  have hcap : Vector.cap s.shared.tab.excess = E.t₀.total - E.t₀.bc := h.ex.hcap
  obtain ⟨l, hl1, hl2⟩ := h.final_holds hR hf
  have hw0 : ∀ n, (s.threads.map (wN n)).sum = 0 := by
    intro n
    rw [sum_map_eq_zero]
    intro t ht
    have hk := h.knows t ht
    rw [(hf t ht).2] at hk
    have htodo : t.ex.todo = [] := hk
    unfold wN exW flightN
    rw [(hf t ht).2, htodo, leak_zero n _ (hR.ok t ht)]
    simp [own]
  have hpart : ∀ n, Exc E n → l.count n + lnkN E s.shared.tab n = 1 := by
    intro n hn
    have := h.weight n hn
    rw [hw0] at this
    rw [hl2]; omega
  have hmem : ∀ n, n ∈ l → Exc E n ∧ s.shared.tab.live n = false ∧ s.shared.tab.occ n = false := by
    intro n hn
    have := List.count_pos_iff.2 hn
    rw [hl2] at this
    exact h.dead n (by omega)
  have hlive : ∀ p, p < E.t₀.total → s.shared.tab.live p = s.shared.tab.occ p := by
    intro p hp
    by_cases hb : p < E.t₀.bc
    · exact h.idleB p hb (h.final_locks hf hp)
    · have hx : Exc E p := ⟨by omega, hp⟩
      by_cases hm : p ∈ l
      · obtain ⟨-, h1, h2⟩ := hmem p hm
        rw [h1, h2]
      · have h1 := List.count_eq_zero_of_not_mem hm
        have h2 := hpart p hx
        have h3 : ∃ b, Lk E s.shared.tab b p := by
          by_contra hc
          unfold lnkN at h2
          rw [if_neg hc] at h2
          omega
        obtain ⟨b, hb⟩ := h3
        obtain ⟨h4, h5, -⟩ := g.lk _ _ hb
        rw [h4, h5]
  refine ⟨l, ?_⟩
  refine ⟨?_, ?_, ?_, ?_, ?_, ?_, ?_, ?_, ?_, ?_, ?_, fun p hp => (hmem p hp).2.2, ?_, ?_, ?_, ?_, ?_, ?_, ?_, ?_, hl1, ?_⟩
  · rw [hbc]; exact hr.bc_pos
  · rw [hbc]; exact hr.bc_lt
  · rw [hbc, htot]; exact hr.bc_le
  · rw [hbc]
    intro b hb
    unfold chainOf
    rcases g.offB b hb with h0 | ⟨m, hm⟩
    · rw [if_pos h0]; exact h0
    · rw [if_neg hm.ne0, hm.2.2]
      exact ⟨hm.ne0, by rw [hm.2.2]; simp, (g.lk _ _ hm).2.2.1⟩
  · rw [hbc, htot]
    intro b hb p hp
    exact ((mem_chainOf g hb).1 hp).2.1
  · intro b hb
    unfold chainOf
    split <;> simp
  · rw [hbc]
    intro b c hb hc hne p hp hp'
    exact hne (g.inj b c p ((mem_chainOf g hb).1 hp) ((mem_chainOf g hc).1 hp'))
  · rw [hbc]
    intro b hb p hp
    exact (g.lk _ _ ((mem_chainOf g hb).1 hp)).1
  · rw [List.nodup_iff_count_le_one]
    intro p
    by_cases hm : p ∈ l
    · have := hpart p (hmem p hm).1
      omega
    · rw [List.count_eq_zero_of_not_mem hm]; omega
  · rw [hbc, htot]; exact fun p hp => (hmem p hp).1
  · rw [hbc, htot]
    intro p h1 h2
    have h3 := hpart p ⟨h1, h2⟩
    constructor
    · intro hp b hb hc
      have h4 := List.count_pos_iff.2 hp
      unfold lnkN at h3
      rw [if_pos ⟨b, (mem_chainOf g hb).1 hc⟩] at h3
      omega
    · intro hc
      rw [← List.count_pos_iff]
      unfold lnkN at h3
      rw [if_neg] at h3
      · omega
      · rintro ⟨b, hb⟩
        exact hc b hb.1 ((mem_chainOf g hb.1).2 hb)
  · rw [htot]; exact hlive
  · rw [htot]
    intro p hp ho
    obtain ⟨v, hv, -⟩ := g.occG p hp ho
    rw [hv]; rfl
  · rw [hbc]
    intro p v hp ho hv
    obtain ⟨w, h1, -, h3⟩ := g.occG p (Nat.lt_of_lt_of_le hp hr.bc_le) ho
    rw [hv] at h1; cases h1
    have := h3 hp
    rw [bucket_eq, hbc]; exact this
  · rw [hbc]
    intro b p v hb hp hv
    obtain ⟨-, -, -, -, w, h1, -, h3⟩ := g.lk _ _ ((mem_chainOf g hb).1 hp)
    rw [hv] at h1; cases h1
    rw [bucket_eq, hbc]; exact h3
  · rw [htot]
    intro p q v w hp hq ho hq' hv hw _ hk _
    have h1 : In E s.shared.tab p v := (h.final_in hf p v).2 (mem_entries.2 ⟨by rw [htot]; exact hp, ho, hv⟩)
    have h2 : In E s.shared.tab q w := (h.final_in hf q w).2 (mem_entries.2 ⟨by rw [htot]; exact hq, hq', hw⟩)
    exact h1.uniq hl g h2 hk
  · rw [htot, h.count, (sum_map_eq_zero _ _).2]
    · simp
    · intro t ht
      rw [(hf t ht).2]; rfl
  · rw [htot]; exact fun p hp => h.final_locks hf hp
  · rw [htot]
    intro p hp
    by_cases hb : p < E.t₀.bc
    · rcases g.offB p hb with h0 | ⟨m, hm⟩
      · rw [h0]; omega
      · rw [hm.2.2]; have := hm.2.1.2; omega
    · rcases hoff p ⟨by omega, hp⟩ with h0 | h0
      · rw [h0]; exact hr.offs p hp
      · rw [h0]; omega
  · rw [hcap, hbc, htot]

/-- The link of an excess entry is the initial one or zero. -/
theorem off_run (E : Start P) (hl : KeyLaws P) (sched : List Nat) :
    ∀ n, Exc E n → (uexec P E.t₀ E.progs sched).shared.tab.off n = E.t₀.off n ∨ (uexec P E.t₀ E.progs sched).shared.tab.off n = 0 := by
  have : (∃ xp, Inv E xp (uexec P E.t₀ E.progs sched)) ∧ ∀ n, Exc E n → (uexec P E.t₀ E.progs sched).shared.tab.off n = E.t₀.off n ∨
      (uexec P E.t₀ E.progs sched).shared.tab.off n = 0 := by
    refine run_inv (f := UnorderedConc.step P)
      (fun s => (∃ xp, Inv E xp s) ∧ ∀ n, Exc E n → s.shared.tab.off n = E.t₀.off n ∨ s.shared.tab.off n = 0) ?_ _
      ⟨⟨_, inv_init E⟩, fun n _ => .inl rfl⟩ sched
    rintro s i t ⟨⟨xp, h⟩, ho⟩ ht
    refine ⟨h.step hl ht, fun n hn => ?_⟩
    have hc := h.change ht
    have h0 := ho n hn
    dsimp only
    generalize eff P s.shared.tab t.cur = e at hc
    cases hc with
    | off m hm ho' hc hv =>
      rw [ho']
      by_cases he : n = m
      · subst he; right; rw [upd_eq]
      · rw [upd_ne _ _ he]; exact h0
    | link v b m hb hm h1 h2 h3 h4 ho' hc hv =>
      rw [ho', upd_ne _ _ (by rw [hb]; exact Exc.ne hn _)]; exact h0
    | zero k b m hb h1 h2 ho' hc hv =>
      rw [ho', upd_ne _ _ (by rw [hb]; exact Exc.ne hn _)]; exact h0
    | keep ho' hc hv => rw [ho']; exact h0
    | val p v ho' hc hv h1 h2 => rw [ho']; exact h0
    | occ m x hm ho' hc hv => rw [ho']; exact h0
    | setB v b hb h1 h2 h3 ho' hc hv => rw [ho']; exact h0
    | resetB k b hb h1 h2 ho' hc hv => rw [ho']; exact h0
  exact this.2

end
end Stdgpu.UnorderedConc.Mx
