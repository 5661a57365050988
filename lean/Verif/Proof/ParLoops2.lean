import Verif.Proof.ParLoops
import Verif.Proof.Unordered3
/-! Proofs about the parallel loops of the unordered containers (C83). -/
namespace Stdgpu.ParLoops
open Stdgpu.Algorithm Stdgpu.Packed Stdgpu.Spec Stdgpu.Props
open Stdgpu.SlotConc (upd)
open Stdgpu.Unordered (Tab)

variable {w : Nat} {V K : Type}

theorem destroyValues_par {m m' : PShared w V} {t : Tab V} (h : PacksT m.tab t)
    (hl : ∀ p, p < t.total → t.occ p = true → t.live p = true) (sched : List Nat)
    (hm : parLoop (m.tab.total : Int) destroyValueBody m false sched = some m') :
    ∃ live', m' = { m with tab := { m.tab with live := live' } } ∧
      ∀ p, live' p = if p < t.total ∧ t.occ p = true then false else t.live p := by
  obtain ⟨hc, rfl⟩ := parLoop_some hm
  rw [h.total] at *
  have hI := loop_inv' (n := (t.total : Int).toNat) (body := destroyValueBody (w := w) (V := V))
    (fun s => (∀ p, s.pc p = 1 → p < t.total → s.reg p = t.occ p) ∧
      ∃ live', s.mem = { m with tab := { m.tab with live := live' } } ∧
        ∀ p, (p < t.total ∧ 1 < s.pc p ∧ t.occ p = true → live' p = false) ∧
          (¬ (p < t.total ∧ 1 < s.pc p ∧ t.occ p = true) → live' p = t.live p)) (by
      rintro s i f reg' pc' ⟨h1, live', h2, h3⟩ hi hf hri hrj hpi hpj
      rw [Int.toNat_natCast] at hi
      obtain ⟨hlen, hf⟩ := List.getElem?_eq_some_iff.1 hf
      simp only [destroyValueBody, List.length_cons, List.length_nil] at hlen
      rcases (by omega : s.pc i = 0 ∨ s.pc i = 1) with hp | hp
      · simp only [destroyValueBody, hp, List.getElem_cons_zero] at hf
        subst hf
        have ht : Bitset.test s.mem.tab.occ i = some (t.occ i) := by rw [h2]; exact h.occ.bits i hi
        simp only [ht] at hri ⊢
        refine ⟨?_, live', h2, ?_⟩
        · intro p hp1 hpt
          by_cases e : p = i
          · subst e; exact hri
          · rw [hpj p e] at hp1; rw [hrj p e]; exact h1 p hp1 hpt
        · intro p
          by_cases e : p = i
          · subst e
            exact ⟨fun x => by omega, fun _ => (h3 p).2 (by omega)⟩
          · rw [hpj p e]; exact h3 p
      · simp only [destroyValueBody, hp, List.getElem_cons_succ, List.getElem_cons_zero] at hf
        subst hf
        have hr := h1 i hp hi
        refine ⟨?_, ?_⟩
        · intro p hp1 hpt
          dsimp only at hp1 ⊢
          by_cases e : p = i
          · subst e; omega
          · rw [hpj p e] at hp1; rw [hrj p e]; exact h1 p hp1 hpt
        · dsimp only
          rw [hr]
          cases ho : t.occ i with
          | false =>
            refine ⟨live', by simpa using h2, ?_⟩
            intro p
            by_cases e : p = i
            · subst e
              exact ⟨fun x => by rw [ho] at x; simp at x, fun _ => (h3 p).2 (by rw [ho]; simp)⟩
            · rw [hpj p e]; exact h3 p
          | true =>
            have hli : live' i = true := by rw [(h3 i).2 (by omega)]; exact hl i hi ho
            refine ⟨upd live' i false, ?_, ?_⟩
            · rw [h2]; simp [pdestroyAt, hli]
            · intro p
              simp only [upd]
              by_cases e : p = i
              · subst e
                rw [if_pos rfl]
                exact ⟨fun _ => rfl, fun x => absurd ⟨hi, by omega, ho⟩ x⟩
              · rw [if_neg e, hpj p e]; exact h3 p) sched (loopInit m false)
    ⟨fun p hp => by simp [loopInit] at hp, m.tab.live, rfl, fun p => ⟨fun x => by simp [loopInit] at x, fun _ => by rw [h.live]⟩⟩
  obtain ⟨-, live', h2, h3⟩ := hI
  refine ⟨live', h2, fun p => ?_⟩
  by_cases hp : p < t.total ∧ t.occ p = true
  · rw [if_pos hp]
    refine (h3 p).1 ⟨hp.1, ?_, hp.2⟩
    have := hc p (by rw [Int.toNat_natCast]; exact hp.1)
    have e : (loopRun (t.total : Int).toNat destroyValueBody (loopInit m false) sched).pc p = 2 := this
    omega
  · rw [if_neg hp]
    exact (h3 p).2 (fun x => hp ⟨x.1, x.2.2⟩)

/-- `clear()` on packed words leaves what `Unordered.clear` leaves. -/
theorem uclear_packs {P : Unordered.Params K V} {m m' : PShared w V} {t : Tab V} {chain : Nat → List Nat} {free : List Nat}
    (h : PacksT m.tab t) (hr : Unordered.Rep P t chain free) (s1 s2 s3 s4 s5 : List Nat)
    (hm : uclear m s1 s2 s3 s4 s5 = some m') :
    ∃ t', Unordered.clear List.range t = .ok t' ∧ PacksT m'.tab t' ∧ m'.ub = m.ub ∧ m'.stale = m.stale := by
  unfold uclear at hm
  rw [h.count] at hm
  by_cases hz : t.count = 0
  · rw [if_pos hz] at hm
    cases hm
    exact ⟨t, by simp [Unordered.clear, Unordered.empty, Unordered.size, hz], h, rfl, rfl⟩
  · rw [if_neg hz] at hm
    obtain ⟨m1, e1, hm⟩ := Option.bind_eq_some_iff.1 hm
    obtain ⟨off, e2, hm⟩ := Option.bind_eq_some_iff.1 hm
    obtain ⟨occ, e3, hm⟩ := Option.bind_eq_some_iff.1 hm
    obtain ⟨data, e4, hm⟩ := Option.bind_eq_some_iff.1 hm
    obtain ⟨eocc, e5, hm⟩ := Option.bind_eq_some_iff.1 hm
    cases hm
    obtain ⟨live', rfl, hlive⟩ := destroyValues_par h (fun p hp ho => by rw [hr.live p hp]; exact ho) s1 e1
    have hloop := Unordered.destroyValues_loop (List.range t.total) List.nodup_range t (by
      intro p hp
      have := List.mem_range.1 hp
      exact ⟨this, fun hx => (hr.stored_ok this hx).1⟩)
    have hem : Unordered.empty t = false := by simpa [Unordered.empty, Unordered.size] using hz
    have hoff := cellLoop m.tab.total 0 (fun _ => (0 : Int)) fillOffsetBody
      (fun i => by simp [fillOffsetBody]) m.tab.off s2 e2
    have hdata := cellLoop m.tab.excess.slots.cap 0 (fun i => some (m.tab.bc + i)) (iotaExcessBody m.tab.bc)
      (fun i => by simp [iotaExcessBody]) m.tab.excess.slots.data s4 e4
    have hocc := resetWords_bits h.occ e3
    have heocc := setWords_bits h.excess.occ e5
    refine ⟨{ t with live := fun q => if q ∈ List.range t.total ∧ t.occ q = true then false else t.live q, off := fun _ => 0,
                     occ := fun _ => false, count := 0, excess := Vector.clearIota t.excess t.bc }, ?_, ?_, rfl, rfl⟩
    · simp only [Unordered.clear, hem, hloop, bind, Except.bind, pure, Except.pure]; rfl
    · refine ⟨h.bc, h.total, rfl, ?_, h.val, ?_, hocc, h.locks, ?_⟩
      · intro p hp
        exact (hoff p).1 ⟨by omega, by rw [h.total]; exact (by simpa using hp)⟩
      · funext p
        simp only [List.mem_range]
        exact hlive p
      · refine ⟨h.excess.cap, ?_, h.excess.err, by simp [Vector.clearIota, Vector.cap, h.excess.cap], h.excess.locks, heocc⟩
        funext p
        simp only [Vector.clearIota]
        have hcap : m.tab.excess.slots.cap = Vector.cap t.excess := h.excess.cap
        by_cases hp : p < Vector.cap t.excess
        · rw [if_pos hp, (hdata p).1 ⟨by omega, by omega⟩, h.bc]; rfl
        · rw [if_neg hp, (hdata p).2 (by omega), h.excess.data]

/-- The collected positions. -/
theorem urange_positions {m : PTab w V} {t : Tab V} (h : PacksT m t) (old : Nat → Nat) (sched : List Nat) {c : Collect w V}
    (hm : urange m old sched = some c) :
    c.positions.Nodup ∧ (∀ p, p ∈ c.positions ↔ p < t.total ∧ t.occ p = true) ∧ c.tab = m ∧ c.ub = false := by
  unfold urange at hm
  obtain ⟨hc, rfl⟩ := parLoop_some hm
  rw [h.total] at *
  have hI := loop_inv' (n := (t.total : Int).toNat) (body := collectBody (w := w) (V := V))
    (fun s => s.mem.tab = m ∧ s.mem.ub = false ∧ (∀ p, p < t.total → 1 ≤ s.pc p → (s.reg p).1 = t.occ p) ∧
      ∃ who : List Nat, who.Nodup ∧ s.mem.cnt = who.length ∧ (∀ i, i ∈ who ↔ i < t.total ∧ 2 ≤ s.pc i ∧ t.occ i = true) ∧
        ∀ (k i : Nat), who[k]? = some i → (s.reg i).2 = k ∧ (3 ≤ s.pc i → s.mem.idx k = i)) (by
      rintro s i f reg' pc' ⟨h1, h2, h3, who, k1, k2, k3, k4⟩ hi hf hri hrj hpi hpj
      rw [Int.toNat_natCast] at hi
      obtain ⟨hlen, hf⟩ := List.getElem?_eq_some_iff.1 hf
      simp only [collectBody, List.length_cons, List.length_nil] at hlen
      have hmem : ∀ x ∈ who, x ≠ i → pc' x = s.pc x := fun x _ hx => hpj x hx
      rcases (by omega : s.pc i = 0 ∨ s.pc i = 1 ∨ s.pc i = 2) with hp | hp | hp
      · simp only [collectBody, hp, List.getElem_cons_zero] at hf
        subst hf
        have ht : Bitset.test s.mem.tab.occ i = some (t.occ i) := by rw [h1]; exact h.occ.bits i hi
        simp only [ht] at hri ⊢
        have hni : i ∉ who := fun hx => by have := (k3 i).1 hx; omega
        refine ⟨h1, h2, ?_, who, k1, k2, ?_, ?_⟩
        · intro p hpt hp1
          by_cases e : p = i
          · subst e; rw [hri]
          · rw [hpj p e] at hp1; rw [hrj p e]; exact h3 p hpt hp1
        · intro p
          by_cases e : p = i
          · subst e; exact ⟨fun hx => absurd hx hni, fun hx => by omega⟩
          · rw [hpj p e]; exact k3 p
        · intro k p hk
          have e : p ≠ i := fun e => hni (e ▸ List.mem_of_getElem? hk)
          rw [hpj p e, hrj p e]; exact k4 k p hk
      · simp only [collectBody, hp, List.getElem_cons_succ, List.getElem_cons_zero] at hf
        subst hf
        have hr := h3 i hi (by omega)
        have hni : i ∉ who := fun hx => by have := (k3 i).1 hx; omega
        cases ho : t.occ i with
        | false =>
          rw [ho] at hr
          simp only [hr, Bool.false_eq_true, if_false] at hri ⊢
          refine ⟨h1, h2, ?_, who, k1, k2, ?_, ?_⟩
          · intro p hpt hp1
            by_cases e : p = i
            · subst e; rw [hri, hr, ho]
            · rw [hpj p e] at hp1; rw [hrj p e]; exact h3 p hpt hp1
          · intro p
            by_cases e : p = i
            · subst e; exact ⟨fun hx => absurd hx hni, fun hx => by rw [ho] at hx; simp at hx⟩
            · rw [hpj p e]; exact k3 p
          · intro k p hk
            have e : p ≠ i := fun e => hni (e ▸ List.mem_of_getElem? hk)
            rw [hpj p e, hrj p e]; exact k4 k p hk
        | true =>
          rw [ho] at hr
          simp only [hr, if_true] at hri ⊢
          refine ⟨h1, h2, ?_, who ++ [i], ?_, ?_, ?_, ?_⟩
          · intro p hpt hp1
            by_cases e : p = i
            · subst e; rw [hri, ho]
            · rw [hpj p e] at hp1; rw [hrj p e]; exact h3 p hpt hp1
          · refine List.nodup_append.2 ⟨k1, List.nodup_singleton i, ?_⟩
            intro a ha b hb
            rw [List.mem_singleton] at hb; subst hb
            exact fun e => hni (e ▸ ha)
          · simp [k2]
          · intro p
            rw [List.mem_append, List.mem_singleton]
            by_cases e : p = i
            · subst e; exact ⟨fun _ => ⟨hi, by omega, ho⟩, fun _ => .inr rfl⟩
            · rw [hpj p e, ← k3 p]; exact ⟨fun x => x.resolve_right e, .inl⟩
          · intro k p hk
            rcases Nat.lt_trichotomy k who.length with hlt | heq | hgt
            · rw [List.getElem?_append_left hlt] at hk
              have e : p ≠ i := fun e => hni (e ▸ List.mem_of_getElem? hk)
              rw [hpj p e, hrj p e]; exact k4 k p hk
            · subst heq
              rw [List.getElem?_append_right (Nat.le_refl _), Nat.sub_self, List.getElem?_cons_zero] at hk
              cases hk
              rw [hri, k2]
              exact ⟨rfl, fun hx => by omega⟩
            · rw [List.getElem?_eq_none (by simp; omega)] at hk; cases hk
      · simp only [collectBody, hp, List.getElem_cons_succ, List.getElem_cons_zero] at hf
        subst hf
        have hr := h3 i hi (by omega)
        have hbnd : who.length ≤ t.total := by
          have := (List.subperm_of_subset k1 (l₂ := List.range t.total)
            (fun x hx => List.mem_range.2 ((k3 x).1 hx).1)).length_le
          simpa using this
        cases ho : t.occ i with
        | false =>
          rw [ho] at hr
          simp only [hr, Bool.false_eq_true, if_false] at hri ⊢
          have hni : i ∉ who := fun hx => by have := (k3 i).1 hx; rw [ho] at this; simp at this
          refine ⟨h1, h2, ?_, who, k1, k2, ?_, ?_⟩
          · intro p hpt hp1
            by_cases e : p = i
            · subst e; rw [hri, hr, ho]
            · rw [hpj p e] at hp1; rw [hrj p e]; exact h3 p hpt hp1
          · intro p
            by_cases e : p = i
            · subst e; exact ⟨fun hx => absurd hx hni, fun hx => by rw [ho] at hx; simp at hx⟩
            · rw [hpj p e]; exact k3 p
          · intro k p hk
            have e : p ≠ i := fun e => hni (e ▸ List.mem_of_getElem? hk)
            rw [hpj p e, hrj p e]; exact k4 k p hk
        | true =>
          rw [ho] at hr
          simp only [hr, if_true] at hri ⊢
          have hin : i ∈ who := (k3 i).2 ⟨hi, by omega, ho⟩
          obtain ⟨ki, hki⟩ := List.mem_iff_getElem?.1 hin
          have hk2 := (k4 ki i hki).1
          have hklt : ki < who.length := (List.getElem?_eq_some_iff.1 hki).1
          refine ⟨h1, ?_, ?_, who, k1, k2, ?_, ?_⟩
          · rw [h2, hk2, h1, h.total]; simp; omega
          · intro p hpt hp1
            by_cases e : p = i
            · subst e; rw [hri, hr, ho]
            · rw [hpj p e] at hp1; rw [hrj p e]; exact h3 p hpt hp1
          · intro p
            by_cases e : p = i
            · subst e; exact ⟨fun _ => ⟨hi, by omega, ho⟩, fun _ => hin⟩
            · rw [hpj p e]; exact k3 p
          · intro k p hk
            rw [hk2]
            simp only [upd]
            by_cases e : k = ki
            · subst e
              rw [hki] at hk; cases hk
              rw [if_pos rfl, hri]
              exact ⟨hk2, fun _ => rfl⟩
            · have e' : p ≠ i := by
                rintro rfl
                exact e ((List.getElem?_inj (List.getElem?_eq_some_iff.1 hk).1 k1).1 (hk.trans hki.symm))
              rw [if_neg e, hpj p e', hrj p e']; exact k4 k p hk) sched
    (loopInit { tab := m, cnt := 0, idx := old, ub := false } (false, 0))
    ⟨rfl, rfl, fun p _ hp => by simp [loopInit] at hp, [], List.nodup_nil, rfl, fun i => by simp [loopInit], fun k i hk => by simp at hk⟩
  obtain ⟨h1, h2, -, who, k1, k2, k3, k4⟩ := hI
  generalize hs : forEachIndex (t.total : Int) (collectBody (w := w) (V := V)) { tab := m, cnt := 0, idx := old, ub := false } (false, 0) sched = s at *
  have hs' : loopRun (t.total : Int).toNat (collectBody (w := w) (V := V))
    (loopInit { tab := m, cnt := 0, idx := old, ub := false } (false, 0)) sched = s := hs
  rw [hs'] at h1 h2 k2 k3 k4
  have hpc : ∀ i, i < t.total → s.pc i = 3 := fun i hi => hc i (by rw [Int.toNat_natCast]; exact hi)
  have hpos : s.mem.positions = who := by
    unfold Collect.positions
    apply List.ext_getElem?
    intro k
    by_cases hk : k < who.length
    · rw [List.getElem?_map, List.getElem?_range (by omega), List.getElem?_eq_getElem hk]
      have hx := List.getElem?_eq_getElem hk
      have hm := (k3 _).1 (List.mem_of_getElem? hx)
      have := (k4 k _ hx).2 (by rw [hpc _ hm.1])
      simp [this]
    · rw [List.getElem?_eq_none (by simp; omega), List.getElem?_eq_none (by omega)]
  rw [hpos]
  refine ⟨k1, fun p => ?_, h1, h2⟩
  rw [k3 p]
  exact ⟨fun x => ⟨x.1, x.2.2⟩, fun x => ⟨x.1, by rw [hpc p x.1]; omega, x.2⟩⟩

end Stdgpu.ParLoops
