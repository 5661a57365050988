import Verif.Proof.ULin
import Verif.Proof.UConcEra6
/-! Linearizability of insertions and lookups. -/
namespace Stdgpu.UnorderedConc
open Stdgpu.Conc
open Stdgpu.SlotConc (upd)
open Stdgpu.Unordered
open Stdgpu.Vector (FPC vfront countBits PopInv)
open Stdgpu.Spec
variable {K V : Type}

section
variable {P : Params K V} {I : Start P} {chain chain' : Nat → List Nat} {xp : List (List (SlotConc.Op Unit Nat))}
  {s : Sys (Shared V) (Thread K V)}

/-- Lookups that find nothing are linearized when they are called. -/
def earlyI : Res → Bool
  | .notFound => true
  | _ => false

theorem step_ins_fst {m : Shared V} {t : Thread K V} {v : V} {pc : IPC} (hcur : t.cur = .ins v pc) :
    (step P m t).1 = (insStep m v (bkt P m.tab.bc (P.keyOf v)) (eqOf P v) t.ex pc).1 := by
  rcases hx : insStep m v (bkt P m.tab.bc (P.keyOf v)) (eqOf P v) t.ex pc with ⟨m', ex', (pc' | (_ | q))⟩
  · rw [step_ins_go hcur hx]
  · rw [step_ins_none hcur hx]
  · rw [step_ins_some hcur hx]

theorem step_fnd_fst {m : Shared V} {t : Thread K V} {k : K} {w : Walk} (hcur : t.cur = .fnd k w) :
    (step P m t).1.tab = m.tab := by
  have := findStep_excess m (fun w => P.keyEq (P.keyOf w) k) w
  unfold step
  simp only [hcur]
  generalize findStep m (fun w => P.keyEq (P.keyOf w) k) w = r at this
  rcases r with ⟨m', (w' | (_ | p))⟩ <;> exact this

theorem step_idle_fst {m : Shared V} {t : Thread K V} (hcur : t.cur = .idle) : (step P m t).1 = m := by
  unfold step
  simp only [hcur]
  split <;> rfl

/-- The counter of the free list only decreases and the number of elements only increases. -/
theorem Inv.monoStep (h : Inv I chain xp s) {i : Nat} {t : Thread K V} (ht : s.threads[i]? = some t) :
    (step P s.shared t).1.tab.excess.ctr ≤ s.shared.tab.excess.ctr ∧ s.shared.tab.count ≤ (step P s.shared t).1.tab.count := by
  have hk := h.knows t (List.mem_of_getElem? ht)
  cases hcur : t.cur with
  | idle => rw [step_idle_fst hcur]; exact ⟨le_refl _, le_refl _⟩
  | era k pc => rw [hcur] at hk; exact hk.elim
  | fnd k w => rw [step_fnd_fst hcur]; exact ⟨le_refl _, le_refl _⟩
  | ins v pc =>
    rw [hcur] at hk
    rw [step_ins_fst hcur]
    have hf := fun w => findStep_excess s.shared (eqOf P v) w
    have he := fun w => endStep_excess s.shared w
    cases pc with
    | pop e =>
      simp only [insStep]
      have h1 := Vector.step_ctr_le (Vector.cap s.shared.tab.excess) s.shared.tab.excess t.ex (by
        have : t.ex.todo = [.pop ()] := hk.1
        rw [this]; simp [SlotConc.Op.isPush])
      have h2 : (exStep s.shared t.ex).1.tab.excess.ctr ≤ s.shared.tab.excess.ctr := h1
      have h3 : (exStep s.shared t.ex).1.tab.count = s.shared.tab.count := rfl
      (repeat' split) <;> exact ⟨h2, le_of_eq h3.symm⟩
    | c1 w =>
      have := hf w
      simp only [insStep]
      generalize findStep s.shared (eqOf P v) w = r at this
      rcases r with ⟨m', (w' | (_ | p))⟩ <;> (show m'.tab.excess.ctr ≤ _ ∧ _ ≤ m'.tab.count; rw [show m'.tab = _ from this]; exact ⟨le_refl _, le_refl _⟩)
    | c2 w =>
      have := hf w
      simp only [insStep]
      generalize findStep s.shared (eqOf P v) w = r at this
      rcases r with ⟨m', (w' | (_ | p))⟩ <;> (show m'.tab.excess.ctr ≤ _ ∧ _ ≤ m'.tab.count; rw [show m'.tab = _ from this]; exact ⟨le_refl _, le_refl _⟩)
    | c3 e e' w =>
      have := hf w
      simp only [insStep]
      generalize findStep s.shared (eqOf P v) w = r at this
      rcases r with ⟨m', (w' | (_ | p))⟩
      · show m'.tab.excess.ctr ≤ _ ∧ _ ≤ m'.tab.count
        rw [show m'.tab = _ from this]; exact ⟨le_refl _, le_refl _⟩
      · simp only
        split <;> (show m'.tab.excess.ctr ≤ _ ∧ _ ≤ m'.tab.count; rw [show m'.tab = _ from this]; exact ⟨le_refl _, le_refl _⟩)
      · show m'.tab.excess.ctr ≤ _ ∧ _ ≤ m'.tab.count
        rw [show m'.tab = _ from this]; exact ⟨le_refl _, le_refl _⟩
    | e1 w =>
      have := he w
      simp only [insStep]
      generalize endStep s.shared w = r at this
      rcases r with ⟨m', (w' | p)⟩ <;> (show m'.tab.excess.ctr ≤ _ ∧ _ ≤ m'.tab.count; rw [show m'.tab = _ from this]; exact ⟨le_refl _, le_refl _⟩)
    | e2 e w =>
      have := he w
      simp only [insStep]
      generalize endStep s.shared w = r at this
      rcases r with ⟨m', (w' | p)⟩ <;> (show m'.tab.excess.ctr ≤ _ ∧ _ ≤ m'.tab.count; rw [show m'.tab = _ from this]; exact ⟨le_refl _, le_refl _⟩)
    | cntB => exact ⟨le_refl _, by show _ ≤ s.shared.tab.count + 1; omega⟩
    | cnt e n => exact ⟨le_refl _, by show _ ≤ s.shared.tab.count + 1; omega⟩
    | lockB => simp only [insStep]; split <;> exact ⟨le_refl _, le_refl _⟩
    | lockE e => simp only [insStep]; split <;> exact ⟨le_refl _, le_refl _⟩
    | _ => exact ⟨le_refl _, le_refl _⟩

theorem mono_run (hl : KeyLaws P) (h : Inv I chain xp s) (sched : List Nat) :
    (run (step P) s sched).shared.tab.excess.ctr ≤ s.shared.tab.excess.ctr ∧
    s.shared.tab.count ≤ (run (step P) s sched).shared.tab.count := by
  refine (run_inv (f := step P) (fun s' => (∃ c x, Inv I c x s') ∧ s'.shared.tab.excess.ctr ≤ s.shared.tab.excess.ctr ∧
    s.shared.tab.count ≤ s'.shared.tab.count) ?_ s ⟨⟨_, _, h⟩, le_refl _, le_refl _⟩ sched).2
  rintro s' i t ⟨⟨c, x, h'⟩, h1, h2⟩ ht
  obtain ⟨c', x', h'', -⟩ := h'.stepOK hl ht
  have := h'.monoStep ht
  exact ⟨⟨c', x', h''⟩, this.1.trans h1, h2.trans this.2⟩

/-- A step that does not change what is stored. -/
def Quiet (t t' : Tab V) (chain : Nat → List Nat) : Prop :=
  t'.bc = t.bc ∧ (∀ b, b < t.bc → ∀ u ∈ b :: chain b, t'.off u = t.off u ∧ t'.occ u = t.occ u ∧
    (t.occ u = true → t'.val u = t.val u))

theorem Quiet.of_tab {t t' : Tab V} (h : t' = t) : Quiet t t' chain := by
  subst h
  exact ⟨rfl, fun _ _ _ _ => ⟨rfl, rfl, fun _ => rfl⟩⟩

theorem Quiet.chainEq {t t' : Tab V} (h : Quiet t t' chain) (g : G P t chain) (g' : G P t' chain') {b : Nat} (hb : b < t.bc) :
    chain' b = chain b := by
  refine linked_unique (g'.linked b (by rw [h.1]; exact hb)) (linked_congr (g.linked b hb) ?_)
  intro u hu
  exact (h.2 b hb u hu).1

theorem Quiet.stored {t t' : Tab V} (h : Quiet t t' chain) (g : G P t chain) (g' : G P t' chain') (v : V) (p : Nat) :
    StoredAt P t' chain' v p ↔ StoredAt P t chain v p := by
  have hb := bkt_lt P t.bc (P.keyOf v) g.bc_pos g.bc_lt
  unfold StoredAt
  rw [h.1, h.chainEq g g' hb]
  constructor
  · rintro ⟨h1, h2, h3⟩
    obtain ⟨-, q2, q3⟩ := h.2 _ hb p h1
    rw [q2] at h2
    rw [q3 h2] at h3
    exact ⟨h1, h2, h3⟩
  · rintro ⟨h1, h2, h3⟩
    obtain ⟨-, q2, q3⟩ := h.2 _ hb p h1
    exact ⟨h1, by rw [q2]; exact h2, by rw [q3 h2]; exact h3⟩

theorem Inv.quiet (h : Inv I chain xp s) {i : Nat} {t : Thread K V} (ht : s.threads[i]? = some t)
    (he : eff P s.shared.tab t.cur = none) : Quiet s.shared.tab (step P s.shared t).1.tab chain := by
  have hmem := List.mem_of_getElem? ht
  have hk := h.knows t hmem
  cases hcur : t.cur with
  | idle => exact .of_tab (by rw [step_idle_fst hcur])
  | era k pc => rw [hcur] at hk; exact hk.elim
  | fnd k w => exact .of_tab (step_fnd_fst hcur)
  | ins v pc =>
    rw [hcur] at hk he
    rw [step_ins_fst hcur]
    have hf := fun w => findStep_excess s.shared (eqOf P v) w
    have hen := fun w => endStep_excess s.shared w
    have hb := bkt_lt P s.shared.tab.bc (P.keyOf v) h.g.bc_pos h.g.bc_lt
    have hnin : ∀ n, pc.resv = some n → s.shared.tab.bc ≤ n → ∀ b, b < s.shared.tab.bc → n ∉ b :: chain b := by
      intro n hn hle b hb' hm
      rcases List.mem_cons.1 hm with rfl | hm
      · omega
      · exact h.resvC t hmem n (by rw [hcur]; exact hn) b (by rw [← h.bc]; exact hb') hm
    cases pc with
    | setB => simp [eff, IPC.eff] at he
    | link e n => simp [eff, IPC.eff] at he
    | pop e => simp only [insStep]; (repeat' split) <;> exact ⟨rfl, fun _ _ _ _ => ⟨rfl, rfl, fun _ => rfl⟩⟩
    | c1 w =>
      have := hf w
      simp only [insStep]
      generalize findStep s.shared (eqOf P v) w = r at this
      rcases r with ⟨m', (w' | (_ | p))⟩ <;> exact .of_tab this
    | c2 w =>
      have := hf w
      simp only [insStep]
      generalize findStep s.shared (eqOf P v) w = r at this
      rcases r with ⟨m', (w' | (_ | p))⟩ <;> exact .of_tab this
    | c3 e e' w =>
      have := hf w
      simp only [insStep]
      generalize findStep s.shared (eqOf P v) w = r at this
      rcases r with ⟨m', (w' | (_ | p))⟩
      · exact .of_tab this
      · simp only
        split <;> exact .of_tab this
      · exact .of_tab this
    | e1 w =>
      have := hen w
      simp only [insStep]
      generalize endStep s.shared w = r at this
      rcases r with ⟨m', (w' | p)⟩ <;> exact .of_tab this
    | e2 e w =>
      have := hen w
      simp only [insStep]
      generalize endStep s.shared w = r at this
      rcases r with ⟨m', (w' | p)⟩ <;> exact .of_tab this
    | lockB => simp only [insStep]; split <;> exact ⟨rfl, fun _ _ _ _ => ⟨rfl, rfl, fun _ => rfl⟩⟩
    | lockE e => simp only [insStep]; split <;> exact ⟨rfl, fun _ _ _ _ => ⟨rfl, rfl, fun _ => rfl⟩⟩
    | consB =>
      obtain ⟨-, h1, -⟩ := hk
      refine ⟨rfl, fun b _ u _ => ⟨rfl, rfl, fun ho => ?_⟩⟩
      have : u ≠ bkt P s.shared.tab.bc (P.keyOf v) := by rintro rfl; rw [ho] at h1; simp at h1
      simp [insStep, constructAt, upd, this]
    | cons e n =>
      obtain ⟨-, -, -, -, -, h1⟩ := hk
      refine ⟨rfl, fun b _ u _ => ⟨rfl, rfl, fun ho => ?_⟩⟩
      have : u ≠ n := by rintro rfl; rw [ho] at h1; simp at h1
      simp [insStep, constructAt, upd, this]
    | off e n =>
      obtain ⟨-, -, h1, -⟩ := hk
      refine ⟨rfl, fun b hb' u hu => ⟨?_, rfl, fun _ => rfl⟩⟩
      have : u ≠ n := by rintro rfl; exact hnin u rfl h1 b hb' hu
      simp [insStep, setOff, upd, this]
    | set e n =>
      obtain ⟨-, -, h1, -⟩ := hk
      refine ⟨rfl, fun b hb' u hu => ⟨rfl, ?_, fun _ => rfl⟩⟩
      have : u ≠ n := by rintro rfl; exact hnin u rfl h1 b hb' hu
      simp [insStep, UnorderedConc.setOcc, upd, this]
    | _ => exact ⟨rfl, fun _ _ _ _ => ⟨rfl, rfl, fun _ => rfl⟩⟩

/-- The map of the linearized operations. -/
def QI (I : Start P) (s : Sys (Shared V) (Thread K V)) (m : List (Nat × V)) : Prop :=
  ∃ chain xp, Inv I chain xp s ∧ ∀ p v, (p, v) ∈ m ↔ StoredAt P s.shared.tab chain v p

theorem qi_init (I : Start P) : QI I (uexec P I.t₀ I.progs []) (entries I.t₀) := by
  refine ⟨_, _, inv_init I, ?_⟩
  intro p v
  rw [mem_entries]
  constructor
  · rintro ⟨h1, h2, h3⟩
    exact ⟨I.rep.home h1 h2 h3, h2, h3⟩
  · rintro ⟨h1, h2, h3⟩
    have hb := bkt_lt P I.t₀.bc (P.keyOf v) I.rep.bc_pos I.rep.bc_lt
    exact ⟨(rep_G I.rep).lt hb h1, h2, h3⟩

/-- An operation taking effect. -/
theorem Inv.effStep (h : Inv I chain xp s) (hl : KeyLaws P) {i : Nat} {t : Thread K V} (ht : s.threads[i]? = some t)
    {e : Op K V × Res} (he : eff P s.shared.tab t.cur = some e) (strict : Bool) {m : List (Nat × V)}
    (hm : ∀ p v, (p, v) ∈ m ↔ StoredAt P s.shared.tab chain v p) :
    ∃ m', seqStep P strict m e = some m' ∧ QI I ⟨(step P s.shared t).1, s.threads.set i (step P s.shared t).2⟩ m' := by
  have hmem := List.mem_of_getElem? ht
  have hk := h.knows t hmem
  cases hcur : t.cur with
  | idle => rw [hcur] at he; simp [eff] at he
  | era k pc => rw [hcur] at hk; exact hk.elim
  | fnd k w => rw [hcur] at he; simp [eff] at he
  | ins v pc =>
    rw [hcur] at hk he
    have hb := bkt_lt P s.shared.tab.bc (P.keyOf v) h.g.bc_pos h.g.bc_lt
    have nokey : (∀ u ∈ bkt P s.shared.tab.bc (P.keyOf v) :: chain (bkt P s.shared.tab.bc (P.keyOf v)),
        s.shared.tab.occ u = true → NoMatch s.shared.tab (eqOf P v) u) → hasKey P m (P.keyOf v) = false := by
      intro hn
      refine hasKey_false ?_
      intro p w hpw
      obtain ⟨h1, h2, h3⟩ := (hm p w).1 hpw
      cases hkk : P.keyEq (P.keyOf w) (P.keyOf v) with
      | false => rfl
      | true =>
        rw [bkt_congr hl s.shared.tab.bc hkk] at h1
        obtain ⟨x, hx1, hx2⟩ := hn p h1 h2
        rw [h3] at hx1; cases hx1
        unfold eqOf at hx2
        rw [hkk] at hx2; cases hx2
    have mk : ∀ n, hasKey P m (P.keyOf v) = false → (∀ w, ¬ StoredAt P s.shared.tab chain w n) →
        seqStep P strict m (.insert v, .inserted n) = some ((n, v) :: m) := by
      intro n h1 h2
      have : m.any (fun e => e.1 == n) = false := by
        rw [List.any_eq_false]
        rintro ⟨p, w⟩ hpw
        simp only [beq_iff_eq]
        rintro rfl
        exact h2 w ((hm _ w).1 hpw)
      simp [seqStep, h1, this]
    cases pc <;> simp only [eff, IPC.eff, Option.map_some, Option.map_none, Option.some.injEq] at he <;> try (simp at he; done)
    · -- setB
      subst he
      obtain ⟨-, h1, h2, h3, h4⟩ := hk
      refine ⟨_, mk (bkt P s.shared.tab.bc (P.keyOf v)) (nokey ?_) ?_, ?_⟩
      · intro u hu ho
        rcases List.mem_cons.1 hu with rfl | hu
        · rw [h1] at ho; simp at ho
        · exact h4 u hu
      · rintro w ⟨-, ho, -⟩
        rw [h1] at ho; simp at ho
      · obtain ⟨c', x', h', r⟩ := h.stepOK hl ht
        refine ⟨c', x', h', ?_⟩
        have e1 : (step P s.shared t).1 = UnorderedConc.setOcc s.shared (bkt P s.shared.tab.bc (P.keyOf v)) true := by
          rw [step_ins_fst hcur]; rfl
        have hch : ∀ b, b < s.shared.tab.bc → c' b = chain b := by
          intro b hb'
          have g' := h'.g
          rw [e1] at g'
          exact linked_unique (g'.linked b hb') (h.g.linked b hb')
        intro p w
        have hbw := bkt_lt P s.shared.tab.bc (P.keyOf w) h.g.bc_pos h.g.bc_lt
        rw [List.mem_cons, hm p w, e1]
        unfold StoredAt
        simp only [UnorderedConc.setOcc, hch _ hbw, Prod.mk.injEq]
        constructor
        · rintro (⟨rfl, rfl⟩ | ⟨g1, g2, g3⟩)
          · exact ⟨by simp, by simp [upd], h3⟩
          · refine ⟨g1, ?_, g3⟩
            unfold upd; split <;> simp_all
        · rintro ⟨g1, g2, g3⟩
          by_cases hp : p = bkt P s.shared.tab.bc (P.keyOf v)
          · subst hp
            rw [h3] at g3; cases g3
            exact .inl ⟨rfl, rfl⟩
          · right
            simp only [upd, hp, if_false] at g2
            exact ⟨g1, g2, g3⟩
    · -- link
      rename_i e' n
      subst he
      obtain ⟨-, ⟨h1, h2, h3⟩, h4, h5, h6, h7, h8, h9⟩ := hk
      have hnc := h.resvC t hmem n (by rw [hcur]; rfl)
      refine ⟨_, mk n (nokey fun u hu _ => h3 u hu) ?_, ?_⟩
      · rintro w ⟨g1, -, -⟩
        have hbw := bkt_lt P s.shared.tab.bc (P.keyOf w) h.g.bc_pos h.g.bc_lt
        rcases List.mem_cons.1 g1 with g1 | g1
        · omega
        · exact hnc _ (by rw [← h.bc]; exact hbw) g1
      · obtain ⟨h', -⟩ := h.linkEnd i t ht v e' n hcur
        have e1 : step P s.shared t = (setOff s.shared e' ((n : Int) - e'), { t with cur := .ins v (.unlock e' (some n)) }) :=
          step_ins_go hcur rfl
        rw [e1]
        refine ⟨_, _, h', ?_⟩
        intro p w
        have hbw := bkt_lt P s.shared.tab.bc (P.keyOf w) h.g.bc_pos h.g.bc_lt
        rw [List.mem_cons, hm p w]
        unfold StoredAt
        simp only [setOff, Prod.mk.injEq, ← h.bc]
        constructor
        · rintro (⟨rfl, rfl⟩ | ⟨g1, g2, g3⟩)
          · exact ⟨by simp [upd], h8, h7⟩
          · refine ⟨?_, g2, g3⟩
            rcases List.mem_cons.1 g1 with g1 | g1
            · rw [g1]; simp
            · refine List.mem_cons_of_mem _ ?_
              unfold upd
              split
              · next hq => rw [← hq]; simp [g1]
              · exact g1
        · rintro ⟨g1, g2, g3⟩
          rcases List.mem_cons.1 g1 with g1 | g1
          · exact .inr ⟨by rw [g1]; simp, g2, g3⟩
          · unfold upd at g1
            split at g1
            · next hq =>
              rcases List.mem_append.1 g1 with g1 | g1
              · refine .inr ⟨List.mem_cons_of_mem _ ?_, g2, g3⟩
                rw [hq]; exact g1
              · simp only [List.mem_singleton] at g1
                subst g1
                rw [h7] at g3; cases g3
                exact .inl ⟨rfl, rfl⟩
            · exact .inr ⟨List.mem_cons_of_mem _ g1, g2, g3⟩

/-- Executions of insertions and lookups are linearizable. -/
theorem ins_linearizable (I : Start P) (hl : KeyLaws P) (sched : List Nat) (strict : Bool)
    (hs : strict = true → 0 < (uexec P I.t₀ I.progs sched).shared.tab.excess.ctr ∧
      (uexec P I.t₀ I.progs sched).shared.tab.count < (uexec P I.t₀ I.progs sched).shared.tab.total) :
    ∃ L m, Linearization P strict I.t₀ I.progs sched L m ∧ QI I (uexec P I.t₀ I.progs sched) m := by
  refine lin_main earlyI strict sched ?_ (QI I) (qi_init I) ?_
  · intro r hr
    cases r <;> simp [earlyI] at hr ⊢
  · intro σ i rest t m hsch ht ⟨chain, xp, h, hm⟩
    have hnext : uexec P I.t₀ I.progs (σ ++ [i]) = ⟨(step P (uexec P I.t₀ I.progs σ).shared t).1,
        (uexec P I.t₀ I.progs σ).threads.set i (step P (uexec P I.t₀ I.progs σ).shared t).2⟩ := by
      rw [uexec_append]
      show stepAt (step P) _ i = _
      simp only [stepAt, ht]
    obtain ⟨c', x', h', r⟩ := h.stepOK hl ht
    rw [hnext]
    by_cases hc : t.cur = .idle
    · have hq : QI I ⟨(step P (uexec P I.t₀ I.progs σ).shared t).1,
          (uexec P I.t₀ I.progs σ).threads.set i (step P (uexec P I.t₀ I.progs σ).shared t).2⟩ m := by
        refine ⟨c', x', h', fun p v => ?_⟩
        rw [hm p v]
        exact ((h.quiet ht (by rw [hc]; rfl)).stored h.g h'.g v p).symm
      rcases emit_idle (P := P) (early := earlyI) (fut := resAt (uexec P I.t₀ I.progs sched)) ht hc with em |
        ⟨e, he1, he2, em⟩
      · rw [em]; exact ⟨m, rfl, hq⟩
      · rw [em]
        refine ⟨m, seqRun_one ?_, hq⟩
        have he3 : e.2 = .notFound := by
          rcases e with ⟨o, r⟩
          cases r <;> simp [earlyI] at he2 ⊢
        obtain ⟨k, he4⟩ := resAt_find he1 (.inr he3)
        obtain ⟨o, r⟩ := e
        simp only at he3 he4
        subst he3 he4
        have hn : hasKey P m k = false := by
          refine hasKey_false ?_
          intro p v hpv
          by_contra hkk
          rw [Bool.not_eq_false] at hkk
          obtain ⟨c2, x2, t2, -, -, ht2, hall⟩ := finds_run hl h ht hc ((hm p v).1 hpv) hkk (i :: rest)
          have hfin : run (step P) (uexec P I.t₀ I.progs σ) (i :: rest) = uexec P I.t₀ I.progs sched := by
            rw [hsch, uexec_append]
          rw [hfin] at ht2
          simp only [resAt, ht2, Option.bind_some] at he1
          have hmem : (Op.find k, Res.notFound) ∈ t2.done.drop t.done.length := by
            rw [List.mem_iff_getElem?]
            exact ⟨0, by rw [List.getElem?_drop]; simpa using he1⟩
          obtain ⟨q, hq⟩ := hall _ hmem rfl
          simp at hq
        simp [seqStep, hn]
    · rcases emit_cases (P := P) (early := earlyI) (fut := resAt (uexec P I.t₀ I.progs sched)) ht hc with
        ⟨e, he1, em⟩ | ⟨he, hor⟩
      · rw [em]
        obtain ⟨m', h1, h2⟩ := h.effStep hl ht he1 strict hm
        exact ⟨m', seqRun_one h1, h2⟩
      · have hm' : ∀ p v, (p, v) ∈ m ↔ StoredAt P (step P (uexec P I.t₀ I.progs σ).shared t).1.tab c' v p := by
          intro p v
          rw [hm p v]
          exact ((h.quiet ht he).stored h.g h'.g v p).symm
        rcases hor with em | ⟨e, hd, he1, he2, em⟩
        · rw [em]; exact ⟨m, rfl, c', x', h', hm'⟩
        · rw [em]
          refine ⟨m, seqRun_one ?_, c', x', h', hm'⟩
          have hlt : i < (uexec P I.t₀ I.progs σ).threads.length := (List.getElem?_eq_some_iff.1 ht).1
          have hres := h'.res (step P (uexec P I.t₀ I.progs σ).shared t).2 (List.mem_of_getElem? (i := i) (by simp [hlt])) e
            (by rw [hd]; simp)
          have keyAt : ∀ k u, KeyAt P (step P (uexec P I.t₀ I.progs σ).shared t).1.tab c' k u →
              ∃ v, (u, v) ∈ m ∧ P.keyEq (P.keyOf v) k = true := by
            rintro k u ⟨x, g1, g2, g3, g4⟩
            refine ⟨x, (hm' u x).2 ⟨?_, g2, g3⟩, g4⟩
            rw [bkt_congr hl _ g4]; exact g1
          obtain ⟨o, r⟩ := e
          cases o with
          | erase k => exact hres.elim
          | insert v =>
            cases r with
            | notInserted =>
              cases strict with
              | false => simp [seqStep]
              | true =>
                obtain ⟨hs1, hs2⟩ := hs rfl
                have hmono := mono_run hl h' rest
                have hfin : run (step P) ⟨(step P (uexec P I.t₀ I.progs σ).shared t).1,
                    (uexec P I.t₀ I.progs σ).threads.set i (step P (uexec P I.t₀ I.progs σ).shared t).2⟩ rest =
                    uexec P I.t₀ I.progs sched := by
                  rw [hsch, ← hnext, ← uexec_append]; simp
                rw [hfin] at hmono
                obtain ⟨hm1, hm2⟩ := hmono
                have htot : (step P (uexec P I.t₀ I.progs σ).shared t).1.tab.total = (uexec P I.t₀ I.progs sched).shared.tab.total := by
                  obtain ⟨c3, x3, h3⟩ := inv_run I hl sched
                  rw [show _ = I.t₀.total from h'.total, show (uexec P I.t₀ I.progs sched).shared.tab.total = _ from h3.total]
                rcases hres with ⟨u, hu⟩ | hx | hx
                · obtain ⟨w, hw1, hw2⟩ := keyAt _ u hu
                  simp [seqStep, hasKey_true hw1 hw2]
                · exfalso
                  replace hm1 : _ ≤ (step P (uexec P I.t₀ I.progs σ).shared t).1.tab.excess.ctr := hm1
                  replace hx : (step P (uexec P I.t₀ I.progs σ).shared t).1.tab.excess.ctr ≤ 0 := hx
                  omega
                · exfalso
                  replace hm2 : (step P (uexec P I.t₀ I.progs σ).shared t).1.tab.count ≤ _ := hm2
                  replace hx : ((step P (uexec P I.t₀ I.progs σ).shared t).1.tab.total : Int) ≤
                    (step P (uexec P I.t₀ I.progs σ).shared t).1.tab.count := hx
                  rw [htot] at hx
                  omega
            | inserted n => simp [effRes] at he2
            | _ => exact hres.elim
          | find k =>
            cases r with
            | found p =>
              obtain ⟨w, hw1, hw2⟩ := keyAt k p hres
              have : m.any (fun e => e.1 == p && P.keyEq (P.keyOf e.2) k) = true := by
                rw [List.any_eq_true]
                exact ⟨_, hw1, by simp [hw2]⟩
              simp [seqStep, this]
            | notFound => simp [earlyI] at he1
            | _ => exact hres.elim

end
end Stdgpu.UnorderedConc
