import Verif.Proof.Waves
import Verif.Proof.WaveFrame
import Verif.Spec.Execution
import Verif.Spec.Fair
import Verif.Spec.UnorderedConc
/-! A wavefront that inserts or erases behaves as one thread that executes the operations of its lanes one after another. -/
namespace Stdgpu.Execution
open Stdgpu.UnorderedConc
open Stdgpu.Unordered (Params Tab)
open Stdgpu.Conc (Sys stepAt run)

variable {K V : Type}

abbrev UWave (K V : Type) := Wave (Op K V) Res (Thread K V)
abbrev ULane (K V : Type) := Lane (Op K V) (Thread K V)

theorem uLaws (P : Params K V) : Laws (uLane P) := by
  refine ⟨?_, ?_⟩
  · intro op r; simp [uLane]
  · intro m b _
    simp only [uLane]
    split <;> simp

theorem uNotFree (P : Params K V) (l : ULane K V) : isFree (uLane P) l = false := by
  unfold isFree
  simp only [uLane]
  split <;> rename_i h <;> revert h <;> split <;> simp

/-- The operation of a lane that waits for its election. -/
def waits (P : Params K V) (l : ULane K V) : Option (Op K V) :=
  if isCrit (uLane P) l = true ∧ l.inside = false then some l.op else none

def pend (P : Params K V) (lanes : List (Option (ULane K V))) : List (Op K V) :=
  (List.range 64).filterMap (fun i => (laneAt lanes i).bind (waits P))

theorem pend_congr {P : Params K V} {lanes lanes' : List (Option (ULane K V))}
    (h : ∀ i, (laneAt lanes i).bind (waits P) = (laneAt lanes' i).bind (waits P)) : pend P lanes = pend P lanes' := by
  unfold pend
  congr 1
  funext i
  exact h i

theorem filterMap_lowest {α : Type} (n e : Nat) (f g : Nat → Option α) (a : α) (he : e < n) (hf : f e = some a)
    (hg : g e = none) (hlow : ∀ i, i < e → f i = none) (hfg : ∀ i, i ≠ e → f i = g i) :
    (List.range n).filterMap f = a :: (List.range n).filterMap g := by
  have h1 : List.range n = List.range e ++ e :: List.range' (e + 1) (n - e - 1) := by
    rw [List.range_eq_range', List.range_eq_range']
    have h : List.range' 0 e ++ List.range' (0 + e) ((n - e - 1) + 1) = List.range' 0 (e + ((n - e - 1) + 1)) :=
      List.range'_append_1
    rw [show e + ((n - e - 1) + 1) = n by omega, Nat.zero_add, List.range'_succ] at h
    exact h.symm
  have h2 : (List.range e).filterMap f = [] := by
    rw [List.filterMap_eq_nil_iff]; intro i hi; exact hlow i (List.mem_range.1 hi)
  have h3 : (List.range e).filterMap g = [] := by
    rw [List.filterMap_eq_nil_iff]; intro i hi
    have := List.mem_range.1 hi
    rw [← hfg i (by omega)]; exact hlow i this
  rw [h1, List.filterMap_append, List.filterMap_append, h2, h3, List.filterMap_cons_some hf, List.filterMap_cons_none hg]
  simp only [List.nil_append]
  congr 1
  apply List.filterMap_congr
  intro i hi
  have := (List.mem_range'_1.1 hi).1
  exact hfg i (by omega)

theorem range_join {α : Type} (l : List (Option α)) (n : Nat) (h : l.length ≤ n) :
    (List.range n).filterMap (fun i => (l[i]?).join) = l.filterMap id := by
  induction l generalizing n with
  | nil => simp
  | cons a l ih =>
    cases n with
    | zero => simp at h
    | succ n =>
      rw [List.range_succ_eq_map, List.filterMap_cons, List.filterMap_map, List.filterMap_cons]
      have := ih n (by simpa using h)
      simp only [List.getElem?_cons_zero, Option.join_some, Function.comp_def, List.getElem?_cons_succ, this, id]

/-- The wavefront `w` corresponds to the thread `t`. -/
structure WSim (P : Params K V) (w : UWave K V) (t : Thread K V) : Prop where
  e : ∃ A, EInv (uLane P) A w
  fresh : ∀ i l, laneAt w.lanes i = some l → isCrit (uLane P) l = true → l.inside = false → l.st = (uLane P).start l.op
  ins : ∀ i l, laneAt w.lanes i = some l → l.inside = true → ExOk l.st ∧ Busy l.st ∧ opOf l.st = some l.op
  abs : ((∀ i l, laneAt w.lanes i = some l → l.inside = false) ∧ t.cur = .idle ∧ Quiet t.ex ∧
      t.todo = pend P w.lanes ++ opsOf w.calls ∧ t.done = w.done.map (·.2)) ∨
    ∃ i l hist, laneAt w.lanes i = some l ∧ l.inside = true ∧
      t = lift hist (pend P w.lanes ++ opsOf w.calls) (w.done.map (·.2)) l.st

/-- A lane executes the body. -/
def BusyWave (w : UWave K V) : Prop := ∃ i l, laneAt w.lanes i = some l ∧ l.inside = true

/-- Steps of the election until a lane executes the body or all calls have returned. -/
def rank (w : UWave K V) : Nat :=
  3 * w.calls.length + match w.phase with | .head => 1 | _ => 2

theorem wsim_step {P : Params K V} {w : UWave K V} {t : Thread K V} (h : WSim P w t) (m : Shared V) (c : Nat) :
    (BusyWave w ∧ (step P m t).1 = (waveStep true (uLane P) m w c).1 ∧
      WSim P (waveStep true (uLane P) m w c).2 (step P m t).2) ∨
    (WaveOver w ∧ waveStep true (uLane P) m w c = (m, w)) ∨
    (¬ BusyWave w ∧ ¬ WaveOver w ∧ (waveStep true (uLane P) m w c).1 = m ∧ WSim P (waveStep true (uLane P) m w c).2 t ∧
      (BusyWave (waveStep true (uLane P) m w c).2 ∨ rank (waveStep true (uLane P) m w c).2 < rank w)) := by
  obtain ⟨A, he⟩ := h.e
  have he' := einv_step (uLaws P) he m c
  rcases waveStep_cases true (uLane P) m w c with ⟨i, l, hl, hph, e⟩ | ⟨hph, hno, e⟩ | ⟨hph, h0, hc, e⟩ |
    ⟨hph, h0, call, calls, hcs, e⟩ | ⟨hph, ⟨i0, l0, hl0, ha0⟩, e⟩ | ⟨hph, hno, e⟩ <;> rw [e] at he' ⊢
  · -- a step of the elected lane
    left
    have hin : w.phase = .branch ∧ l.inside = true := by
      rcases hph with h1 | h1
      · rw [uNotFree] at h1; cases h1.2
      · exact h1
    obtain ⟨hexo, hbusy, hop⟩ := h.ins i l hl hin.2
    refine ⟨⟨i, l, hl, hin.2⟩, ?_⟩
    rcases h.abs with ⟨h1, -⟩ | ⟨i', l', hist, hl', hin', ht⟩
    · rw [h1 i l hl] at hin; cases hin.2
    have hii : i' = i := by rw [(he.ins i l hl hin.2).1, (he.ins i' l' hl' hin').1]
    subst hii
    rw [hl] at hl'; cases hl'
    have hne : l.st.todo ≠ [] ∨ l.st.cur ≠ .idle := by
      rcases hbusy.2 with ⟨⟨o, h1⟩, -⟩ | ⟨-, h1⟩
      · left; rw [h1]; simp
      · exact .inr h1
    have hstep := step_lift P m l.st hist (pend P w.lanes ++ opsOf w.calls) (w.done.map (·.2)) hexo hne
    rw [← ht] at hstep
    have hset := fun l' j => laneAt_set hl l' j
    have hw0 : waits P l = none := by simp [waits, hin.2]
    obtain ⟨hexo', hb'⟩ := busy_step P m hexo hbusy hop
    rcases hb' with ⟨hb1, hb2⟩ | ⟨⟨r, hr⟩, hr2, hr3⟩
    · have hk : (uLane P).kind ((uLane P).step m l.st).2 = .crit := kind_busy hb1
      rcases stepLane_eq (L := uLane P) (m := m) hl with ⟨r, hk', -⟩ | ⟨-, e1⟩
      · rw [hk] at hk'; cases hk'
      · rw [e1] at he' ⊢
        refine ⟨by rw [hstep]; rfl, he', ?_, ?_, .inr ⟨i', { l with st := ((uLane P).step m l.st).2 }, hist, by rw [hset, if_pos rfl], hin.2, ?_⟩⟩
        · intro j l' hj hc' hi'
          rw [hset] at hj; split at hj
          · cases hj; rw [hin.2] at hi'; cases hi'
          · exact h.fresh j l' hj hc' hi'
        · intro j l' hj hi'
          rw [hset] at hj; split at hj
          · cases hj; exact ⟨hexo', hb1, hb2⟩
          · exact h.ins j l' hj hi'
        · rw [hstep]
          have : pend P (w.lanes.set i' (some { l with st := ((uLane P).step m l.st).2 })) = pend P w.lanes := by
            apply pend_congr
            intro j
            rw [hset]
            split
            · rename_i hji; rw [hji, hl]
              simp [waits, hin.2]
            · rfl
          show lift _ _ _ _ = lift _ (pend P (w.lanes.set i' (some { l with st := ((uLane P).step m l.st).2 })) ++ _) _ _
          rw [this]; rfl
    · have hk : (uLane P).kind ((uLane P).step m l.st).2 = .ret r := kind_over hr hr2 hr3
      rcases stepLane_eq (L := uLane P) (m := m) hl with ⟨r', hk', e1⟩ | ⟨hk', -⟩
      · rw [hk] at hk'; cases hk'
        rw [e1] at he' ⊢
        have hnin : ∀ j l', laneAt (w.lanes.set i' (some { l with st := ((uLane P).step m l.st).2, inside := false })) j =
            some l' → l'.inside = false := by
          intro j l' hj
          rw [hset] at hj; split at hj
          · cases hj; rfl
          · rename_i hji
            by_contra hc'
            have := (he.ins j l' hj (by simpa using hc')).1
            rw [(he.ins i' l hl hin.2).1] at hji
            exact hji this
        have hpend : pend P (w.lanes.set i' (some { l with st := ((uLane P).step m l.st).2, inside := false })) =
            pend P w.lanes := by
          apply pend_congr
          intro j
          rw [hset]
          split
          · rename_i hji; rw [hji, hl]
            simp [waits, hin.2, isCrit, hk]
          · rfl
        refine ⟨by rw [hstep]; rfl, he', ?_, ?_, .inl ⟨hnin, ?_⟩⟩
        · intro j l' hj hc' hi'
          rw [hset] at hj; split at hj
          · cases hj
            simp [isCrit, hk] at hc'
          · exact h.fresh j l' hj hc' hi'
        · intro j l' hj hi'
          rw [hnin j l' hj] at hi'; cases hi'
        · rw [hstep]
          unfold ExOk at hexo'
          simp only [hr3, AtEx] at hexo'
          refine ⟨hr3, ?_, ?_, ?_⟩
          · simpa [lift, addH, Quiet] using hexo'
          · show (step P m l.st).2.todo ++ _ = pend P (w.lanes.set i' _) ++ opsOf w.calls
            rw [hr2, hpend]; rfl
          · show w.done.map (·.2) ++ (step P m l.st).2.done = (w.done ++ [(i', l.op, r)]).map (·.2)
            rw [hr]; simp
      · exact absurd hk (hk' r)
  · -- convergence
    right; right
    have hout := he.out (by rw [hph]; simp)
    have hat : ∀ j, laneAt (converge (uLane P) w.lanes) j = (laneAt w.lanes j).map (fun l =>
        if isCrit (uLane P) l then { l with active := critMask (uLane P) w.lanes } else { l with active := 0#64 }) :=
      fun j => laneAt_map _ _ j
    have hinv : ∀ j l', laneAt (converge (uLane P) w.lanes) j = some l' → ∃ l, laneAt w.lanes j = some l ∧
        l'.st = l.st ∧ l'.inside = false ∧ l'.op = l.op := by
      intro j l' hj
      rw [hat] at hj
      obtain ⟨l, h1, h2⟩ := Option.map_eq_some_iff.1 hj
      have h3 := hout j l h1
      refine ⟨l, h1, ?_⟩
      split at h2 <;> subst h2 <;> simp_all
    have hcr : ∀ l l' : ULane K V, l'.st = l.st → isCrit (uLane P) l' = isCrit (uLane P) l := by
      intro l l' e; unfold isCrit; rw [e]
    have hnb : ¬ BusyWave w := by rintro ⟨i, l, h1, h2⟩; rw [hout i l h1] at h2; cases h2
    have hpend : pend P (converge (uLane P) w.lanes) = pend P w.lanes := by
      apply pend_congr
      intro j
      rw [hat]
      cases hl : laneAt w.lanes j with
      | none => rfl
      | some l =>
        simp only [Option.map_some, Option.bind_some]
        split <;> rfl
    refine ⟨hnb, fun ho => (by rw [ho.1] at hph; cases hph), rfl, ⟨he', ?_, ?_, ?_⟩, .inr (by simp [rank, hph])⟩
    · intro j l' hj hc' _
      obtain ⟨l, h1, h2, -, h4⟩ := hinv j l' hj
      rw [h2, h4]
      rw [hcr l l' h2] at hc'
      exact h.fresh j l h1 hc' (hout j l h1)
    · intro j l' hj hi'
      obtain ⟨l, -, -, h3, -⟩ := hinv j l' hj
      rw [h3] at hi'; cases hi'
    · rcases h.abs with ⟨-, h2, h3, h4, h5⟩ | ⟨i', l', -, hl', hin', -⟩
      · refine .inl ⟨fun j l' hj => (hinv j l' hj).choose_spec.2.2.1, h2, h3, ?_, h5⟩
        rw [h4]
        show _ = pend P (converge (uLane P) w.lanes) ++ _
        rw [hpend]
      · exact absurd ⟨i', l', hl', hin'⟩ hnb
  · exact .inr (.inl ⟨⟨hph, hc, h0⟩, rfl⟩)
  · -- the next call
    right; right
    have hout := he.out (by rw [hph]; simp)
    have hnb : ¬ BusyWave w := by rintro ⟨i, l, h1, h2⟩; rw [hout i l h1] at h2; cases h2
    have hA : A = 0#64 := by
      by_contra hc
      obtain ⟨-, h2, -⟩ := elected_spec hc
      obtain ⟨l, h3, h4⟩ := he.mem _ h2
      rw [h0 _ l h3] at h4
      exact hc h4.symm
    have hpend0 : pend P w.lanes = [] := by
      unfold pend
      rw [List.filterMap_eq_nil_iff]
      intro j _
      cases hl : laneAt w.lanes j with
      | none => rfl
      | some l =>
        simp only [Option.bind_some, waits]
        rw [if_neg]
        rintro ⟨h1, -⟩
        have := (he.crit (by rw [hph]; simp) j l hl h1).1
        rw [hA] at this; simp at this
    have hpend1 : pend P (call.map (Option.map (fun op => (⟨op, (uLane P).start op, 0#64, false⟩ : ULane K V)))) =
        call.filterMap id := by
      rw [← range_join call 64 (he.calls call (by rw [hcs]; simp))]
      unfold pend
      congr 1
      funext j
      unfold laneAt
      rw [List.getElem?_map]
      cases call[j]? with
      | none => rfl
      | some o => cases o <;> simp [waits, isCrit, uLane]
    refine ⟨hnb, fun ho => (by rw [ho.2.1] at hcs; cases hcs), rfl, ⟨he', ?_, ?_, ?_⟩, .inr ?_⟩
    · intro j l' hj _ _
      have := (start_lane hj).2
      rw [this]
    · intro j l' hj hi'
      have := (start_lane hj).2
      rw [this] at hi'; cases hi'
    · rcases h.abs with ⟨-, h2, h3, h4, h5⟩ | ⟨i', l', -, hl', hin', -⟩
      · refine .inl ⟨?_, h2, h3, ?_, h5⟩
        · intro j l' hj
          have := (start_lane hj).2
          rw [this]
        · rw [h4, hpend0]
          show _ = pend P (call.map _) ++ opsOf calls
          rw [hpend1, hcs]
          simp [opsOf]
      · exact absurd ⟨i', l', hl', hin'⟩ hnb
    · simp [rank, hph, hcs]
      omega
  · -- election
    right; right
    have hout := he.out (by rw [hph]; simp)
    have hnb : ¬ BusyWave w := by rintro ⟨i, l, h1, h2⟩; rw [hout i l h1] at h2; cases h2
    have hA : A ≠ 0#64 := by
      rintro rfl
      rcases he.reg i0 l0 hl0 with h1 | h1 <;> exact ha0 h1
    obtain ⟨he1, he2, he3⟩ := elected_spec hA
    obtain ⟨l, hl, hla⟩ := he.mem _ he2
    have hlc : isCrit (uLane P) l = true := by
      rcases he.bit _ l he2 hl with h1 | ⟨h1, -⟩
      · exact h1
      · rw [hph] at h1; cases h1
    have hat : ∀ j, laneAt (enter true w.lanes) j = (laneAt w.lanes j).map (fun l =>
        if l.active ≠ 0#64 ∧ (true = true → j = elected l.active) then { l with inside := true } else l) :=
      fun j => laneAt_mapIdx _ _ j
    have hate : laneAt (enter true w.lanes) (elected A) = some { l with inside := true } := by
      rw [hat, hl]
      simp only [Option.map_some]
      rw [if_pos ⟨by rw [hla]; exact hA, fun _ => by rw [hla]⟩]
    have hatn : ∀ j, j ≠ elected A → laneAt (enter true w.lanes) j = laneAt w.lanes j := by
      intro j hj
      rw [hat]
      cases hlj : laneAt w.lanes j with
      | none => rfl
      | some l' =>
        simp only [Option.map_some]
        rw [if_neg]
        rintro ⟨h1, h2⟩
        rcases he.reg j l' hlj with h3 | h3
        · rw [h3] at h2; exact hj (h2 trivial)
        · exact h1 h3
    have hfresh := h.fresh _ l hl hlc (hout _ l hl)
    refine ⟨hnb, fun ho => ha0 (ho.2.2 i0 l0 hl0), rfl, ⟨he', ?_, ?_, ?_⟩, .inl ⟨_, _, hate, rfl⟩⟩
    · intro j l' hj hc' hi'
      by_cases hje : j = elected A
      · rw [hje] at hj
        rw [show laneAt _ (elected A) = _ from hate] at hj; cases hj; cases hi'
      · rw [show laneAt _ j = _ from hatn j hje] at hj
        exact h.fresh j l' hj hc' hi'
    · intro j l' hj hi'
      by_cases hje : j = elected A
      · rw [hje] at hj
        rw [show laneAt _ (elected A) = _ from hate] at hj; cases hj
        simp only
        rw [hfresh]
        refine ⟨?_, ⟨rfl, .inl ⟨⟨_, rfl⟩, rfl⟩⟩, rfl⟩
        simp [ExOk, AtEx, uLane]
      · rw [show laneAt _ j = _ from hatn j hje] at hj
        rw [hout j l' hj] at hi'; cases hi'
    · rcases h.abs with ⟨-, h2, h3, h4, h5⟩ | ⟨i', l', -, hl', hin', -⟩
      · refine .inr ⟨_, _, t.ex.done, hate, rfl, ?_⟩
        have hp : pend P w.lanes = l.op :: pend P (enter true w.lanes) := by
          unfold pend
          refine filterMap_lowest 64 (elected A) _ _ l.op he1 ?_ ?_ ?_ ?_
          · show (laneAt w.lanes (elected A)).bind _ = _
            rw [hl]
            simp [waits, hlc, hout _ l hl]
          · show (laneAt (enter true w.lanes) (elected A)).bind _ = _
            rw [hate]
            simp [waits]
          · intro j hj
            show (laneAt w.lanes j).bind _ = _
            cases hlj : laneAt w.lanes j with
            | none => rfl
            | some l' =>
              simp only [Option.bind_some, waits]
              rw [if_neg]
              rintro ⟨h1, -⟩
              have := (he.crit (by rw [hph]; simp) j l' hlj h1).1
              rw [he3 j hj] at this; cases this
          · intro j hj
            show (laneAt w.lanes j).bind _ = (laneAt (enter true w.lanes) j).bind _
            rw [hatn j hj]
        rw [hp] at h4
        obtain ⟨todo, cur, ex, done⟩ := t
        obtain ⟨xt, xp, xd⟩ := ex
        simp only at h2 h4 h5
        obtain ⟨h31, h32⟩ := h3
        simp only at h31 h32
        subst h2 h4 h5 h31 h32
        simp only
        rw [hfresh]
        simp [lift, uLane, addH]
      · exact absurd ⟨i', l', hl', hin'⟩ hnb
  · -- update of the mask
    right; right
    have hnb : ¬ BusyWave w := by rintro ⟨i, l, h1, h2⟩; rw [hno i l h1] at h2; cases h2
    have hat : ∀ j, laneAt (update true w.lanes) j = (laneAt w.lanes j).map (fun l =>
        if l.active = 0#64 then l else { l with active := if true = true then clearElected l.active else 0#64 }) :=
      fun j => laneAt_map _ _ j
    have hinv : ∀ j l', laneAt (update true w.lanes) j = some l' → ∃ l, laneAt w.lanes j = some l ∧
        l'.st = l.st ∧ l'.inside = false ∧ l'.op = l.op := by
      intro j l' hj
      rw [hat] at hj
      obtain ⟨l, h1, h2⟩ := Option.map_eq_some_iff.1 hj
      have h3 := hno j l h1
      refine ⟨l, h1, ?_⟩
      split at h2 <;> subst h2 <;> simp_all
    have hcr : ∀ l l' : ULane K V, l'.st = l.st → isCrit (uLane P) l' = isCrit (uLane P) l := by
      intro l l' e; unfold isCrit; rw [e]
    have hpend : pend P (update true w.lanes) = pend P w.lanes := by
      apply pend_congr
      intro j
      rw [hat]
      cases hl : laneAt w.lanes j with
      | none => rfl
      | some l =>
        simp only [Option.map_some, Option.bind_some]
        split <;> rfl
    refine ⟨hnb, fun ho => (by rw [ho.1] at hph; cases hph), rfl, ⟨he', ?_, ?_, ?_⟩, .inr (by simp [rank, hph])⟩
    · intro j l' hj hc' _
      obtain ⟨l, h1, h2, -, h4⟩ := hinv j l' hj
      rw [h2, h4]
      rw [hcr l l' h2] at hc'
      exact h.fresh j l h1 hc' (hno j l h1)
    · intro j l' hj hi'
      obtain ⟨l, -, -, h3, -⟩ := hinv j l' hj
      rw [h3] at hi'; cases hi'
    · rcases h.abs with ⟨-, h2, h3, h4, h5⟩ | ⟨i', l', -, hl', hin', -⟩
      · refine .inl ⟨fun j l' hj => (hinv j l' hj).choose_spec.2.2.1, h2, h3, ?_, h5⟩
        rw [h4]
        show _ = pend P (update true w.lanes) ++ _
        rw [hpend]
      · exact absurd ⟨i', l', hl', hin'⟩ hnb

end Stdgpu.Execution
