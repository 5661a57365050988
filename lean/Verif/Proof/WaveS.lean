import Verif.Proof.Waves
import Verif.Model.WaveSlots
import Verif.Spec.Execution
/-! A wavefront that pushes or pops: every lane behaves as a thread of its own. -/
namespace Stdgpu.Execution
open Stdgpu.SlotConc (Mem Thread Op Res Front)

variable {C K F α : Type}

abbrev SWave (K F α : Type) := Wave (Op K α) (Res α) (Thread K F α)
abbrev SLane (K F α : Type) := Lane (Op K α) (Thread K F α)

theorem sKind_ret {fr : Front C K F} {t : Thread K F α} : (∃ r, (sLane fr).kind t = .ret r) ↔ t.done ≠ [] := by
  simp only [sLane]
  split
  · rename_i h; simp [h]
  · rename_i h
    split <;> simp [h]

theorem sLaws (fr : Front C K F) : Laws (sLane (α := α) fr) := by
  refine ⟨?_, ?_⟩
  · intro op r; simp [sLane]
  · intro m b h
    obtain ⟨todo, pc, done⟩ := b
    cases done with
    | cons d ds => simp [sLane] at h
    | nil =>
      cases pc with
      | front f => simp [sLane] at h
      | slot p s =>
        cases todo with
        | nil => simp [sLane, SlotConc.step]
        | cons op rest =>
          simp only [sLane, SlotConc.step]
          generalize SlotConc.slotStep m.slots op p s = r
          rcases r with ⟨m', s' | res⟩ <;> simp

/-- A step of a lane is a step of the thread. -/
theorem sStep_frame (fr : Front C K F) (m : Mem C α) (op : Op K α) (rest : List (Op K α)) (pc : SlotConc.PC F α)
    (dn : List (Op K α × Res α)) :
    ((SlotConc.step fr m ⟨[op], pc, []⟩).2.done = [] ∧ (SlotConc.step fr m ⟨[op], pc, []⟩).2.todo = [op] ∧
      SlotConc.step fr m ⟨op :: rest, pc, dn⟩ =
        ((SlotConc.step fr m ⟨[op], pc, []⟩).1, ⟨op :: rest, (SlotConc.step fr m ⟨[op], pc, []⟩).2.pc, dn⟩)) ∨
    ∃ res, (SlotConc.step fr m ⟨[op], pc, []⟩).2.done = [(op, res)] ∧
      SlotConc.step fr m ⟨op :: rest, pc, dn⟩ =
        ((SlotConc.step fr m ⟨[op], pc, []⟩).1, ⟨rest, .front fr.start, dn ++ [(op, res)]⟩) := by
  cases pc with
  | front f =>
    simp only [SlotConc.step]
    generalize fr.step m.ctr op.isPush op.kind f = r
    rcases r with ⟨c, o⟩
    cases o <;> simp
  | slot p s =>
    simp only [SlotConc.step]
    generalize SlotConc.slotStep m.slots op p s = r
    rcases r with ⟨m', s' | res⟩ <;> simp

/-- The thread that lane `i` corresponds to. -/
def thr (fr : Front C K F) (w : SWave K F α) (i : Nat) : Thread K F α :=
  match laneAt w.lanes i with
  | some l =>
    match l.st.done with
    | [] => ⟨l.op :: laneOps w.calls i, l.st.pc, (w.done.filter (fun x => x.1 == i)).map (·.2)⟩
    | _ :: _ => ⟨laneOps w.calls i, .front fr.start, (w.done.filter (fun x => x.1 == i)).map (·.2)⟩
  | none => ⟨laneOps w.calls i, .front fr.start, (w.done.filter (fun x => x.1 == i)).map (·.2)⟩

theorem thr_eq {fr : Front C K F} {w w' : SWave K F α} {j : Nat} (hc : w'.calls = w.calls) (hd : w'.done = w.done)
    (h : (laneAt w'.lanes j).map (fun l => (l.op, l.st)) = (laneAt w.lanes j).map (fun l => (l.op, l.st))) :
    thr fr w' j = thr fr w j := by
  unfold thr
  rw [hc, hd]
  cases h1 : laneAt w'.lanes j with
  | none => cases h2 : laneAt w.lanes j with
    | none => rfl
    | some l => rw [h1, h2] at h; cases h
  | some l' => cases h2 : laneAt w.lanes j with
    | none => rw [h1, h2] at h; cases h
    | some l =>
      rw [h1, h2] at h
      simp only [Option.map_some, Option.some.injEq, Prod.mk.injEq] at h
      dsimp only
      rw [h.1, h.2]

def LOk (w : SWave K F α) : Prop := ∀ i l, laneAt w.lanes i = some l → l.st.done = [] → l.st.todo = [l.op]

/-- The number of lanes with a property. -/
def cnt (p : Nat → Bool) : Nat := (List.range 64).countP p

theorem cnt_le {p q : Nat → Bool} (h : ∀ i, p i = true → q i = true) : cnt p ≤ cnt q :=
  List.countP_mono_left (fun i _ => h i)

theorem countP_lt {p q : Nat → Bool} (n e : Nat) (h : ∀ i, p i = true → q i = true) (he : e < n) (h1 : p e = false)
    (h2 : q e = true) : (List.range n).countP p < (List.range n).countP q := by
  induction n with
  | zero => omega
  | succ n ih =>
    rw [List.range_succ, List.countP_append, List.countP_append]
    by_cases hen : e = n
    · subst hen
      have := List.countP_mono_left (l := List.range e) (fun i _ => h i)
      simp [h1, h2]; omega
    · have := ih (by omega)
      have h3 : List.countP p [n] ≤ List.countP q [n] := List.countP_mono_left (fun i _ => h i)
      omega

theorem cnt_lt {p q : Nat → Bool} (e : Nat) (h : ∀ i, p i = true → q i = true) (he : e < 64) (h1 : p e = false)
    (h2 : q e = true) : cnt p < cnt q := countP_lt 64 e h he h1 h2

/-- Lane `i` executes the current call. -/
def busyAt (lanes : List (Option (SLane K F α))) (i : Nat) : Bool :=
  match laneAt lanes i with | some l => l.st.done.isEmpty | none => false

/-- Lane `i` executes the current call and has not been elected. -/
def waitAt (lanes : List (Option (SLane K F α))) (i : Nat) : Bool :=
  match laneAt lanes i with | some l => l.st.done.isEmpty && !l.inside | none => false

/-- A bound on the steps of the election that the wavefront still makes. -/
def psi (w : SWave K F α) : Nat :=
  (w.calls.map (fun c => 2 + 2 * activeLanes c)).sum +
    match w.phase with
    | .free => 1 + 2 * cnt (busyAt w.lanes)
    | .head => 2 * cnt (busyAt w.lanes)
    | .branch => 2 * cnt (waitAt w.lanes) + 1

theorem cnt_call {β : Type} (call : List (Option β)) (h : call.length ≤ 64) :
    cnt (fun i => (call[i]?).join.isSome) = activeLanes call := by
  unfold cnt activeLanes
  suffices hs : ∀ n, call.length ≤ n → (List.range n).countP (fun i => (call[i]?).join.isSome) = (call.filterMap id).length from
    hs 64 h
  clear h
  induction call with
  | nil => intro n _; simp
  | cons a l ih =>
    intro n hn
    cases n with
    | zero => simp at hn
    | succ n =>
      rw [List.range_succ_eq_map, List.countP_cons, List.countP_map]
      have := ih n (by simpa using hn)
      cases a <;> simp [Function.comp_def, this]

theorem busy_of_kind {fr : Front C K F} {l : SLane K F α} (h : isCrit (sLane fr) l = true ∨ isFree (sLane fr) l = true) :
    l.st.done = [] := by
  by_contra hc
  obtain ⟨r, hr⟩ := sKind_ret (fr := fr).2 hc
  unfold isCrit isFree at h
  rw [hr] at h
  simp at h

theorem crit_of_busy {fr : Front C K F} {l : SLane K F α} (h : l.st.done = []) (hf : isFree (sLane fr) l = false) :
    isCrit (sLane fr) l = true := by
  cases hk : (sLane fr).kind l.st with
  | ret r => exact absurd h (sKind_ret.1 ⟨r, hk⟩)
  | free => rw [isFree_iff.2 hk] at hf; cases hf
  | crit => exact isCrit_iff.2 hk

/-- A step of a wavefront: a step of one of its lanes, or a step of the election. -/
theorem wave_sim {fr : Front C K F} {A : BitVec 64} {w : SWave K F α} (he : EInv (sLane fr) A w) (hk : LOk w) (m : Mem C α)
    (c : Nat) :
    LOk (waveStep true (sLane fr) m w c).2 ∧
    ((∃ i, i < 64 ∧ (thr fr w i).todo ≠ [] ∧
        SlotConc.step fr m (thr fr w i) = ((waveStep true (sLane fr) m w c).1, thr fr (waveStep true (sLane fr) m w c).2 i) ∧
        (∀ j, j ≠ i → thr fr (waveStep true (sLane fr) m w c).2 j = thr fr w j) ∧ psi (waveStep true (sLane fr) m w c).2 ≤ psi w) ∨
     ((waveStep true (sLane fr) m w c).1 = m ∧ (∀ j, thr fr (waveStep true (sLane fr) m w c).2 j = thr fr w j) ∧
        (psi (waveStep true (sLane fr) m w c).2 < psi w ∨ WaveOver w ∧ (waveStep true (sLane fr) m w c).2 = w))) := by
  rcases waveStep_cases true (sLane fr) m w c with ⟨i, l, hl, hph, e⟩ | ⟨hph, hno, e⟩ | ⟨hph, h0, hc, e⟩ |
    ⟨hph, h0, call, calls, hcs, e⟩ | ⟨hph, ⟨i0, l0, hl0, ha0⟩, e⟩ | ⟨hph, hno, e⟩ <;> rw [e]
  · -- a step of a lane
    have hi64 : i < 64 := Nat.lt_of_lt_of_le (laneAt_lt hl) he.len
    have hd : l.st.done = [] := by
      rcases hph with h | h
      · exact busy_of_kind (.inr h.2)
      · exact busy_of_kind (.inl (he.ins i l hl h.2).2)
    have htd := hk i l hl hd
    have hst : l.st = ⟨[l.op], l.st.pc, []⟩ := by
      obtain ⟨a, b, c, d⟩ := l
      obtain ⟨x, y, z⟩ := b
      simp only at hd htd ⊢
      rw [hd, htd]
    have hthr : thr fr w i = ⟨l.op :: laneOps w.calls i, l.st.pc, (w.done.filter (fun x => x.1 == i)).map (·.2)⟩ := by
      unfold thr; rw [hl]; simp only [hd]
    have hfr := sStep_frame fr m l.op (laneOps w.calls i) l.st.pc ((w.done.filter (fun x => x.1 == i)).map (·.2))
    rw [← hst] at hfr
    have hstep : (sLane fr).step = SlotConc.step (α := α) fr := rfl
    rcases hfr with ⟨h1, h2, h3⟩ | ⟨res, h1, h3⟩
    · have hkind : ∀ r, (sLane fr).kind ((sLane fr).step m l.st).2 ≠ .ret r := by
        intro r hr
        exact sKind_ret.1 ⟨r, hr⟩ h1
      rcases stepLane_eq (L := sLane fr) (m := m) (w := w) hl with ⟨r, h4, -⟩ | ⟨-, h5⟩
      · exact absurd h4 (hkind r)
      rw [h5, hstep]
      have hset := fun j => laneAt_set hl { l with st := (SlotConc.step fr m l.st).2 } j
      refine ⟨?_, .inl ⟨i, hi64, by rw [hthr]; simp, ?_, ?_, ?_⟩⟩
      · intro j l' hj hj'
        dsimp only at hj
        rw [hset] at hj
        split at hj
        · cases hj; exact h2
        · exact hk j l' hj hj'
      · rw [hthr, h3]
        unfold thr
        dsimp only
        rw [hset, if_pos rfl]
        simp only [h1]
      · intro j hj
        unfold thr
        dsimp only
        rw [hset, if_neg hj]
      · have hb : ∀ j, busyAt (w.lanes.set i (some { l with st := (SlotConc.step fr m l.st).2 })) j = true →
            busyAt w.lanes j = true := by
          intro j hj
          unfold busyAt at hj ⊢
          rw [hset] at hj
          by_cases hji : j = i
          · subst hji; simp [hl, hd]
          · rw [if_neg hji] at hj; exact hj
        have hw : ∀ j, waitAt (w.lanes.set i (some { l with st := (SlotConc.step fr m l.st).2 })) j = true →
            waitAt w.lanes j = true := by
          intro j hj
          unfold waitAt at hj ⊢
          rw [hset] at hj
          by_cases hji : j = i
          · subst hji; simp [hl, hd]; simpa [h1] using hj
          · rw [if_neg hji] at hj; exact hj
        have hb' := cnt_le hb
        have hw' := cnt_le hw
        unfold psi
        dsimp only
        rcases hph with h | h <;> rw [h.1] <;> dsimp only <;> omega
    · have hkind : (sLane fr).kind ((sLane fr).step m l.st).2 = .ret res := by
        show (match (SlotConc.step fr m l.st).2.done with | (_, r) :: _ => Kind.ret r | [] => _) = _
        rw [h1]
      have h5 : stepLane (sLane fr) m w i = (((sLane fr).step m l.st).1,
          { w with lanes := w.lanes.set i (some { l with st := ((sLane fr).step m l.st).2, inside := false }),
                   done := w.done ++ [(i, l.op, res)] }) := by
        rcases stepLane_eq (L := sLane fr) (m := m) (w := w) hl with ⟨r, h4, h5⟩ | ⟨h4, -⟩
        · rw [hkind] at h4
          cases h4
          exact h5
        · exact absurd hkind (h4 res)
      rw [h5, hstep]
      have hset := fun j => laneAt_set hl { l with st := (SlotConc.step fr m l.st).2, inside := false } j
      refine ⟨?_, .inl ⟨i, hi64, by rw [hthr]; simp, ?_, ?_, ?_⟩⟩
      · intro j l' hj hj'
        dsimp only at hj
        rw [hset] at hj
        split at hj
        · cases hj; rw [h1] at hj'; cases hj'
        · exact hk j l' hj hj'
      · rw [hthr, h3]
        unfold thr
        dsimp only
        rw [hset, if_pos rfl]
        simp only [h1, List.filter_append, List.map_append]
        simp
      · intro j hj
        unfold thr
        dsimp only
        rw [hset, if_neg hj, List.filter_append]
        have : List.filter (fun x => x.1 == j) [(i, l.op, res)] = [] := by simp; omega
        rw [this, List.append_nil]
      · have hb : ∀ j, busyAt (w.lanes.set i (some { l with st := (SlotConc.step fr m l.st).2, inside := false })) j = true → busyAt w.lanes j = true := by
          intro j hj
          unfold busyAt at hj ⊢
          rw [hset] at hj
          by_cases hji : j = i
          · subst hji; simp [hl, hd]
          · rw [if_neg hji] at hj; exact hj
        have hw : ∀ j, waitAt (w.lanes.set i (some { l with st := (SlotConc.step fr m l.st).2, inside := false })) j = true → waitAt w.lanes j = true := by
          intro j hj
          unfold waitAt at hj ⊢
          rw [hset] at hj
          by_cases hji : j = i
          · subst hji; simp [h1] at hj
          · rw [if_neg hji] at hj; exact hj
        have hb' := cnt_le hb
        have hw' := cnt_le hw
        unfold psi
        dsimp only
        rcases hph with h | h <;> rw [h.1] <;> dsimp only <;> omega
  · -- the call of `warp_convergent_execute`
    have hset : ∀ j, laneAt (converge (sLane fr) w.lanes) j = (laneAt w.lanes j).map _ := fun j => laneAt_map _ _ j
    refine ⟨?_, .inr ⟨rfl, ?_, .inl ?_⟩⟩
    · intro j l hj hj'
      dsimp only at hj
      rw [hset] at hj
      obtain ⟨l', h1, h2⟩ := Option.map_eq_some_iff.1 hj
      have := hk j l' h1
      split at h2 <;> subst h2 <;> exact this hj'
    · intro j
      refine thr_eq rfl rfl ?_
      dsimp only
      rw [hset]
      cases laneAt w.lanes j with
      | none => rfl
      | some l => rw [Option.map_some, Option.map_some]; split <;> rfl
    · have hb : ∀ j, busyAt (converge (sLane fr) w.lanes) j = true → busyAt w.lanes j = true := by
        intro j hj
        unfold busyAt at hj ⊢
        rw [hset] at hj
        cases hlj : laneAt w.lanes j with
        | none => rw [hlj] at hj; exact hj
        | some l =>
          rw [hlj] at hj
          simp only [Option.map_some] at hj
          split at hj <;> exact hj
      have hb' := cnt_le hb
      unfold psi
      dsimp only
      rw [hph]; dsimp only; omega
  · exact ⟨hk, .inr ⟨rfl, fun j => rfl, .inr ⟨⟨hph, hc, h0⟩, rfl⟩⟩⟩
  · -- the next call
    have hA : A = 0#64 := by
      by_contra hcA
      obtain ⟨-, h2, -⟩ := elected_spec hcA
      obtain ⟨l, h3, h4⟩ := he.mem _ h2
      rw [h0 _ l h3] at h4
      exact hcA h4.symm
    have hret : ∀ i l, laneAt w.lanes i = some l → l.st.done ≠ [] := by
      intro i l hl hd
      have := (he.crit (by simp [hph]) i l hl (crit_of_busy hd (he.nofree (by simp [hph]) i l hl))).1
      rw [hA] at this
      simp at this
    have hset : ∀ j, laneAt (call.map (Option.map (fun op => (⟨op, (sLane fr).start op, 0#64, false⟩ : SLane K F α)))) j =
        ((call[j]?).join).map (fun op => (⟨op, (sLane fr).start op, 0#64, false⟩ : SLane K F α)) := by
      intro j
      unfold laneAt
      rw [List.getElem?_map]
      cases call[j]? with
      | none => rfl
      | some o => cases o <;> rfl
    refine ⟨?_, .inr ⟨rfl, ?_, .inl ?_⟩⟩
    · intro j l hj hj'
      dsimp only at hj
      rw [hset] at hj
      obtain ⟨op, h1, h2⟩ := Option.map_eq_some_iff.1 hj
      subst h2; rfl
    · intro j
      unfold thr
      dsimp only
      rw [hset]
      have hops : laneOps w.calls j = (match (call[j]?).join with | some op => [op] | none => []) ++ laneOps calls j := by
        unfold laneOps
        rw [hcs, List.filterMap_cons]
        cases (call[j]?).join <;> rfl
      cases hj : (call[j]?).join with
      | none =>
        simp only [Option.map_none]
        rw [hops, hj]
        cases hlj : laneAt w.lanes j with
        | none => rfl
        | some l =>
          dsimp only
          have := hret j l hlj
          split
          · contradiction
          · rfl
      | some op =>
        simp only [Option.map_some]
        rw [hops, hj]
        cases hlj : laneAt w.lanes j with
        | none => rfl
        | some l =>
          dsimp only
          have := hret j l hlj
          cases hdl : l.st.done with
          | nil => exact absurd hdl this
          | cons a b => rfl
    · have hb : ∀ j, busyAt (call.map (Option.map (fun op => (⟨op, (sLane fr).start op, 0#64, false⟩ : SLane K F α)))) j = true → (call[j]?).join.isSome = true := by
        intro j hj
        unfold busyAt at hj
        rw [hset] at hj
        cases hcj : (call[j]?).join with
        | none => rw [hcj] at hj; exact hj
        | some op => rfl
      have hb' := cnt_le hb
      rw [cnt_call call (he.calls call (by rw [hcs]; simp))] at hb'
      unfold psi
      dsimp only
      rw [hph, hcs, List.map_cons, List.sum_cons]; dsimp only; omega
  · -- the election
    have hset : ∀ j, laneAt (enter true w.lanes) j = (laneAt w.lanes j).map _ := fun j => laneAt_mapIdx _ _ j
    refine ⟨?_, .inr ⟨rfl, ?_, .inl ?_⟩⟩
    · intro j l hj hj'
      dsimp only at hj
      rw [hset] at hj
      obtain ⟨l', h1, h2⟩ := Option.map_eq_some_iff.1 hj
      have := hk j l' h1
      split at h2 <;> subst h2 <;> exact this hj'
    · intro j
      refine thr_eq rfl rfl ?_
      dsimp only
      rw [hset]
      cases laneAt w.lanes j with
      | none => rfl
      | some l => rw [Option.map_some, Option.map_some]; split <;> rfl
    · have hA : A ≠ 0#64 := by
        rintro rfl
        rcases he.reg i0 l0 hl0 with h | h <;> exact ha0 h
      obtain ⟨h1, h2, -⟩ := elected_spec hA
      obtain ⟨l, h3, h4⟩ := he.mem _ h2
      have hd : l.st.done = [] := by
        rcases he.bit _ l h2 h3 with h | h
        · exact busy_of_kind (.inl h)
        · rw [hph] at h; cases h.1
      have := cnt_lt (p := waitAt (enter true w.lanes)) (q := busyAt w.lanes) (elected A) (by
          intro j hj
          unfold waitAt at hj
          unfold busyAt
          rw [hset] at hj
          cases hlj : laneAt w.lanes j with
          | none => rw [hlj] at hj; exact hj
          | some l =>
            rw [hlj] at hj
            simp only [Option.map_some, Bool.and_eq_true] at hj
            have := hj.1
            split at this <;> exact this) h1 (by
          unfold waitAt
          rw [hset, h3]
          simp [h4, hA]) (by unfold busyAt; rw [h3]; simp [hd])
      unfold psi
      dsimp only
      rw [hph]; dsimp only; omega
  · -- the update of the mask
    have hset : ∀ j, laneAt (update true w.lanes) j = (laneAt w.lanes j).map _ := fun j => laneAt_map _ _ j
    refine ⟨?_, .inr ⟨rfl, ?_, .inl ?_⟩⟩
    · intro j l hj hj'
      dsimp only at hj
      rw [hset] at hj
      obtain ⟨l', h1, h2⟩ := Option.map_eq_some_iff.1 hj
      have := hk j l' h1
      split at h2 <;> subst h2 <;> exact this hj'
    · intro j
      refine thr_eq rfl rfl ?_
      dsimp only
      rw [hset]
      cases laneAt w.lanes j with
      | none => rfl
      | some l => rw [Option.map_some, Option.map_some]; split <;> rfl
    · have hb : ∀ j, busyAt (update true w.lanes) j = true → waitAt w.lanes j = true := by
        intro j hj
        unfold busyAt at hj
        unfold waitAt
        rw [hset] at hj
        cases hlj : laneAt w.lanes j with
        | none => rw [hlj] at hj; exact hj
        | some l =>
          rw [hlj] at hj
          simp only [Option.map_some] at hj
          simp only [hno j l hlj, Bool.not_false, Bool.and_true]
          split at hj <;> exact hj
      have hb' := cnt_le hb
      unfold psi
      dsimp only
      rw [hph]; dsimp only; omega

end Stdgpu.Execution
