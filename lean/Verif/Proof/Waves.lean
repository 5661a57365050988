import Verif.Proof.Election
import Mathlib.Tactic.ByContra
/-! Invariant of a wavefront with election: at most one lane executes the body. -/
namespace Stdgpu.Execution

variable {σ O R β : Type}

theorem laneAt_map (lanes : List (Option (Lane O β))) (f : Lane O β → Lane O β) (i : Nat) :
    laneAt (lanes.map (Option.map f)) i = (laneAt lanes i).map f := by
  unfold laneAt
  rw [List.getElem?_map]
  cases lanes[i]? with
  | none => rfl
  | some o => cases o <;> rfl

theorem laneAt_mapIdx (lanes : List (Option (Lane O β))) (f : Nat → Lane O β → Lane O β) (i : Nat) :
    laneAt (lanes.mapIdx (fun i o => o.map (f i))) i = (laneAt lanes i).map (f i) := by
  unfold laneAt
  rw [List.getElem?_mapIdx]
  cases lanes[i]? with
  | none => rfl
  | some o => cases o <;> rfl

theorem laneAt_lt {lanes : List (Option (Lane O β))} {i : Nat} {l : Lane O β} (h : laneAt lanes i = some l) :
    i < lanes.length := by
  unfold laneAt at h
  by_contra hc
  rw [List.getElem?_eq_none (by omega)] at h
  cases h

theorem laneAt_set {lanes : List (Option (Lane O β))} {i : Nat} {l : Lane O β} (h : laneAt lanes i = some l)
    (l' : Lane O β) (j : Nat) : laneAt (lanes.set i (some l')) j = if j = i then some l' else laneAt lanes j := by
  have := laneAt_lt h
  unfold laneAt
  by_cases hj : j = i
  · subst hj
    rw [List.getElem?_set_self this, if_pos rfl]; rfl
  · rw [List.getElem?_set_ne (by omega), if_neg hj]

theorem mem_lanesWith {lanes : List (Option (Lane O β))} {p : Lane O β → Bool} {i : Nat} :
    i ∈ lanesWith lanes p ↔ ∃ l, laneAt lanes i = some l ∧ p l = true := by
  unfold lanesWith
  rw [List.mem_filter, List.mem_range]
  constructor
  · rintro ⟨-, h⟩
    cases hl : laneAt lanes i with
    | none => simp [hl] at h
    | some l => exact ⟨l, rfl, by simpa [hl] using h⟩
  · rintro ⟨l, h1, h2⟩
    exact ⟨laneAt_lt h1, by simp [h1, h2]⟩

theorem lanesWith_nil {lanes : List (Option (Lane O β))} {p : Lane O β → Bool} :
    lanesWith lanes p = [] ↔ ∀ i l, laneAt lanes i = some l → p l = false := by
  rw [List.eq_nil_iff_forall_not_mem]
  constructor
  · intro h i l hl
    have := h i
    rw [mem_lanesWith] at this
    cases hp : p l with
    | false => rfl
    | true => exact absurd ⟨l, hl, hp⟩ this
  · intro h i hi
    obtain ⟨l, h1, h2⟩ := mem_lanesWith.1 hi
    rw [h i l h1] at h2; cases h2

theorem choose_some {is : List Nat} {c i : Nat} (h : choose is c = some i) : i ∈ is := List.mem_of_getElem? h

theorem choose_none {is : List Nat} {c : Nat} (h : choose is c = none) : is = [] := by
  unfold choose at h
  rw [List.getElem?_eq_none_iff] at h
  cases is with
  | nil => rfl
  | cons a l =>
    have := Nat.mod_lt c (y := (a :: l).length) (by simp)
    omega

/-- What is assumed about the operations: a call does not return before its first step, and does not leave the part that is
handed to `warp_convergent_execute` before it returns. -/
structure Laws (L : LaneProg σ O R β) : Prop where
  start : ∀ op r, L.kind (L.start op) ≠ .ret r
  stay : ∀ m b, L.kind b = .crit → L.kind (L.step m b).2 ≠ .free

/-- The invariant; `A` is the common value of the variable `active`. -/
structure EInv (L : LaneProg σ O R β) (A : BitVec 64) (w : Wave O R β) : Prop where
  calls : ∀ c ∈ w.calls, c.length ≤ 64
  len : w.lanes.length ≤ 64
  reg : ∀ i l, laneAt w.lanes i = some l → l.active = A ∨ l.active = 0#64
  mem : ∀ i, A.getLsbD i = true → ∃ l, laneAt w.lanes i = some l ∧ l.active = A
  free : w.phase = .free → A = 0#64
  br : w.phase = .branch → A ≠ 0#64
  out : w.phase ≠ .branch → ∀ i l, laneAt w.lanes i = some l → l.inside = false
  ins : ∀ i l, laneAt w.lanes i = some l → l.inside = true → i = elected A ∧ isCrit L l = true
  crit : w.phase ≠ .free → ∀ i l, laneAt w.lanes i = some l → isCrit L l = true → A.getLsbD i = true ∧
    (w.phase = .branch → l.inside = true ∨ i ≠ elected A)
  bit : ∀ i l, A.getLsbD i = true → laneAt w.lanes i = some l → isCrit L l = true ∨ w.phase = .branch ∧ i = elected A
  nofree : w.phase ≠ .free → ∀ i l, laneAt w.lanes i = some l → isFree L l = false

theorem isCrit_iff {L : LaneProg σ O R β} {l : Lane O β} : isCrit L l = true ↔ L.kind l.st = .crit := by
  unfold isCrit; split <;> simp_all

theorem isFree_iff {L : LaneProg σ O R β} {l : Lane O β} : isFree L l = true ↔ L.kind l.st = .free := by
  unfold isFree; split <;> simp_all

theorem stepLane_eq {L : LaneProg σ O R β} {m : σ} {w : Wave O R β} {i : Nat} {l : Lane O β} (hl : laneAt w.lanes i = some l) :
    (∃ r, L.kind (L.step m l.st).2 = .ret r ∧ stepLane L m w i = ((L.step m l.st).1,
      { w with lanes := w.lanes.set i (some { l with st := (L.step m l.st).2, inside := false }),
               done := w.done ++ [(i, l.op, r)] })) ∨
    ((∀ r, L.kind (L.step m l.st).2 ≠ .ret r) ∧ stepLane L m w i = ((L.step m l.st).1,
      { w with lanes := w.lanes.set i (some { l with st := (L.step m l.st).2 }) })) := by
  unfold stepLane
  simp only [hl]
  split
  · rename_i r h; exact .inl ⟨r, h, rfl⟩
  · rename_i h; exact .inr ⟨h, rfl⟩

/-- One step of a wavefront. -/
theorem waveStep_cases (elect : Bool) (L : LaneProg σ O R β) (m : σ) (w : Wave O R β) (c : Nat) :
    (∃ i l, laneAt w.lanes i = some l ∧ (w.phase = .free ∧ isFree L l = true ∨ w.phase = .branch ∧ l.inside = true) ∧
      waveStep elect L m w c = stepLane L m w i) ∨
    (w.phase = .free ∧ (∀ i l, laneAt w.lanes i = some l → isFree L l = false) ∧
      waveStep elect L m w c = (m, { w with lanes := converge L w.lanes, phase := .head })) ∨
    (w.phase = .head ∧ (∀ i l, laneAt w.lanes i = some l → l.active = 0#64) ∧ w.calls = [] ∧
      waveStep elect L m w c = (m, w)) ∨
    (w.phase = .head ∧ (∀ i l, laneAt w.lanes i = some l → l.active = 0#64) ∧ (∃ call calls, w.calls = call :: calls ∧
      waveStep elect L m w c = (m, ⟨calls, call.map (Option.map (fun op => ⟨op, L.start op, 0#64, false⟩)), .free, w.done⟩))) ∨
    (w.phase = .head ∧ (∃ i l, laneAt w.lanes i = some l ∧ l.active ≠ 0#64) ∧
      waveStep elect L m w c = (m, { w with lanes := enter elect w.lanes, phase := .branch })) ∨
    (w.phase = .branch ∧ (∀ i l, laneAt w.lanes i = some l → l.inside = false) ∧
      waveStep elect L m w c = (m, { w with lanes := update elect w.lanes, phase := .head })) := by
  cases hp : w.phase with
  | free =>
    cases hc : choose (lanesWith w.lanes (isFree L)) c with
    | some i =>
      obtain ⟨l, h1, h2⟩ := mem_lanesWith.1 (choose_some hc)
      refine .inl ⟨i, l, h1, .inl ⟨rfl, h2⟩, ?_⟩
      simp only [waveStep, hp, hc]
    | none =>
      refine .inr (.inl ⟨rfl, lanesWith_nil.1 (choose_none hc), ?_⟩)
      simp only [waveStep, hp, hc]
  | head =>
    by_cases hn : lanesWith w.lanes (fun l => l.active != 0#64) = []
    · have h0 : ∀ i l, laneAt w.lanes i = some l → l.active = 0#64 := by
        intro i l hl
        simpa using lanesWith_nil.1 hn i l hl
      cases hcs : w.calls with
      | nil =>
        refine .inr (.inr (.inl ⟨rfl, h0, rfl, ?_⟩))
        simp only [waveStep, hp, hn, hcs, if_true]
      | cons call calls =>
        refine .inr (.inr (.inr (.inl ⟨rfl, h0, call, calls, rfl, ?_⟩)))
        simp only [waveStep, hp, hn, hcs, if_true]
    · refine .inr (.inr (.inr (.inr (.inl ⟨rfl, ?_, ?_⟩))))
      · by_contra hc
        refine hn (lanesWith_nil.2 fun i l hl => ?_)
        by_contra h
        exact hc ⟨i, l, hl, by simpa using h⟩
      · simp only [waveStep, hp, hn, if_false]
  | branch =>
    cases hc : choose (lanesWith w.lanes (fun l => l.inside)) c with
    | some i =>
      obtain ⟨l, h1, h2⟩ := mem_lanesWith.1 (choose_some hc)
      refine .inl ⟨i, l, h1, .inr ⟨rfl, h2⟩, ?_⟩
      simp only [waveStep, hp, hc]
    | none =>
      refine .inr (.inr (.inr (.inr (.inr ⟨rfl, lanesWith_nil.1 (choose_none hc), ?_⟩))))
      simp only [waveStep, hp, hc]

theorem start_lane {L : LaneProg σ O R β} {call : List (Option O)} {i : Nat} {l : Lane O β}
    (h : laneAt (call.map (Option.map (fun op => (⟨op, L.start op, 0#64, false⟩ : Lane O β)))) i = some l) :
    call[i]? = some (some l.op) ∧ l = ⟨l.op, L.start l.op, 0#64, false⟩ := by
  unfold laneAt at h
  rw [List.getElem?_map] at h
  cases hc : call[i]? with
  | none => simp [hc] at h
  | some o =>
    cases o with
    | none => simp [hc] at h
    | some op => simp [hc] at h; subst h; exact ⟨rfl, rfl⟩

/-- The mask computed at the call of `warp_convergent_execute`. -/
def critMask (L : LaneProg σ O R β) (lanes : List (Option (Lane O β))) : BitVec 64 :=
  activemask (fun i => match laneAt lanes i with | some l => isCrit L l | none => false) 64

theorem critMask_bit (L : LaneProg σ O R β) (lanes : List (Option (Lane O β))) (i : Nat) :
    (critMask L lanes).getLsbD i = true ↔ i < 64 ∧ ∃ l, laneAt lanes i = some l ∧ isCrit L l = true := by
  by_cases hi : i < 64
  · unfold critMask
    rw [activemask_bit _ _ _ hi]
    cases hl : laneAt lanes i with
    | none => simp
    | some l => simp [hi]
  · rw [BitVec.getLsbD_of_ge _ _ (by omega)]; simp [hi]

theorem einv_step {L : LaneProg σ O R β} (hL : Laws L) {A : BitVec 64} {w : Wave O R β} (h : EInv L A w) (m : σ) (c : Nat) :
    ∃ A', EInv L A' (waveStep true L m w c).2 := by
  rcases waveStep_cases true L m w c with ⟨i, l, hl, hph, e⟩ | ⟨hph, hno, e⟩ | ⟨hph, h0, hc, e⟩ |
    ⟨hph, h0, call, calls, hcs, e⟩ | ⟨hph, ⟨i0, l0, hl0, ha0⟩, e⟩ | ⟨hph, hno, e⟩ <;> rw [e]
  · -- a step of a lane
    have hset := fun l' j => laneAt_set hl l' j
    have hdis : w.phase = .free ∨ (w.phase = .branch ∧ l.inside = true ∧ isCrit L l = true) := by
      rcases hph with h1 | h1
      · exact .inl h1.1
      · exact .inr ⟨h1.1, h1.2, (h.ins i l hl h1.2).2⟩
    rcases stepLane_eq (m := m) hl with ⟨r, hk, e1⟩ | ⟨hk, e1⟩ <;> rw [e1] <;> refine ⟨A, ?_⟩
    · refine ⟨h.calls, ?_, ?_, ?_, h.free, h.br, ?_, ?_, ?_, ?_, ?_⟩
      · rw [List.length_set]; exact h.len
      · intro j l' hj
        rw [hset] at hj; split at hj
        · cases hj; exact h.reg i l hl
        · exact h.reg j l' hj
      · intro j hj
        obtain ⟨l', h1, h2⟩ := h.mem j hj
        by_cases hji : j = i
        · subst hji
          rw [h1] at hl; cases hl
          exact ⟨{ l with st := (L.step m l.st).2, inside := false }, by rw [hset, if_pos rfl], h2⟩
        · exact ⟨l', by rw [hset, if_neg hji]; exact h1, h2⟩
      · intro hb j l' hj
        rw [hset] at hj; split at hj
        · cases hj; rfl
        · exact h.out hb j l' hj
      · intro j l' hj hin
        rw [hset] at hj; split at hj
        · cases hj; cases hin
        · exact h.ins j l' hj hin
      · intro hnf j l' hj hcr
        rw [hset] at hj; split at hj
        · cases hj
          rw [isCrit_iff] at hcr
          rw [hk] at hcr; cases hcr
        · exact h.crit hnf j l' hj hcr
      · intro j l' hb hj
        rw [hset] at hj; split at hj
        · rename_i hji
          rcases hdis with h1 | ⟨h1, h2, -⟩
          · rw [h.free h1] at hb; simp at hb
          · exact .inr ⟨h1, by rw [hji]; exact (h.ins i l hl h2).1⟩
        · exact h.bit j l' hb hj
      · intro hnf j l' hj
        rw [hset] at hj; split at hj
        · cases hj
          unfold isFree
          simp only [hk]
        · exact h.nofree hnf j l' hj
    · have hcr' : isCrit L l = true → isCrit L { l with st := (L.step m l.st).2 } = true := by
        intro hcr
        rw [isCrit_iff] at hcr ⊢
        have h1 := hL.stay m l.st hcr
        show L.kind (L.step m l.st).2 = .crit
        cases h2 : L.kind (L.step m l.st).2 with
        | free => exact absurd h2 h1
        | crit => rfl
        | ret r => exact absurd h2 (hk r)
      refine ⟨h.calls, ?_, ?_, ?_, h.free, h.br, ?_, ?_, ?_, ?_, ?_⟩
      · rw [List.length_set]; exact h.len
      · intro j l' hj
        rw [hset] at hj; split at hj
        · cases hj; exact h.reg i l hl
        · exact h.reg j l' hj
      · intro j hj
        obtain ⟨l', h1, h2⟩ := h.mem j hj
        by_cases hji : j = i
        · subst hji
          rw [h1] at hl; cases hl
          exact ⟨{ l with st := (L.step m l.st).2 }, by rw [hset, if_pos rfl], h2⟩
        · exact ⟨l', by rw [hset, if_neg hji]; exact h1, h2⟩
      · intro hb j l' hj
        rw [hset] at hj; split at hj
        · cases hj; exact h.out hb i l hl
        · exact h.out hb j l' hj
      · intro j l' hj hin
        rw [hset] at hj; split at hj
        · rename_i hji
          cases hj
          obtain ⟨h1, h2⟩ := h.ins i l hl hin
          exact ⟨by rw [hji]; exact h1, hcr' h2⟩
        · exact h.ins j l' hj hin
      · intro hnf j l' hj hcr
        rw [hset] at hj; split at hj
        · rename_i hji
          cases hj
          rcases hdis with h1 | ⟨h1, h2, h3⟩
          · exact absurd h1 hnf
          · rw [hji]
            exact ⟨(h.crit hnf i l hl h3).1, fun _ => .inl h2⟩
        · exact h.crit hnf j l' hj hcr
      · intro j l' hb hj
        rw [hset] at hj; split at hj
        · rename_i hji
          rcases hdis with h1 | ⟨h1, h2, -⟩
          · rw [h.free h1] at hb; simp at hb
          · exact .inr ⟨h1, by rw [hji]; exact (h.ins i l hl h2).1⟩
        · exact h.bit j l' hb hj
      · intro hnf j l' hj
        rw [hset] at hj; split at hj
        · cases hj
          rcases hdis with h1 | ⟨h1, h2, h3⟩
          · exact absurd h1 hnf
          · have := hcr' h3
            rw [isCrit_iff] at this
            unfold isFree
            rw [this]
        · exact h.nofree hnf j l' hj
  · -- convergence
    refine ⟨critMask L w.lanes, ?_⟩
    have hat : ∀ j, laneAt (converge L w.lanes) j = (laneAt w.lanes j).map (fun l =>
        if isCrit L l then { l with active := critMask L w.lanes } else { l with active := 0#64 }) :=
      fun j => laneAt_map _ _ j
    have hinv : ∀ j l', laneAt (converge L w.lanes) j = some l' → ∃ l, laneAt w.lanes j = some l ∧
        l'.st = l.st ∧ l'.inside = false ∧ l'.active = if isCrit L l then critMask L w.lanes else 0#64 := by
      intro j l' hj
      rw [hat] at hj
      obtain ⟨l, h1, h2⟩ := Option.map_eq_some_iff.1 hj
      have h3 := h.out (by rw [hph]; simp) j l h1
      refine ⟨l, h1, ?_⟩
      split at h2 <;> subst h2 <;> simp_all
    have hcr : ∀ l l' : Lane O β, l'.st = l.st → isCrit L l' = isCrit L l := by
      intro l l' e; unfold isCrit; rw [e]
    refine ⟨h.calls, ?_, ?_, ?_, by simp, by simp, ?_, ?_, ?_, ?_, ?_⟩
    · simp only [converge, List.length_map]; exact h.len
    · intro j l' hj
      obtain ⟨l, h1, -, -, h4⟩ := hinv j l' hj
      rw [h4]; split <;> simp
    · intro j hj
      obtain ⟨-, l, h1, h2⟩ := (critMask_bit L w.lanes j).1 hj
      refine ⟨_, by rw [hat, h1]; rfl, ?_⟩
      dsimp only; rw [if_pos h2]
    · intro _ j l' hj
      exact (hinv j l' hj).choose_spec.2.2.1
    · intro j l' hj hin
      rw [(hinv j l' hj).choose_spec.2.2.1] at hin; cases hin
    · intro _ j l' hj hc'
      obtain ⟨l, h1, h2, -, -⟩ := hinv j l' hj
      rw [hcr l l' h2] at hc'
      refine ⟨(critMask_bit L w.lanes j).2 ⟨?_, l, h1, hc'⟩, by simp⟩
      have := laneAt_lt h1
      have := h.len
      omega
    · intro j l' hb hj
      obtain ⟨l, h1, h2, -, -⟩ := hinv j l' hj
      obtain ⟨-, l1, h3, h4⟩ := (critMask_bit L w.lanes j).1 hb
      rw [h1] at h3; cases h3
      left; rw [hcr l l' h2]; exact h4
    · intro _ j l' hj
      obtain ⟨l, h1, h2, -, -⟩ := hinv j l' hj
      have := hno j l h1
      unfold isFree at this ⊢
      rw [h2]; exact this
  · exact ⟨A, h⟩
  · -- the next call
    refine ⟨0#64, ?_⟩
    refine ⟨fun c hc => h.calls c (by rw [hcs]; exact List.mem_cons_of_mem _ hc), ?_, ?_, by simp, by simp, by simp, ?_, ?_,
      by simp, by simp, by simp⟩
    · simp only [List.length_map]; exact h.calls call (by rw [hcs]; simp)
    · intro j l' hj
      have := (start_lane hj).2
      rw [this]; simp
    · intro _ j l' hj
      have := (start_lane hj).2
      rw [this]
    · intro j l' hj hin
      have := (start_lane hj).2
      rw [this] at hin; cases hin
  · -- election
    have hA : A ≠ 0#64 := by
      rintro rfl
      rcases h.reg i0 l0 hl0 with h1 | h1 <;> exact ha0 h1
    refine ⟨A, ?_⟩
    have hat : ∀ j, laneAt (enter true w.lanes) j = (laneAt w.lanes j).map (fun l =>
        if l.active ≠ 0#64 ∧ (true = true → j = elected l.active) then { l with inside := true } else l) :=
      fun j => laneAt_mapIdx _ _ j
    have hinv : ∀ j l', laneAt (enter true w.lanes) j = some l' → ∃ l, laneAt w.lanes j = some l ∧
        l'.st = l.st ∧ l'.active = l.active ∧ (l'.inside = true ↔ l.active = A ∧ j = elected A) := by
      intro j l' hj
      rw [hat] at hj
      obtain ⟨l, h1, h2⟩ := Option.map_eq_some_iff.1 hj
      have h3 := h.out (by rw [hph]; simp) j l h1
      refine ⟨l, h1, ?_⟩
      split at h2
      · rename_i hc
        subst h2
        refine ⟨rfl, rfl, ?_⟩
        rcases h.reg j l h1 with h4 | h4
        · simp only [true_iff]; exact ⟨h4, by rw [hc.2 rfl, h4]⟩
        · exact absurd h4 hc.1
      · rename_i hc
        subst h2
        refine ⟨rfl, rfl, ?_⟩
        rw [h3]
        simp only [Bool.false_eq_true, false_iff]
        rintro ⟨h4, h5⟩
        exact hc ⟨by rw [h4]; exact hA, fun _ => by rw [h4]; exact h5⟩
    have hcr : ∀ l l' : Lane O β, l'.st = l.st → isCrit L l' = isCrit L l := by
      intro l l' e; unfold isCrit; rw [e]
    refine ⟨h.calls, ?_, ?_, ?_, by simp, fun _ => hA, by simp, ?_, ?_, ?_, ?_⟩
    · simp only [enter, List.length_mapIdx]; exact h.len
    · intro j l' hj
      obtain ⟨l, h1, -, h3, -⟩ := hinv j l' hj
      rw [h3]; exact h.reg j l h1
    · intro j hj
      obtain ⟨l, h1, h2⟩ := h.mem j hj
      refine ⟨_, by rw [hat, h1]; rfl, ?_⟩
      dsimp only; split <;> exact h2
    · intro j l' hj hin
      obtain ⟨l, h1, h2, -, h4⟩ := hinv j l' hj
      have h5 := h4.1 hin
      refine ⟨h5.2, ?_⟩
      rw [hcr l l' h2]
      have hb : A.getLsbD j = true := by rw [h5.2]; exact (elected_spec hA).2.1
      rcases h.bit j l hb h1 with h6 | ⟨h6, -⟩
      · exact h6
      · rw [hph] at h6; cases h6
    · intro _ j l' hj hc'
      obtain ⟨l, h1, h2, -, h4⟩ := hinv j l' hj
      rw [hcr l l' h2] at hc'
      have hb := (h.crit (by rw [hph]; simp) j l h1 hc').1
      refine ⟨hb, fun _ => ?_⟩
      by_cases hje : j = elected A
      · left
        rw [h4]
        obtain ⟨l1, h5, h6⟩ := h.mem j hb
        rw [h1] at h5; cases h5
        exact ⟨h6, hje⟩
      · exact .inr hje
    · intro j l' hb hj
      obtain ⟨l, h1, h2, -, -⟩ := hinv j l' hj
      rcases h.bit j l hb h1 with h6 | ⟨h6, -⟩
      · left; rw [hcr l l' h2]; exact h6
      · rw [hph] at h6; cases h6
    · intro _ j l' hj
      obtain ⟨l, h1, h2, -, -⟩ := hinv j l' hj
      have := h.nofree (by rw [hph]; simp) j l h1
      unfold isFree at this ⊢
      rw [h2]; exact this
  · -- update of the mask
    have hA := h.br hph
    obtain ⟨he1, he2, he3⟩ := elected_spec hA
    refine ⟨clearElected A, ?_⟩
    have hat : ∀ j, laneAt (update true w.lanes) j = (laneAt w.lanes j).map (fun l =>
        if l.active = 0#64 then l else { l with active := if true = true then clearElected l.active else 0#64 }) :=
      fun j => laneAt_map _ _ j
    have hinv : ∀ j l', laneAt (update true w.lanes) j = some l' → ∃ l, laneAt w.lanes j = some l ∧
        l'.st = l.st ∧ l'.inside = false ∧ (l'.active = clearElected A ∨ l'.active = 0#64) := by
      intro j l' hj
      rw [hat] at hj
      obtain ⟨l, h1, h2⟩ := Option.map_eq_some_iff.1 hj
      have h3 := hno j l h1
      refine ⟨l, h1, ?_⟩
      split at h2
      · rename_i hc; subst h2; exact ⟨rfl, h3, .inr hc⟩
      · rename_i hc; subst h2
        refine ⟨rfl, h3, .inl ?_⟩
        rcases h.reg j l h1 with h4 | h4
        · simp [h4]
        · exact absurd h4 hc
    have hcr : ∀ l l' : Lane O β, l'.st = l.st → isCrit L l' = isCrit L l := by
      intro l l' e; unfold isCrit; rw [e]
    refine ⟨h.calls, ?_, ?_, ?_, by simp, by simp, ?_, ?_, ?_, ?_, ?_⟩
    · simp only [update, List.length_map]; exact h.len
    · intro j l' hj
      exact (hinv j l' hj).choose_spec.2.2.2
    · intro j hj
      rw [clear_bit _ _ he1] at hj
      have hb : A.getLsbD j = true := by revert hj; cases A.getLsbD j <;> simp
      obtain ⟨l, h1, h2⟩ := h.mem j hb
      refine ⟨_, by rw [hat, h1]; rfl, ?_⟩
      dsimp only; rw [if_neg (by rw [h2]; exact hA)]
      simp [h2]
    · intro _ j l' hj
      exact (hinv j l' hj).choose_spec.2.2.1
    · intro j l' hj hin
      rw [(hinv j l' hj).choose_spec.2.2.1] at hin; cases hin
    · intro _ j l' hj hc'
      obtain ⟨l, h1, h2, -, -⟩ := hinv j l' hj
      rw [hcr l l' h2] at hc'
      obtain ⟨hb, h5⟩ := h.crit (by rw [hph]; simp) j l h1 hc'
      refine ⟨?_, by simp⟩
      rw [clear_bit _ _ he1, hb]
      rcases h5 hph with h6 | h6
      · rw [hno j l h1] at h6; cases h6
      · simp [h6]
    · intro j l' hb hj
      obtain ⟨l, h1, h2, -, -⟩ := hinv j l' hj
      rw [clear_bit _ _ he1] at hb
      have hb' : A.getLsbD j = true ∧ j ≠ elected A := by
        revert hb; cases A.getLsbD j <;> simp
      rcases h.bit j l hb'.1 h1 with h6 | ⟨-, h6⟩
      · left; rw [hcr l l' h2]; exact h6
      · exact absurd h6 hb'.2
    · intro _ j l' hj
      obtain ⟨l, h1, h2, -, -⟩ := hinv j l' hj
      have := h.nofree (by rw [hph]; simp) j l h1
      unfold isFree at this ⊢
      rw [h2]; exact this

theorem einv_init {L : LaneProg σ O R β} {p : List (List (Option O))} (hp : ∀ c ∈ p, c.length ≤ 64) :
    EInv L 0#64 (⟨p, [], .head, []⟩ : Wave O R β) := by
  refine ⟨hp, by simp, ?_, by simp, by simp, by simp, ?_, ?_, ?_, by simp, ?_⟩ <;> intros <;> simp_all [laneAt]

/-- The invariant holds in every wavefront of every execution. -/
theorem einv_run {L : LaneProg σ O R β} (hL : Laws L) (m : σ) {progs : List (List (List (Option O)))}
    (hp : ∀ p ∈ progs, ∀ c ∈ p, c.length ≤ 64) (sched : List (Nat × Nat)) :
    ∀ w ∈ (execWaves true L m progs sched).waves, ∃ A, EInv L A w := by
  have key : ∀ (sched : List (Nat × Nat)) (s : Waves σ O R β), (∀ w ∈ s.waves, ∃ A, EInv L A w) →
      ∀ w ∈ (sched.foldl (wavesStep true L) s).waves, ∃ A, EInv L A w := by
    intro sched
    induction sched with
    | nil => exact fun s h => h
    | cons a sched ih =>
      intro s h
      refine ih _ ?_
      unfold wavesStep
      cases hw : s.waves[a.1]? with
      | none => exact h
      | some w =>
        intro w' hw'
        rcases List.mem_or_eq_of_mem_set hw' with h1 | h1
        · exact h w' h1
        · rw [h1]
          obtain ⟨A, hA⟩ := h w (List.mem_of_getElem? hw)
          exact einv_step hL hA _ _
  refine key sched _ ?_
  intro w hw
  obtain ⟨p, hpm, rfl⟩ := List.mem_map.1 hw
  exact ⟨0#64, einv_init (hp p hpm)⟩

end Stdgpu.Execution
