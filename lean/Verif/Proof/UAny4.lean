import Verif.Proof.UAny3
import Verif.Proof.UReach
/-! Insertions, erasures and lookups of arbitrary keys at the same time: the invariant. -/
namespace Stdgpu.UnorderedConc.An
open Stdgpu.Conc
open Stdgpu.SlotConc (upd)
open Stdgpu.Unordered
open Stdgpu.Spec
open Stdgpu.Vector (FPC vfront countBits)
variable {K V : Type}

section
variable (P : Params K V) (q : K → Bool) (bc : Nat)

def tHeld (t : Thread K V) : List Nat :=
  match t.cur with
  | .ins v pc => iHeld (bkt P bc (P.keyOf v)) pc
  | .era _ pc => eHeld pc
  | _ => []

def tTok (t : Thread K V) : Option Nat :=
  match t.cur with
  | .ins v pc => iTok (bkt P bc (P.keyOf v)) pc
  | .era _ pc => eTok pc
  | _ => none

/-- Insertions of keys with `q` that have taken effect. -/
def tI (t : Thread K V) : Nat :=
  (t.done.filterMap insertedVal).countP (fun v => q (P.keyOf v)) +
    match t.cur with
    | .ins v pc => iNum (if q (P.keyOf v) then 1 else 0) pc
    | _ => 0

/-- Erasures of keys with `q` that have taken effect. -/
def tE (t : Thread K V) : Nat :=
  (t.done.filterMap erasedKey).countP q +
    match t.cur with
    | .era k pc => eNum (if q k then 1 else 0) pc
    | _ => 0

def tC (t : Thread K V) : Nat :=
  match t.cur with
  | .ins _ pc => iC pc
  | .era _ pc => eC pc
  | _ => 0

def TGood (tab : Tab V) (t : Thread K V) : Prop :=
  ExOK tab.total (Vector.cap tab.excess) t.ex ∧
    match t.cur with
    | .ins v pc => IGood tab v (bkt P bc (P.keyOf v)) pc
    | .era k pc => EGood P tab k pc
    | _ => True

end

section
variable {P : Params K V} {q : K → Bool} {bc : Nat}

theorem tok_good {tab : Tab V} {t : Thread K V} {p : Nat} (hg : TGood P bc tab t) (h : tTok P bc t = some p) :
    tab.live p = true ∧ (p ∈ tHeld P bc t ∨ tab.occ p = false) := by
  obtain ⟨todo, cur, ex, done⟩ := t
  obtain ⟨-, hg⟩ := hg
  cases cur with
  | idle => cases h
  | fnd k W => cases h
  | ins v pc =>
    simp only [tTok] at h
    simp only at hg
    cases pc <;> simp only [iTok] at h <;> cases h <;> exact ⟨hg.2.2.1, .inr hg.2.1⟩
  | era k pc =>
    simp only [tTok] at h
    simp only at hg
    simp only [tHeld]
    cases pc with
    | f2 p' W => obtain ⟨rfl, rfl⟩ := etok_f2 h; exact ⟨(hg.2 rfl).2, .inl (by simp [eHeld])⟩
    | f3 p' q' W => obtain ⟨rfl, rfl⟩ := etok_f3 h; exact ⟨(hg.2 rfl).2, .inl (by simp [eHeld])⟩
    | p2 p' q' it W =>
      simp only [eTok] at h
      split at h
      · next e => cases h; exact ⟨(hg e).2.2.1, .inl (by simp [eHeld])⟩
      · cases h
    | resetB | rd1 | rd2 | rd3 | wr | zero | reset =>
      simp only [eTok] at h; cases h
      exact ⟨hg.2.2.1, .inl (by simp [eHeld])⟩
    | cntB | desB | cnt | des =>
      simp only [eTok] at h; cases h
      exact ⟨hg.2.2, .inl (by simp [eHeld])⟩
    | _ => cases h

theorem good_frame {tab tab' : Tab V} {t : Thread K V} (ht : tab'.total = tab.total) (hc : Vector.cap tab'.excess = Vector.cap tab.excess)
    (hf : ∀ p, tTok P bc t = some p → tab'.occ p = tab.occ p ∧ tab'.live p = true ∧ tab'.val p = tab.val p)
    (hg : TGood P bc tab t) : TGood P bc tab' t := by
  obtain ⟨todo, cur, ex, done⟩ := t
  obtain ⟨hx, hg⟩ := hg
  refine ⟨by rw [ht, hc]; exact hx, ?_⟩
  cases cur with
  | idle => trivial
  | fnd k W => trivial
  | ins v pc =>
    simp only [tTok] at hf
    simp only at hg ⊢
    have key : ∀ p, iTok (bkt P bc (P.keyOf v)) pc = some p → IOwn tab v p → IOwn tab' v p := by
      intro p hp h
      obtain ⟨e1, e2, e3⟩ := hf p hp
      exact ⟨by rw [ht]; exact h.1, by rw [e1]; exact h.2.1, e2, by rw [e3]; exact h.2.2.2⟩
    cases pc with
    | cntB | setB | off | cnt | set => exact key _ rfl hg
    | cons e n => simp only [IGood] at hg ⊢; rw [ht]; exact hg
    | _ => trivial
  | era k pc =>
    simp only [tTok] at hf
    simp only at hg ⊢
    have k1 : ∀ p, eTok pc = some p → EOwn P tab k p → EOwn P tab' k p := by
      intro p hp h
      obtain ⟨e1, e2, e3⟩ := hf p hp
      exact ⟨by rw [ht]; exact h.1, by rw [e1]; exact h.2.1, e2, by rw [e3]; exact h.2.2.2⟩
    have k2 : ∀ p, eTok pc = some p → EGone tab p → EGone tab' p := by
      intro p hp h
      obtain ⟨e1, e2, e3⟩ := hf p hp
      exact ⟨by rw [ht]; exact h.1, by rw [e1]; exact h.2.1, e2⟩
    cases pc with
    | f2 p W =>
      refine ⟨by rw [ht]; exact hg.1, ?_⟩
      intro e
      obtain ⟨e1, e2, e3⟩ := hf p (by simp [eTok, e])
      exact ⟨by rw [e1]; exact (hg.2 e).1, e2⟩
    | f3 p q' W =>
      refine ⟨by rw [ht]; exact hg.1, ?_⟩
      intro e
      obtain ⟨e1, e2, e3⟩ := hf p (by simp [eTok, e])
      exact ⟨by rw [e1]; exact (hg.2 e).1, e2⟩
    | p2 p q' it W => intro e; exact k1 p (by simp [eTok, e]) (hg e)
    | resetB | rd1 | rd2 | rd3 | wr | zero | reset => exact k1 _ rfl hg
    | cntB | desB | cnt | des => exact k2 _ rfl hg
    | _ => trivial

theorem step_ok (hq : ∀ a b, P.keyEq a b = true → q a = q b) {m : Shared V} {t : Thread K V} (hbc : m.tab.bc = bc)
    (h0 : 0 < bc) (h1 : bc < 2 ^ 63) (hle : bc ≤ m.tab.total) (g : G m.tab) (hg : TGood P bc m.tab t)
    (hh : ∀ p ∈ tHeld P bc t, m.tab.locks p = true) (hu : (step P m t).1.ub = false) :
    Eff P q m (step P m t).1 (tHeld P bc t) (tHeld P bc (step P m t).2) (tTok P bc t) (tTok P bc (step P m t).2)
      (tI P q t) (tI P q (step P m t).2) (tE q t) (tE q (step P m t).2) (tC t) (tC (step P m t).2) ∧
    TGood P bc (step P m t).1.tab (step P m t).2 := by
  obtain ⟨todo, cur, ex, done⟩ := t
  obtain ⟨hx, hg⟩ := hg
  have qr : Quiet m.tab m.tab := Quiet.rfl' g rfl
  cases cur with
  | idle =>
    cases todo with
    | nil => exact ⟨qr.eff g (fun p hp => .inl hp) (fun p hp => .inl hp), hx, trivial⟩
    | cons op rest =>
      cases op <;> exact ⟨qr.eff g (fun p hp => .inl hp) (fun p hp => .inl hp), hx, trivial⟩
  | fnd k W =>
    have e0 := find_tab m (fun w => P.keyEq (P.keyOf w) k) W
    simp only [step]
    rcases hf : findStep m (fun w => P.keyEq (P.keyOf w) k) W with ⟨m', W' | (_ | p)⟩ <;> rw [hf] at e0 <;>
      dsimp only at e0 ⊢
    · exact ⟨(Quiet.rfl' g e0).eff g (fun p hp => .inl hp) (fun p hp => .inl hp), by rw [e0]; exact hx, trivial⟩
    · refine ⟨?_, by rw [e0]; exact hx, trivial⟩
      have := (Quiet.rfl' g e0).eff (P := P) (q := q) (h := []) (k := none) (k' := none)
        (i := (done.filterMap insertedVal).countP (fun v => q (P.keyOf v))) (e := (done.filterMap erasedKey).countP q) (c := 0) g
        (fun p hp => .inl hp) (fun p hp => .inl hp)
      simpa [tHeld, tTok, tI, tE, tC, List.filterMap_append, List.filterMap_cons, insertedVal, erasedKey] using this
    · refine ⟨?_, by rw [e0]; exact hx, trivial⟩
      have := (Quiet.rfl' g e0).eff (P := P) (q := q) (h := []) (k := none) (k' := none)
        (i := (done.filterMap insertedVal).countP (fun v => q (P.keyOf v))) (e := (done.filterMap erasedKey).countP q) (c := 0) g
        (fun p hp => .inl hp) (fun p hp => .inl hp)
      simpa [tHeld, tTok, tI, tE, tC, List.filterMap_append, List.filterMap_cons, insertedVal, erasedKey] using this
  | ins v pc =>
    have hb : bucket P m.tab (P.keyOf v) = bkt P bc (P.keyOf v) := by rw [bucket_eq, hbc]
    have hlt := bkt_lt P bc (P.keyOf v) h0 h1
    simp only [step, hb] at hu ⊢
    simp only [tHeld] at hh
    dsimp only at hg hx
    have key := ins_ok (P := P) (q := q) (ex := ex) (eq := fun w => P.keyEq (P.keyOf w) (P.keyOf v)) (pc := pc) g
      (show bkt P bc (P.keyOf v) < m.tab.total by omega) hx hg hh (by
        generalize insStep m v (bkt P bc (P.keyOf v)) (fun w => P.keyEq (P.keyOf w) (P.keyOf v)) ex pc = r at hu ⊢
        rcases r with ⟨m', ex', pc' | (_ | p)⟩ <;> exact hu)
    generalize insStep m v (bkt P bc (P.keyOf v)) (fun w => P.keyEq (P.keyOf w) (P.keyOf v)) ex pc = r at hu key ⊢
    rcases r with ⟨m', ex', pc' | (_ | p)⟩ <;> dsimp only at hu ⊢ <;> obtain ⟨eff, hg', hx'⟩ := key <;> dsimp only at eff hg' hx' <;>
      refine ⟨?_, by rw [eff.total, eff.cap]; exact hx', ?_⟩ <;> try trivial
    all_goals
      have b1 := eff.bal
      refine ⟨eff.g, eff.total, eff.bc, eff.cap, eff.frame, eff.gain, eff.lock, ?_, eff.cnt, eff.leak⟩
      simp [tI, tE, List.filterMap_append, List.filterMap_cons, insertedVal, erasedKey, nNum, List.countP_cons] at b1 ⊢
      omega
  | era k pc =>
    have hb : bucket P m.tab k < m.tab.total := by
      rw [bucket_eq, hbc]
      have := bkt_lt P bc k h0 h1
      omega
    simp only [step] at hu ⊢
    simp only [tHeld] at hh
    dsimp only at hg hx
    have key := era_ok (P := P) (q := q) hq (b := bucket P m.tab k) (ex := ex) (pc := pc) g hb hx hg hh (by
        generalize eraStep m (bucket P m.tab k) (fun w => P.keyEq (P.keyOf w) k) ex pc = r at hu ⊢
        rcases r with ⟨m', ex', pc' | ok⟩ <;> exact hu)
    generalize eraStep m (bucket P m.tab k) (fun w => P.keyEq (P.keyOf w) k) ex pc = r at hu key ⊢
    rcases r with ⟨m', ex', pc' | (_ | _)⟩ <;> dsimp only at hu ⊢ <;> obtain ⟨eff, hg', hx'⟩ := key <;> dsimp only at eff hg' hx' <;>
      refine ⟨?_, by rw [eff.total, eff.cap]; exact hx', ?_⟩ <;> try trivial
    all_goals
      have b1 := eff.bal
      refine ⟨eff.g, eff.total, eff.bc, eff.cap, eff.frame, eff.gain, eff.lock, ?_, eff.cnt, eff.leak⟩
      simp [tI, tE, List.filterMap_append, List.filterMap_cons, insertedVal, erasedKey, mNum, List.countP_cons] at b1 ⊢
      omega

/-- What holds as long as nothing undefined has happened. -/
structure Inv (P : Params K V) (q : K → Bool) (t₀ : Tab V) (s : Sys (Shared V) (Thread K V)) : Prop where
  g : G s.shared.tab
  total : s.shared.tab.total = t₀.total
  bc : s.shared.tab.bc = t₀.bc
  good : ∀ t ∈ s.threads, TGood P t₀.bc s.shared.tab t
  own : ∀ (i j : Nat) (ti tj : Thread K V) (p : Nat), i ≠ j → s.threads[i]? = some ti → s.threads[j]? = some tj →
    tTok P t₀.bc ti = some p → tTok P t₀.bc tj ≠ some p
  lock : ∀ p, (s.threads.map (fun t => (tHeld P t₀.bc t).count p)).sum + (t₀.locks p).toNat = (s.shared.tab.locks p).toNat
  bal : cQ P q s.shared.tab + (s.threads.map (tE q)).sum = cQ P q t₀ + (s.threads.map (tI P q)).sum
  cnt : s.shared.tab.count = countBits t₀.total s.shared.tab.occ + (s.threads.map tC).sum
  leak : ∀ p, p < t₀.total → s.shared.tab.live p = true → s.shared.tab.occ p = false → ∃ t ∈ s.threads, tTok P t₀.bc t = some p

theorem ub_mono {m : Shared V} {t : Thread K V} (h : m.ub = true) : (step P m t).1.ub = true := by
  have hf : ∀ (eq : V → Bool) W, (findStep m eq W).1.ub = true := by
    intro eq W
    cases W <;> simp only [findStep] <;> (try split) <;> first | exact h | rfl
  have he : ∀ W, (endStep m W).1.ub = true := by
    intro W
    cases W <;> simp only [endStep] <;> (try split) <;> first | exact h | rfl
  have hp : ∀ p W, (prevStep m p W).1.ub = true := by
    intro p W
    cases W <;> simp only [prevStep] <;> (try split) <;> first | exact h | rfl
  obtain ⟨todo, cur, ex, done⟩ := t
  cases cur with
  | idle => cases todo <;> exact h
  | fnd k W =>
    have := hf (fun w => P.keyEq (P.keyOf w) k) W
    simp only [step]
    generalize findStep m (fun w => P.keyEq (P.keyOf w) k) W = r at this ⊢
    rcases r with ⟨m', W' | (_ | p)⟩ <;> exact this
  | ins v pc =>
    have key : ∀ b eq, (insStep m v b eq ex pc).1.ub = true := by
      intro b eq
      cases pc with
      | c1 W =>
        have := hf eq W
        simp only [insStep]
        generalize findStep m eq W = r at this ⊢
        rcases r with ⟨m', W' | (_ | p)⟩ <;> exact this
      | c2 W =>
        have := hf eq W
        simp only [insStep]
        generalize findStep m eq W = r at this ⊢
        rcases r with ⟨m', W' | (_ | p)⟩ <;> exact this
      | c3 e e' W =>
        have := hf eq W
        simp only [insStep]
        generalize findStep m eq W = r at this ⊢
        rcases r with ⟨m', W' | (_ | p)⟩ <;> dsimp only <;> (try split) <;> exact this
      | e1 W =>
        have := he W
        simp only [insStep]
        generalize endStep m W = r at this ⊢
        rcases r with ⟨m', W' | p⟩ <;> exact this
      | e2 e W =>
        have := he W
        simp only [insStep]
        generalize endStep m W = r at this ⊢
        rcases r with ⟨m', W' | p⟩ <;> exact this
      | pop e =>
        simp only [insStep]
        split
        · split <;> exact h
        · exact h
      | lockB => simp only [insStep]; split <;> exact h
      | lockE e => simp only [insStep]; split <;> exact h
      | consB => simp [insStep, constructAt, h]
      | cons e n => simp [insStep, constructAt, h]
      | _ => exact h
    have := key (bucket P m.tab (P.keyOf v)) (fun w => P.keyEq (P.keyOf w) (P.keyOf v))
    simp only [step]
    generalize insStep m v (bucket P m.tab (P.keyOf v)) (fun w => P.keyEq (P.keyOf w) (P.keyOf v)) ex pc = r at this ⊢
    rcases r with ⟨m', ex', pc' | (_ | p)⟩ <;> exact this
  | era k pc =>
    have key : ∀ b eq, (eraStep m b eq ex pc).1.ub = true := by
      intro b eq
      cases pc with
      | f1 W =>
        have := hf eq W
        simp only [eraStep]
        generalize findStep m eq W = r at this ⊢
        rcases r with ⟨m', W' | (_ | p)⟩ <;> exact this
      | f2 p W =>
        have := hf eq W
        simp only [eraStep]
        generalize findStep m eq W = r at this ⊢
        rcases r with ⟨m', W' | r⟩ <;> exact this
      | f3 p q' W =>
        have := hf eq W
        simp only [eraStep]
        generalize findStep m eq W = r at this ⊢
        rcases r with ⟨m', W' | r⟩ <;> exact this
      | p1 p W =>
        have := hp p W
        simp only [eraStep]
        generalize prevStep m p W = r at this ⊢
        rcases r with ⟨m', W' | r⟩ <;> exact this
      | p2 p q' it W =>
        have := hp p W
        simp only [eraStep]
        generalize prevStep m p W = r at this ⊢
        rcases r with ⟨m', W' | r⟩ <;> exact this
      | lockB p => simp only [eraStep]; split <;> exact h
      | lock1 p q' => simp only [eraStep]; split <;> exact h
      | lock2 p q' => simp only [eraStep]; split <;> exact h
      | desB p => simp [eraStep, destroyAt, h]
      | des p q' => simp [eraStep, destroyAt, h]
      | _ => exact h
    have := key (bucket P m.tab k) (fun w => P.keyEq (P.keyOf w) k)
    simp only [step]
    generalize eraStep m (bucket P m.tab k) (fun w => P.keyEq (P.keyOf w) k) ex pc = r at this ⊢
    rcases r with ⟨m', ex', pc' | ok⟩ <;> exact this

theorem Inv.step (hq : ∀ a b, P.keyEq a b = true → q a = q b) {t₀ : Tab V} (h0 : 0 < t₀.bc) (h1 : t₀.bc < 2 ^ 63)
    (hle : t₀.bc ≤ t₀.total) {s : Sys (Shared V) (Thread K V)} (h : Inv P q t₀ s) {i : Nat} {t : Thread K V}
    (ht : s.threads[i]? = some t) (hu : (UnorderedConc.step P s.shared t).1.ub = false) :
    Inv P q t₀ ⟨(UnorderedConc.step P s.shared t).1, s.threads.set i (UnorderedConc.step P s.shared t).2⟩ := by
  have hm := List.mem_of_getElem? ht
  have hlt := (List.getElem?_eq_some_iff.1 ht).1
  have hh : ∀ p ∈ tHeld P t₀.bc t, s.shared.tab.locks p = true := by
    intro p hp
    have e1 := le_sum_map (fun t => (tHeld P t₀.bc t).count p) s.threads t hm
    have e2 := List.count_pos_iff.2 hp
    have e3 := h.lock p
    cases hl : s.shared.tab.locks p
    · rw [hl] at e3; simp at e3; omega
    · rfl
  obtain ⟨eff, hg⟩ := step_ok hq h.bc h0 h1 (by rw [h.total]; exact hle) h.g (h.good t hm) hh hu
  generalize UnorderedConc.step P s.shared t = r at eff hg hu
  obtain ⟨m', t'⟩ := r
  dsimp only at eff hg hu ⊢
  have frame : ∀ (j : Nat) (u : Thread K V), j ≠ i → s.threads[j]? = some u → ∀ p, tTok P t₀.bc u = some p →
      m'.tab.occ p = s.shared.tab.occ p ∧ m'.tab.live p = true ∧ m'.tab.val p = s.shared.tab.val p := by
    intro j u hj hu p hp
    exact eff.frame p (fun e => h.own i j t u p (fun e => hj e.symm) ht hu e hp) (tok_good (h.good u (List.mem_of_getElem? hu)) hp).1
  have own1 : ∀ (j : Nat) (u : Thread K V) (p : Nat), j ≠ i → s.threads[j]? = some u → tTok P t₀.bc t' = some p →
      tTok P t₀.bc u ≠ some p := by
    intro j u p hj hu hp e
    obtain ⟨e1, e2⟩ := tok_good (h.good u (List.mem_of_getElem? hu)) e
    rcases eff.gain p hp with e3 | e3 | ⟨e3, e4⟩
    · exact h.own i j t u p (fun e => hj e.symm) ht hu e3 e
    · rw [e1] at e3; cases e3
    · rcases e2 with e2 | e2
      · have e5 := add_le_sum_map (fun t => (tHeld P t₀.bc t).count p) s.threads i j t u (fun e => hj e.symm) ht hu
        have e9 := h.lock p
        have e6 := List.count_pos_iff.2 e2
        have e7 := List.count_pos_iff.2 e4
        have e8 := Bool.toNat_le (s.shared.tab.locks p)
        omega
      · rw [e3] at e2; cases e2
  refine ⟨eff.g, eff.total.trans h.total, eff.bc.trans h.bc, ?_, ?_, ?_, ?_, ?_, ?_⟩
  · intro u hu
    rcases mem_set_cases _ _ _ _ hu with rfl | ⟨j, hj, hu⟩
    · exact hg
    · exact good_frame eff.total eff.cap (frame j u hj hu) (h.good u (List.mem_of_getElem? hu))
  · intro j1 j2 u1 u2 p hne h1 h2 e1
    rcases getElem?_set_cases _ _ _ _ _ h1 with ⟨rfl, rfl⟩ | ⟨n1, h1'⟩
    · rcases getElem?_set_cases _ _ _ _ _ h2 with ⟨rfl, rfl⟩ | ⟨n2, h2⟩
      · exact absurd rfl hne
      · exact own1 j2 u2 p n2 h2 e1
    · rcases getElem?_set_cases _ _ _ _ _ h2 with ⟨rfl, rfl⟩ | ⟨n2, h2⟩
      · intro e2; exact own1 j1 u1 p n1 h1' e2 e1
      · exact h.own j1 j2 u1 u2 p hne h1' h2 e1
  · intro p
    have e1 := sum_map_set (fun t => (tHeld P t₀.bc t).count p) s.threads i t t' ht
    have e2 := eff.lock p
    have e3 := h.lock p
    dsimp only at e1 e3 ⊢
    omega
  · have e1 := sum_map_set (tE q) s.threads i t t' ht
    have e2 := sum_map_set (tI P q) s.threads i t t' ht
    have e3 := eff.bal
    have e4 := h.bal
    dsimp only
    omega
  · have e1 := sum_map_set (tC : Thread K V → Nat) s.threads i t t' ht
    have e2 := eff.cnt
    have e3 := h.cnt
    rw [h.total] at e2
    dsimp only
    omega
  · intro p hp e1 e2
    rcases eff.leak p e1 e2 with e3 | ⟨e3, e4, e5⟩
    · exact ⟨t', List.mem_of_getElem? (by rw [List.getElem?_set_self hlt]), e3⟩
    · obtain ⟨u, hu, e6⟩ := h.leak p hp e3 e4
      obtain ⟨j, hj⟩ := List.mem_iff_getElem?.1 hu
      have hji : j ≠ i := by
        rintro rfl
        rw [ht] at hj; cases hj
        exact e5 e6
      exact ⟨u, List.mem_of_getElem? (by rw [List.getElem?_set_ne (fun e => hji e.symm)]; exact hj), e6⟩

end
end Stdgpu.UnorderedConc.An

namespace Stdgpu.UnorderedConc.An
open Stdgpu.Conc
open Stdgpu.Unordered
open Stdgpu.Spec
variable {K V : Type} {P : Params K V} {q : K → Bool}

theorem inv_init {t : Tab V} {chain : Nat → List Nat} {free : List Nat} (h : Rep P t chain free) (progs : List (List (Op K V))) :
    Inv P q t (init t progs) := by
  have hth : ∀ u ∈ (init t progs : Sys (Shared V) (Thread K V)).threads, u.cur = .idle ∧ u.done = [] ∧
      u.ex = ⟨[], .front .check, []⟩ := by
    intro u hu
    simp only [init, List.mem_map] at hu
    obtain ⟨p, -, rfl⟩ := hu
    exact ⟨rfl, rfl, rfl⟩
  have hz : ∀ (f : Thread K V → Nat), (∀ u, u.cur = .idle → u.done = [] → f u = 0) →
      ((init t progs : Sys (Shared V) (Thread K V)).threads.map f).sum = 0 := by
    intro f hf
    rw [sum_map_eq_zero]
    exact fun u hu => hf u (hth u hu).1 (hth u hu).2.1
  refine ⟨⟨?_, ?_⟩, rfl, rfl, ?_, ?_, ?_, ?_, ?_, ?_⟩
  · intro p hp ho
    exact ⟨(h.live p hp).trans ho, h.val p hp ho⟩
  · intro i x hi hx
    have hx' : t.excess.slots.data i = some x := hx
    rw [h.excess.data i hi] at hx'
    exact (h.free_rng x (List.mem_of_getElem? hx')).2
  · intro u hu
    obtain ⟨e1, e2, e3⟩ := hth u hu
    refine ⟨?_, ?_⟩
    · rw [e3]; exact ⟨by simp, by simp, by simp⟩
    · rw [e1]; trivial
  · intro i j ti tj p _ hi _ e
    have := (hth ti (List.mem_of_getElem? hi)).1
    simp [tTok, this] at e
  · intro p
    rw [hz _ (fun u h1 _ => by simp [tHeld, h1])]
    exact Nat.zero_add _
  · rw [hz _ (fun u h1 h2 => by simp [tE, h1, h2]), hz _ (fun u h1 h2 => by simp [tI, h1, h2])]
    rfl
  · rw [hz _ (fun u h1 h2 => by simp [tC, h1])]
    exact h.count
  · intro p hp h1 h2
    have h1' : t.live p = true := h1
    have h2' : t.occ p = false := h2
    rw [h.live p hp, h2'] at h1'
    cases h1'

/-- The invariant holds in every execution as long as nothing undefined has happened. -/
theorem inv_run (hq : ∀ a b, P.keyEq a b = true → q a = q b) {t : Tab V} {chain : Nat → List Nat} {free : List Nat}
    (h : Rep P t chain free) (progs : List (List (Op K V))) (sched : List Nat) :
    (uexec P t progs sched).shared.ub = true ∨ Inv P q t (uexec P t progs sched) := by
  refine run_inv (f := step P) (fun s => s.shared.ub = true ∨ Inv P q t s) ?_ _ (.inr (inv_init h progs)) sched
  intro s i u hs hu
  by_cases hb : (step P s.shared u).1.ub = true
  · exact .inl hb
  · rcases hs with hs | hs
    · exact absurd (ub_mono hs) hb
    · exact .inr (hs.step hq h.bc_pos h.bc_lt h.bc_le hu (by simpa using hb))

end Stdgpu.UnorderedConc.An
