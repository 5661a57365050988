import Verif.Proof.UFindBound
/-! How many steps a lookup takes while other threads erase, or insert and erase separated keys. -/
namespace Stdgpu.UnorderedConc.Er
open Stdgpu.Conc
open Stdgpu.Unordered
open Stdgpu.Spec (KeyLaws)
variable {K V : Type}

/-- Steps left, when `l` entries follow. -/
def eraRank (l : Nat) : Walk → Nat
  | .occ _ => if l = 0 then 2 else 4 * l + 3
  | .val _ => if l = 0 then 1 else 4 * l + 2
  | .off1 _ => if l = 0 then 0 else 4 * l + 1
  | .off2 _ => if l = 0 then 3 else 4 * l

theorem eraRank_mono {l l' : Nat} (h : l' ≤ l) (W : Walk) : eraRank l' W ≤ eraRank l W := by
  cases W <;> simp only [eraRank] <;> split <;> split <;> omega

theorem eraRank_val (l w : Nat) : eraRank l (.val w) + 1 ≤ eraRank l (.occ w) := by
  simp only [eraRank]; split <;> omega
theorem eraRank_occ (l w : Nat) : eraRank l (.off1 w) + 1 ≤ eraRank l (.occ w) := by
  simp only [eraRank]; split <;> omega
theorem eraRank_off1 (l w : Nat) : eraRank l (.off1 w) + 1 ≤ eraRank l (.val w) := by
  simp only [eraRank]; split <;> omega

theorem eraRank_pos1 {l : Nat} (h : l ≠ 0) (w : Nat) : eraRank l (.off1 w) = 4 * l + 1 := by simp only [eraRank, if_neg h]
theorem eraRank_pos2 {l : Nat} (h : l ≠ 0) (w : Nat) : eraRank l (.off2 w) = 4 * l := by simp only [eraRank, if_neg h]
theorem eraRank_zero2 {l : Nat} (h : l = 0) (w : Nat) : eraRank l (.off2 w) = 3 := by simp only [eraRank, if_pos h]
theorem eraRank_zero {l : Nat} (h : l = 0) (w : Nat) : eraRank l (.occ w) = 2 := by simp only [eraRank, if_pos h]
theorem eraRank_le (l w : Nat) : eraRank l (.occ w) ≤ 4 * l + 3 := by simp only [eraRank]; split <;> omega

theorem eraRank_le_all (l : Nat) (W : Walk) : eraRank l W ≤ 4 * l + 3 := by
  cases W <;> simp only [eraRank] <;> split <;> omega

section
variable {P : Params K V} {E : Start P}

def EraQ (E : Start P) (i n : Nat) (s : Sys (Shared V) (Thread K V)) : Prop :=
  ∃ path xp, Inv E path xp s ∧ Looks P E.t₀.bc i s
    (fun _ W => eraRank (path W.pos).length W ≤ n) (4 * (E.t₀.total - E.t₀.bc + 1) ≤ n)

theorem path_len {tab : Tab V} {path : Nat → List Nat} (g : G E tab path) {b : Nat} (hb : b < E.t₀.bc) :
    (path b).length ≤ E.t₀.total - E.t₀.bc := by
  have h1 : (path b) ⊆ (List.range (E.t₀.total - E.t₀.bc)).map (· + E.t₀.bc) := by
    intro x hx
    have := E.rep.rng b hb x (g.sub b hb b (by simp) x hx)
    simp only [List.mem_map, List.mem_range]
    exact ⟨x - E.t₀.bc, by omega, by omega⟩
  have h2 := ((List.nodup_cons.1 (g.nodup b hb b (by simp))).2.subperm h1).length_le
  simpa using h2

theorem path_len' {tab : Tab V} {path : Nat → List Nat} (g : G E tab path) {b w : Nat} (hb : b < E.t₀.bc)
    (hw : w ∈ b :: E.chain₀ b) : (path w).length ≤ E.t₀.total - E.t₀.bc := by
  have h1 : (path w) ⊆ (List.range (E.t₀.total - E.t₀.bc)).map (· + E.t₀.bc) := by
    intro x hx
    have := E.rep.rng b hb x (g.sub b hb w hw x hx)
    simp only [List.mem_map, List.mem_range]
    exact ⟨x - E.t₀.bc, by omega, by omega⟩
  have h2 := ((List.nodup_cons.1 (g.nodup b hb w hw)).2.subperm h1).length_le
  simpa using h2

theorem eraQ_own (hl : KeyLaws P) {i n : Nat} {s : Sys (Shared V) (Thread K V)} {t : Thread K V} (h : EraQ E i n s)
    (ht : s.threads[i]? = some t) : t.done.length < (step P s.shared t).2.done.length ∨
      ((step P s.shared t).2.done = t.done ∧ ∃ m, m < n ∧ EraQ E i m ⟨(step P s.shared t).1, s.threads.set i (step P s.shared t).2⟩) := by
  obtain ⟨path, xp, hI, t0, ht0, hQ⟩ := h
  rw [ht] at ht0; cases ht0
  have hlt := (List.getElem?_eq_some_iff.1 ht).1
  obtain ⟨path', xp', hI', hr⟩ := hI.stepOK hl ht
  have ht' : (⟨(step P s.shared t).1, s.threads.set i (step P s.shared t).2⟩ : Sys (Shared V) (Thread K V)).threads[i]? =
          some (step P s.shared t).2 := by simp [hlt]
  rcases hQ with ⟨k, W, hcur, hn⟩ | ⟨k, rest, hcur, htodo, hn⟩
  · have hb := E.bkt_lt k
    have hk := hI.knows t (List.mem_of_getElem? ht)
    rw [hcur] at hk
    obtain ⟨-, hk⟩ := hk
    have hpath : ∀ w ∈ bkt P E.t₀.bc k :: E.chain₀ (bkt P E.t₀.bc k), (path' w).length ≤ (path w).length := fun w hw =>
      ((List.nodup_cons.1 (hI'.g.nodup _ hb w hw)).2.subperm (hr.pathS _ hb w hw)).length_le
    have goOn : ∀ (W' : Walk) (m : Nat), (step P s.shared t).2 = { t with cur := .fnd k W' } →
        W'.pos ∈ bkt P E.t₀.bc k :: E.chain₀ (bkt P E.t₀.bc k) → eraRank (path W'.pos).length W' ≤ m → m < n →
        t.done.length < (step P s.shared t).2.done.length ∨
        ((step P s.shared t).2.done = t.done ∧ ∃ m, m < n ∧ EraQ E i m ⟨(step P s.shared t).1, s.threads.set i (step P s.shared t).2⟩) := by
      intro W' m e1 e2 e3 e4
      right
      exact ⟨by rw [e1], m, e4, path', xp', hI', _, ht', .inl ⟨k, W', by rw [e1], (eraRank_mono (hpath _ e2) W').trans e3⟩⟩
    have hnode := hk.node
    cases W with
    | occ w =>
      simp only [Walk.pos] at hn
      have r1 := eraRank_val (path w).length w
      have r2 := eraRank_occ (path w).length w
      cases ho : s.shared.tab.occ w with
      | true =>
        exact goOn (.val w) (n - 1) (by simp [step, hcur, findStep, ho]) hnode (by simp only [Walk.pos]; omega) (by omega)
      | false =>
        exact goOn (.off1 w) (n - 1) (by simp [step, hcur, findStep, ho]) hnode (by simp only [Walk.pos]; omega) (by omega)
    | val w =>
      simp only [Walk.pos] at hn
      have r1 := eraRank_off1 (path w).length w
      obtain ⟨x, hx⟩ := Option.isSome_iff_exists.1 (E.rep.val w (E.lt hb hnode) hk.2.1)
      have hx' : s.shared.tab.val w = some x := by rw [hI.g.val]; exact hx
      cases heq : P.keyEq (P.keyOf x) k with
      | true => left; simp [step, hcur, findStep, hx', heq]
      | false =>
        exact goOn (.off1 w) (n - 1) (by simp [step, hcur, findStep, hx', heq]) hnode (by simp only [Walk.pos]; omega) (by omega)
    | off1 w =>
      simp only [Walk.pos] at hn
      rcases hI.g.hop hb hnode with ⟨-, e2, -⟩ | ⟨q, e1, -, e3, -⟩
      · left
        have e2' : s.shared.tab.off w = 0 := e2
        simp [step, hcur, findStep, e2']
      · have e3' : s.shared.tab.off w ≠ 0 := e3
        have hpos : (path w).length ≠ 0 := by rw [show path w = q :: path q from e1]; simp
        rw [eraRank_pos1 hpos] at hn
        exact goOn (.off2 w) (n - 1) (by simp [step, hcur, findStep, e3']) hnode (by simp only [Walk.pos]; rw [eraRank_pos2 hpos]; omega) (by omega)
    | off2 w =>
      simp only [Walk.pos] at hn
      rcases hI.g.hop hb hnode with ⟨e1, -, e3⟩ | ⟨q, e1, e2, -, e4⟩
      · have e3' : hop s.shared.tab w = some w := e3
        have hz : (path w).length = 0 := by rw [show path w = [] from e1]; rfl
        rw [eraRank_zero2 hz] at hn
        exact goOn (.occ w) (n - 1) (by simp [step, hcur, findStep, e3']) hnode (by simp only [Walk.pos]; rw [eraRank_zero hz]; omega) (by omega)
      · have e4' : hop s.shared.tab w = some q := e4
        have hq : (path w).length = (path q).length + 1 := by rw [show path w = q :: path q from e1]; rfl
        rw [eraRank_pos2 (by omega)] at hn
        have := eraRank_le (path q).length q
        exact goOn (.occ q) (n - 1) (by simp [step, hcur, findStep, e4']) (List.mem_cons_of_mem _ e2) (by simp only [Walk.pos]; omega) (by omega)
  · right
    have e1 : (step P s.shared t).2 = { t with todo := rest, cur := .fnd k (.occ (bucket P s.shared.tab k)) } := by
      simp [step, hcur, htodo, begin]
    refine ⟨by rw [e1], n - 1, by omega, path', xp', hI', _, ht', .inl ⟨k, _, by rw [e1], ?_⟩⟩
    have h1 : bucket P s.shared.tab k = bkt P E.t₀.bc k := by rw [bucket_eq, hI.g.bc]
    have := path_len hI'.g (E.bkt_lt k)
    simp only [Walk.pos, h1]
    have := eraRank_le (path' (bkt P E.t₀.bc k)).length (bkt P E.t₀.bc k)
    omega

theorem eraQ_other (hl : KeyLaws P) {i n j : Nat} {s : Sys (Shared V) (Thread K V)} {u : Thread K V} (hne : j ≠ i)
    (h : EraQ E i n s) (hu : s.threads[j]? = some u) :
    EraQ E i n ⟨(step P s.shared u).1, s.threads.set j (step P s.shared u).2⟩ := by
  obtain ⟨path, xp, hI, t0, ht0, hQ⟩ := h
  obtain ⟨path', xp', hI', hr⟩ := hI.stepOK hl hu
  refine ⟨path', xp', hI', t0, by simpa [List.getElem?_set_ne hne] using ht0, ?_⟩
  rcases hQ with ⟨k, W, hcur, hn⟩ | hQ
  · have hb := E.bkt_lt k
    have hk := hI.knows t0 (List.mem_of_getElem? ht0)
    rw [hcur] at hk
    have hpath : (path' W.pos).length ≤ (path W.pos).length :=
      ((List.nodup_cons.1 (hI'.g.nodup _ hb _ hk.2.node)).2.subperm (hr.pathS _ hb _ hk.2.node)).length_le
    exact .inl ⟨k, W, hcur, (eraRank_mono hpath W).trans hn⟩
  · exact .inr hQ
end
end Stdgpu.UnorderedConc.Er

namespace Stdgpu.UnorderedConc.Mx
open Stdgpu.Conc
open Stdgpu.Unordered
open Stdgpu.Spec
variable {K V : Type}

/-- An erasure that may still unlink an entry. -/
def eZ : EPC → Nat
  | .reset _ _ | .cnt _ _ | .des _ _ | .push _ _ | .unlock1 _ _ true | .unlock2 _ true => 0
  | _ => 1

def cZ : Cur K V → Nat
  | .era _ pc => eZ pc
  | _ => 0

def isEra : Op K V → Bool
  | .erase _ => true
  | _ => false

def tZ (t : Thread K V) : Nat := t.todo.countP isEra + cZ t.cur

def sZ (s : Sys (Shared V) (Thread K V)) : Nat := (s.threads.map tZ).sum

section
variable {P : Params K V} {E : Start P}

theorem ex_off (m : Shared V) (ex : Ex) : (exStep m ex).1.tab.off = m.tab.off := rfl

theorem find_off (m : Shared V) (eq : V → Bool) (W : Walk) : (findStep m eq W).1.tab.off = m.tab.off := by
  cases W <;> simp only [findStep] <;> (try split) <;> rfl

theorem end_off (m : Shared V) (W : Hop) : (endStep m W).1.tab.off = m.tab.off := by
  cases W <;> simp only [endStep] <;> (try split) <;> rfl

theorem prev_off (m : Shared V) (p : Nat) (W : Hop) : (prevStep m p W).1.tab.off = m.tab.off := by
  cases W <;> simp only [prevStep] <;> (try split) <;> rfl

/-- What a step of an insertion does with the offsets of buckets. -/
theorem ins_off {m : Shared V} {v : V} {b : Nat} {eq : V → Bool} {ex : Ex} {pc : IPC} {c : Nat} (hc : c < E.t₀.bc)
    (h1 : ∀ e n, pc = .off e n → Exc E n) (h2 : ∀ e n, pc = .link e n → Exc E n) (h0 : m.tab.off c ≠ 0) :
    (insStep m v b eq ex pc).1.tab.off c ≠ 0 := by
  cases pc with
  | off e n =>
    have := (h1 e n rfl).1
    simp only [insStep, setOff, SlotConc.upd]
    rw [if_neg (by omega)]; exact h0
  | link e n =>
    have := (h2 e n rfl).1
    simp only [insStep, setOff, SlotConc.upd]
    split
    · subst_vars; omega
    · exact h0
  | c1 W =>
    have := find_off m eq W
    simp only [insStep]
    rcases hf : findStep m eq W with ⟨m', W' | (_ | p)⟩ <;> rw [hf] at this <;> dsimp only at this ⊢ <;> rw [this] <;> exact h0
  | c2 W =>
    have := find_off m eq W
    simp only [insStep]
    rcases hf : findStep m eq W with ⟨m', W' | (_ | p)⟩ <;> rw [hf] at this <;> dsimp only at this ⊢ <;> rw [this] <;> exact h0
  | c3 e e' W =>
    have := find_off m eq W
    simp only [insStep]
    rcases hf : findStep m eq W with ⟨m', W' | (_ | p)⟩ <;> rw [hf] at this <;> dsimp only at this ⊢ <;> (try split) <;> rw [this] <;> exact h0
  | e1 W =>
    have := end_off m W
    simp only [insStep]
    rcases hf : endStep m W with ⟨m', W' | p⟩ <;> rw [hf] at this <;> dsimp only at this ⊢ <;> rw [this] <;> exact h0
  | e2 e W =>
    have := end_off m W
    simp only [insStep]
    rcases hf : endStep m W with ⟨m', W' | p⟩ <;> rw [hf] at this <;> dsimp only at this ⊢ <;> rw [this] <;> exact h0
  | pop e =>
    simp only [insStep]
    split
    · split <;> exact h0
    · exact h0
  | lockB | lockE e => simp only [insStep]; split <;> exact h0
  | unlock p r => exact h0
  | _ => exact h0

def nZ : Next EPC Bool → Nat
  | .go pc => eZ pc
  | .ret _ => 0

/-- A step of an erasure unlinks or keeps the offsets. -/
theorem era_off {m : Shared V} {b : Nat} {eq : V → Bool} {ex : Ex} {pc : EPC} {c : Nat} :
    nZ (eraStep m b eq ex pc).2.2 ≤ eZ pc ∧
      (nZ (eraStep m b eq ex pc).2.2 < eZ pc ∨ (eraStep m b eq ex pc).1.tab.off c = m.tab.off c) := by
  cases pc with
  | f1 W =>
    have := find_off m eq W
    simp only [eraStep]
    rcases hf : findStep m eq W with ⟨m', W' | (_ | p)⟩ <;> rw [hf] at this <;> dsimp only at this ⊢ <;> rw [this] <;>
      (try split) <;> simp [nZ, eZ]
  | f2 p W =>
    have := find_off m eq W
    simp only [eraStep]
    rcases hf : findStep m eq W with ⟨m', W' | r⟩ <;> rw [hf] at this <;> dsimp only at this ⊢ <;> rw [this] <;>
      (try split) <;> simp [nZ, eZ]
  | f3 p q W =>
    have := find_off m eq W
    simp only [eraStep]
    rcases hf : findStep m eq W with ⟨m', W' | r⟩ <;> rw [hf] at this <;> dsimp only at this ⊢ <;> rw [this] <;>
      simp [nZ, eZ]
  | p1 p W =>
    have := prev_off m p W
    simp only [eraStep]
    rcases hf : prevStep m p W with ⟨m', W' | r⟩ <;> rw [hf] at this <;> dsimp only at this ⊢ <;> rw [this] <;>
      simp [nZ, eZ]
  | p2 p q it W =>
    have := prev_off m p W
    simp only [eraStep]
    rcases hf : prevStep m p W with ⟨m', W' | r⟩ <;> rw [hf] at this <;> dsimp only at this ⊢ <;> rw [this] <;>
      (try split) <;> simp [nZ, eZ]
  | lockB p => simp only [eraStep]; split <;> simp [nZ, eZ, setLock]
  | lock1 p q => simp only [eraStep]; split <;> simp [nZ, eZ, setLock]
  | lock2 p q => simp only [eraStep]; split <;> simp [nZ, eZ, setLock]
  | unlockB p ok => cases ok <;> simp [eraStep, nZ, eZ, setLock]
  | unlock1 p q ok => cases ok <;> simp [eraStep, nZ, eZ, setLock]
  | unlock2 q ok => cases ok <;> simp [eraStep, nZ, eZ, setLock]
  | rd1 p q => simp only [eraStep]; split <;> simp [nZ, eZ]
  | push p q =>
    simp only [eraStep]
    split <;> simp [nZ, eZ, ex_off]
  | _ => simp [eraStep, nZ, eZ, setLock, setOcc, setOff, addCount, destroyAt]

/-- A step of a thread unlinks an entry or does not cut off a bucket. -/
theorem step_off {m : Shared V} {t : Thread K V} {c : Nat} (hc : c < E.t₀.bc) (hk : Knows E m.tab t.ex t.cur) :
    tZ (step P m t).2 ≤ tZ t ∧ (tZ (step P m t).2 < tZ t ∨ (m.tab.off c ≠ 0 → (step P m t).1.tab.off c ≠ 0)) := by
  obtain ⟨todo, cur, ex, done⟩ := t
  cases cur with
  | idle =>
    cases todo with
    | nil => exact ⟨Nat.le_refl _, .inr id⟩
    | cons op rest => cases op <;> simp [step, begin, tZ, cZ, isEra, eZ, List.countP_cons]
  | fnd k W =>
    have := find_off m (fun w => P.keyEq (P.keyOf w) k) W
    simp only [step]
    rcases hf : findStep m (fun w => P.keyEq (P.keyOf w) k) W with ⟨m', W' | (_ | p)⟩ <;> rw [hf] at this <;>
      dsimp only at this ⊢ <;> rw [this] <;> simp [tZ, cZ]
  | ins v pc =>
    have h := ins_off (E := E) (m := m) (v := v) (b := bucket P m.tab (P.keyOf v))
      (eq := fun w => P.keyEq (P.keyOf w) (P.keyOf v)) (ex := ex) (pc := pc) hc
      (fun e n hpc => own_exc hk (by subst hpc; simp [own])) (fun e n hpc => own_exc hk (by subst hpc; simp [own]))
    simp only [step]
    generalize insStep m v (bucket P m.tab (P.keyOf v)) (fun w => P.keyEq (P.keyOf w) (P.keyOf v)) ex pc = r at h ⊢
    rcases r with ⟨m', ex', pc' | (_ | p)⟩ <;> dsimp only at h ⊢ <;> exact ⟨by simp [tZ, cZ], .inr h⟩
  | era k pc =>
    have h := era_off (m := m) (b := bucket P m.tab k) (eq := fun w => P.keyEq (P.keyOf w) k) (ex := ex) (pc := pc) (c := c)
    simp only [step]
    generalize eraStep m (bucket P m.tab k) (fun w => P.keyEq (P.keyOf w) k) ex pc = r at h ⊢
    rcases r with ⟨m', ex', pc' | ok⟩ <;> simp only [nZ] at h <;> simp only [tZ, cZ]
    · refine ⟨by omega, ?_⟩
      rcases h.2 with h | h
      · left; omega
      · right; rw [h]; exact id
    · refine ⟨by omega, ?_⟩
      rcases h.2 with h | h
      · left; omega
      · right; rw [h]; exact id

/-- Steps left of a lookup in bucket `b`, except for restarts. -/
def mixRank (t : Tab V) (b : Nat) : Walk → Nat
  | .occ w => if w = b then 6 else 2
  | .val w => if w = b then 5 else 1
  | .off1 w => if w = b then 4 else 0
  | .off2 _ => if t.off b = 0 then 7 else 3

theorem mixRank_le (t : Tab V) (b : Nat) (W : Walk) : mixRank t b W ≤ 7 := by
  cases W <;> simp only [mixRank] <;> split <;> omega

def MixQ (E : Start P) (i n : Nat) (s : Sys (Shared V) (Thread K V)) : Prop :=
  ∃ xp, Inv E xp s ∧ Looks P E.t₀.bc i s
    (fun k W => 4 * sZ s + mixRank s.shared.tab (bkt P E.t₀.bc k) W ≤ n) (4 * sZ s + 7 ≤ n)

theorem sZ_step {s : Sys (Shared V) (Thread K V)} {j : Nat} {u : Thread K V} (hu : s.threads[j]? = some u) :
    sZ ⟨(step P s.shared u).1, s.threads.set j (step P s.shared u).2⟩ + tZ u = sZ s + tZ (step P s.shared u).2 :=
  sum_map_set tZ s.threads j u (step P s.shared u).2 hu

theorem mixQ_own (hl : KeyLaws P) {i n : Nat} {s : Sys (Shared V) (Thread K V)} {t : Thread K V} (h : MixQ E i n s)
    (ht : s.threads[i]? = some t) : t.done.length < (step P s.shared t).2.done.length ∨
      ((step P s.shared t).2.done = t.done ∧ ∃ m, m < n ∧ MixQ E i m ⟨(step P s.shared t).1, s.threads.set i (step P s.shared t).2⟩) := by
  obtain ⟨xp, hI, t0, ht0, hQ⟩ := h
  rw [ht] at ht0; cases ht0
  have hlt := (List.getElem?_eq_some_iff.1 ht).1
  obtain ⟨xp', hI'⟩ := hI.step hl ht
  have hz := sZ_step (P := P) ht
  have ht' : (⟨(step P s.shared t).1, s.threads.set i (step P s.shared t).2⟩ : Sys (Shared V) (Thread K V)).threads[i]? =
          some (step P s.shared t).2 := by simp [hlt]
  rcases hQ with ⟨k, W, hcur, hn⟩ | ⟨k, rest, hcur, htodo, hn⟩
  · have hb := E.bkt_lt k
    have hbt : bkt P E.t₀.bc k < E.t₀.total := Nat.lt_of_lt_of_le hb E.rep.bc_le
    have hk := hI.knows t (List.mem_of_getElem? ht)
    rw [hcur] at hk
    obtain ⟨-, hk⟩ := hk
    replace hn : 4 * sZ s + mixRank s.shared.tab (bkt P E.t₀.bc k) W ≤ n := hn
    have goOn : ∀ (W' : Walk), (step P s.shared t).2 = { t with cur := .fnd k W' } →
        (step P s.shared t).1.tab.off = s.shared.tab.off →
        mixRank s.shared.tab (bkt P E.t₀.bc k) W' < mixRank s.shared.tab (bkt P E.t₀.bc k) W →
        t.done.length < (step P s.shared t).2.done.length ∨
        ((step P s.shared t).2.done = t.done ∧ ∃ m, m < n ∧ MixQ E i m ⟨(step P s.shared t).1, s.threads.set i (step P s.shared t).2⟩) := by
      intro W' e1 e2 e3
      right
      have e4 : tZ (step P s.shared t).2 = tZ t := by rw [e1]; simp [tZ, cZ, hcur]
      refine ⟨by rw [e1], n - 1, by omega, xp', hI', _, ht', .inl ⟨k, W', by rw [e1], ?_⟩⟩
      have e5 : mixRank (step P s.shared t).1.tab (bkt P E.t₀.bc k) W' = mixRank s.shared.tab (bkt P E.t₀.bc k) W' := by
        cases W' <;> simp only [mixRank, e2]
      show 4 * sZ _ + mixRank (step P s.shared t).1.tab _ W' ≤ n - 1
      rw [e5]
      omega
    cases W with
    | occ w =>
      cases ho : s.shared.tab.occ w with
      | true => exact goOn (.val w) (by simp [step, hcur, findStep, ho]) (by simp [step, hcur, findStep, ho]) (by simp only [mixRank]; split <;> omega)
      | false => exact goOn (.off1 w) (by simp [step, hcur, findStep, ho]) (by simp [step, hcur, findStep, ho]) (by simp only [mixRank]; split <;> omega)
    | val w =>
      obtain ⟨-, x, hx, -⟩ := hk
      cases heq : P.keyEq (P.keyOf x) k with
      | true => left; simp [step, hcur, findStep, hx, heq]
      | false => exact goOn (.off1 w) (by simp [step, hcur, findStep, hx, heq]) (by simp [step, hcur, findStep, hx, heq]) (by simp only [mixRank]; split <;> omega)
    | off1 w =>
      by_cases h0 : s.shared.tab.off w = 0
      · left; simp [step, hcur, findStep, h0]
      · have hwb : w = bkt P E.t₀.bc k := by
          rcases hk with h | ⟨-, h⟩
          · exact h
          · exact absurd h h0
        refine goOn (.off2 w) (by simp [step, hcur, findStep, h0]) (by simp [step, hcur, findStep, h0]) ?_
        simp only [mixRank]
        rw [if_pos hwb, if_neg (by rw [← hwb]; exact h0)]
        omega
    | off2 w =>
      have hwb : w = bkt P E.t₀.bc k := hk
      subst hwb
      rcases hI.g.offB _ hb with h0 | ⟨q, hq⟩
      · have hz := hop_zero hI.g hbt h0
        refine goOn (.occ (bkt P E.t₀.bc k)) (by simp [step, hcur, findStep, hz]) (by simp [step, hcur, findStep, hz]) ?_
        simp only [mixRank]
        rw [if_pos h0]; simp
      · have hz := hop_lk hI.g hq
        refine goOn (.occ q) (by simp [step, hcur, findStep, hz]) (by simp [step, hcur, findStep, hz]) ?_
        simp only [mixRank]
        rw [if_neg hq.ne0, if_neg hq.ne]; omega
  · right
    have e1 : (step P s.shared t).2 = { t with todo := rest, cur := .fnd k (.occ (bucket P s.shared.tab k)) } := by
      simp [step, hcur, htodo, begin]
    have e4 : tZ (step P s.shared t).2 = tZ t := by rw [e1]; simp [tZ, cZ, hcur, htodo, isEra]
    refine ⟨by rw [e1], n - 1, by omega, xp', hI', _, ht', .inl ⟨k, _, by rw [e1], ?_⟩⟩
    have h1 : bucket P s.shared.tab k = bkt P E.t₀.bc k := by rw [bucket_eq, hI.g.bc]
    show 4 * sZ _ + mixRank _ _ _ ≤ n - 1
    simp only [mixRank, h1, if_true]
    omega

theorem mixQ_other (hl : KeyLaws P) {i n j : Nat} {s : Sys (Shared V) (Thread K V)} {u : Thread K V} (hne : j ≠ i)
    (h : MixQ E i n s) (hu : s.threads[j]? = some u) :
    MixQ E i n ⟨(step P s.shared u).1, s.threads.set j (step P s.shared u).2⟩ := by
  obtain ⟨xp, hI, t0, ht0, hQ⟩ := h
  obtain ⟨xp', hI'⟩ := hI.step hl hu
  have hz := sZ_step (P := P) hu
  have hk := hI.knows u (List.mem_of_getElem? hu)
  refine ⟨xp', hI', t0, by simpa [List.getElem?_set_ne hne] using ht0, ?_⟩
  rcases hQ with ⟨k, W, hcur, hn⟩ | ⟨k, rest, hcur, htodo, hn⟩
  · obtain ⟨s1, s2⟩ := step_off (P := P) (E.bkt_lt k) hk
    refine .inl ⟨k, W, hcur, ?_⟩
    replace hn : 4 * sZ s + mixRank s.shared.tab (bkt P E.t₀.bc k) W ≤ n := hn
    show 4 * sZ _ + mixRank (step P s.shared u).1.tab _ W ≤ n
    have key : mixRank (step P s.shared u).1.tab (bkt P E.t₀.bc k) W ≤ mixRank s.shared.tab (bkt P E.t₀.bc k) W ∨
        (tZ (step P s.shared u).2 < tZ u ∧
          mixRank (step P s.shared u).1.tab (bkt P E.t₀.bc k) W ≤ mixRank s.shared.tab (bkt P E.t₀.bc k) W + 4) := by
      cases W with
      | off2 w =>
        simp only [mixRank]
        rcases s2 with s2 | s2
        · right; refine ⟨s2, ?_⟩; split <;> split <;> omega
        · left
          by_cases h0 : s.shared.tab.off (bkt P E.t₀.bc k) = 0
          · rw [if_pos h0]; split <;> omega
          · rw [if_neg h0, if_neg (s2 h0)]
      | _ => left; exact Nat.le_refl _
    rcases key with h | ⟨h, h'⟩ <;> omega
  · obtain ⟨s1, -⟩ := step_off (P := P) (E.bkt_lt k) hk
    refine .inr ⟨k, rest, hcur, htodo, ?_⟩
    omega


/-- The erasures that may still unlink an entry do not become more. -/
theorem sZ_run (hl : KeyLaws P) (sched : List Nat) :
    sZ (uexec P E.t₀ E.progs sched) ≤ sZ (init E.t₀ E.progs) := by
  have := run_inv (f := step P) (fun s => (∃ xp, Inv E xp s) ∧ sZ s ≤ sZ (init E.t₀ E.progs)) ?_ (init E.t₀ E.progs)
    ⟨⟨_, inv_init E⟩, Nat.le_refl _⟩ sched
  · exact this.2
  · rintro s i t ⟨⟨xp, h⟩, hz⟩ ht
    refine ⟨h.step hl ht, ?_⟩
    have h1 := (step_off (P := P) (E := E) (c := 0) (Nat.lt_of_le_of_lt (Nat.zero_le _) E.rep.bc_pos) (h.knows t (List.mem_of_getElem? ht))).1
    have h2 := sZ_step (P := P) ht
    omega

theorem sZ_init (t : Tab V) (progs : List (List (Op K V))) :
    sZ (init t progs) = progs.flatten.countP isEra := by
  simp only [sZ, init, List.map_map]
  induction progs with
  | nil => rfl
  | cons p ps ih => simp_all [tZ, cZ, List.countP_append]

end
end Stdgpu.UnorderedConc.Mx
