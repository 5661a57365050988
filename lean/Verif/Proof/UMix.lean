import Verif.Proof.UConcEra6
import Mathlib.Tactic.Tauto
/-! Concurrent insertions, erasures and lookups when different keys have different buckets: what the threads know. -/
namespace Stdgpu.UnorderedConc.Mx
open Stdgpu.Conc
open Stdgpu.SlotConc (upd)
open Stdgpu.Unordered
open Stdgpu.Vector (FPC vfront countBits VInv)
open Stdgpu.Spec
variable {K V : Type}

/-- The parameters of the invariant that do not change; `used` are the keys that are stored or inserted. -/
structure Start (P : Params K V) where
  t₀ : Tab V
  chain₀ : Nat → List Nat
  free₀ : List Nat
  progs : List (List (Op K V))
  rep : Rep P t₀ chain₀ free₀
  used : K → Prop
  usedT : ∀ p v, p < t₀.total → t₀.occ p = true → t₀.val p = some v → used (P.keyOf v)
  usedI : ∀ p ∈ progs, ∀ v, Op.insert v ∈ p → used (P.keyOf v)
  sep : ∀ a b, used a → used b → bkt P t₀.bc a = bkt P t₀.bc b → P.keyEq a b = true

section
variable {P : Params K V}

theorem Start.bkt_lt (E : Start P) (k : K) : bkt P E.t₀.bc k < E.t₀.bc :=
  UnorderedConc.bkt_lt P E.t₀.bc k E.rep.bc_pos E.rep.bc_lt

/-- Excess entries. -/
def Exc (E : Start P) (n : Nat) : Prop := E.t₀.bc ≤ n ∧ n < E.t₀.total

/-- The excess entry `n` is in the chain of bucket `b`. -/
def Lk (E : Start P) (t : Tab V) (b n : Nat) : Prop := b < E.t₀.bc ∧ Exc E n ∧ (b : Int) + t.off b = n

/-- At `p` is or was a value of a used key. -/
def Good (E : Start P) (t : Tab V) (p : Nat) : Prop :=
  ∃ v, t.val p = some v ∧ E.used (P.keyOf v) ∧ (p < E.t₀.bc → bkt P E.t₀.bc (P.keyOf v) = p)

structure G (E : Start P) (t : Tab V) : Prop where
  bc : t.bc = E.t₀.bc
  total : t.total = E.t₀.total
  offB : ∀ b, b < E.t₀.bc → t.off b = 0 ∨ ∃ n, Lk E t b n
  lk : ∀ b n, Lk E t b n → t.occ n = true ∧ t.live n = true ∧ t.off n = 0 ∧ t.occ b = false ∧
    ∃ v, t.val n = some v ∧ E.used (P.keyOf v) ∧ bkt P E.t₀.bc (P.keyOf v) = b
  inj : ∀ b c n, Lk E t b n → Lk E t c n → b = c
  occG : ∀ p, p < E.t₀.total → t.occ p = true → Good E t p

variable {E : Start P} {t t' : Tab V}

theorem Lk.fn {b n n' : Nat} (h : Lk E t b n) (h' : Lk E t b n') : n = n' := by
  have := h.2.2; have := h'.2.2; omega

theorem Lk.ne0 {b n : Nat} (h : Lk E t b n) : t.off b ≠ 0 := by
  have := h.2.2; have := h.1; have := h.2.1.1; omega

theorem Lk.ne {b n : Nat} (h : Lk E t b n) : n ≠ b := by
  have := h.1; have := h.2.1.1; omega

theorem Exc.ne (h : Exc E n) (k : K) : n ≠ bkt P E.t₀.bc k := by
  have := E.bkt_lt k; have := h.1; omega

theorem hop_lk (g : G E t) {b n : Nat} (h : Lk E t b n) : hop t b = some n := by
  unfold hop
  have h1 := h.2.2
  have h2 := h.2.1.2
  rw [g.total]
  simp only [h1]
  rw [if_pos (by omega)]
  simp

theorem hop_zero (g : G E t) {b : Nat} (hb : b < E.t₀.total) (h : t.off b = 0) : hop t b = some b := by
  unfold hop
  rw [g.total, h]
  simp only [Int.add_zero]
  rw [if_pos (by omega)]
  simp

/-- The value at `p` matches the key. -/
def M (P : Params K V) (t : Tab V) (k : K) (p : Nat) : Prop := ∃ v, t.val p = some v ∧ P.keyEq (P.keyOf v) k = true

/-- The walk is at the bucket or at an entry that is or was in its chain. -/
def At (E : Start P) (t : Tab V) (b w : Nat) : Prop := w = b ∨ (Exc E w ∧ t.off w = 0)

def WK (E : Start P) (t : Tab V) (b : Nat) : Walk → Prop
  | .occ w => At E t b w
  | .val w => At E t b w ∧ Good E t w
  | .off1 w => At E t b w
  | .off2 w => w = b

def HK (E : Start P) (t : Tab V) (b : Nat) : Hop → Prop
  | .off1 w => At E t b w
  | .off2 w => w = b

/-- A walk of an insertion under the lock of the bucket. -/
def LW (E : Start P) (t : Tab V) (b : Nat) : Walk → Prop
  | .occ w => w = b ∨ Lk E t b w
  | .val w => (w = b ∧ t.occ b = true) ∨ Lk E t b w
  | .off1 w => w = b ∧ t.occ b = false
  | .off2 w => w = b ∧ t.occ b = false ∧ t.off b ≠ 0

/-- A walk of an insertion under the lock of the excess entry `n` of the chain. -/
def LWn (b n : Nat) : Walk → Prop
  | .occ w => w = b ∨ w = n
  | .val w => w = n
  | .off1 w => w = b
  | .off2 w => w = b

theorem findStep_mx {m : Shared V} (g : G E m.tab) (k : K) (W : Walk) (hW : WK E m.tab (bkt P E.t₀.bc k) W) :
    (∃ W' st, findStep m (fun w => P.keyEq (P.keyOf w) k) W = ({ m with stale := st }, .inl W') ∧
      WK E m.tab (bkt P E.t₀.bc k) W' ∧
      (∀ w, W' = .val w → W = .occ w ∧ m.tab.occ w = true) ∧
      (∀ w, W' = .off1 w → (W = .occ w ∧ m.tab.occ w = false) ∨
        (W = .val w ∧ ∃ v, m.tab.val w = some v ∧ P.keyEq (P.keyOf v) k = false)) ∧
      (∀ w, W' = .off2 w → W = .off1 w ∧ m.tab.off w ≠ 0) ∧
      (∀ w, W' = .occ w → W = .off2 (bkt P E.t₀.bc k) ∧
        ((w = bkt P E.t₀.bc k ∧ m.tab.off (bkt P E.t₀.bc k) = 0) ∨ Lk E m.tab (bkt P E.t₀.bc k) w))) ∨
    (∃ p st, findStep m (fun w => P.keyEq (P.keyOf w) k) W = ({ m with stale := st }, .inr (some p)) ∧ W = .val p ∧
      M P m.tab k p) ∨
    (findStep m (fun w => P.keyEq (P.keyOf w) k) W = (m, .inr none) ∧ ∃ w, W = .off1 w ∧ m.tab.off w = 0) := by
  have hb := E.bkt_lt k
  have hbt : bkt P E.t₀.bc k < E.t₀.total := Nat.lt_of_lt_of_le hb E.rep.bc_le
  have hlt : ∀ w, At E m.tab (bkt P E.t₀.bc k) w → w < E.t₀.total := by
    rintro w (rfl | ⟨h, -⟩)
    · exact hbt
    · exact h.2
  cases W with
  | occ w =>
    left
    cases ho : m.tab.occ w with
    | true =>
      refine ⟨.val w, m.stale, by simp [findStep, ho], ⟨hW, g.occG w (hlt w hW) ho⟩, ?_, by simp, by simp, by simp⟩
      intro w' e; cases e; exact ⟨rfl, ho⟩
    | false =>
      refine ⟨.off1 w, m.stale, by simp [findStep, ho], hW, by simp, ?_, by simp, by simp⟩
      intro w' e; cases e; exact .inl ⟨rfl, ho⟩
  | val w =>
    obtain ⟨hW, v, hv, -⟩ := hW
    cases heq : P.keyEq (P.keyOf v) k with
    | true =>
      right; left
      exact ⟨w, m.stale || !m.tab.live w, by simp only [findStep, hv, heq, if_true], rfl, v, hv, heq⟩
    | false =>
      left
      refine ⟨.off1 w, m.stale || !m.tab.live w, by simp only [findStep, hv, heq]; simp, hW, by simp, ?_, by simp, by simp⟩
      intro w' e; cases e; exact .inr ⟨rfl, v, hv, heq⟩
  | off1 w =>
    by_cases h0 : m.tab.off w = 0
    · right; right
      exact ⟨by simp [findStep, h0], w, rfl, h0⟩
    · left
      have hwb : w = bkt P E.t₀.bc k := by
        rcases hW with h | ⟨-, h⟩
        · exact h
        · exact absurd h h0
      refine ⟨.off2 w, m.stale, by simp [findStep, h0], hwb, by simp, by simp, ?_, by simp⟩
      intro w' e; cases e; exact ⟨rfl, h0⟩
  | off2 w =>
    left
    have hwb : w = bkt P E.t₀.bc k := hW
    subst hwb
    rcases g.offB _ hb with h0 | ⟨n, hn⟩
    · refine ⟨.occ (bkt P E.t₀.bc k), m.stale, by simp [findStep, hop_zero g hbt h0], .inl rfl, by simp, by simp, by simp, ?_⟩
      intro w' e; cases e; exact ⟨rfl, .inl ⟨rfl, h0⟩⟩
    · refine ⟨.occ n, m.stale, by simp [findStep, hop_lk g hn], .inr ⟨hn.2.1, (g.lk _ _ hn).2.2.1⟩, by simp, by simp, by simp, ?_⟩
      intro w' e; cases e; exact ⟨rfl, .inr hn⟩

theorem endStep_mx {m : Shared V} (g : G E m.tab) (k : K) (W : Hop) (hW : HK E m.tab (bkt P E.t₀.bc k) W) :
    (∃ W', endStep m W = (m, .inl W') ∧ HK E m.tab (bkt P E.t₀.bc k) W' ∧
      (W'.pos ≠ bkt P E.t₀.bc k → Lk E m.tab (bkt P E.t₀.bc k) W'.pos)) ∨
    (endStep m W = (m, .inr W.pos) ∧ At E m.tab (bkt P E.t₀.bc k) W.pos ∧ m.tab.off W.pos = 0) := by
  have hb := E.bkt_lt k
  have hbt : bkt P E.t₀.bc k < E.t₀.total := Nat.lt_of_lt_of_le hb E.rep.bc_le
  cases W with
  | off1 w =>
    by_cases h0 : m.tab.off w = 0
    · right
      exact ⟨by simp [endStep, h0, Hop.pos], hW, h0⟩
    · left
      have hwb : w = bkt P E.t₀.bc k := by
        rcases hW with h | ⟨-, h⟩
        · exact h
        · exact absurd h h0
      exact ⟨.off2 w, by simp [endStep, h0], hwb, by simp [Hop.pos, hwb]⟩
  | off2 w =>
    left
    have hwb : w = bkt P E.t₀.bc k := hW
    subst hwb
    rcases g.offB _ hb with h0 | ⟨n, hn⟩
    · exact ⟨.off1 (bkt P E.t₀.bc k), by simp [endStep, hop_zero g hbt h0], .inl rfl, by simp [Hop.pos]⟩
    · exact ⟨.off1 n, by simp [endStep, hop_lk g hn], .inr ⟨hn.2.1, (g.lk _ _ hn).2.2.1⟩, fun _ => hn⟩

theorem prevStep_mx {m : Shared V} (g : G E m.tab) (k : K) (p : Nat) (hp : Exc E p) (W : Hop)
    (hW : HK E m.tab (bkt P E.t₀.bc k) W) :
    (∃ W', prevStep m p W = (m, .inl W') ∧ HK E m.tab (bkt P E.t₀.bc k) W' ∧
      (W'.pos = bkt P E.t₀.bc k ∨ Lk E m.tab (bkt P E.t₀.bc k) W'.pos ∧ W'.pos ≠ p)) ∨
    (∃ q, prevStep m p W = (m, .inr q) ∧ At E m.tab (bkt P E.t₀.bc k) q ∧
      ((q = bkt P E.t₀.bc k ∧ Lk E m.tab q p) ∨ (q = W.pos ∧ m.tab.off q = 0))) := by
  have hb := E.bkt_lt k
  have hbt : bkt P E.t₀.bc k < E.t₀.total := Nat.lt_of_lt_of_le hb E.rep.bc_le
  cases W with
  | off1 w =>
    by_cases h0 : m.tab.off w = 0
    · right
      exact ⟨w, by simp [prevStep, h0], hW, .inr ⟨rfl, h0⟩⟩
    · left
      have hwb : w = bkt P E.t₀.bc k := by
        rcases hW with h | ⟨-, h⟩
        · exact h
        · exact absurd h h0
      exact ⟨.off2 w, by simp [prevStep, h0], hwb, .inl hwb⟩
  | off2 w =>
    have hwb : w = bkt P E.t₀.bc k := hW
    subst hwb
    rcases g.offB _ hb with h0 | ⟨n, hn⟩
    · left
      have hne := Exc.ne hp k
      exact ⟨.off1 (bkt P E.t₀.bc k), by simp [prevStep, hop_zero g hbt h0, Ne.symm hne], .inl rfl, .inl rfl⟩
    · by_cases hnp : n = p
      · right
        subst hnp
        exact ⟨bkt P E.t₀.bc k, by simp [prevStep, hop_lk g hn], .inl rfl, .inl ⟨rfl, hn⟩⟩
      · left
        exact ⟨.off1 n, by simp [prevStep, hop_lk g hn, hnp], .inr ⟨hn.2.1, (g.lk _ _ hn).2.2.1⟩, .inr ⟨hn, hnp⟩⟩

/-- A used key and a value in its bucket match. -/
theorem match_used (hl : KeyLaws P) {k : K} {v : V} (hk : E.used k) (hv : E.used (P.keyOf v))
    (hb : bkt P E.t₀.bc (P.keyOf v) = bkt P E.t₀.bc k) : P.keyEq (P.keyOf v) k = true := E.sep _ _ hv hk hb

/-- Walks under the lock of the bucket. -/
theorem findStep_lw {m : Shared V} (g : G E m.tab) {k : K} (hk : E.used k) (W : Walk)
    (hW : LW E m.tab (bkt P E.t₀.bc k) W) :
    (∃ W' st, findStep m (fun w => P.keyEq (P.keyOf w) k) W = ({ m with stale := st }, .inl W') ∧
      LW E m.tab (bkt P E.t₀.bc k) W') ∨
    (∃ p st, findStep m (fun w => P.keyEq (P.keyOf w) k) W = ({ m with stale := st }, .inr (some p))) ∨
    (findStep m (fun w => P.keyEq (P.keyOf w) k) W = (m, .inr none) ∧ m.tab.occ (bkt P E.t₀.bc k) = false ∧
      m.tab.off (bkt P E.t₀.bc k) = 0) := by
  have hb := E.bkt_lt k
  have hbt : bkt P E.t₀.bc k < E.t₀.total := Nat.lt_of_lt_of_le hb E.rep.bc_le
  cases W with
  | occ w =>
    left
    rcases hW with rfl | hW
    · cases ho : m.tab.occ (bkt P E.t₀.bc k) with
      | true => exact ⟨.val _, m.stale, by simp [findStep, ho], .inl ⟨rfl, ho⟩⟩
      | false => exact ⟨.off1 _, m.stale, by simp [findStep, ho], rfl, ho⟩
    · exact ⟨.val w, m.stale, by simp [findStep, (g.lk _ _ hW).1], .inr hW⟩
  | val w =>
    right; left
    obtain ⟨v, hv, heq⟩ : ∃ v, m.tab.val w = some v ∧ P.keyEq (P.keyOf v) k = true := by
      rcases hW with ⟨rfl, ho⟩ | hW
      · obtain ⟨v, h1, h2, h3⟩ := g.occG _ hbt ho
        exact ⟨v, h1, E.sep _ _ h2 hk (h3 hb)⟩
      · obtain ⟨-, -, -, -, v, h1, h2, h3⟩ := g.lk _ _ hW
        exact ⟨v, h1, E.sep _ _ h2 hk h3⟩
    exact ⟨w, m.stale || !m.tab.live w, by simp only [findStep, hv, heq, if_true]⟩
  | off1 w =>
    obtain ⟨rfl, ho⟩ := hW
    by_cases h0 : m.tab.off (bkt P E.t₀.bc k) = 0
    · right; right
      exact ⟨by simp [findStep, h0], ho, h0⟩
    · left
      exact ⟨.off2 _, m.stale, by simp [findStep, h0], rfl, ho, h0⟩
  | off2 w =>
    obtain ⟨rfl, ho, h0⟩ := hW
    left
    rcases g.offB _ hb with h0' | ⟨n, hn⟩
    · exact absurd h0' h0
    · exact ⟨.occ n, m.stale, by simp [findStep, hop_lk g hn], .inr hn⟩

/-- Walks under the lock of the excess entry of the chain. -/
theorem findStep_lwn {m : Shared V} (g : G E m.tab) {k : K} (hk : E.used k) {n : Nat}
    (hn : Lk E m.tab (bkt P E.t₀.bc k) n) (W : Walk) (hW : LWn (bkt P E.t₀.bc k) n W) :
    (∃ W' st, findStep m (fun w => P.keyEq (P.keyOf w) k) W = ({ m with stale := st }, .inl W') ∧
      LWn (bkt P E.t₀.bc k) n W') ∨
    (∃ p st, findStep m (fun w => P.keyEq (P.keyOf w) k) W = ({ m with stale := st }, .inr (some p))) := by
  obtain ⟨ho, -, -, hob, v, h1, h2, h3⟩ := g.lk _ _ hn
  cases W with
  | occ w =>
    left
    rcases hW with rfl | rfl
    · exact ⟨.off1 _, m.stale, by simp [findStep, hob], rfl⟩
    · exact ⟨.val w, m.stale, by simp [findStep, ho], rfl⟩
  | val w =>
    right
    have hw : w = n := hW
    subst hw
    exact ⟨w, m.stale || !m.tab.live w, by simp only [findStep, h1, E.sep _ _ h2 hk h3, if_true]⟩
  | off1 w =>
    left
    have hw : w = _ := hW
    subst hw
    exact ⟨.off2 _, m.stale, by simp [findStep, hn.ne0], rfl⟩
  | off2 w =>
    left
    have hw : w = _ := hW
    subst hw
    exact ⟨.occ n, m.stale, by simp [findStep, hop_lk g hn], .inr rfl⟩

end
end Stdgpu.UnorderedConc.Mx
