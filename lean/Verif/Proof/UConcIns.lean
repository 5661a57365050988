import Verif.Proof.UConc
/-! Concurrent inserts and lookups: the invariant. -/
namespace Stdgpu.UnorderedConc
open Stdgpu.Conc
open Stdgpu.SlotConc (upd)
open Stdgpu.Unordered
open Stdgpu.Vector (FPC vfront countBits)
open Stdgpu.Spec (KeyLaws)
variable {K V : Type}

/-- The table, seen as a set of chains. -/
structure G (P : Params K V) (t : Tab V) (chain : Nat → List Nat) : Prop where
  bc_pos : 0 < t.bc
  bc_lt : t.bc < 2 ^ 63
  bc_le : t.bc ≤ t.total
  linked : ∀ b, b < t.bc → Linked t.off b (chain b)
  rng : ∀ b, b < t.bc → ∀ p ∈ chain b, t.bc ≤ p ∧ p < t.total
  nodup : ∀ b, b < t.bc → (chain b).Nodup
  disj : ∀ b c, b < t.bc → c < t.bc → b ≠ c → ∀ p ∈ chain b, p ∉ chain c
  occC : ∀ b, b < t.bc → ∀ p ∈ chain b, t.occ p = true
  live : ∀ p, p < t.total → t.occ p = true → t.live p = true ∧ (t.val p).isSome = true
  home : ∀ b u v, b < t.bc → u ∈ b :: chain b → t.occ u = true → t.val u = some v → bkt P t.bc (P.keyOf v) = b
  uniq : ∀ b u w x y, b < t.bc → u ∈ b :: chain b → w ∈ b :: chain b → t.occ u = true → t.occ w = true →
    t.val u = some x → t.val w = some y → P.keyEq (P.keyOf x) (P.keyOf y) = true →
    P.keyEq (P.keyOf y) (P.keyOf x) = true → u = w
  offs : ∀ p, p < t.total → 0 ≤ (p : Int) + t.off p ∧ (p : Int) + t.off p < t.total

theorem G.lt {P : Params K V} {t : Tab V} {chain : Nat → List Nat} (g : G P t chain) {b u : Nat} (hb : b < t.bc)
    (hu : u ∈ b :: chain b) : u < t.total := by
  rcases List.mem_cons.1 hu with rfl | h
  · have := g.bc_le; omega
  · exact (g.rng b hb u h).2

theorem findStep_ins {P : Params K V} {m : Shared V} {chain : Nat → List Nat} (g : G P m.tab chain) {b : Nat}
    (hb : b < m.tab.bc) (Q : Nat → Prop) (eq : V → Bool) (W : Walk) (hW : WalkOK Q m.tab.occ b (chain b) W)
    (hQ0 : ∀ w ∈ b :: chain b, m.tab.occ w = false → Q w)
    (hQ1 : ∀ w ∈ b :: chain b, m.tab.occ w = true → NoMatch m.tab eq w → Q w) :
    (∃ W', findStep m eq W = (m, .inl W') ∧ WalkOK Q m.tab.occ b (chain b) W') ∨
    (∃ p x, findStep m eq W = (m, .inr (some p)) ∧ p ∈ b :: chain b ∧ m.tab.occ p = true ∧ m.tab.val p = some x ∧
      eq x = true) ∨
    (findStep m eq W = (m, .inr none) ∧ ∀ u ∈ b :: chain b, Q u) := by
  cases W with
  | occ w =>
    obtain ⟨l1, l2, e, hl⟩ := hW
    left
    cases ho : m.tab.occ w with
    | true => exact ⟨.val w, by simp [findStep, ho], ⟨l1, l2, e, hl⟩, ho⟩
    | false => exact ⟨.off1 w, by simp [findStep, ho], l1, l2, e, hl, hQ0 w (by rw [e]; simp) ho⟩
  | val w =>
    obtain ⟨⟨l1, l2, e, hl⟩, ho⟩ := hW
    have hmem : w ∈ b :: chain b := by rw [e]; simp
    obtain ⟨h1, h2⟩ := g.live w (g.lt hb hmem) ho
    obtain ⟨x, hx⟩ := Option.isSome_iff_exists.1 h2
    have hm : ({ m with stale := m.stale || !m.tab.live w } : Shared V) = m := by
      cases m; simp at h1 ⊢; simp [h1]
    cases heq : eq x with
    | true =>
      right; left
      refine ⟨w, x, ?_, hmem, ho, hx, heq⟩
      simp only [findStep, hx, heq, if_true, hm]
    | false =>
      left
      refine ⟨.off1 w, ?_, l1, l2, e, hl, hQ1 w hmem ho ⟨x, hx, heq⟩⟩
      simp only [findStep, hx, heq, hm]
      simp
  | off1 w =>
    obtain ⟨l1, l2, e, hl, hq⟩ := hW
    have hlk := linked_at (g.linked b hb) e
    by_cases h0 : m.tab.off w = 0
    · right; right
      have : l2 = [] := by
        cases l2 with
        | nil => rfl
        | cons q l3 => exact absurd h0 hlk.1
      subst this
      refine ⟨by simp [findStep, h0], ?_⟩
      intro u hu
      rw [e] at hu
      rcases List.mem_append.1 hu with hu | hu
      · exact hl u hu
      · simp at hu; rw [hu]; exact hq
    · left
      exact ⟨.off2 w, by simp [findStep, h0], l1, l2, e, hl, hq⟩
  | off2 w =>
    obtain ⟨l1, l2, e, hl, hq⟩ := hW
    have hlk := linked_at (g.linked b hb) e
    left
    rcases hop_next hlk (fun u hu => g.lt hb (by rw [e]; exact List.mem_append_right _ hu)) with
      ⟨-, -, h3⟩ | ⟨q, l3, rfl, -, h3⟩
    · exact ⟨.occ w, by simp [findStep, h3], l1, l2, e, hl⟩
    · refine ⟨.occ q, by simp [findStep, h3], l1 ++ [w], l3, by simp [e], ?_⟩
      intro u hu
      rcases List.mem_append.1 hu with hu | hu
      · exact hl u hu
      · simp at hu; rw [hu]; exact hq

theorem endStep_ins {P : Params K V} {m : Shared V} {chain : Nat → List Nat} (g : G P m.tab chain) {b : Nat}
    (hb : b < m.tab.bc) (W : Hop) (hW : HopOK b (chain b) W) :
    (∃ W', endStep m W = (m, .inl W') ∧ HopOK b (chain b) W') ∨
    (endStep m W = (m, .inr (lastOf b (chain b)))) := by
  cases W with
  | off1 w =>
    obtain ⟨l1, l2, e⟩ := List.append_of_mem hW
    have hlk := linked_at (g.linked b hb) e
    by_cases h0 : m.tab.off w = 0
    · right
      have : l2 = [] := by
        cases l2 with
        | nil => rfl
        | cons q l3 => exact absurd h0 hlk.1
      subst this
      rw [lastOf_split e]
      simp [endStep, h0]
    · left
      exact ⟨.off2 w, by simp [endStep, h0], hW⟩
  | off2 w =>
    obtain ⟨l1, l2, e⟩ := List.append_of_mem hW
    have hlk := linked_at (g.linked b hb) e
    left
    rcases hop_next hlk (fun u hu => g.lt hb (by rw [e]; exact List.mem_append_right _ hu)) with
      ⟨-, -, h3⟩ | ⟨q, l3, rfl, -, h3⟩
    · exact ⟨.off1 w, by simp [endStep, h3], hW⟩
    · refine ⟨.off1 q, by simp [endStep, h3], ?_⟩
      show q ∈ b :: chain b
      rw [e]; simp

/-! ### What a thread knows -/

/-- The lock a thread holds. -/
def IPC.held (b : Nat) : IPC → Option Nat
  | .c2 _ | .occ2 | .consB | .cntB | .setB => some b
  | .e2 e _ | .c3 e _ _ | .pop e | .cons e _ | .off e _ | .cnt e _ | .set e _ | .link e _ => some e
  | .unlock p _ => some p
  | _ => none

/-- The excess entry a thread has taken from the free list and not linked yet. -/
def IPC.resv : IPC → Option Nat
  | .cons _ n | .off _ n | .cnt _ n | .set _ n | .link _ n => some n
  | _ => none

/-- The entry in which a thread has constructed a value, and whose occupied bit it has not set yet. -/
def IPC.constr (b : Nat) : IPC → Option Nat
  | .cntB | .setB => some b
  | .off _ n | .cnt _ n | .set _ n => some n
  | _ => none

/-- The occupied entry which a thread is about to link. -/
def IPC.linking : IPC → Option Nat
  | .link _ n => some n
  | _ => none

def IPC.counted : IPC → Nat
  | .setB | .set _ _ => 1
  | _ => 0

/-- The value has been stored. -/
def IPC.stored : IPC → Bool
  | .link _ _ | .unlock _ (some _) => true
  | _ => false

def Cur.held (P : Params K V) (bc : Nat) : Cur K V → Option Nat
  | .ins v pc => pc.held (bkt P bc (P.keyOf v))
  | _ => none

def Cur.resv : Cur K V → Option Nat
  | .ins _ pc => pc.resv
  | _ => none

def Cur.constr (P : Params K V) (bc : Nat) : Cur K V → Option Nat
  | .ins v pc => pc.constr (bkt P bc (P.keyOf v))
  | _ => none

def Cur.linking : Cur K V → Option Nat
  | .ins _ pc => pc.linking
  | _ => none

def Cur.counted : Cur K V → Nat
  | .ins _ pc => pc.counted
  | _ => 0

def Cur.stored : Cur K V → Multiset V
  | .ins v pc => if pc.stored then {v} else 0
  | _ => 0

def isPop (ex : Ex) : Prop := ex.todo = [.pop ()]

def eqOf (P : Params K V) (v : V) : V → Bool := fun w => P.keyEq (P.keyOf w) (P.keyOf v)

/-- The value `v` is stored at entry `n`. -/
def StoredAt (P : Params K V) (t : Tab V) (chain : Nat → List Nat) (v : V) (n : Nat) : Prop :=
  n ∈ bkt P t.bc (P.keyOf v) :: chain (bkt P t.bc (P.keyOf v)) ∧ t.occ n = true ∧ t.val n = some v

/-- What a thread executing `insert(v)` knows at a program point; `b` is the bucket. -/
def IKnows (P : Params K V) (t : Tab V) (chain : Nat → List Nat) (v : V) (b : Nat) (ex : Ex) : IPC → Prop
  | .full | .exc | .occ1 | .lockB => ex.todo = []
  | .c1 W => ex.todo = [] ∧ WalkOK (fun _ => True) t.occ b (chain b) W
  | .c2 W => ex.todo = [] ∧ WalkOK (fun u => u ≠ b → NoMatch t (eqOf P v) u) t.occ b (chain b) W
  | .occ2 => ex.todo = [] ∧ (t.occ b = false → ∀ u ∈ chain b, NoMatch t (eqOf P v) u)
  | .consB => ex.todo = [] ∧ t.occ b = false ∧ t.live b = false ∧ ∀ u ∈ chain b, NoMatch t (eqOf P v) u
  | .cntB | .setB => ex.todo = [] ∧ t.occ b = false ∧ t.live b = true ∧ t.val b = some v ∧
      ∀ u ∈ chain b, NoMatch t (eqOf P v) u
  | .e1 W => ex.todo = [] ∧ t.occ b = true ∧ HopOK b (chain b) W
  | .lockE e => ex.todo = [] ∧ t.occ b = true ∧ e ∈ b :: chain b
  | .e2 e W => ex.todo = [] ∧ t.occ b = true ∧ e ∈ b :: chain b ∧ HopOK b (chain b) W
  | .c3 e e' W => ex.todo = [] ∧ t.occ b = true ∧ e ∈ b :: chain b ∧ (e = e' → lastOf b (chain b) = e) ∧
      WalkOK (NoMatch t (eqOf P v)) t.occ b (chain b) W
  | .pop e => isPop ex ∧ t.occ b = true ∧ lastOf b (chain b) = e ∧ ∀ u ∈ b :: chain b, NoMatch t (eqOf P v) u
  | .cons e n => ex.todo = [] ∧ (t.occ b = true ∧ lastOf b (chain b) = e ∧ ∀ u ∈ b :: chain b, NoMatch t (eqOf P v) u) ∧
      t.bc ≤ n ∧ n < t.total ∧ t.live n = false ∧ t.occ n = false
  | .off e n => ex.todo = [] ∧ (t.occ b = true ∧ lastOf b (chain b) = e ∧ ∀ u ∈ b :: chain b, NoMatch t (eqOf P v) u) ∧
      t.bc ≤ n ∧ n < t.total ∧ t.live n = true ∧ t.val n = some v ∧ t.occ n = false
  | .cnt e n | .set e n => ex.todo = [] ∧
      (t.occ b = true ∧ lastOf b (chain b) = e ∧ ∀ u ∈ b :: chain b, NoMatch t (eqOf P v) u) ∧
      t.bc ≤ n ∧ n < t.total ∧ t.live n = true ∧ t.val n = some v ∧ t.occ n = false ∧ t.off n = 0
  | .link e n => ex.todo = [] ∧
      (t.occ b = true ∧ lastOf b (chain b) = e ∧ ∀ u ∈ b :: chain b, NoMatch t (eqOf P v) u) ∧
      t.bc ≤ n ∧ n < t.total ∧ t.live n = true ∧ t.val n = some v ∧ t.occ n = true ∧ t.off n = 0
  | .unlock p r => ex.todo = [] ∧ p < t.total ∧ (∀ n, r = some n → StoredAt P t chain v n)

def Knows (P : Params K V) (t : Tab V) (chain : Nat → List Nat) (ex : Ex) : Cur K V → Prop
  | .idle => ex.todo = []
  | .ins v pc => IKnows P t chain v (bkt P t.bc (P.keyOf v)) ex pc
  | .fnd k W => ex.todo = [] ∧ WalkOK (fun _ => True) t.occ (bkt P t.bc k) (chain (bkt P t.bc k)) W
  | .era _ _ => False

/-- What the other threads may do while a thread holds the lock `H` and has reserved the entry `R`. -/
structure Rely (H R : Option Nat) (t : Tab V) (chain : Nat → List Nat) (t' : Tab V) (chain' : Nat → List Nat) : Prop where
  bc : t'.bc = t.bc
  total : t'.total = t.total
  occ : ∀ p, t.occ p = true → t'.occ p = true
  live : ∀ p, t.live p = true → t'.live p = true ∧ t'.val p = t.val p
  grow : ∀ b, b < t.bc → chain b <+: chain' b
  fixed : ∀ b, b < t.bc → chain' b = chain b ∨ (t.occ b = true ∧ H ≠ some (lastOf b (chain b)))
  bucket : ∀ b, H = some b → b < t.bc → t'.occ b = t.occ b ∧ t'.live b = t.live b
  resv : ∀ n, R = some n → t'.occ n = t.occ n ∧ t'.live n = t.live n ∧ t'.off n = t.off n

section
variable {P : Params K V} {t t' : Tab V} {chain chain' : Nat → List Nat} {H R : Option Nat}

theorem Rely.mem (r : Rely H R t chain t' chain') {b u : Nat} (hb : b < t.bc) (h : u ∈ b :: chain b) : u ∈ b :: chain' b := by
  rcases List.mem_cons.1 h with rfl | h
  · simp
  · exact List.mem_cons_of_mem _ ((r.grow b hb).subset h)

theorem Rely.noMatch (r : Rely H R t chain t' chain') (g : G P t chain) {b u : Nat} {eq : V → Bool} (hb : b < t.bc)
    (hu : u ∈ b :: chain b) (ho : t.occ u = true) (h : NoMatch t eq u) : NoMatch t' eq u := by
  obtain ⟨x, h1, h2⟩ := h
  exact ⟨x, by rw [(r.live u (g.live u (g.lt hb hu) ho).1).2]; exact h1, h2⟩

theorem Rely.noMatchC (r : Rely H R t chain t' chain') (g : G P t chain) {b u : Nat} {eq : V → Bool} (hb : b < t.bc)
    (hu : u ∈ chain b) (h : NoMatch t eq u) : NoMatch t' eq u :=
  r.noMatch g hb (List.mem_cons_of_mem _ hu) (g.occC b hb u hu) h

theorem Rely.walk (r : Rely H R t chain t' chain') {b : Nat} (hb : b < t.bc) {Q Q' : Nat → Prop}
    (hQ : ∀ u ∈ b :: chain b, Q u → Q' u) {W : Walk} (h : WalkOK Q t.occ b (chain b) W) :
    WalkOK Q' t'.occ b (chain' b) W := by
  obtain ⟨ext, he⟩ := r.grow b hb
  have key : ∀ {w : Nat} {l1 l2 : List Nat}, b :: chain b = l1 ++ w :: l2 → b :: chain' b = l1 ++ w :: (l2 ++ ext) := by
    intro w l1 l2 e
    rw [← he, ← List.cons_append, e]; simp
  cases W with
  | occ w =>
    obtain ⟨l1, l2, e, hl⟩ := h
    exact ⟨l1, l2 ++ ext, key e, fun u hu => hQ u (by rw [e]; simp [hu]) (hl u hu)⟩
  | val w =>
    obtain ⟨⟨l1, l2, e, hl⟩, ho⟩ := h
    exact ⟨⟨l1, l2 ++ ext, key e, fun u hu => hQ u (by rw [e]; simp [hu]) (hl u hu)⟩, r.occ w ho⟩
  | off1 w =>
    obtain ⟨l1, l2, e, hl, hq⟩ := h
    exact ⟨l1, l2 ++ ext, key e, fun u hu => hQ u (by rw [e]; simp [hu]) (hl u hu), hQ w (by rw [e]; simp) hq⟩
  | off2 w =>
    obtain ⟨l1, l2, e, hl, hq⟩ := h
    exact ⟨l1, l2 ++ ext, key e, fun u hu => hQ u (by rw [e]; simp [hu]) (hl u hu), hQ w (by rw [e]; simp) hq⟩

theorem Rely.hop (r : Rely H R t chain t' chain') {b : Nat} (hb : b < t.bc) {W : Hop} (h : HopOK b (chain b) W) :
    HopOK b (chain' b) W := by
  cases W <;> exact r.mem hb h

theorem Rely.storedAt (r : Rely H R t chain t' chain') (g : G P t chain) {v : V} {n : Nat}
    (h : StoredAt P t chain v n) : StoredAt P t' chain' v n := by
  obtain ⟨h1, h2, h3⟩ := h
  have hb := bkt_lt P t.bc (P.keyOf v) g.bc_pos g.bc_lt
  refine ⟨by rw [r.bc]; exact r.mem hb h1, r.occ n h2, ?_⟩
  rw [(r.live n (g.live n (g.lt hb h1) h2).1).2]; exact h3

/-- The three facts a thread in the list path knows from the verification on. -/
theorem Rely.verified (r : Rely H R t chain t' chain') (g : G P t chain) {b e : Nat} {eq : V → Bool} (hb : b < t.bc)
    (hH : H = some e) (h : t.occ b = true ∧ lastOf b (chain b) = e ∧ ∀ u ∈ b :: chain b, NoMatch t eq u) :
    t'.occ b = true ∧ lastOf b (chain' b) = e ∧ ∀ u ∈ b :: chain' b, NoMatch t' eq u := by
  obtain ⟨h1, h2, h3⟩ := h
  have hc : chain' b = chain b := by
    rcases r.fixed b hb with hc | ⟨-, hne⟩
    · exact hc
    · rw [h2] at hne; exact absurd hH hne
  rw [hc]
  refine ⟨r.occ b h1, h2, fun u hu => ?_⟩
  refine r.noMatch g hb hu ?_ (h3 u hu)
  rcases List.mem_cons.1 hu with rfl | hu
  · exact h1
  · exact g.occC b hb u hu

theorem IKnows.stable (g : G P t chain) {v : V} {ex : Ex} {pc : IPC}
    (r : Rely (pc.held (bkt P t.bc (P.keyOf v))) pc.resv t chain t' chain')
    (h : IKnows P t chain v (bkt P t.bc (P.keyOf v)) ex pc) : IKnows P t' chain' v (bkt P t.bc (P.keyOf v)) ex pc := by
  have hb := bkt_lt P t.bc (P.keyOf v) g.bc_pos g.bc_lt
  generalize bkt P t.bc (P.keyOf v) = b at *
  cases pc with
  | full => exact h
  | exc => exact h
  | occ1 => exact h
  | lockB => exact h
  | c1 W => exact ⟨h.1, r.walk hb (fun _ _ h => h) h.2⟩
  | c2 W =>
    refine ⟨h.1, r.walk hb ?_ h.2⟩
    intro u hu hq hne
    rcases List.mem_cons.1 hu with h' | h'
    · exact absurd h' hne
    · exact r.noMatchC g hb h' (hq hne)
  | occ2 =>
    refine ⟨h.1, fun ho => ?_⟩
    have ho' : t.occ b = false := by
      cases hh : t.occ b with
      | false => rfl
      | true => rw [r.occ b hh] at ho; simp at ho
    have hc : chain' b = chain b := by
      rcases r.fixed b hb with hc | ⟨hc, -⟩
      · exact hc
      · rw [ho'] at hc; simp at hc
    rw [hc]
    exact fun u hu => r.noMatchC g hb hu (h.2 ho' u hu)
  | consB =>
    obtain ⟨h1, h2, h3, h4⟩ := h
    have hc : chain' b = chain b := by
      rcases r.fixed b hb with hc | ⟨hc, -⟩
      · exact hc
      · rw [h2] at hc; simp at hc
    have hbk := r.bucket b rfl hb
    rw [IKnows, hc, hbk.1, hbk.2]
    exact ⟨h1, h2, h3, fun u hu => r.noMatchC g hb hu (h4 u hu)⟩
  | cntB =>
    obtain ⟨h1, h2, h3, h4, h5⟩ := h
    have hc : chain' b = chain b := by
      rcases r.fixed b hb with hc | ⟨hc, -⟩
      · exact hc
      · rw [h2] at hc; simp at hc
    have hbk := r.bucket b rfl hb
    rw [IKnows, hc, hbk.1, (r.live b h3).1, (r.live b h3).2]
    exact ⟨h1, h2, rfl, h4, fun u hu => r.noMatchC g hb hu (h5 u hu)⟩
  | setB =>
    obtain ⟨h1, h2, h3, h4, h5⟩ := h
    have hc : chain' b = chain b := by
      rcases r.fixed b hb with hc | ⟨hc, -⟩
      · exact hc
      · rw [h2] at hc; simp at hc
    have hbk := r.bucket b rfl hb
    rw [IKnows, hc, hbk.1, (r.live b h3).1, (r.live b h3).2]
    exact ⟨h1, h2, rfl, h4, fun u hu => r.noMatchC g hb hu (h5 u hu)⟩
  | e1 W => exact ⟨h.1, r.occ b h.2.1, r.hop hb h.2.2⟩
  | lockE e => exact ⟨h.1, r.occ b h.2.1, r.mem hb h.2.2⟩
  | e2 e W => exact ⟨h.1, r.occ b h.2.1, r.mem hb h.2.2.1, r.hop hb h.2.2.2⟩
  | c3 e e' W =>
    obtain ⟨h1, h2, h3, h4, h5⟩ := h
    refine ⟨h1, r.occ b h2, r.mem hb h3, ?_, r.walk hb ?_ h5⟩
    · intro he
      have hlast := h4 he
      have hc : chain' b = chain b := by
        rcases r.fixed b hb with hc | ⟨-, hne⟩
        · exact hc
        · exact absurd (by rw [hlast]; rfl) hne
      rw [hc]; exact hlast
    · intro u hu hq
      refine r.noMatch g hb hu ?_ hq
      rcases List.mem_cons.1 hu with rfl | hu
      · exact h2
      · exact g.occC b hb u hu
  | pop e => exact ⟨h.1, r.verified g hb rfl h.2⟩
  | cons e n =>
    obtain ⟨h1, h2, h3, h4, h5, h6⟩ := h
    have hr := r.resv n rfl
    refine ⟨h1, r.verified g hb rfl h2, by rw [r.bc]; exact h3, by rw [r.total]; exact h4, by rw [hr.2.1]; exact h5,
      by rw [hr.1]; exact h6⟩
  | off e n =>
    obtain ⟨h1, h2, h3, h4, h5, h6, h7⟩ := h
    have hr := r.resv n rfl
    have hv := r.live n h5
    exact ⟨h1, r.verified g hb rfl h2, by rw [r.bc]; exact h3, by rw [r.total]; exact h4, hv.1, by rw [hv.2]; exact h6,
      by rw [hr.1]; exact h7⟩
  | cnt e n =>
    obtain ⟨h1, h2, h3, h4, h5, h6, h7, h8⟩ := h
    have hr := r.resv n rfl
    have hv := r.live n h5
    exact ⟨h1, r.verified g hb rfl h2, by rw [r.bc]; exact h3, by rw [r.total]; exact h4, hv.1, by rw [hv.2]; exact h6,
      by rw [hr.1]; exact h7, by rw [hr.2.2]; exact h8⟩
  | set e n =>
    obtain ⟨h1, h2, h3, h4, h5, h6, h7, h8⟩ := h
    have hr := r.resv n rfl
    have hv := r.live n h5
    exact ⟨h1, r.verified g hb rfl h2, by rw [r.bc]; exact h3, by rw [r.total]; exact h4, hv.1, by rw [hv.2]; exact h6,
      by rw [hr.1]; exact h7, by rw [hr.2.2]; exact h8⟩
  | link e n =>
    obtain ⟨h1, h2, h3, h4, h5, h6, h7, h8⟩ := h
    have hr := r.resv n rfl
    have hv := r.live n h5
    exact ⟨h1, r.verified g hb rfl h2, by rw [r.bc]; exact h3, by rw [r.total]; exact h4, hv.1, by rw [hv.2]; exact h6,
      by rw [hr.1]; exact h7, by rw [hr.2.2]; exact h8⟩
  | unlock p r' =>
    exact ⟨h.1, by rw [r.total]; exact h.2.1, fun n hn => r.storedAt g (h.2.2 n hn)⟩

theorem Knows.stable (g : G P t chain) {ex : Ex} {c : Cur K V} (r : Rely (c.held P t.bc) c.resv t chain t' chain')
    (h : Knows P t chain ex c) : Knows P t' chain' ex c := by
  cases c with
  | idle => exact h
  | ins v pc =>
    show IKnows P t' chain' v (bkt P t'.bc (P.keyOf v)) ex pc
    rw [r.bc]
    exact IKnows.stable g r h
  | era k pc => exact h
  | fnd k W =>
    refine ⟨h.1, ?_⟩
    rw [r.bc]
    exact r.walk (bkt_lt P t.bc k g.bc_pos g.bc_lt) (fun _ _ h => h) h.2
end

end Stdgpu.UnorderedConc
