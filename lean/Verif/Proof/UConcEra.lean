import Verif.Proof.UConcIns6
/-! Concurrent erases and lookups: what the threads know. -/
namespace Stdgpu.UnorderedConc.Er
open Stdgpu.Conc
open Stdgpu.SlotConc (upd)
open Stdgpu.Unordered
open Stdgpu.Vector (FPC vfront countBits)
open Stdgpu.Spec
variable {K V : Type}

def isInsert : Op K V → Bool
  | .insert _ => true
  | _ => false

/-- The parameters of the invariant that do not change. -/
structure Start (P : Params K V) where
  t₀ : Tab V
  chain₀ : Nat → List Nat
  free₀ : List Nat
  progs : List (List (Op K V))
  rep : Rep P t₀ chain₀ free₀
  noInsert : ∀ p ∈ progs, ∀ op ∈ p, isInsert op = false

/-- `path w` are the entries a walker at `w` is going to see. The entries that have been unlinked still have a path. -/
structure G {P : Params K V} (E : Start P) (t : Tab V) (path : Nat → List Nat) : Prop where
  bc : t.bc = E.t₀.bc
  total : t.total = E.t₀.total
  val : t.val = E.t₀.val
  occM : ∀ p, t.occ p = true → E.t₀.occ p = true
  linked : ∀ b, b < E.t₀.bc → ∀ w ∈ b :: E.chain₀ b, Linked t.off w (path w)
  sub : ∀ b, b < E.t₀.bc → ∀ w ∈ b :: E.chain₀ b, ∀ x ∈ path w, x ∈ E.chain₀ b
  nodup : ∀ b, b < E.t₀.bc → ∀ w ∈ b :: E.chain₀ b, (w :: path w).Nodup
  occC : ∀ b, b < E.t₀.bc → ∀ p ∈ path b, t.occ p = true
  live : ∀ p, p < E.t₀.total → t.occ p = true → t.live p = true
  offs : ∀ p, p < E.t₀.total → 0 ≤ (p : Int) + t.off p ∧ (p : Int) + t.off p < E.t₀.total

section
variable {P : Params K V} {E : Start P} {t t' : Tab V} {path path' : Nat → List Nat}

theorem Start.lt (E : Start P) {b w : Nat} (hb : b < E.t₀.bc) (hw : w ∈ b :: E.chain₀ b) : w < E.t₀.total := by
  have := E.rep.bc_le
  rcases List.mem_cons.1 hw with rfl | h
  · omega
  · exact (E.rep.rng b hb w h).2

theorem Start.ne (E : Start P) {b w : Nat} (hb : b < E.t₀.bc) (hw : w ∈ E.chain₀ b) : w ≠ b := by
  have := (E.rep.rng b hb w hw).1
  omega

/-- The bucket of an entry is unique. -/
theorem Start.bucket_unique (E : Start P) {b c w : Nat} (hb : b < E.t₀.bc) (hc : c < E.t₀.bc) (hw : w ∈ b :: E.chain₀ b)
    (hw' : w ∈ c :: E.chain₀ c) : b = c := by
  by_contra hne
  rcases List.mem_cons.1 hw with rfl | h1 <;> rcases List.mem_cons.1 hw' with h2 | h2
  · exact hne h2
  · have := (E.rep.rng c hc w h2).1; omega
  · subst h2; have := (E.rep.rng b hb w h1).1; omega
  · exact E.rep.disj b c hb hc hne w h1 h2

theorem G.tail (g : G E t path) {b w q : Nat} {l : List Nat} (hb : b < E.t₀.bc) (hw : w ∈ b :: E.chain₀ b)
    (h : path w = q :: l) : q ∈ E.chain₀ b ∧ l = path q ∧ t.off w ≠ 0 ∧ (w : Int) + t.off w = q := by
  have hq : q ∈ E.chain₀ b := g.sub b hb w hw q (by rw [h]; simp)
  have hl := g.linked b hb w hw
  rw [h] at hl
  exact ⟨hq, linked_unique hl.2.2 (g.linked b hb q (List.mem_cons_of_mem _ hq)), hl.1, hl.2.1⟩

theorem G.hop (g : G E t path) {b w : Nat} (hb : b < E.t₀.bc) (hw : w ∈ b :: E.chain₀ b) :
    (path w = [] ∧ t.off w = 0 ∧ UnorderedConc.hop t w = some w) ∨
    ∃ q, path w = q :: path q ∧ q ∈ E.chain₀ b ∧ t.off w ≠ 0 ∧ UnorderedConc.hop t w = some q := by
  have hr : ∀ u ∈ w :: path w, u < t.total := by
    intro u hu
    rw [g.total]
    rcases List.mem_cons.1 hu with rfl | hu
    · exact E.lt hb hw
    · exact E.lt hb (List.mem_cons_of_mem _ (g.sub b hb w hw u hu))
  rcases hop_next (g.linked b hb w hw) hr with h | ⟨q, l, h1, h2, h3⟩
  · exact .inl h
  · obtain ⟨h4, h5, -⟩ := g.tail hb hw h1
    subst h5
    exact .inr ⟨q, h1, h4, h2, h3⟩

/-- The unlinking of `p`, whose predecessor is `q`. -/
theorem G.unlink (g : G E t path) {b p q : Nat} (hb : b < E.t₀.bc) (hq : q ∈ b :: E.chain₀ b) (hp : path q = p :: path p)
    {o : Int} (ho : o = if t.off p = 0 then 0 else t.off q + t.off p) {w : Nat} (hw : w ∈ b :: E.chain₀ b) :
    Linked (upd t.off q o) w (if q ∈ w :: path w then (path w).erase p else path w) := by
  have hnd := g.nodup b hb w hw
  have hl := g.linked b hb w hw
  split
  · next hm =>
    -- `path w = l1 ++ p :: path p` and the last entry before `p` is `q`
    obtain ⟨l1, h1, h2⟩ : ∃ l1, path w = l1 ++ p :: path p ∧ lastOf w l1 = q := by
      rcases List.mem_cons.1 hm with rfl | hm
      · exact ⟨[], hp, rfl⟩
      · obtain ⟨m1, m2, hm2⟩ := List.append_of_mem hm
        have h3 := hl
        rw [hm2] at h3
        have h4 := linked_unique (linked_split h3).2.2 (g.linked b hb q hq)
        rw [hp] at h4
        refine ⟨m1 ++ [q], by rw [hm2, h4]; simp, lastOf_append _ _ _⟩
    have hp1 : p ∉ l1 := by
      intro hc
      rw [h1] at hnd
      have := (List.nodup_cons.1 hnd).2
      exact (List.nodup_append.1 this).2.2 p hc p (by simp) rfl
    rw [h1, List.erase_append_right _ hp1, List.erase_cons_head]
    rw [h1] at hl hnd
    refine linked_remove (off' := upd t.off q o) hl hnd ?_ ?_
    · rw [h2]; simp [upd, ho]
    · intro y _ hy
      rw [h2] at hy
      simp [upd, hy]
  · next hm =>
    refine linked_congr hl ?_
    intro x hx
    have : x ≠ q := by rintro rfl; exact hm hx
    simp [upd, this]

/-- Where the value of a key was at the start. -/
def Home (E : Start P) (k : K) (p : Nat) : Prop :=
  ∃ v, p ∈ bkt P E.t₀.bc k :: E.chain₀ (bkt P E.t₀.bc k) ∧ E.t₀.occ p = true ∧ E.t₀.val p = some v ∧
    P.keyEq (P.keyOf v) k = true

theorem Start.bkt_lt (E : Start P) (k : K) : bkt P E.t₀.bc k < E.t₀.bc :=
  UnorderedConc.bkt_lt P E.t₀.bc k E.rep.bc_pos E.rep.bc_lt

theorem Home.lt {k : K} {p : Nat} (h : Home E k p) : p < E.t₀.total := by
  obtain ⟨v, h1, -⟩ := h
  exact E.lt (E.bkt_lt k) h1

theorem Home.uniq (hl : KeyLaws P) {k : K} {p q : Nat} (h : Home E k p) (h' : Home E k q) : p = q := by
  have a := h.lt
  have b := h'.lt
  obtain ⟨v, -, h2, h3, h4⟩ := h
  obtain ⟨w, -, g2, g3, g4⟩ := h'
  exact E.rep.uniq hl p q v w a b h2 g2 h3 g3 (hl.trans _ _ _ h4 (hl.symm _ _ g4))

/-- The value at `p` has been erased, or is being erased. -/
def Gone (t : Tab V) (path : Nat → List Nat) (b p : Nat) : Prop := t.occ p = false ∨ p ∉ b :: path b

def _root_.Stdgpu.UnorderedConc.Walk.pos : Walk → Nat
  | .occ w | .val w | .off1 w | .off2 w => w

def _root_.Stdgpu.UnorderedConc.Hop.pos : Hop → Nat
  | .off1 w | .off2 w => w

/-- A walker does not miss a value that is there. -/
def WalkK (E : Start P) (t : Tab V) (path : Nat → List Nat) (k : K) : Walk → Prop
  | .occ w => w ∈ bkt P E.t₀.bc k :: E.chain₀ (bkt P E.t₀.bc k) ∧
      ∀ p, Home E k p → Gone t path (bkt P E.t₀.bc k) p ∨ p ∈ w :: path w
  | .val w => w ∈ bkt P E.t₀.bc k :: E.chain₀ (bkt P E.t₀.bc k) ∧ (E.t₀.occ w = true) ∧
      ∀ p, Home E k p → Gone t path (bkt P E.t₀.bc k) p ∨ p ∈ w :: path w
  | .off1 w | .off2 w => w ∈ bkt P E.t₀.bc k :: E.chain₀ (bkt P E.t₀.bc k) ∧
      ∀ p, Home E k p → Gone t path (bkt P E.t₀.bc k) p ∨ p ∈ path w

theorem WalkK.start (k : K) : WalkK E t path k (.occ (bkt P E.t₀.bc k)) := by
  refine ⟨by simp, fun p _ => ?_⟩
  by_cases h : p ∈ bkt P E.t₀.bc k :: path (bkt P E.t₀.bc k)
  · exact .inr h
  · exact .inl (.inr h)

theorem WalkK.node {k : K} {W : Walk} (h : WalkK E t path k W) :
    W.pos ∈ bkt P E.t₀.bc k :: E.chain₀ (bkt P E.t₀.bc k) := by
  cases W <;> exact h.1

theorem findStep_era {m : Shared V} (g : G E m.tab path) (k : K) (W : Walk) (hW : WalkK E m.tab path k W) :
    (∃ W' st, findStep m (fun w => P.keyEq (P.keyOf w) k) W = ({ m with stale := st }, .inl W') ∧ WalkK E m.tab path k W' ∧
      (W'.pos = W.pos ∨ path W.pos = W'.pos :: path W'.pos) ∧ (∀ w, W' = .val w → m.tab.occ w = true)) ∨
    (∃ p st, findStep m (fun w => P.keyEq (P.keyOf w) k) W = ({ m with stale := st }, .inr (some p)) ∧ Home E k p ∧
      W = .val p) ∨
    (findStep m (fun w => P.keyEq (P.keyOf w) k) W = (m, .inr none) ∧ ∀ p, Home E k p → Gone m.tab path (bkt P E.t₀.bc k) p) := by
  have hb := E.bkt_lt k
  cases W with
  | occ w =>
    obtain ⟨h1, h2⟩ := hW
    left
    cases ho : m.tab.occ w with
    | true =>
      exact ⟨.val w, m.stale, by simp [findStep, ho], ⟨h1, g.occM w ho, h2⟩, .inl rfl, by
        intro w' e; cases e; exact ho⟩
    | false =>
      refine ⟨.off1 w, m.stale, by simp [findStep, ho], ⟨h1, fun p hp => ?_⟩, .inl rfl, by intro w' e; cases e⟩
      rcases h2 p hp with h | h
      · exact .inl h
      · rcases List.mem_cons.1 h with rfl | h
        · exact .inl (.inl ho)
        · exact .inr h
  | val w =>
    obtain ⟨h1, ho, h2⟩ := hW
    obtain ⟨x, hx⟩ := Option.isSome_iff_exists.1 (E.rep.val w (E.lt hb h1) ho)
    have hx' : m.tab.val w = some x := by rw [g.val]; exact hx
    cases heq : P.keyEq (P.keyOf x) k with
    | true =>
      right; left
      refine ⟨w, m.stale || !m.tab.live w, ?_, ⟨x, h1, ho, hx, heq⟩, rfl⟩
      simp only [findStep, hx', heq, if_true]
    | false =>
      left
      refine ⟨.off1 w, m.stale || !m.tab.live w, ?_, ⟨h1, fun p hp => ?_⟩, .inl rfl, by intro w' e; cases e⟩
      · simp only [findStep, hx', heq]; simp
      · rcases h2 p hp with h | h
        · exact .inl h
        · rcases List.mem_cons.1 h with rfl | h
          · obtain ⟨v, -, -, g3, g4⟩ := hp
            rw [hx] at g3; cases g3
            rw [heq] at g4; cases g4
          · exact .inr h
  | off1 w =>
    obtain ⟨h1, h2⟩ := hW
    rcases g.hop hb h1 with ⟨e1, e2, -⟩ | ⟨q, e1, e2, e3, -⟩
    · right; right
      refine ⟨by simp [findStep, e2], fun p hp => ?_⟩
      rcases h2 p hp with h | h
      · exact h
      · rw [e1] at h; simp at h
    · left
      exact ⟨.off2 w, m.stale, by simp [findStep, e3], ⟨h1, h2⟩, .inl rfl, by intro w' e; cases e⟩
  | off2 w =>
    obtain ⟨h1, h2⟩ := hW
    left
    rcases g.hop hb h1 with ⟨e1, -, e3⟩ | ⟨q, e1, e2, -, e4⟩
    · refine ⟨.occ w, m.stale, by simp [findStep, e3], ⟨h1, fun p hp => ?_⟩, .inl rfl, by intro w' e; cases e⟩
      rcases h2 p hp with h | h
      · exact .inl h
      · rw [e1] at h; simp at h
    · refine ⟨.occ q, m.stale, by simp [findStep, e4], ⟨List.mem_cons_of_mem _ e2, fun p hp => ?_⟩, .inr e1, by
        intro w' e; cases e⟩
      rcases h2 p hp with h | h
      · exact .inl h
      · rw [e1] at h; exact .inr h

/-- The walk of `find_previous_entry_position` for the entry `p`. -/
def HopK (E : Start P) (b p : Nat) (W : Hop) : Prop := W.pos ∈ b :: E.chain₀ b ∧ W.pos ≠ p

theorem prevStep_era {m : Shared V} (g : G E m.tab path) {b : Nat} (hb : b < E.t₀.bc) {p : Nat} (W : Hop)
    (hW : HopK E b p W) :
    (∃ W', prevStep m p W = (m, .inl W') ∧ HopK E b p W' ∧ (W'.pos = W.pos ∨ path W.pos = W'.pos :: path W'.pos)) ∨
    (prevStep m p W = (m, .inr W.pos) ∧ (path W.pos = [] ∨ path W.pos = p :: path p)) := by
  obtain ⟨h1, h2⟩ := hW
  cases W with
  | off1 w =>
    rcases g.hop hb h1 with ⟨e1, e2, -⟩ | ⟨q, e1, e2, e3, -⟩
    · right
      exact ⟨by simp [prevStep, show m.tab.off w = 0 from e2, Hop.pos], .inl e1⟩
    · left
      exact ⟨.off2 w, by simp [prevStep, show m.tab.off w ≠ 0 from e3], ⟨h1, h2⟩, .inl rfl⟩
  | off2 w =>
    rcases g.hop hb h1 with ⟨e1, -, e3⟩ | ⟨q, e1, e2, -, e4⟩
    · left
      replace e3 : UnorderedConc.hop m.tab w = some w := e3
      have h2' : w ≠ p := h2
      exact ⟨.off1 w, by simp [prevStep, e3, h2'], ⟨h1, h2⟩, .inl rfl⟩
    · replace e4 : UnorderedConc.hop m.tab w = some q := e4
      by_cases hqp : q = p
      · subst hqp
        right
        exact ⟨by simp [prevStep, e4, Hop.pos], .inr e1⟩
      · left
        exact ⟨.off1 q, by simp [prevStep, e4, hqp], ⟨List.mem_cons_of_mem _ e2, hqp⟩, .inr e1⟩

/-- `q` is the predecessor of `p` in the chain of `b`. -/
def Pred (path : Nat → List Nat) (b p q : Nat) : Prop := q ∈ b :: path b ∧ path q = p :: path p

/-- A thread that erases a value from an excess entry `p`; `q` is thought to be the predecessor. -/
def EP (E : Start P) (k : K) (p q : Nat) : Prop :=
  p ≠ bkt P E.t₀.bc k ∧ Home E k p ∧ q ∈ bkt P E.t₀.bc k :: E.chain₀ (bkt P E.t₀.bc k) ∧ p ≠ q

/-- What a thread executing `erase(k)` knows at a program point. -/
def EK (E : Start P) (t : Tab V) (path : Nat → List Nat) (k : K) (ex : Ex) : EPC → Prop
  | .f1 W => ex.todo = [] ∧ WalkK E t path k W
  | .lockB p => ex.todo = [] ∧ p = bkt P E.t₀.bc k ∧ Home E k p
  | .f2 p W => ex.todo = [] ∧ p = bkt P E.t₀.bc k ∧ Home E k p ∧ WalkK E t path k W ∧ (W = .val p → t.occ p = true)
  | .resetB p => ex.todo = [] ∧ p = bkt P E.t₀.bc k ∧ Home E k p ∧ t.occ p = true
  | .cntB p | .desB p => ex.todo = [] ∧ p = bkt P E.t₀.bc k ∧ Home E k p ∧ t.occ p = false ∧ t.live p = true
  | .unlockB p ok => ex.todo = [] ∧ p = bkt P E.t₀.bc k ∧ Home E k p ∧ (ok = true → t.occ p = false)
  | .p1 p W => ex.todo = [] ∧ p ≠ bkt P E.t₀.bc k ∧ Home E k p ∧ HopK E (bkt P E.t₀.bc k) p W
  | .lock1 p q | .lock2 p q => ex.todo = [] ∧ p ≠ bkt P E.t₀.bc k ∧ Home E k p ∧
      q ∈ bkt P E.t₀.bc k :: E.chain₀ (bkt P E.t₀.bc k)
  | .undo1 p => ex.todo = [] ∧ Home E k p
  | .f3 p q W => ex.todo = [] ∧ EP E k p q ∧ WalkK E t path k W ∧
      (p ∈ path (bkt P E.t₀.bc k) ∨ p ∉ W.pos :: path W.pos)
  | .p2 p q it W => ex.todo = [] ∧ EP E k p q ∧ HopK E (bkt P E.t₀.bc k) p W ∧
      (it = some p → p ∈ path (bkt P E.t₀.bc k) ∧ p ∈ path W.pos) ∧
      (q ∈ bkt P E.t₀.bc k :: path (bkt P E.t₀.bc k) ∨ q ∉ W.pos :: path W.pos)
  | .rd1 p q => ex.todo = [] ∧ EP E k p q ∧ Pred path (bkt P E.t₀.bc k) p q
  | .rd2 p q => ex.todo = [] ∧ EP E k p q ∧ Pred path (bkt P E.t₀.bc k) p q ∧ t.off p ≠ 0
  | .rd3 p q o => ex.todo = [] ∧ EP E k p q ∧ Pred path (bkt P E.t₀.bc k) p q ∧ t.off p ≠ 0 ∧ o = t.off p
  | .wr p q o => ex.todo = [] ∧ EP E k p q ∧ Pred path (bkt P E.t₀.bc k) p q ∧ t.off p ≠ 0 ∧ o = t.off q + t.off p
  | .zero p q => ex.todo = [] ∧ EP E k p q ∧ Pred path (bkt P E.t₀.bc k) p q ∧ t.off p = 0
  | .reset p q => ex.todo = [] ∧ EP E k p q ∧ p ∉ path (bkt P E.t₀.bc k) ∧ t.occ p = true
  | .cnt p q | .des p q => ex.todo = [] ∧ EP E k p q ∧ p ∉ path (bkt P E.t₀.bc k) ∧ t.occ p = false ∧ t.live p = true
  | .push p q => ex.todo = [.push () p] ∧ EP E k p q ∧ p ∉ path (bkt P E.t₀.bc k) ∧ t.occ p = false
  | .unlock1 p q ok => ex.todo = [] ∧ EP E k p q ∧ (ok = true → t.occ p = false)
  | .unlock2 q ok => ex.todo = [] ∧ q ∈ bkt P E.t₀.bc k :: E.chain₀ (bkt P E.t₀.bc k) ∧
      (ok = true → ∃ p, Home E k p ∧ t.occ p = false)

def Knows (E : Start P) (t : Tab V) (path : Nat → List Nat) (ex : Ex) : Cur K V → Prop
  | .idle => ex.todo = []
  | .ins _ _ => False
  | .fnd k W => ex.todo = [] ∧ WalkK E t path k W
  | .era k pc => EK E t path k ex pc

/-- The locks a thread holds. -/
def eheld : EPC → List Nat
  | .f2 p _ | .resetB p | .cntB p | .desB p | .unlockB p _ | .lock2 p _ | .undo1 p => [p]
  | .f3 p q _ | .p2 p q _ _ | .rd1 p q | .rd2 p q | .rd3 p q _ | .wr p q _ | .zero p q | .reset p q | .cnt p q | .des p q
  | .push p q | .unlock1 p q _ => [p, q]
  | .unlock2 q _ => [q]
  | _ => []

def held : Cur K V → List Nat
  | .era _ pc => eheld pc
  | _ => []

/-- What the others may do while a thread holds the locks `H`. -/
structure Rely (E : Start P) (H : List Nat) (t : Tab V) (path : Nat → List Nat) (t' : Tab V) (path' : Nat → List Nat) :
    Prop where
  occ : ∀ p, t'.occ p = true → t.occ p = true
  pathS : ∀ b, b < E.t₀.bc → ∀ w ∈ b :: E.chain₀ b, ∀ x ∈ path' w, x ∈ path w
  keep : ∀ b, b < E.t₀.bc → ∀ w ∈ b :: E.chain₀ b, ∀ x ∈ path w, x ∈ path' w ∨ x ∉ path' b
  lk : ∀ p ∈ H, t'.occ p = t.occ p ∧ t'.live p = t.live p ∧ t'.off p = t.off p ∧
    ∀ b, b < E.t₀.bc → p ∈ path b → p ∈ path' b

theorem Rely.occF {H : List Nat} (r : Rely E H t path t' path') {p : Nat} (h : t.occ p = false) : t'.occ p = false := by
  cases h' : t'.occ p with
  | false => rfl
  | true => rw [r.occ p h'] at h; exact h

theorem Rely.gone {H : List Nat} (r : Rely E H t path t' path') {b p : Nat} (hb : b < E.t₀.bc) (h : Gone t path b p) :
    Gone t' path' b p := by
  rcases h with h | h
  · exact .inl (r.occF h)
  · right
    intro hc
    refine h ?_
    rcases List.mem_cons.1 hc with rfl | hc
    · simp
    · exact List.mem_cons_of_mem _ (r.pathS b hb b (by simp) p hc)

theorem Rely.walkK {H : List Nat} (r : Rely E H t path t' path') (g : G E t path) {k : K} {W : Walk}
    (h : WalkK E t path k W) : WalkK E t' path' k W := by
  have hb := E.bkt_lt k
  have key : ∀ w ∈ bkt P E.t₀.bc k :: E.chain₀ (bkt P E.t₀.bc k), ∀ p, p ∈ path w →
      Gone t' path' (bkt P E.t₀.bc k) p ∨ p ∈ path' w := by
    intro w hw p hp
    rcases r.keep _ hb w hw p hp with h | h
    · exact .inr h
    · left; right
      intro hc
      rcases List.mem_cons.1 hc with hc | hc
      · exact E.ne hb (g.sub _ hb w hw p hp) hc
      · exact h hc
  cases W with
  | occ w =>
    refine ⟨h.1, fun p hp => ?_⟩
    rcases h.2 p hp with h1 | h1
    · exact .inl (r.gone hb h1)
    · rcases List.mem_cons.1 h1 with rfl | h1
      · exact .inr (by simp)
      · exact (key w h.1 p h1).imp id (List.mem_cons_of_mem _)
  | val w =>
    refine ⟨h.1, h.2.1, fun p hp => ?_⟩
    rcases h.2.2 p hp with h1 | h1
    · exact .inl (r.gone hb h1)
    · rcases List.mem_cons.1 h1 with rfl | h1
      · exact .inr (by simp)
      · exact (key w h.1 p h1).imp id (List.mem_cons_of_mem _)
  | off1 w =>
    refine ⟨h.1, fun p hp => ?_⟩
    rcases h.2 p hp with h1 | h1
    · exact .inl (r.gone hb h1)
    · exact key w h.1 p h1
  | off2 w =>
    refine ⟨h.1, fun p hp => ?_⟩
    rcases h.2 p hp with h1 | h1
    · exact .inl (r.gone hb h1)
    · exact key w h.1 p h1

theorem Rely.not_mem {H : List Nat} (r : Rely E H t path t' path') {b w x : Nat} (hb : b < E.t₀.bc)
    (hw : w ∈ b :: E.chain₀ b) (h : x ∉ w :: path w) : x ∉ w :: path' w := by
  intro hc
  rcases List.mem_cons.1 hc with rfl | hc
  · exact h (by simp)
  · exact h (List.mem_cons_of_mem _ (r.pathS b hb w hw x hc))

theorem Rely.mem_chain {H : List Nat} (r : Rely E H t path t' path') {b x : Nat} (hb : b < E.t₀.bc) (hx : x ∈ H)
    (h : x ∈ b :: path b) : x ∈ b :: path' b := by
  rcases List.mem_cons.1 h with rfl | h
  · simp
  · exact List.mem_cons_of_mem _ ((r.lk x hx).2.2.2 b hb h)

theorem Rely.pred {H : List Nat} (r : Rely E H t path t' path') (g : G E t path) (g' : G E t' path') {b p q : Nat}
    (hb : b < E.t₀.bc) (hq : q ∈ b :: E.chain₀ b) (hH : q ∈ H) (h : Pred path b p q) : Pred path' b p q := by
  refine ⟨r.mem_chain hb hH h.1, ?_⟩
  obtain ⟨-, -, h3, h4⟩ := g.tail hb hq h.2
  have ho := (r.lk q hH).2.2.1
  rcases g'.hop hb hq with ⟨-, e2, -⟩ | ⟨x, e1, e2, -, -⟩
  · rw [ho] at e2; exact absurd e2 h3
  · obtain ⟨-, -, -, h5⟩ := g'.tail hb hq e1
    rw [ho, h4] at h5
    have : p = x := by exact_mod_cast h5
    subst this
    exact e1

theorem EK.stable (g : G E t path) (g' : G E t' path') {k : K} {ex : Ex} {pc : EPC}
    (r : Rely E (eheld pc) t path t' path') (h : EK E t path k ex pc) : EK E t' path' k ex pc := by
  have hb := E.bkt_lt k
  have lk0 : ∀ {p l}, eheld pc = p :: l → t'.occ p = t.occ p ∧ t'.live p = t.live p ∧ t'.off p = t.off p ∧
      ∀ b, b < E.t₀.bc → p ∈ path b → p ∈ path' b := fun e => r.lk _ (by rw [e]; simp)
  have lk1 : ∀ {p q}, eheld pc = [p, q] → t'.occ q = t.occ q ∧ t'.live q = t.live q ∧ t'.off q = t.off q ∧
      ∀ b, b < E.t₀.bc → q ∈ path b → q ∈ path' b := fun e => r.lk _ (by rw [e]; simp)
  cases pc with
  | f1 W => exact ⟨h.1, r.walkK g h.2⟩
  | lockB p => exact h
  | f2 p W =>
    obtain ⟨h0, h1, h2, h3, h4⟩ := h
    exact ⟨h0, h1, h2, r.walkK g h3, fun e => by rw [(lk0 rfl).1]; exact h4 e⟩
  | resetB p => obtain ⟨h0, h1, h2, h3⟩ := h; exact ⟨h0, h1, h2, by rw [(lk0 rfl).1]; exact h3⟩
  | cntB p =>
    obtain ⟨h0, h1, h2, h3, h4⟩ := h
    exact ⟨h0, h1, h2, by rw [(lk0 rfl).1]; exact h3, by rw [(lk0 rfl).2.1]; exact h4⟩
  | desB p =>
    obtain ⟨h0, h1, h2, h3, h4⟩ := h
    exact ⟨h0, h1, h2, by rw [(lk0 rfl).1]; exact h3, by rw [(lk0 rfl).2.1]; exact h4⟩
  | unlockB p ok =>
    obtain ⟨h0, h1, h2, h3⟩ := h
    exact ⟨h0, h1, h2, fun e => by rw [(lk0 rfl).1]; exact h3 e⟩
  | p1 p W => exact h
  | lock1 p q => exact h
  | lock2 p q => exact h
  | undo1 p => exact h
  | f3 p q W =>
    obtain ⟨h0, h1, h2, h3⟩ := h
    refine ⟨h0, h1, r.walkK g h2, ?_⟩
    rcases h3 with h3 | h3
    · exact .inl ((lk0 rfl).2.2.2 _ hb h3)
    · exact .inr (r.not_mem hb h2.node h3)
  | p2 p q it W =>
    obtain ⟨h0, h1, h2, h3, h4⟩ := h
    refine ⟨h0, h1, h2, ?_, ?_⟩
    · intro e
      obtain ⟨h5, h6⟩ := h3 e
      have h7 := (lk0 rfl).2.2.2 _ hb h5
      refine ⟨h7, ?_⟩
      rcases r.keep _ hb _ h2.1 p h6 with h8 | h8
      · exact h8
      · exact absurd h7 h8
    · rcases h4 with h4 | h4
      · exact .inl (r.mem_chain hb (by simp [eheld]) h4)
      · exact .inr (r.not_mem hb h2.1 h4)
  | rd1 p q =>
    obtain ⟨h0, h1, h2⟩ := h
    exact ⟨h0, h1, r.pred g g' hb h1.2.2.1 (by simp [eheld]) h2⟩
  | rd2 p q =>
    obtain ⟨h0, h1, h2, h3⟩ := h
    exact ⟨h0, h1, r.pred g g' hb h1.2.2.1 (by simp [eheld]) h2, by rw [(lk0 rfl).2.2.1]; exact h3⟩
  | rd3 p q o =>
    obtain ⟨h0, h1, h2, h3, h4⟩ := h
    exact ⟨h0, h1, r.pred g g' hb h1.2.2.1 (by simp [eheld]) h2, by rw [(lk0 rfl).2.2.1]; exact h3,
      by rw [(lk0 rfl).2.2.1]; exact h4⟩
  | wr p q o =>
    obtain ⟨h0, h1, h2, h3, h4⟩ := h
    exact ⟨h0, h1, r.pred g g' hb h1.2.2.1 (by simp [eheld]) h2, by rw [(lk0 rfl).2.2.1]; exact h3,
      by rw [(lk0 rfl).2.2.1, (lk1 rfl).2.2.1]; exact h4⟩
  | zero p q =>
    obtain ⟨h0, h1, h2, h3⟩ := h
    exact ⟨h0, h1, r.pred g g' hb h1.2.2.1 (by simp [eheld]) h2, by rw [(lk0 rfl).2.2.1]; exact h3⟩
  | reset p q =>
    obtain ⟨h0, h1, h2, h3⟩ := h
    exact ⟨h0, h1, fun hc => h2 (r.pathS _ hb _ (by simp) p hc), by rw [(lk0 rfl).1]; exact h3⟩
  | cnt p q =>
    obtain ⟨h0, h1, h2, h3, h4⟩ := h
    exact ⟨h0, h1, fun hc => h2 (r.pathS _ hb _ (by simp) p hc), by rw [(lk0 rfl).1]; exact h3,
      by rw [(lk0 rfl).2.1]; exact h4⟩
  | des p q =>
    obtain ⟨h0, h1, h2, h3, h4⟩ := h
    exact ⟨h0, h1, fun hc => h2 (r.pathS _ hb _ (by simp) p hc), by rw [(lk0 rfl).1]; exact h3,
      by rw [(lk0 rfl).2.1]; exact h4⟩
  | push p q =>
    obtain ⟨h0, h1, h2, h3⟩ := h
    exact ⟨h0, h1, fun hc => h2 (r.pathS _ hb _ (by simp) p hc), by rw [(lk0 rfl).1]; exact h3⟩
  | unlock1 p q ok =>
    obtain ⟨h0, h1, h2⟩ := h
    exact ⟨h0, h1, fun e => by rw [(lk0 rfl).1]; exact h2 e⟩
  | unlock2 q ok =>
    obtain ⟨h0, h1, h2⟩ := h
    refine ⟨h0, h1, fun e => ?_⟩
    obtain ⟨p, h3, h4⟩ := h2 e
    exact ⟨p, h3, r.occF h4⟩

theorem Knows.stable (g : G E t path) (g' : G E t' path') {ex : Ex} {c : Cur K V}
    (r : Rely E (held c) t path t' path') (h : Knows E t path ex c) : Knows E t' path' ex c := by
  cases c with
  | idle => exact h
  | ins v pc => exact h
  | fnd k W => exact ⟨h.1, r.walkK g h.2⟩
  | era k pc => exact EK.stable g g' r h

/-- Locks are held on entries of the bucket only. -/
theorem held_lt {ex : Ex} {c : Cur K V} (h : Knows E t path ex c) {p : Nat} (hp : p ∈ held c) : p < E.t₀.total := by
  cases c with
  | idle => simp [held] at hp
  | ins v pc => simp [held] at hp
  | fnd k W => simp [held] at hp
  | era k pc =>
    have hb := E.bkt_lt k
    have hle := E.rep.bc_le
    have ep : ∀ {p' q'}, EP E k p' q' → p ∈ [p', q'] → p < E.t₀.total := by
      intro p' q' h hm
      simp only [List.mem_cons, List.not_mem_nil, or_false] at hm
      rcases hm with rfl | rfl
      · exact h.2.1.lt
      · exact E.lt hb h.2.2.1
    cases pc <;> simp only [held, eheld, List.not_mem_nil, List.mem_singleton] at hp <;>
      first
        | exact ep h.2.1 hp
        | (subst hp; exact h.2.2.1.lt)
        | (subst hp; exact h.2.lt)
        | (subst hp; exact E.lt hb h.2.1)

end
end Stdgpu.UnorderedConc.Er
